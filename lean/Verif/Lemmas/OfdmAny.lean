import Verif.Lemmas.OfdmPass
import Verif.Lemmas.Bpf

/-! # The passband OFDM receiver on a recording of any length -/
namespace Verif
open Spec
set_option linter.unusedSectionVars false
variable {ι : Type} {F : Type} [Add F] [Sub F] [Mul F] [Div F] [Neg F] [Zero F] [One F] [Flt F]

theorem convRun_length {A B : Type} (len : ℕ) (dot : List A → B) (l : List A) :
    (convRun len dot [] l).length = l.length + (min len l.length - 1) := by
  have h := convRun_eq len dot [] l
  rw [List.take_nil] at h
  rw [h, convTail_eq]
  simp

/-- Every `k`-th item without the first. -/
theorem Yields.decimate {A : Type} [RIter ι A] {s : ι} {l : List A} (h : Yields s l) {k : ℕ} (hk : 0 < k) :
    ∃ y : List A, Yields (Verif.rskip (Verif.takeEvery s k) 1) y ∧ y.length = (l.length - 1) / k := by
  have hfused : Fused (fun n => l[n * k]?) := by
    intro n hn
    simp only [List.getElem?_eq_none_iff] at hn ⊢
    rw [Nat.add_mul]; omega
  have hlt : ∀ i < (l.length - 1) / k, (1 + i) * k < l.length := by
    intro i hi
    have := (Nat.le_div_iff_mul_le hk).mp (Nat.succ_le_of_lt hi)
    rw [Nat.succ_eq_one_add] at this
    have h0 : 0 < (1 + i) * k := Nat.mul_pos (by omega) hk
    omega
  refine ⟨(List.range ((l.length - 1) / k)).attach.map (fun i => l[(1 + i.1) * k]'(hlt i.1 (List.mem_range.mp i.2))), ?_, by simp⟩
  refine (Beh.rskip (Beh.takeEvery h hk) hfused 1).congr fun i => ?_
  by_cases hi : i < (l.length - 1) / k
  · rw [List.getElem?_map, List.getElem?_attach]
    simp [List.getElem?_eq_getElem (hlt i hi), hi]
  · have hc : l.length ≤ (1 + i) * k := by
      by_contra hc
      apply hi
      rw [Nat.not_le] at hc
      rw [← Nat.succ_le_iff, Nat.le_div_iff_mul_le hk, Nat.succ_eq_one_add]
      omega
    rw [List.getElem?_eq_none hc, List.getElem?_eq_none (by simpa using hi)]

variable [Fft F]

/-- Frames that are not whole crash the receiver. -/
theorem rxBasebandOfdm_crash [RIter ι (Cx F)] {s : ι} {l : List (Cx F)} (h : Yields s l) {n p : ℕ} (h1 : 1 ≤ p) (h2 : p ≤ n)
    (hd : ¬ n + n / 4 ∣ l.length) : ∃ it out, rxBasebandOfdm (F := F) s n p = pure it ∧ Crashes it out := by
  have hL : 0 < n + n / 4 := by omega
  have hlen : (l.take (l.length / (n + n / 4) * (n + n / 4))).length = l.length / (n + n / 4) * (n + n / 4) := by
    rw [List.length_take, Nat.min_eq_left (Nat.div_mul_le_self _ _)]
  set l1 := l.take (l.length / (n + n / 4) * (n + n / 4)) with hl1
  have hdv : n + n / 4 ∣ l1.length := by rw [hlen]; exact ⟨_, Nat.mul_comm _ _⟩
  set r := l.drop (l.length / (n + n / 4) * (n + n / 4)) with hr
  have hrl : r.length = l.length % (n + n / 4) := by
    rw [hr, List.length_drop, Nat.mul_comm]
    have := Nat.div_add_mod l.length (n + n / 4)
    omega
  have hr0 : 0 < r.length := by
    rw [hrl]; exact Nat.pos_of_ne_zero (fun h => hd (Nat.dvd_of_mod_eq_zero h))
  have hrlt : r.length < n + n / 4 := by rw [hrl]; exact Nat.mod_lt _ hL
  have hb : blocks (n + n / 4) l = blocks (n + n / 4) l1 ++ [r] := by
    conv_lhs => rw [← List.take_append_drop (l.length / (n + n / 4) * (n + n / 4)) l, ← hl1, ← hr]
    rw [blocks_append_dvd hL hdv, blocks_cons hL (List.ne_nil_of_length_pos hr0), List.take_of_length_le hrlt.le,
      List.drop_of_length_le hrlt.le, blocks_nil]
  have hc := h.chunks (n + n / 4)
  rw [hb] at hc
  refine ⟨rflatMap (chunks s (n + n / 4))
    (fun d => do pure (ofList (← ofdmDeframe n (n / 4) (carriers n p) d))), (blocks (n + n / 4) l1).flatMap (deframeL n p), ?_, ?_⟩
  rotate_left
  · exact hc.rflatMap_crash (out := deframeL n p)
      (f := fun d => do pure (ofList (← ofdmDeframe n (n / 4) (carriers n p) d)))
      (fun d hmem => ⟨ofList (deframeL n p d), by
        rw [ofdmDeframe_ok h1 h2 (mem_blocks_full hL l1 hdv d hmem), pure_bind], yields_ofList _⟩)
      (by obtain ⟨q, hq⟩ := ofdmDeframe_short (F := F) (p := p) (by omega : 0 < n) hrlt
          exact ⟨q, by rw [hq]; rfl⟩)
  · unfold rxBasebandOfdm
    rw [usub_le h2, pure_bind]
    simp only []
    rw [getDataSubcarriers_ok h1 h2, pure_bind]

/-- The receiver in front of the frames: how many baseband samples it recovers from a recording. -/
theorem rxOfdmQpsk_front [RIter ι F] {s : ι} {l : List F} (h : Yields s l) {n p fs sym : ℕ} {fc : F} (hk : 0 < fs / sym)
    (hint : isInt (Flt.ofNat fs / Flt.ofNat sym : F) = true) :
    ∃ (κ : Type) (_ : RIter κ (Cx F)) (t : κ) (y : List (Cx F)), Yields t y ∧
      y.length = (l.length + min (fs / sym) l.length - 2) / (fs / sym) ∧
      (do let it ← rxOfdmQpsk s n p fs sym fc; collect it)
        = (do let it ← rxBasebandOfdm (F := F) t n p; collect (rxBasebandQpsk (F := F) it)) := by
  have hsym : 0 < sym := by
    rcases Nat.eq_zero_or_pos sym with rfl | h
    · simp at hk
    · exact h
  have hm := (h.renumerate.rmap (fun q : ℕ × F =>
    (#v[q.2 * Flt.cos (phase fs fc q.1), q.2 * -(Flt.sin (phase fs fc q.1))] : Vector F 2)))
  rw [map_mapIdx'] at hm
  obtain ⟨y, hy, hl⟩ := ((hm.nonvolve (List.replicate (fs / sym) (1 : F))).rmap (fun v => (⟨v[0], v[1]⟩ : Cx F))).decimate hk
  refine ⟨_, _, _, y, hy, ?_, ?_⟩
  · rw [hl, List.length_map, convRun_length, List.length_replicate, List.length_mapIdx]
    congr 1
    omega
  · unfold rxOfdmQpsk
    rw [rassert_pos hint, pure_bind, udiv_pos hsym, pure_bind]
    simp only [bind_assoc, pure_bind]

end Verif
