import Verif.F64.Corr
import Verif.F64.Carrier
import Verif.Spec.Near
import Verif.Lemmas.Fading

/-! # PSK receivers in double precision on arbitrary recordings -/
namespace Verif
open Spec F64
variable {κ : Type}

theorem list_wave {A : Type} {r : List A} {n k : ℕ} (z : A) (hk : 0 < k) (h : r.length = n * k) :
    r = wave k (fun m (_ : ℕ) j => r.getD (m * k + j) z) (List.range n) := by
  apply List.ext_getElem?
  intro i
  rw [wave_getElem? hk]
  by_cases hi : i < n * k
  · have hin : i / k < n := by rw [Nat.div_lt_iff_lt_mul hk]; exact hi
    rw [List.getElem?_range hin]
    simp only [Option.map_some]
    rw [Nat.mul_comm, Nat.div_add_mod, List.getD_eq_getElem?_getD, List.getElem?_eq_getElem (by omega)]
    rfl
  · rw [List.getElem?_eq_none (by omega), List.getElem?_eq_none]
    · rfl
    · rw [List.length_range, Nat.le_div_iff_mul_le hk]; omega

theorem Spec.NearRecording.ap {L : Libm} {τ : ℝ} {r : List (FloatL L)} {n k : ℕ} {s : ℕ → ℕ → ℝ} (h : NearRecording τ r n k s) {m j : ℕ} (hm : m < n)
    (hj : j < k) : Ap (r.getD (m * k + j) 0) (s m (m * k + j)) τ := by
  have hi : m * k + j < n * k := by
    calc m * k + j < m * k + k := by omega
      _ = (m + 1) * k := by ring
      _ ≤ n * k := Nat.mul_le_mul_right k hm
  obtain ⟨x, h1, h2, h3⟩ := h.2 _ hi
  rw [List.getD_eq_getElem?_getD, h1]
  rw [show (m * k + j) / k = m by
    rw [Nat.mul_comm, Nat.mul_add_div (by omega), Nat.div_eq_of_lt hj, Nat.add_zero]] at h3
  exact ⟨h2, h3⟩

theorem Spec.Radio.corr {L : Libm} {ε : ℝ} {fs k N : ℕ} {fc : FloatL L} {S τ : ℝ} (h : Radio L ε fs k N fc S) {r : List (FloatL L)}
    {s : ℕ → ℕ → ℝ} (hr : NearRecording τ r N k s) (hS : ∀ i < N * k, |s (i / k) i| + τ ≤ S) {n : ℕ} (hn : n < N) :
    Ap (rsum ((List.range k).map (fun j => r.getD (n * k + j) 0 * Flt.cos (phase fs fc (n * k + j)))) : FloatL L)
      (∑ j ∈ Finset.range k, s n (n * k + j) * Real.cos ((n * k + j : ℕ) * dphi fs (val fc))) (k * (τ + S * (ε + 1 / 2 ^ 14))) ∧
    Ap (rsum ((List.range k).map (fun j => r.getD (n * k + j) 0 * -Flt.sin (phase fs fc (n * k + j)))) : FloatL L)
      (∑ j ∈ Finset.range k, s n (n * k + j) * -Real.sin ((n * k + j : ℕ) * dphi fs (val fc))) (k * (τ + S * (ε + 1 / 2 ^ 14))) := by
  have hfs : 0 < fs := by
    rcases Nat.eq_zero_or_pos fs with h0 | h0
    · have := h.lo; have := h.hi; rw [h0] at this; norm_num at this
      have : (0 : ℝ) < 1 / 2 ^ 100 := by positivity
      linarith [h.lo]
    · exact h0
  have hnk : n * k + k ≤ N * k := by
    calc n * k + k = (n + 1) * k := by ring
      _ ≤ N * k := Nat.mul_le_mul_right k hn
  have hlen := h.len
  have hS0 : 0 < S := lt_of_lt_of_le (by positivity) h.size_lo
  have near : ∀ j < k, _ := fun j hj => carrier_near (L := L) (fc := fc) h.acc (i := n * k + j) hfs h.fs_lt (by omega) h.fin h.lo h.hi
  have hη : ε + 1 / 2 ^ 15 ≤ 1 / 2 := by have := h.small; norm_num at this ⊢; linarith
  have hS' : ∀ j < k, |s n (n * k + j)| + τ ≤ S := by
    intro j hj
    have := hS (n * k + j) (by omega)
    rwa [show (n * k + j) / k = n by
      rw [Nat.mul_comm, Nat.mul_add_div h.k_pos, Nat.div_eq_of_lt hj, Nat.add_zero]] at this
  have hfin : k * (τ + S * (ε + 1 / 2 ^ 15 + 1 / 2 ^ 18)) ≤ k * (τ + S * (ε + 1 / 2 ^ 14)) := by
    apply mul_le_mul_of_nonneg_left _ (by positivity)
    have : S * (ε + 1 / 2 ^ 15 + 1 / 2 ^ 18) ≤ S * (ε + 1 / 2 ^ 14) :=
      mul_le_mul_of_nonneg_left (by linarith [show (1 : ℝ) / 2 ^ 15 + 1 / 2 ^ 18 ≤ 1 / 2 ^ 14 by norm_num]) hS0.le
    linarith
  constructor
  · exact (corr_bound (by omega) hη h.size_lo h.size_hi hS' (fun j hj => hr.ap hn hj) (fun j hj => (near j hj).1)
      (fun j _ => Real.abs_cos_le_one _)).mono hfin
  · exact (corr_bound (by omega) hη h.size_lo h.size_hi hS' (fun j hj => hr.ap hn hj) (fun j hj => (near j hj).2.neg)
      (fun j _ => by rw [abs_neg]; exact Real.abs_sin_le_one _)).mono hfin

theorem F64.Ap.lt_decide {x : Float} {c e : ℝ} (h : Ap x c e) (hm : e < |c|) : Float.lt 0 x = decide (0 < c) := by
  have he := h.nonneg
  rcases lt_or_ge 0 c with hc | hc
  · rw [abs_of_pos hc] at hm
    rw [h.pos hm]; simp [hc]
  · rw [abs_of_nonpos hc] at hm
    rw [h.not_pos (by linarith)]
    simp [hc]

theorem F64.Ap.le_decide {x : Float} {c e : ℝ} (h : Ap x c e) (hm : e < |c|) : Float.le 0 x = decide (0 ≤ c) := by
  have he := h.nonneg
  rcases lt_or_ge 0 c with hc | hc
  · rw [abs_of_pos hc] at hm
    rw [h.nonneg_dec (by linarith)]; simp [hc.le]
  · rw [abs_of_nonpos hc] at hm
    rw [h.neg_dec (by linarith), eq_comm, decide_eq_false_iff_not]
    intro h0
    have : c = 0 := le_antisymm hc h0
    rw [this] at hm; linarith

theorem rxBpsk_near {L : Libm} [RIter κ (FloatL L)] {ε τ S : ℝ} {fs sym N : ℕ} {fc : FloatL L}
    (h : Radio L ε fs (fs / sym) N fc S) {r : List (FloatL L)} {s : ℕ → ℕ → ℝ} (hr : NearRecording τ r N (fs / sym) s)
    (hS : ∀ i < N * (fs / sym), |s (i / (fs / sym)) i| + τ ≤ S) {rcv : κ} (hy : Yields rcv r) :
    ∃ x : ℕ → Bool, (do let rx ← rxBpsk rcv fs sym fc; collect rx) = pure ((List.range N).map x) ∧
      ∀ n < N, ((fs / sym : ℕ) : ℝ) * (τ + S * (ε + 1 / 2 ^ 14))
          < |∑ j ∈ Finset.range (fs / sym), s n (n * (fs / sym) + j) * Real.cos ((n * (fs / sym) + j : ℕ) * dphi fs (val fc))| →
        x n = decide (0 < ∑ j ∈ Finset.range (fs / sym), s n (n * (fs / sym) + j)
          * Real.cos ((n * (fs / sym) + j : ℕ) * dphi fs (val fc))) := by
  obtain ⟨it, e1, e2⟩ := rxBpsk_wave (fc := fc) h.k_pos (hy.of_eq (list_wave (0 : FloatL L) h.k_pos hr.1))
  refine ⟨_, by rw [e1, pure_bind, collect_of_yields e2, ← mapIdx_range_self], fun n hn hm => ?_⟩
  exact (h.corr hr hS hn).1.lt_decide hm

theorem rxQpsk_near {L : Libm} [RIter κ (FloatL L)] {ε τ S : ℝ} {fs sym N : ℕ} {fc : FloatL L}
    (h : Radio L ε fs (fs / sym) N fc S) {r : List (FloatL L)} {s : ℕ → ℕ → ℝ} (hr : NearRecording τ r N (fs / sym) s)
    (hS : ∀ i < N * (fs / sym), |s (i / (fs / sym)) i| + τ ≤ S) {rcv : κ} (hy : Yields rcv r) :
    ∃ x y : ℕ → Bool, (do let rx ← rxQpsk rcv fs sym fc; collect rx) = pure ((List.range N).flatMap (fun n => [x n, y n])) ∧
      ∀ n < N, (((fs / sym : ℕ) : ℝ) * (τ + S * (ε + 1 / 2 ^ 14))
          < |∑ j ∈ Finset.range (fs / sym), s n (n * (fs / sym) + j) * Real.cos ((n * (fs / sym) + j : ℕ) * dphi fs (val fc))| →
        x n = decide (0 ≤ ∑ j ∈ Finset.range (fs / sym), s n (n * (fs / sym) + j)
          * Real.cos ((n * (fs / sym) + j : ℕ) * dphi fs (val fc)))) ∧
        (((fs / sym : ℕ) : ℝ) * (τ + S * (ε + 1 / 2 ^ 14))
          < |∑ j ∈ Finset.range (fs / sym), s n (n * (fs / sym) + j) * -Real.sin ((n * (fs / sym) + j : ℕ) * dphi fs (val fc))| →
        y n = decide (0 ≤ ∑ j ∈ Finset.range (fs / sym), s n (n * (fs / sym) + j)
          * -Real.sin ((n * (fs / sym) + j : ℕ) * dphi fs (val fc)))) := by
  obtain ⟨it, e1, e2⟩ := rxQpsk_wave (fc := fc) h.k_pos (hy.of_eq (list_wave (0 : FloatL L) h.k_pos hr.1))
  refine ⟨_, _, by rw [e1, pure_bind, collect_of_yields e2, List.flatMap_def, ← mapIdx_range_self],
    fun n hn => ⟨fun hm => ?_, fun hm => ?_⟩⟩
  · exact (h.corr hr hS hn).1.le_decide hm
  · exact (h.corr hr hS hn).2.le_decide hm

/-- Removing the chips is exact. -/
theorem near_despread {L : Libm} {key : List Bool} {c N k : ℕ} {s : ℕ → ℕ → ℝ} {r : List (FloatL L)} {τ : ℝ}
    (h : NearRecording τ r N k (fun n i => s n i * (if key.getD (i / c % key.length) false then 1 else -1))) :
    NearRecording τ (r.mapIdx (fun i x => x * bitToNrz (keyBit key c i)) : List (FloatL L)) N k s := by
  refine ⟨by rw [List.length_mapIdx]; exact h.1, ?_⟩
  intro i hi
  obtain ⟨x, h1, h2, h3⟩ := h.2 i hi
  refine ⟨x * (if key.getD (i / c % key.length) false then 1 else -1), ?_, ?_⟩
  · rw [List.getElem?_mapIdx, h1, Option.map_some]
    unfold bitToNrz keyBit
    rfl
  · beta_reduce at h3
    generalize key.getD (i / c % key.length) false = b at h3 ⊢
    cases b
    · rw [if_neg (by decide)] at h3 ⊢
      have e := mul_neg_one_eq x
      refine ⟨(congrArg F64.Fin e).mpr (neg_fin.mpr h2), ?_⟩
      have hv : val (x * -1 : FloatL L) = -val x := (congrArg val e).trans (neg_val x)
      rw [hv, ← abs_neg, show -(-val x - s (i / k) i) = val x - s (i / k) i * -1 by ring]
      exact h3
    · rw [if_pos rfl] at h3 ⊢
      rw [mul_one] at h3
      have e := mul_one_eq x
      exact ⟨(congrArg F64.Fin e).mpr h2, by rw [show val (x * 1 : FloatL L) = val x from congrArg val e]; exact h3⟩

end Verif
