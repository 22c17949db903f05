import Verif.Lemmas.UpDown
import Verif.Lemmas.OfdmPass
import Verif.Lemmas.Cases
import Verif.Props.Energy

/-!
# Property C160: the passband functions are the baseband functions on a carrier

Exact arithmetic. `upconvert` and `downconvert` (Spec/UpDown.lean) are the textbook's mixers.
-/
namespace Verif.Props
open Verif Spec
set_option linter.unusedSectionVars false
variable {ι : Type}

/-- **C160, BPSK transmitter**: the passband signal is the baseband symbols of the same message on the carrier. -/
theorem C160_tx_bpsk [RIter ι Bool] {m : ι} {msg : List Bool} (h : Yields m msg) {fs sym : ℕ} {fc : ℝ}
    (hsps : 0 < fs / sym) (h1 : Flt.toNat fc ≤ fs / 2) (h2 : isInt (Flt.ofNat fs / Flt.ofNat sym : ℝ) = true) :
    ∃ it b, txBpsk m fs sym fc = pure it ∧ collect (txBasebandBpsk (F := ℝ) m) = pure b ∧
      collect it = pure (upconvert fs (fs / sym) fc b) := by
  obtain ⟨it, e, hy⟩ := txBpsk_ok h hsps h1 h2
  refine ⟨it, _, e, collect_of_yields (h.rmap _), ?_⟩
  rw [collect_of_yields hy]
  congr 1
  refine upconvert_eq hsps fun i => ?_
  rw [wave_getElem? hsps, List.getElem?_map, Option.map_map]
  congr 1
  funext b
  show bitToNrz b * Real.cos (phase fs fc (i / (fs / sym) * (fs / sym) + i % (fs / sym))) = _
  rw [Nat.div_add_mod', phase_angle]
  cases b <;> simp [bitToNrz]

/-- **C160, QPSK transmitter**: the passband signal is the baseband symbols of the same message on the carrier, over `√2`. -/
theorem C160_tx_qpsk [RIter ι Bool] {m : ι} {msg : List Bool} (h : Yields m msg) {fs sym : ℕ} {fc : ℝ} (hsps : 0 < fs / sym) :
    ∃ it b, txQpsk m fs sym fc = pure it ∧ collect (txBasebandQpsk (F := ℝ) m) = pure b ∧
      collect it = pure ((upconvert fs (fs / sym) fc b).map (· / √2)) := by
  obtain ⟨it, e, hy⟩ := txQpsk_ok h (fc := fc) hsps
  refine ⟨it, _, e, collect_of_yields (h.txBasebandQpsk (F := ℝ)), ?_⟩
  rw [collect_of_yields hy]
  congr 1
  have hs : √(2 : ℝ) ≠ 0 := by positivity
  have : upconvert fs (fs / sym) fc ((pairs msg).map qpskPoint)
      = (wave (fs / sym) (fun n (p : Bool × Bool) j => bitToNrz p.1 * Flt.cos (phase fs fc (n * (fs / sym) + j))
          + -(bitToNrz p.2) * Flt.sin (phase fs fc (n * (fs / sym) + j))) (pairs msg)).map (fun x : ℝ => x * √2) := by
    symm
    refine upconvert_eq hsps fun i => ?_
    rw [List.getElem?_map, wave_getElem? hsps, List.getElem?_map, Option.map_map, Option.map_map]
    congr 1
    funext p
    show (bitToNrz p.1 * Real.cos (phase fs fc (i / (fs / sym) * (fs / sym) + i % (fs / sym)))
      + -(bitToNrz p.2) * Real.sin (phase fs fc (i / (fs / sym) * (fs / sym) + i % (fs / sym)))) * √2 = _
    rw [Nat.div_add_mod', phase_angle]
    rcases p with ⟨_ | _, _ | _⟩ <;> simp [bitToNrz, qpskPoint, Flt.sqrt_real, Flt.ofNat_real] <;> ring
  rw [this, List.map_map]
  conv_lhs => rw [← List.map_id (wave _ _ _)]
  refine List.map_congr_left fun x _ => ?_
  simp [hs]

/-- **C160, QPSK receiver**: on any recording at all, the passband receiver is the down-converter followed by the baseband
receiver. -/
theorem C160_rx_qpsk [RIter ι ℝ] {s : ι} {l : List ℝ} (h : Yields s l) {fs sym : ℕ} {fc : ℝ} (hsps : 0 < fs / sym) :
    ∃ it, rxQpsk s fs sym fc = pure it ∧
      collect it = collect (rxBasebandQpsk (F := ℝ) (ofList (downconvert fs (fs / sym) fc l))) := by
  obtain ⟨it, e, hy⟩ := rxQpsk_ok h (fc := fc) hsps
  refine ⟨it, e, ?_⟩
  rw [collect_of_yields hy, collect_of_yields (yields_ofList _).rxBasebandQpsk]
  congr 1
  rw [fullBlocks, downconvert, List.flatMap_map, List.flatMap_map, List.length_mapIdx]
  refine List.flatMap_congr fun n hn => ?_
  have hb := block_le hsps (List.mem_range.mp hn)
  rw [block_range _ (0, 0) (by rw [List.length_mapIdx]; exact hb), List.map_map, List.map_map, rsum_range, rsum_range,
    ← Finset.sum_neg_distrib]
  have hg : ∀ j ∈ Finset.range (fs / sym), (l.mapIdx fun i x => (i, x)).getD (n * (fs / sym) + j) (0, 0)
      = (n * (fs / sym) + j, l.getD (n * (fs / sym) + j) 0) := fun j hj =>
    getD_mapIdx (by have := Finset.mem_range.mp hj; omega) 0 _
  congr 2
  · refine Finset.sum_congr rfl fun j hj => ?_
    rw [Function.comp_apply, hg j hj, phase_angle]; rfl
  · congr 2
    refine Finset.sum_congr rfl fun j hj => ?_
    rw [Function.comp_apply, hg j hj, phase_angle]
    exact mul_neg _ _

/-- **C160, BPSK receiver**: on any recording at all, bit `n` of the passband receiver is bit `n` of the baseband receiver after
the down-converter, except that a symbol whose in-phase part is exactly zero is a 0 in passband (and a 1 in baseband). -/
theorem C160_rx_bpsk [RIter ι ℝ] {s : ι} {l : List ℝ} (h : Yields s l) {fs sym : ℕ} {fc : ℝ} (hsps : 0 < fs / sym) :
    ∃ it out base, rxBpsk s fs sym fc = pure it ∧ collect it = pure out ∧
      collect (rxBasebandBpsk (F := ℝ) (ofList (downconvert fs (fs / sym) fc l))) = pure base ∧
      out.length = base.length ∧
      ∀ (n : ℕ) (c : Cx ℝ), (downconvert fs (fs / sym) fc l)[n]? = some c →
        (c.re ≠ 0 → out[n]? = base[n]?) ∧ (c.re = 0 → out[n]? = some false ∧ base[n]? = some true) := by
  obtain ⟨it, e, hy⟩ := rxBpsk_ok h (fc := fc) hsps
  have key : (fullBlocks (fs / sym) (l.mapIdx (fun i x => x * Flt.cos (phase fs fc i)))).map (fun b => Flt.lt (0 : ℝ) (rsum b))
      = (downconvert fs (fs / sym) fc l).map (fun c => decide (0 < c.re)) := by
    rw [fullBlocks, downconvert, List.map_map, List.map_map, List.length_mapIdx]
    refine List.map_congr_left fun n hn => ?_
    have hb := block_le hsps (List.mem_range.mp hn)
    rw [Function.comp_apply, Function.comp_apply, block_range _ 0 (by rw [List.length_mapIdx]; exact hb), rsum_range, Flt.lt_real]
    congr 2
    refine Finset.sum_congr rfl fun j hj => ?_
    rw [getD_mapIdx (by have := Finset.mem_range.mp hj; omega) 0, phase_angle]; rfl
  refine ⟨it, _, _, e, collect_of_yields hy, collect_of_yields ((yields_ofList _).rmap _), ?_, ?_⟩
  · rw [key]; simp
  · intro n c hc
    rw [key, List.getElem?_map, List.getElem?_map, hc]
    refine ⟨fun h0 => ?_, fun h0 => ?_⟩
    · show some (decide (0 < c.re)) = some (Flt.le 0 c.re)
      rw [Flt.le_real]
      congr 1
      exact decide_eq_decide.mpr ⟨le_of_lt, fun h => lt_of_le_of_ne h (Ne.symm h0)⟩
    · show some (decide (0 < c.re)) = _ ∧ some (Flt.le 0 c.re) = _
      rw [h0, Flt.le_real]; simp

/-- **C160, there and back**: with a whole number of half carrier cycles in a symbol, the down-converter undoes the up-converter
on every list of complex symbols, but for the factor `k / 2`. -/
theorem C160_roundtrip {fs k : ℕ} {fc : ℝ} (hk : 0 < k) (h : WholeHalf fs k fc) (b : List (Cx ℝ)) :
    downconvert fs k fc (upconvert fs k fc b) = b.map fun c => ⟨k / 2 * c.re, k / 2 * c.im⟩ := by
  obtain ⟨p, h1, h2⟩ := h.dphi hk
  have hl : (upconvert fs k fc b).length = b.length * k := by simp [upconvert]
  rw [downconvert, hl, Nat.mul_div_cancel _ hk]
  apply List.ext_getElem?
  intro n
  rw [List.getElem?_map, List.getElem?_map]
  by_cases hn : n < b.length
  · rw [List.getElem?_range hn, List.getElem?_eq_getElem hn]
    have hv : ∀ j ∈ Finset.range k, (upconvert fs k fc b).getD (n * k + j) 0
        = b[n].re * Real.cos ((n * k + j : ℕ) * dphi fs fc) - b[n].im * Real.sin ((n * k + j : ℕ) * dphi fs fc) := by
      intro j hj
      have hj := Finset.mem_range.mp hj
      have hlt : n * k + j < b.length * k := by nlinarith
      have hd : (n * k + j) / k = n := by rw [Nat.mul_comm, Nat.mul_add_div hk, Nat.div_eq_of_lt hj, Nat.add_zero]
      rw [upconvert, List.getD_eq_getElem?_getD, List.getElem?_map, List.getElem?_range hlt]
      simp only [Option.map_some, Option.getD_some]
      rw [hd, List.getD_eq_getElem?_getD, List.getElem?_eq_getElem hn, angle_dphi]
      rfl
    obtain ⟨q1, q2⟩ := quad_corr h1 h2 b[n].re b[n].im (n * k)
    rw [Option.map_some, Option.map_some, ← q1, ← q2, ← Finset.sum_neg_distrib]
    congr 2
    · exact Finset.sum_congr rfl fun j hj => by rw [hv j hj, angle_dphi]
    · exact Finset.sum_congr rfl fun j hj => by rw [hv j hj, angle_dphi]; ring
  · rw [List.getElem?_eq_none_iff.mpr (by simpa using hn), List.getElem?_eq_none_iff.mpr (by omega)]
    rfl

/-- **C160, what the receiver sees**: with a whole number of half carrier cycles in a symbol, down-converting the signal of the
QPSK transmitter gives the baseband constellation of the same message, every point by the same positive factor. -/
theorem C160_down [RIter ι Bool] {m : ι} {msg : List Bool} (h : Yields m msg) {fs sym : ℕ} {fc : ℝ} (hsps : 0 < fs / sym)
    (hw : WholeHalf fs (fs / sym) fc) :
    ∃ l b, (do let tx ← txQpsk m fs sym fc; collect tx) = pure l ∧ collect (txBasebandQpsk (F := ℝ) m) = pure b ∧
      downconvert fs (fs / sym) fc l
        = b.map fun c => ⟨(fs / sym : ℕ) / (2 * √2) * c.re, (fs / sym : ℕ) / (2 * √2) * c.im⟩ := by
  obtain ⟨it, b, e, hb, hl⟩ := C160_tx_qpsk h (fc := fc) hsps
  refine ⟨_, b, by rw [e]; exact hl, hb, ?_⟩
  simp only [div_eq_mul_inv (_ : ℝ) (√2)]
  rw [downconvert_scale, C160_roundtrip hsps hw, List.map_map]
  refine List.map_congr_left fun c _ => ?_
  simp only [Function.comp_apply]
  congr 1 <;> · rw [← div_div]; ring

/-! ### Cases -/

example : ∃ it b, txBpsk (ofList [true, false, true]) 16000 1000 (2000 : ℝ) = pure it ∧
    collect (txBasebandBpsk (F := ℝ) (ofList [true, false, true])) = pure b ∧ collect it = pure (upconvert 16000 16 2000 b) :=
  C160_tx_bpsk (yields_ofList _) (by norm_num) (by rw [Flt.toNat_real]; norm_num)
    Cases.guard16

example : ∃ l b, (do let tx ← txQpsk (ofList [true, false, true, true]) 16000 1000 (2000 : ℝ); collect tx) = pure l ∧
    collect (txBasebandQpsk (F := ℝ) (ofList [true, false, true, true])) = pure b ∧
    downconvert 16000 16 2000 l = b.map fun c => ⟨((16000 / 1000 : ℕ) : ℝ) / (2 * √2) * c.re, ((16000 / 1000 : ℕ) : ℝ) / (2 * √2) * c.im⟩ :=
  C160_down (yields_ofList _) (by norm_num) (WholeHalf.of_nat (f := 2000) (p := 4) (by norm_num) (by norm_num))

/-- A silent recording: the two BPSK receivers really do disagree. -/
example : ∃ it, rxBpsk (ofList [(0 : ℝ), 0, 0]) 2 1 (1 : ℝ) = pure it ∧ collect it = pure [false] ∧
    collect (rxBasebandBpsk (F := ℝ) (ofList (downconvert 2 2 1 [0, 0, 0]))) = pure [true] := by
  obtain ⟨it, out, base, e, h1, h2, hl, hn⟩ := C160_rx_bpsk (yields_ofList [(0 : ℝ), 0, 0]) (fs := 2) (sym := 1) (fc := 1) (by norm_num)
  have hd : downconvert 2 2 1 [0, 0, 0] = [⟨0, 0⟩] := by
    simp [downconvert, Finset.sum_range_succ, List.range_succ]
  have hb : base = [true] := by
    rw [show 2 / 1 = 2 from rfl, hd, rxBasebandBpsk, collect_of_yields ((yields_ofList _).rmap _)] at h2
    have : pure base = (pure [true] : RM (List Bool)) := by rw [← h2]; simp [Flt.le_real]
    injection this with h; injection h
  subst hb
  have h0 := ((hn 0 ⟨0, 0⟩ (by rw [show 2 / 1 = 2 from rfl, hd]; rfl)).2 rfl).1
  obtain ⟨x, rfl⟩ : ∃ x, out = [x] := List.length_eq_one_iff.mp hl
  obtain rfl : x = false := by simpa using h0
  exact ⟨it, e, h1, h2⟩

end Verif.Props
