import Verif.Model.KomPyExample
import Verif.Lemmas.KomPyExample

/-!
The covertness example: kom_py/pd_ber_snr_example.py. Exact arithmetic; the complementary error function is the integral (`Spec.Erfc`).
-/

namespace Verif.Props
open Spec KomPy

/-- Where the detection curve reaches 0.95. -/
theorem logistic_le {x x0 : ℝ} : logisticCurve x x0 1 1 ≤ 0.95 ↔ x ≤ x0 + Real.log 19 := by
  have hp := Real.exp_pos (-1 * (x - x0))
  unfold logisticCurve
  rw [Flt.exp_real, div_le_iff₀ (by positivity)]
  rw [show x ≤ x0 + Real.log 19 ↔ -Real.log 19 ≤ -1 * (x - x0) by constructor <;> intro h <;> linarith, ← Real.log_inv,
    Real.log_le_iff_le_exp (by norm_num)]
  norm_num
  constructor <;> intro h <;> linarith

theorem logistic_mono (x0 : ℝ) : StrictMono (fun x : ℝ => logisticCurve x x0 1 1) := by
  intro a b h
  unfold logisticCurve
  simp only [Flt.exp_real]
  have h1 := Real.exp_pos (-1 * (b - x0))
  have h2 : Real.exp (-1 * (b - x0)) < Real.exp (-1 * (a - x0)) := Real.exp_lt_exp.mpr (by linarith)
  exact one_div_lt_one_div_of_lt (by positivity) (by linarith)

theorem pydb_mono : StrictMonoOn (KomPy.db : ℝ → ℝ) (Set.Ioi 0) := by
  intro a ha b hb h
  have := Real.logb_lt_logb (b := 10) (by norm_num) ha h
  simp only [KomPy.db, Flt.log10_real, Flt.ofNat_real]
  norm_num
  exact this

/-- The detection curve drawn for any midpoint `x0` (in dB): strictly between 0 and 1, rising with the signal-to-noise ratio, and at most
0.95 exactly up to `x0 + ln 19` dB. -/
theorem C157_detection (x0 : ℝ) :
    StrictMonoOn (fun s : ℝ => logisticCurve (KomPy.db s) x0 1 1) (Set.Ioi 0) ∧
    ∀ s : ℝ, 0 < logisticCurve (KomPy.db s) x0 1 1 ∧ logisticCurve (KomPy.db s) x0 1 1 < 1 ∧
      (logisticCurve (KomPy.db s) x0 1 1 ≤ 0.95 ↔ 10 * Real.logb 10 s ≤ x0 + Real.log 19) := by
  refine ⟨fun a ha b hb h => logistic_mono x0 (pydb_mono ha hb h), fun s => ⟨?_, ?_, ?_⟩⟩
  · have := Real.exp_pos (-1 * (KomPy.db s - x0))
    unfold logisticCurve
    rw [Flt.exp_real]; positivity
  · have := Real.exp_pos (-1 * (KomPy.db s - x0))
    unfold logisticCurve
    rw [Flt.exp_real, div_lt_one (by positivity)]; linarith
  · rw [logistic_le]
    simp [KomPy.db]

/-- The error curve: falling on the non-negative ratios, one half at 0, and at most 0.05 exactly from a ratio on that lies within 10⁻⁵ dB of
the point the script marks (1.31225 dB). -/
theorem C157_ber :
    StrictAntiOn (fun s : ℝ => exampleBer Erfc s 0) (Set.Ici 0) ∧ exampleBer Erfc (0 : ℝ) 0 = 1 / 2 ∧
    ∃ sB : ℝ, 0 < sB ∧ |10 * Real.logb 10 sB - 1.31225| ≤ 1e-5 ∧ exampleBer Erfc sB 0 = 0.05 ∧
      ∀ s : ℝ, 0 ≤ s → (exampleBer Erfc s 0 ≤ 0.05 ↔ sB ≤ s) := by
  have hanti : StrictAntiOn (fun s : ℝ => exampleBer Erfc s 0) (Set.Ici 0) := by
    intro a ha b hb h
    have := Erfc_strictAnti (Real.sqrt_lt_sqrt ha h)
    simp only [exampleBer, Flt.sqrt_real, sub_zero, Flt.lit_real]
    norm_num
    linarith
  refine ⟨hanti, ?_, ?_⟩
  · simp [exampleBer, Erfc_zero]; norm_num
  have hcont : ContinuousOn Erfc (Set.Icc (1.163087 : ℝ) 1.163088) := fun x _ => (Erfc_hasDerivAt x).continuousAt.continuousWithinAt
  obtain ⟨x, ⟨hx1, hx2⟩, hx⟩ := intermediate_value_Icc' (by norm_num) hcont (Set.mem_Icc.mpr ⟨Erfc_hi.le, Erfc_lo.le⟩)
  have hx0 : 0 < x := by linarith
  have hval : exampleBer Erfc (x ^ 2) 0 = 0.05 := by
    simp only [exampleBer, Flt.sqrt_real, sub_zero, Flt.lit_real, Real.sqrt_sq hx0.le, hx]; norm_num
  refine ⟨x ^ 2, by positivity, ?_, hval, fun s hs => ?_⟩
  · obtain ⟨l1, l2⟩ := log_ten_bounds
    have hl : 0.15107735 ≤ Real.log x := by
      rw [Real.le_log_iff_exp_le hx0]
      refine le_trans ?_ hx1
      have hu := Real.exp_bound' (x := 0.15107735) (by norm_num) (by norm_num) (n := 7) (by norm_num)
      refine hu.trans ?_
      simp only [Finset.sum_range_succ, Finset.sum_range_zero, Nat.factorial]
      norm_num
    have hr : Real.log x ≤ 0.15107892 := by
      rw [Real.log_le_iff_le_exp hx0]
      refine hx2.trans ?_
      have hu := Real.sum_le_exp_of_nonneg (x := 0.15107892) (by norm_num) 7
      refine le_trans ?_ hu
      simp only [Finset.sum_range_succ, Finset.sum_range_zero, Nat.factorial]
      norm_num
    have e : 10 * Real.logb 10 (x ^ 2) = 20 * Real.log x / Real.log 10 := by
      rw [Real.logb, Real.log_pow]; push_cast; ring
    have h10 : 0 < Real.log 10 := by linarith
    rw [e, abs_le]
    constructor
    · rw [le_sub_iff_add_le, le_div_iff₀ h10]; norm_num at hl l2 ⊢; linarith
    · rw [sub_le_iff_le_add, div_le_iff₀ h10]; norm_num at hr l1 ⊢; linarith
  · rw [← hval]
    exact StrictAntiOn.le_iff_ge hanti hs (Set.mem_Ici.mpr (by positivity))

/-- `find_idx_closest_to_point` never returns: on a non-empty list it is still running after any number of rounds, on the empty list it
raises `IndexError`. -/
theorem C157_find (point : ℝ) (vec : List ℝ) :
    (vec ≠ [] → ∀ n, findIdxClosest point vec n 0 = .ok none) ∧ (vec = [] → ∀ n, findIdxClosest point vec (n + 1) 0 = .error .index) := by
  constructor
  · intro h n
    obtain ⟨v, tl, rfl⟩ := List.exists_cons_of_ne_nil h
    induction n with
    | zero => rfl
    | succ n ih => simp [findIdxClosest, ih]
  · rintro rfl n
    rfl

/-- The window for any midpoint: the ratios with detection at most 0.95 and error rate at most 0.05 are those between the marked point of the
error curve and `x0 + ln 19` dB; none from -1.633 dB downwards, and some from -1.632 dB upwards. -/
theorem C157_window : ∃ lo : ℝ, |lo - 1.31225| ≤ 1e-5 ∧ ∀ x0 : ℝ,
    (∀ s : ℝ, 0 < s → (logisticCurve (KomPy.db s) x0 1 1 ≤ 0.95 ∧ exampleBer Erfc s 0 ≤ 0.05 ↔
      lo ≤ 10 * Real.logb 10 s ∧ 10 * Real.logb 10 s ≤ x0 + Real.log 19)) ∧
    (x0 ≤ -1.633 → ¬ ∃ s : ℝ, 0 < s ∧ logisticCurve (KomPy.db s) x0 1 1 ≤ 0.95 ∧ exampleBer Erfc s 0 ≤ 0.05) ∧
    (-1.632 ≤ x0 → ∃ s : ℝ, 0 < s ∧ logisticCurve (KomPy.db s) x0 1 1 ≤ 0.95 ∧ exampleBer Erfc s 0 ≤ 0.05) := by
  obtain ⟨-, -, sB, h0, h1, -, h3⟩ := C157_ber
  obtain ⟨l1, l2⟩ := log_nineteen_bounds
  refine ⟨_, h1, fun x0 => ?_⟩
  have key : ∀ s : ℝ, 0 < s → (logisticCurve (KomPy.db s) x0 1 1 ≤ 0.95 ∧ exampleBer Erfc s 0 ≤ 0.05 ↔
      10 * Real.logb 10 sB ≤ 10 * Real.logb 10 s ∧ 10 * Real.logb 10 s ≤ x0 + Real.log 19) := by
    intro s hs
    rw [((C157_detection x0).2 s).2.2, h3 s hs.le, and_comm]
    refine and_congr_left fun _ => ?_
    rw [mul_le_mul_iff_right₀ (by norm_num), Real.logb_le_logb (by norm_num) h0 hs]
  obtain ⟨g1, g2⟩ := abs_le.mp h1
  refine ⟨key, fun hx => ?_, fun hx => ⟨sB, h0, (key sB h0).mpr ⟨le_refl _, ?_⟩⟩⟩
  · rintro ⟨s, hs, h⟩
    have := (key s hs).mp h
    norm_num at *
    linarith
  · norm_num at *
    linarith

/-- The two panels: in the "uncovert" one (midpoint -15 dB) no ratio has detection at most 0.95 and error rate at most 0.05; in the "covert"
one (midpoint 3 dB) exactly those between two ratios that lie within 10⁻⁵ and 5·10⁻⁵ dB of the points the script marks (1.31225 and 5.9444 dB).
The third marked point, -12.0556 dB, is within 5·10⁻⁵ dB of where the first detection curve reaches 0.95. -/
theorem C157_panels :
    (¬ ∃ s : ℝ, 0 < s ∧ uncovertLog s ≤ 0.95 ∧ exampleBer Erfc s 0 ≤ 0.05) ∧
    (∃ lo hi : ℝ, |lo - 1.31225| ≤ 1e-5 ∧ |hi - 5.9444| ≤ 5e-5 ∧
      ∀ s : ℝ, 0 < s → (covertLog s ≤ 0.95 ∧ exampleBer Erfc s 0 ≤ 0.05 ↔ lo ≤ 10 * Real.logb 10 s ∧ 10 * Real.logb 10 s ≤ hi)) ∧
    ∃ mark : ℝ, |mark - -12.0556| ≤ 5e-5 ∧ ∀ s : ℝ, 0 < s → (uncovertLog s ≤ 0.95 ↔ 10 * Real.logb 10 s ≤ mark) := by
  obtain ⟨lo, h1, h2⟩ := C157_window
  obtain ⟨l1, l2⟩ := log_nineteen_bounds
  have eu : ∀ s : ℝ, uncovertLog s = logisticCurve (KomPy.db s) (-15) 1 1 := fun s => by simp [uncovertLog]
  have ec : ∀ s : ℝ, covertLog s = logisticCurve (KomPy.db s) 3 1 1 := fun s => by simp [covertLog]
  refine ⟨?_, ⟨lo, 3 + Real.log 19, h1, ?_, fun s hs => ?_⟩, ⟨-15 + Real.log 19, ?_, fun s hs => ?_⟩⟩
  · simp only [eu]
    exact (h2 (-15)).2.1 (by norm_num)
  · rw [abs_le]; norm_num at *; constructor <;> linarith
  · rw [ec]; exact (h2 3).1 s hs
  · rw [abs_le]; norm_num at *; constructor <;> linarith
  · rw [eu]; exact ((C157_detection (-15)).2 s).2.2

example : ∃ s : ℝ, 0 < s ∧ covertLog s ≤ 0.95 ∧ exampleBer Erfc s 0 ≤ 0.05 := by
  obtain ⟨lo, hi, h1, h2, h3⟩ := C157_panels.2.1
  refine ⟨10 ^ (0.5 : ℝ), by positivity, (h3 _ (by positivity)).mpr ?_⟩
  rw [Real.logb_rpow (by norm_num) (by norm_num)]
  obtain ⟨a, b⟩ := abs_le.mp h1
  obtain ⟨c, d⟩ := abs_le.mp h2
  norm_num at *
  constructor <;> linarith

example : findIdxClosest (1 : ℝ) [0, 2] 5 0 = .ok none := (C157_find 1 [0, 2]).1 (by simp) 5

end Verif.Props
