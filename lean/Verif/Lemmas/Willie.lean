import Verif.Model.KomPyWillie
import Verif.Lemmas.Radiometer
import Verif.Lemmas.ConvL

/-! # The likelihoods of `neyman_pearson` in exact arithmetic -/
namespace Verif.KomPy
open Verif Spec MeasureTheory ProbabilityTheory

theorem foldl_mul (l : List ℝ) (a : ℝ) : l.foldl (· * ·) a = a * l.prod := by
  induction l generalizing a with
  | nil => simp
  | cons b l ih => rw [List.foldl_cons, ih, List.prod_cons, mul_assoc]

theorem mapM_some {A B : Type} (f : A → B) (l : List A) : l.mapM (fun x => some (f x)) = some (l.map f) := by
  induction l with
  | nil => rfl
  | cons a l ih => rw [List.mapM_cons, ih]; rfl

/-- The likelihood of a signal under independent normal samples. -/
theorem likelihood_real (l : List ℝ) (mu : ℝ) {s : ℝ} (hs : 0 < s) :
    likelihood l (some mu) (some s) =
      some (Real.exp (-(l.map (fun x => (x - mu) ^ 2)).sum / (2 * s ^ 2)) / (√(2 * Real.pi) * s) ^ l.length) := by
  unfold likelihood
  have h : ∀ x : ℝ, (do normPdf x (← some mu) (← some s)) = some (Real.exp (-(x - mu) ^ 2 / (2 * s ^ 2)) / (√(2 * Real.pi) * s)) := by
    intro x
    show normPdf x mu s = _
    unfold normPdf
    rw [Flt.lt_real, if_pos (by simpa using hs)]
    simp only [Flt.exp_real, Flt.sqrt_real, Flt.ofNat_real, Flt.pi_real, Nat.cast_ofNat]
    rw [div_div]
    congr 3
    field_simp
  rw [funext h, mapM_some]
  show some _ = some _
  rw [foldl_mul, one_mul]
  congr 1
  induction l with
  | nil => simp
  | cons a l ih =>
    rw [List.map_cons, List.prod_cons, ih, List.map_cons, List.sum_cons, List.length_cons,
      pow_succ' (√(2 * Real.pi) * s), div_mul_div_comm, ← Real.exp_add]
    refine congrArg (fun y => Real.exp y / _) ?_
    ring

theorem likelihood_none (l : List ℝ) (mu : Option ℝ) {s : ℝ} (hs : s ≤ 0) (hl : l ≠ []) : likelihood l mu (some s) = none := by
  unfold likelihood
  cases l with
  | nil => exact absurd rfl hl
  | cons a l =>
    have : (do normPdf a (← mu) (← some s)) = none := by
      cases mu with
      | none => rfl
      | some mu =>
        show normPdf a mu s = none
        unfold normPdf
        rw [Flt.lt_real, if_neg (by simpa using hs)]
    rw [List.mapM_cons, this]
    rfl

/-- The mean of a list, as a number. -/
noncomputable def avg (l : List ℝ) : ℝ := l.sum / l.length

theorem npMean_real {l : List ℝ} (hl : l ≠ []) : npMean l = some (avg l) := by
  unfold npMean avg
  rw [if_neg (by simpa using hl), rsum_eq_sum]
  rfl

theorem npStd_real {l : List ℝ} (hl : l ≠ []) : npStd l = some (√(avg (l.map (fun x => (x - avg l) ^ 2)))) := by
  unfold npStd
  rw [npMean_real hl]
  show (do let v ← npMean (l.map (fun x => (x - avg l) * (x - avg l))); pure (Flt.sqrt v)) = _
  rw [npMean_real (by simpa using hl)]
  show some _ = some _
  simp only [Flt.sqrt_real, pow_two]

/-- Moments about zero and about the mean. -/
theorem avg_split {l : List ℝ} (hl : l ≠ []) :
    avg (l.map (· ^ 2)) = avg (l.map (fun x => (x - avg l) ^ 2)) + avg l ^ 2 := by
  have hn : (l.length : ℝ) ≠ 0 := by exact_mod_cast (List.length_pos_iff.mpr hl).ne'
  have key : ∀ (l : List ℝ) (m : ℝ), (l.map (fun x => (x - m) ^ 2)).sum = (l.map (· ^ 2)).sum - 2 * m * l.sum + l.length * m ^ 2 := by
    intro l m
    induction l with
    | nil => simp
    | cons a l ih =>
      simp only [List.map_cons, List.sum_cons, ih, List.length_cons]
      push_cast
      ring
  unfold avg
  rw [List.length_map, List.length_map, key]
  field_simp
  ring

/-- The ratio `p0/p1` in closed form, squared: `u·exp(1 - q/σ²)` to the number of samples, `u = s²/σ²`. -/
theorem ratio_sq {n : ℕ} {s σ S Q : ℝ} (hs : 0 < s) (hσ : 0 < σ) (hS : S = n * s ^ 2) :
    (Real.exp (-Q / (2 * σ ^ 2)) / (√(2 * Real.pi) * σ) ^ n / (Real.exp (-S / (2 * s ^ 2)) / (√(2 * Real.pi) * s) ^ n)) ^ 2 =
      (s ^ 2 / σ ^ 2) ^ n * Real.exp (n - Q / σ ^ 2) := by
  have hp : √(2 * Real.pi) ≠ 0 := by positivity
  have e1 : -S / (2 * s ^ 2) = -(n / 2 : ℝ) := by rw [hS]; field_simp
  rw [e1, Real.exp_neg, mul_pow, mul_pow]
  have e2 : Real.exp (-Q / (2 * σ ^ 2)) / (√(2 * Real.pi) ^ n * σ ^ n) / ((Real.exp (n / 2))⁻¹ / (√(2 * Real.pi) ^ n * s ^ n)) =
      (s / σ) ^ n * (Real.exp (-Q / (2 * σ ^ 2)) * Real.exp (n / 2)) := by
    rw [div_pow]
    field_simp
  rw [e2, ← Real.exp_add, mul_pow, ← pow_mul, mul_comm n 2, pow_mul, div_pow, ← Real.exp_nat_mul]
  congr 2
  push_cast
  field_simp
  ring

/-- `u·exp(1 - q) ≤ 1` for `u ≤ q`, with equality at `u = q = 1` only. -/
theorem gain_le {u q : ℝ} (hu : 0 ≤ u) (hq : u ≤ q) : u * Real.exp (1 - q) ≤ 1 ∧ (u * Real.exp (1 - q) = 1 ↔ u = 1 ∧ q = 1) := by
  have h2 : u ≤ Real.exp (u - 1) := by linarith [Real.add_one_le_exp (u - 1)]
  have h3 : Real.exp (u - 1) ≤ Real.exp (q - 1) := Real.exp_le_exp.mpr (by linarith)
  have e : Real.exp (q - 1) * Real.exp (1 - q) = 1 := by rw [← Real.exp_add]; simp
  have hpos := Real.exp_pos (1 - q)
  refine ⟨by nlinarith, fun h => ?_, ?_⟩
  · have h4 : u = Real.exp (q - 1) := mul_right_cancel₀ hpos.ne' (h.trans e.symm)
    have h5 : Real.exp (u - 1) = Real.exp (q - 1) := le_antisymm h3 (h4 ▸ h2)
    have h6 : u = q := by linarith [Real.exp_injective h5]
    have h7 : u = 1 := by
      by_contra hne
      have := Real.add_one_lt_exp (sub_ne_zero.mpr hne)
      rw [h5, ← h4] at this
      linarith
    exact ⟨h7, h6 ▸ h7⟩
  · rintro ⟨rfl, rfl⟩
    simp

/-- What `neyman_pearson` compares with its threshold: the likelihood ratio of the recording, which is positive, at most one, and one
only for a recording of mean zero whose standard deviation is the one of the noise. -/
theorem ratio_bounds {l : List ℝ} (hl : l ≠ []) {σ s : ℝ} (hσ : 0 < σ) (hs : 0 < s)
    (hsd : s = √(avg (l.map (fun x => (x - avg l) ^ 2)))) :
    ∃ r, 0 < r ∧ r ≤ 1 ∧ (r = 1 ↔ avg l = 0 ∧ s = σ) ∧ r ^ 2 = (s ^ 2 / σ ^ 2 * Real.exp (1 - avg (l.map (· ^ 2)) / σ ^ 2)) ^ l.length ∧
      ∃ p0 p1, likelihood l (some 0) (some σ) = some p0 ∧ likelihood l (some (avg l)) (some s) = some p1 ∧ 0 < p1 ∧ r = p0 / p1 := by
  have hn : 0 < l.length := List.length_pos_iff.mpr hl
  have hnr : (l.length : ℝ) ≠ 0 := by exact_mod_cast hn.ne'
  have hv : 0 ≤ avg (l.map (fun x => (x - avg l) ^ 2)) := by
    by_contra h
    rw [Real.sqrt_eq_zero'.mpr (not_le.mp h).le] at hsd
    exact hs.ne' hsd
  have hs2 : s ^ 2 = avg (l.map (fun x => (x - avg l) ^ 2)) := by rw [hsd, Real.sq_sqrt hv]
  have hq := avg_split hl
  rw [← hs2] at hq
  have hσ2 : 0 < σ ^ 2 := by positivity
  obtain ⟨g1, g2⟩ := gain_le (u := s ^ 2 / σ ^ 2) (q := avg (l.map (· ^ 2)) / σ ^ 2) (by positivity)
    ((div_le_div_iff_of_pos_right hσ2).mpr (by rw [hq]; nlinarith [sq_nonneg (avg l)]))
  have hsq := ratio_sq (n := l.length) (Q := (l.map (fun x => (x - 0) ^ 2)).sum) (S := (l.map (fun x => (x - avg l) ^ 2)).sum) hs hσ
    (by
      rw [hs2]
      generalize hm : l.map (fun x => (x - avg l) ^ 2) = m
      have : m.length = l.length := by rw [← hm, List.length_map]
      unfold avg
      rw [this]
      field_simp)
  set r := Real.exp (-(l.map (fun x => (x - 0) ^ 2)).sum / (2 * σ ^ 2)) / (√(2 * Real.pi) * σ) ^ l.length /
    (Real.exp (-(l.map (fun x => (x - avg l) ^ 2)).sum / (2 * s ^ 2)) / (√(2 * Real.pi) * s) ^ l.length) with hr
  have hr0 : 0 < r := by positivity
  have hr2 : r ^ 2 = (s ^ 2 / σ ^ 2 * Real.exp (1 - avg (l.map (· ^ 2)) / σ ^ 2)) ^ l.length := by
    rw [hsq, mul_pow, ← Real.exp_nat_mul]
    congr 2
    unfold avg
    rw [List.length_map]
    simp only [sub_zero]
    field_simp
  set g := s ^ 2 / σ ^ 2 * Real.exp (1 - avg (l.map (· ^ 2)) / σ ^ 2) with hg
  have hg0 : 0 ≤ g := by positivity
  have hr1 : r ≤ 1 := by
    have : r ^ 2 ≤ 1 ^ 2 := by rw [hr2, one_pow]; exact pow_le_one₀ hg0 g1
    exact (pow_le_pow_iff_left₀ hr0.le zero_le_one two_ne_zero).mp this
  refine ⟨r, hr0, hr1, ?_, hr2, _, _, likelihood_real l 0 hσ, likelihood_real l (avg l) hs, by positivity, hr⟩
  have h1 : r = 1 ↔ g = 1 := by
    rw [← pow_eq_one_iff_of_nonneg hg0 hn.ne', ← hr2, pow_eq_one_iff_of_nonneg hr0.le two_ne_zero]
  rw [h1, g2, hq]
  constructor
  · rintro ⟨a, b⟩
    rw [div_eq_one_iff_eq hσ2.ne'] at a b
    refine ⟨?_, (pow_left_inj₀ hs.le hσ.le two_ne_zero).mp a⟩
    have : avg l ^ 2 = 0 := by linarith
    exact pow_eq_zero_iff two_ne_zero |>.mp this
  · rintro ⟨a, b⟩
    rw [a, b]
    simp [hσ2.ne']

end Verif.KomPy
