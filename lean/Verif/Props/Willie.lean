import Verif.Lemmas.Willie
import Verif.Lemmas.ErfAccuracy
import Mathlib.Analysis.SpecialFunctions.Exp

/-!
# Property C118: the Neyman-Pearson test of the Python scripts never reports a signal

Exact arithmetic.  `scipy.stats.norm.ppf` is any function with the defining property of the quantile.
-/
namespace Verif.Props
open Verif Verif.KomPy Spec MeasureTheory ProbabilityTheory Filter

/-- The quantile function of the standard normal distribution, `none` standing for no finite number. -/
structure Quantile (ppf : ℝ → Option ℝ) : Prop where
  inside : ∀ q, 0 < q → q < 1 → ∃ t, ppf q = some t ∧ (gaussianReal 0 1).real (Set.Iic t) = q
  outside : ∀ q, 1 ≤ q → ppf q = none

/-- The upper tail beyond the threshold is the level. -/
private theorem threshold {ppf : ℝ → Option ℝ} (h : Quantile ppf) {α : ℝ} (h0 : 0 < α) (h1 : α < 1) :
    ∃ t, ppf (1 - α) = some t ∧ Erfc (t / √2) / 2 = α := by
  obtain ⟨t, a, b⟩ := h.inside (1 - α) (by linarith) (by linarith)
  refine ⟨t, a, ?_⟩
  have := probReal_add_probReal_compl (μ := gaussianReal 0 1) (s := Set.Iic t) measurableSet_Iic
  rw [Set.compl_Iic, tail_one, b] at this
  linarith

private theorem thr_lt {t α x : ℝ} (h : Erfc (t / √2) / 2 = α) : t < x ↔ Erfc (x / √2) / 2 < α := by
  have h2 : (0 : ℝ) < √2 := by positivity
  rw [← h, div_lt_div_iff_of_pos_right two_pos, Erfc_strictAnti.lt_iff_gt, div_lt_div_iff_of_pos_right h2]

/-- A recording on which the test is defined: what the threshold is compared with. -/
private theorem fires {ppf : ℝ → Option ℝ} {l : List ℝ} (hl : l ≠ []) {σ α t : ℝ} (hσ : 0 < σ) (ht : ppf (1 - α) = some t)
    (hs : 0 < avg (l.map (fun x => (x - avg l) ^ 2))) :
    ∃ r, 0 < r ∧ r ≤ 1 ∧ (r = 1 ↔ avg l = 0 ∧ avg (l.map (fun x => (x - avg l) ^ 2)) = σ ^ 2) ∧
      r ^ 2 = (avg (l.map (fun x => (x - avg l) ^ 2)) / σ ^ 2 * Real.exp (1 - avg (l.map (· ^ 2)) / σ ^ 2)) ^ l.length ∧
      (neymanPearson ppf l σ α = true ↔ t < r) := by
  obtain ⟨r, r0, r1, r2, r3, p0, p1, e0, e1, hp, er⟩ := ratio_bounds hl hσ (Real.sqrt_pos.mpr hs) rfl
  rw [Real.sq_sqrt hs.le] at r3
  refine ⟨r, r0, r1, ?_, r3, ?_⟩
  · rw [r2, ← Real.sqrt_eq_iff_eq_sq hs.le hσ.le]
  · unfold neymanPearson
    rw [npMean_real hl, npStd_real hl, e0, e1, ht]
    simp only
    rw [Flt.eq_real, if_neg (by simpa using hp.ne'), Flt.lt_real, er, decide_eq_true_iff]

/-- The tail beyond one standard deviation is at least a tenth. -/
private theorem tail_at_one : 1 / 5 ≤ Erfc (1 / √2) := by
  have hd : ∀ x ∈ Set.univ, HasDerivWithinAt Erfc (-(2 / √Real.pi * Real.exp (-x ^ 2))) Set.univ x :=
    fun x _ => (Erfc_hasDerivAt x).hasDerivWithinAt
  have hb : ∀ x ∈ Set.univ, ‖-(2 / √Real.pi * Real.exp (-x ^ 2))‖ ≤ 2 / √Real.pi := by
    intro x _
    rw [norm_neg, Real.norm_of_nonneg (by positivity)]
    exact mul_le_of_le_one_right (by positivity) (Real.exp_le_one_iff.mpr (by nlinarith [sq_nonneg x]))
  have := Convex.norm_image_sub_le_of_norm_hasDerivWithin_le hd hb convex_univ (Set.mem_univ (0 : ℝ)) (Set.mem_univ (1 / √2))
  rw [Erfc_zero, sub_zero, Real.norm_of_nonneg (r := 1 / √2) (by positivity), div_mul_div_comm, mul_one, ← Real.sqrt_mul Real.pi_pos.le] at this
  have h3 : (5 / 2 : ℝ) ≤ √(Real.pi * 2) := Real.le_sqrt_of_sq_le (by nlinarith [Real.pi_gt_d2])
  have h4 : 2 / √(Real.pi * 2) ≤ 4 / 5 := by
    rw [div_le_iff₀ (by linarith)]
    linarith
  have h5 := (abs_le.mp (this.trans h4)).1
  linarith

/-- At any level up to `½ erfc(1/√2)`, about 0.159, the test returns `False` for every recording and every noise level. -/
theorem C118_silent {ppf : ℝ → Option ℝ} (h : Quantile ppf) {α : ℝ} (hα : α ≤ Erfc (1 / √2) / 2) (l : List ℝ) (n0 : ℝ) :
    neymanPearson ppf l n0 α = false := by
  rcases le_or_gt α 0 with h0 | h0
  · unfold neymanPearson
    rw [h.outside _ (by linarith)]
    rcases likelihood l (some 0) (some n0) with _ | a <;> rcases likelihood l (npMean l) (npStd l) with _ | b <;> rfl
  have h1 : α < 1 := by
    have := Erfc_strictAnti (show (0 : ℝ) < 1 / √2 by positivity)
    rw [Erfc_zero] at this
    linarith
  obtain ⟨t, ht, he⟩ := threshold h h0 h1
  have ht1 : 1 ≤ t := by
    by_contra hlt
    exact absurd ((thr_lt he).mp (not_le.mp hlt)) (not_lt.mpr hα)
  rcases eq_or_ne l [] with rfl | hl
  · unfold neymanPearson
    rw [ht]
    show (if Flt.eq (1 : ℝ) 0 then Flt.lt 0 (1 : ℝ) else Flt.lt t ((1 : ℝ) / 1)) = false
    rw [Flt.eq_real, if_neg (by simp), Flt.lt_real]
    simpa using ht1
  rcases le_or_gt n0 0 with hn | hn
  · unfold neymanPearson
    rw [likelihood_none l _ hn hl]
  rcases le_or_gt (avg (l.map (fun x => (x - avg l) ^ 2))) 0 with hs | hs
  · unfold neymanPearson
    rw [npStd_real hl, Real.sqrt_eq_zero'.mpr hs, likelihood_none l _ le_rfl hl]
    rcases likelihood l (some 0) (some n0) with _ | a <;> rfl
  obtain ⟨r, -, r1, -, -, hr⟩ := fires hl hn ht hs
  rw [Bool.eq_false_iff, Ne, hr]
  linarith

/-- In particular at the default level 0.05. -/
theorem C118_default {ppf : ℝ → Option ℝ} (h : Quantile ppf) (l : List ℝ) (n0 : ℝ) :
    neymanPearson ppf l n0 neymanPearsonAlpha = false := by
  refine C118_silent h ?_ l n0
  unfold neymanPearsonAlpha
  rw [Flt.lit_real]
  linarith [tail_at_one]

/-- At any level below one: whether the test fires is decided by the ratio `r`, which is greatest, one, for the recordings with the mean
and the standard deviation of the noise. -/
theorem C118_iff {ppf : ℝ → Option ℝ} (h : Quantile ppf) {α : ℝ} (h0 : 0 < α) (h1 : α < 1) {l : List ℝ} (hl : l ≠ []) {σ : ℝ}
    (hσ : 0 < σ) (hs : 0 < avg (l.map (fun x => (x - avg l) ^ 2))) :
    ∃ r, 0 < r ∧ r ≤ 1 ∧ (r = 1 ↔ avg l = 0 ∧ avg (l.map (fun x => (x - avg l) ^ 2)) = σ ^ 2) ∧
      r ^ 2 = (avg (l.map (fun x => (x - avg l) ^ 2)) / σ ^ 2 * Real.exp (1 - avg (l.map (· ^ 2)) / σ ^ 2)) ^ l.length ∧
      (neymanPearson ppf l σ α = true ↔ Erfc (r / √2) / 2 < α) := by
  obtain ⟨t, ht, he⟩ := threshold h h0 h1
  obtain ⟨r, r0, r1, r2, r3, hr⟩ := fires hl hσ ht hs
  exact ⟨r, r0, r1, r2, r3, by rw [hr, thr_lt he]⟩

/-- At the levels between, the test is the wrong way round: it fires on a recording that is all noise, and stays silent on every recording
with enough energy. -/
theorem C118_inverted {ppf : ℝ → Option ℝ} (h : Quantile ppf) {α : ℝ} (h0 : Erfc (1 / √2) / 2 < α) (h1 : α < 1 / 2) :
    (∀ l : List ℝ, l ≠ [] → ∀ σ > 0, avg l = 0 → avg (l.map (· ^ 2)) = σ ^ 2 → neymanPearson ppf l σ α = true) ∧
    ∃ K, ∀ l : List ℝ, ∀ σ > 0, K * σ ^ 2 ≤ avg (l.map (· ^ 2)) → neymanPearson ppf l σ α = false := by
  have h0' : 0 < α := (half_pos (Erfc_pos _)).trans h0
  obtain ⟨t, ht, he⟩ := threshold h h0' (by linarith)
  refine ⟨fun l hl σ hσ hm hq => ?_, ?_⟩
  · have hv := avg_split hl
    rw [hq, hm] at hv
    have hσ2 : 0 < σ ^ 2 := by positivity
    obtain ⟨r, -, -, r2, -, hr⟩ := fires hl hσ ht (by rw [hm]; linarith)
    rw [hr, r2.mpr ⟨hm, by rw [hm]; linarith⟩, thr_lt he]
    exact h0
  · have ht0 : 0 < t := by
      by_contra hle
      have : Erfc 0 ≤ Erfc (t / √2) := Erfc_strictAnti.antitone (div_nonpos_of_nonpos_of_nonneg (not_lt.mp hle) (Real.sqrt_nonneg _))
      rw [Erfc_zero] at this
      linarith
    have hlim : Tendsto (fun q : ℝ => Real.exp 1 * (q ^ 1 * Real.exp (-q))) atTop (nhds (Real.exp 1 * 0)) :=
      (Real.tendsto_pow_mul_exp_neg_atTop_nhds_zero 1).const_mul _
    rw [mul_zero] at hlim
    obtain ⟨K, hK⟩ := eventually_atTop.mp (hlim.eventually (gt_mem_nhds (show (0 : ℝ) < t ^ 2 by positivity)))
    refine ⟨max K 1, fun l σ hσ hq => ?_⟩
    have hσ2 : 0 < σ ^ 2 := by positivity
    rcases eq_or_ne l [] with rfl | hl
    · have : max K 1 * σ ^ 2 ≤ 0 := by simpa [avg] using hq
      have h2 : 0 < max K 1 := lt_max_of_lt_right one_pos
      nlinarith
    rcases le_or_gt (avg (l.map (fun x => (x - avg l) ^ 2))) 0 with hs | hs
    · unfold neymanPearson
      rw [npStd_real hl, Real.sqrt_eq_zero'.mpr hs, likelihood_none l _ le_rfl hl]
      rcases likelihood l (some 0) (some σ) with _ | a <;> rfl
    obtain ⟨r, r0, -, -, r3, hr⟩ := fires hl hσ ht hs
    rw [Bool.eq_false_iff, Ne, hr, not_lt]
    have hv := avg_split hl
    set q := avg (l.map (· ^ 2)) / σ ^ 2 with hqd
    have hKq : max K 1 ≤ q := (le_div_iff₀ hσ2).mpr hq
    have hu : avg (l.map (fun x => (x - avg l) ^ 2)) / σ ^ 2 ≤ q :=
      (div_le_div_iff_of_pos_right hσ2).mpr (by rw [hv]; nlinarith [sq_nonneg (avg l)])
    have hu0 : 0 ≤ avg (l.map (fun x => (x - avg l) ^ 2)) / σ ^ 2 := by positivity
    have h3 := hK q ((le_max_left _ _).trans hKq)
    have h4 : r ^ 2 ≤ t ^ 2 := by
      rw [r3]
      refine (pow_le_of_le_one (by positivity) (gain_le hu0 hu).1 (List.length_pos_iff.mpr hl).ne').trans ?_
      refine (mul_le_mul_of_nonneg_right hu (Real.exp_pos _).le).trans (le_of_lt (lt_of_eq_of_lt ?_ h3))
      rw [sub_eq_add_neg, Real.exp_add]
      ring
    exact (pow_le_pow_iff_left₀ r0.le ht0.le two_ne_zero).mp h4

/-- At one half and above it fires on every recording that is not constant. -/
theorem C118_always {ppf : ℝ → Option ℝ} (h : Quantile ppf) {α : ℝ} (h0 : 1 / 2 ≤ α) (h1 : α < 1) {l : List ℝ} {x y : ℝ}
    (hx : x ∈ l) (hy : y ∈ l) (hxy : x ≠ y) {σ : ℝ} (hσ : 0 < σ) : neymanPearson ppf l σ α = true := by
  have hl : l ≠ [] := List.ne_nil_of_mem hx
  obtain ⟨t, ht, he⟩ := threshold h (by linarith) h1
  have hs : 0 < avg (l.map (fun x => (x - avg l) ^ 2)) := by
    refine div_pos ?_ (by rw [List.length_map]; exact_mod_cast List.length_pos_iff.mpr hl)
    have hn : ∀ v ∈ l.map (fun x => (x - avg l) ^ 2), 0 ≤ v := by
      intro v hv
      obtain ⟨w, -, rfl⟩ := List.mem_map.mp hv
      exact sq_nonneg _
    refine lt_of_le_of_ne (List.sum_nonneg hn) fun h0 => hxy ?_
    have hz : ∀ w ∈ l, w = avg l := by
      intro w hw
      have := List.single_le_sum hn _ (List.mem_map.mpr ⟨w, hw, rfl⟩)
      rw [← h0] at this
      have := pow_eq_zero_iff two_ne_zero |>.mp (le_antisymm this (sq_nonneg _))
      linarith
    rw [hz x hx, hz y hy]
  obtain ⟨r, r0, -, -, -, hr⟩ := fires hl hσ ht hs
  rw [hr]
  refine lt_of_le_of_lt ?_ r0
  by_contra hlt
  have := Erfc_strictAnti (div_pos (not_le.mp hlt) (show (0 : ℝ) < √2 by positivity))
  rw [Erfc_zero] at this
  linarith

/-- The two normality tests have opposite senses: at level 0.05 the Python one fires exactly when the compiled one does not, except at a
p-value of 0.05 itself, where neither does. -/
theorem C118_normality (normaltest : List ℝ → ℝ) (l : List ℝ) (n0 : ℝ) (hp : normaltest l ≠ 0.05) :
    pValue normaltest l n0 = !normalDetector normaltest l 0.05 := by
  unfold pValue normalDetector
  rw [Flt.lit_real, Flt.lt_real, Flt.lt_real]
  norm_num at hp ⊢
  rcases lt_or_gt_of_ne hp with h | h
  · rw [decide_eq_true h, decide_eq_false (not_lt.mpr h.le)]; rfl
  · rw [decide_eq_true (show (1 / 20 : ℝ) < _ from h), decide_eq_false (not_lt.mpr h.le)]; rfl

/-! ### Concrete cases -/

/-- There is a quantile function. -/
theorem quantile_exists : ∃ ppf : ℝ → Option ℝ, Quantile ppf := by
  have hsurj : ∀ q : ℝ, 0 < q → q < 1 → ∃ t, (gaussianReal 0 1).real (Set.Iic t) = q := by
    intro q h0 h1
    have hc : Continuous Erfc := continuous_iff_continuousAt.mpr fun x => (Erfc_hasDerivAt x).continuousAt
    have hlim : Tendsto (fun x : ℝ => Erfc (-x)) atBot (nhds 0) := Erfc_tendsto.comp tendsto_neg_atBot_atTop
    obtain ⟨a, ha⟩ := (Erfc_tendsto.eventually (gt_mem_nhds (show 0 < 2 * (1 - q) by linarith))).exists
    obtain ⟨b, hb⟩ := (hlim.eventually (gt_mem_nhds (show 0 < 2 * q by linarith))).exists
    rw [Erfc_neg] at hb
    obtain ⟨y, hy⟩ := mem_range_of_exists_le_of_exists_ge hc ⟨a, ha.le⟩ ⟨b, show 2 * (1 - q) ≤ Erfc b by linarith⟩
    refine ⟨y * √2, ?_⟩
    have := probReal_add_probReal_compl (μ := gaussianReal 0 1) (s := Set.Iic (y * √2)) measurableSet_Iic
    rw [Set.compl_Iic, tail_one, mul_div_cancel_right₀ _ (by positivity), hy] at this
    linarith
  classical
  refine ⟨fun q => if h : 0 < q ∧ q < 1 then some (hsurj q h.1 h.2).choose else none, fun q h0 h1 => ?_, fun q h1 => ?_⟩
  · exact ⟨_, dif_pos ⟨h0, h1⟩, (hsurj q h0 h1).choose_spec⟩
  · exact dif_neg fun h => by linarith [h.2]

/-- A loud carrier in a quiet room goes unreported at the default level; two samples of pure noise are reported at level 0.4. -/
example : ∃ ppf : ℝ → Option ℝ, neymanPearson ppf [100, -100, 100, -100] 1 neymanPearsonAlpha = false ∧
    neymanPearson ppf [3, -3] 3 0.4 = true ∧ neymanPearson ppf [5, 7] 3 0.5 = true := by
  obtain ⟨ppf, h⟩ := quantile_exists
  have hα : Erfc (1 / √2) / 2 < 0.4 := by
    have h1 := Erfc_le (x := 1 / √2) (by positivity)
    rw [div_pow, Real.sq_sqrt (by norm_num), one_pow, Real.exp_neg] at h1
    have h2 := Real.add_one_le_exp (1 / 2 : ℝ)
    have h3 : (Real.exp (1 / 2))⁻¹ ≤ 2 / 3 := by
      rw [inv_le_comm₀ (Real.exp_pos _) (by norm_num)]
      linarith
    rw [show (0.4 : ℝ) = 2 / 5 by norm_num]
    linarith
  refine ⟨ppf, C118_default h _ _, (C118_inverted h hα (by norm_num)).1 [3, -3] (by simp) 3 (by norm_num) ?_ ?_,
    C118_always h (by norm_num) (by norm_num) (x := 5) (y := 7) (by simp) (by simp) (by norm_num) (by norm_num)⟩
  · norm_num [avg]
  · norm_num [avg]

end Verif.Props
