import Verif.Lemmas.ErfAccuracy
import Mathlib.Probability.Distributions.Gaussian.Multivariate
import Mathlib.Analysis.InnerProductSpace.Projection.Reflection
import Mathlib.MeasureTheory.Constructions.Pi

/-! # The distribution of the energy of a signal in white Gaussian noise -/
namespace Verif
open Spec MeasureTheory ProbabilityTheory Filter

/-! ## One sample -/

/-- The chance that a sample `r` in noise of unit variance has a square above `c`. -/
noncomputable def over (r c : ℝ) : ℝ := (gaussianReal 0 1).real {x | c < (r + x) ^ 2}

theorem over_neg {r c : ℝ} (hc : c < 0) : over r c = 1 := by
  unfold over
  rw [show {x : ℝ | c < (r + x) ^ 2} = Set.univ by
    ext x; simpa using hc.trans_le (sq_nonneg _)]
  exact probReal_univ

theorem tail_one (x : ℝ) : (gaussianReal 0 1).real (Set.Ioi x) = Erfc (x / √2) / 2 := by
  have := gauss_tail (v := 1) one_pos x
  simpa using this

theorem over_eq (r : ℝ) {c : ℝ} (hc : 0 ≤ c) : over r c = Erfc ((√c - r) / √2) / 2 + Erfc ((√c + r) / √2) / 2 := by
  unfold over
  have e : {x : ℝ | c < (r + x) ^ 2} = Set.Ioi (√c - r) ∪ Set.Iio (-(√c + r)) := by
    ext x
    simp only [Set.mem_union, Set.mem_Ioi, Set.mem_Iio]
    show c < (r + x) ^ 2 ↔ _
    rw [← Real.sqrt_lt_sqrt_iff hc, Real.sqrt_sq_eq_abs, lt_abs]
    constructor
    · rintro (h | h)
      · left; linarith
      · right; linarith
    · rintro (h | h)
      · left; linarith
      · right; linarith
  have hs := Real.sqrt_nonneg c
  rw [e, measureReal_union _ measurableSet_Iio]
  · congr 1
    · exact tail_one _
    · have hm := gaussianReal_map_neg (μ := 0) (v := 1)
      rw [neg_zero] at hm
      rw [← tail_one]
      conv_lhs => rw [← hm]
      rw [measureReal_def, measureReal_def, Measure.map_apply measurable_neg measurableSet_Iio]
      congr 2
      ext t; simp
  · rw [Set.disjoint_left]
    intro x h1 h2
    simp only [Set.mem_Ioi, Set.mem_Iio] at h1 h2
    linarith

theorem over_strictMono {c : ℝ} (hc : 0 < c) : StrictMonoOn (fun r => over r c) (Set.Ici 0) := by
  have hs := Real.sqrt_pos.mpr hc
  have h2 : (0 : ℝ) < √2 := by positivity
  have hd : ∀ r, HasDerivAt (fun r => over r c)
      (1 / (√Real.pi * √2) * (Real.exp (-((√c - r) / √2) ^ 2) - Real.exp (-((√c + r) / √2) ^ 2))) r := by
    intro r
    have h1 := ((Erfc_hasDerivAt ((√c - r) / √2)).comp r (((hasDerivAt_id r).const_sub (√c)).div_const (√2))).div_const 2
    have h3 := ((Erfc_hasDerivAt ((√c + r) / √2)).comp r (((hasDerivAt_id r).const_add (√c)).div_const (√2))).div_const 2
    have h4 := h1.add h3
    have e : (fun r => over r c) = (fun r => (Erfc ∘ fun r => (√c - id r) / √2) r / 2) + fun r => (Erfc ∘ fun r => (√c + id r) / √2) r / 2 := by
      funext r; exact over_eq r hc.le
    rw [e]
    refine h4.congr_deriv ?_
    have := Real.sqrt_pos.mpr Real.pi_pos
    field_simp
    ring
  refine strictMonoOn_of_deriv_pos (convex_Ici 0) (fun r _ => (hd r).continuousAt.continuousWithinAt) fun r hr => ?_
  rw [interior_Ici, Set.mem_Ioi] at hr
  rw [(hd r).deriv]
  have hp := Real.sqrt_pos.mpr Real.pi_pos
  refine mul_pos (by positivity) (sub_pos.mpr (Real.exp_lt_exp.mpr ?_))
  rw [div_pow, div_pow, neg_lt_neg_iff]
  refine div_lt_div_of_pos_right ?_ (by positivity)
  nlinarith

theorem over_mono (c : ℝ) {r s : ℝ} (hr : 0 ≤ r) (h : r ≤ s) : over r c ≤ over s c := by
  rcases lt_trichotomy c 0 with hc | rfl | hc
  · rw [over_neg hc, over_neg hc]
  · rw [over_eq _ le_rfl, over_eq _ le_rfl, Real.sqrt_zero, zero_sub, zero_sub, zero_add, zero_add, neg_div, neg_div, Erfc_neg, Erfc_neg]
    linarith
  · exact (over_strictMono hc).monotoneOn hr (hr.trans h) h

/-! ## Any number of samples -/

/-- The chance that a signal `a` in noise of unit variance has energy above `u`. -/
noncomputable def above {N : ℕ} (a : EuclideanSpace ℝ (Fin N)) (u : ℝ) : ℝ :=
  (stdGaussian (EuclideanSpace ℝ (Fin N))).real {x | u < ‖a + x‖ ^ 2}

theorem above_meas {N : ℕ} (a : EuclideanSpace ℝ (Fin N)) (u : ℝ) : MeasurableSet {x | u < ‖a + x‖ ^ 2} :=
  measurableSet_lt measurable_const (by fun_prop)

/-- The energy of the signal is all that matters. -/
theorem above_congr {N : ℕ} {a b : EuclideanSpace ℝ (Fin N)} (h : ‖a‖ = ‖b‖) (u : ℝ) : above a u = above b u := by
  set R := Submodule.reflection (ℝ ∙ (a - b))ᗮ with hR
  have hab : R a = b := Submodule.reflection_sub h
  unfold above
  conv_rhs => rw [← stdGaussian_map R]
  rw [measureReal_def, measureReal_def, Measure.map_apply R.continuous.measurable (above_meas b u)]
  congr 2
  ext x
  show u < ‖a + x‖ ^ 2 ↔ u < ‖b + R x‖ ^ 2
  rw [← hab, ← map_add, R.norm_map]

/-- All energy in the first sample. -/
noncomputable def first (N : ℕ) (r : ℝ) : EuclideanSpace ℝ (Fin (N + 1)) := EuclideanSpace.single 0 r

theorem first_norm (N : ℕ) (r : ℝ) : ‖first N r‖ = |r| := by simp [first]

theorem above_first (N : ℕ) (r u : ℝ) : ENNReal.ofReal (above (first N r) u) =
    ∫⁻ y : Fin N → ℝ, ENNReal.ofReal (over r (u - ∑ j, y j ^ 2)) ∂(Measure.pi fun _ => gaussianReal 0 1) := by
  unfold above
  rw [ofReal_measureReal, ← map_pi_eq_stdGaussian, Measure.map_apply (by fun_prop) (above_meas _ u)]
  have hp := measurePreserving_piFinSuccAbove (fun _ : Fin (N + 1) => gaussianReal 0 1) 0
  have e : WithLp.toLp 2 ⁻¹' {x | u < ‖first N r + x‖ ^ 2} =
      (MeasurableEquiv.piFinSuccAbove (fun _ : Fin (N + 1) => ℝ) 0) ⁻¹' {q | u < (r + q.1) ^ 2 + ∑ j, q.2 j ^ 2} := by
    ext x
    show u < ‖first N r + WithLp.toLp 2 x‖ ^ 2 ↔ u < (r + x 0) ^ 2 + ∑ j : Fin N, x (Fin.succAbove 0 j) ^ 2
    rw [EuclideanSpace.real_norm_sq_eq, Fin.sum_univ_succ]
    simp [first]
  have hm : MeasurableSet {q : ℝ × (Fin N → ℝ) | u < (r + q.1) ^ 2 + ∑ j, q.2 j ^ 2} :=
    measurableSet_lt measurable_const (by fun_prop)
  rw [e, hp.measure_preimage hm.nullMeasurableSet, Measure.prod_apply_symm hm]
  refine lintegral_congr fun y => ?_
  unfold over
  rw [ofReal_measureReal]
  congr 1
  ext x
  show u < (r + x) ^ 2 + ∑ j, y j ^ 2 ↔ u - ∑ j, y j ^ 2 < (r + x) ^ 2
  rw [sub_lt_iff_lt_add]

instance gauss_openPos : (gaussianReal 0 1).IsOpenPosMeasure :=
  (gaussianReal_absolutelyContinuous' 0 (v := 1) one_ne_zero).isOpenPosMeasure

instance stdGaussian_openPos (N : ℕ) : (stdGaussian (EuclideanSpace ℝ (Fin N))).IsOpenPosMeasure where
  open_pos U hU hne := by
    rw [← map_pi_eq_stdGaussian, Measure.map_apply (by fun_prop) hU.measurableSet]
    obtain ⟨x, hx⟩ := hne
    exact (hU.preimage (by fun_prop)).measure_ne_zero _ ⟨WithLp.ofLp x, by simpa using hx⟩

theorem over_anti (r : ℝ) : Antitone (over r) := fun _ _ h =>
  measureReal_mono fun _ hx => lt_of_le_of_lt h hx

/-- More energy is more often above a level. -/
theorem above_lt {N : ℕ} {a b : EuclideanSpace ℝ (Fin N)} (h : ‖a‖ < ‖b‖) {u : ℝ} (hu : 0 < u) : above a u < above b u := by
  cases N with
  | zero => rw [Subsingleton.elim a b] at h; exact absurd h (lt_irrefl _)
  | succ N =>
    rw [above_congr (b := first N ‖a‖) (by rw [first_norm, abs_norm]), above_congr (a := b) (b := first N ‖b‖) (by rw [first_norm, abs_norm])]
    have h0 : 0 ≤ above (first N ‖a‖) u := measureReal_nonneg
    rw [← ENNReal.ofReal_lt_ofReal_iff_of_nonneg h0, above_first, above_first]
    refine lintegral_strict_mono_of_ae_le_of_ae_lt_on (s := {y | ∑ j, y j ^ 2 < u}) ?_ ?_ ?_ ?_ ?_
    · exact (((over_anti ‖b‖).measurable.comp (by fun_prop : Measurable fun y : Fin N → ℝ => u - ∑ j, y j ^ 2)).ennreal_ofReal).aemeasurable
    · rw [← above_first]; exact ENNReal.ofReal_ne_top
    · exact ae_of_all _ fun y => ENNReal.ofReal_le_ofReal (over_mono _ (norm_nonneg _) h.le)
    · refine IsOpen.measure_ne_zero _ (isOpen_lt (by fun_prop) continuous_const) ⟨0, ?_⟩
      simpa using hu
    · refine ae_of_all _ fun y hy => ?_
      have hy' : ∑ j, y j ^ 2 < u := hy
      exact (ENNReal.ofReal_lt_ofReal_iff_of_nonneg measureReal_nonneg).mpr
        (over_strictMono (sub_pos.mpr hy') (norm_nonneg a) (norm_nonneg b) h)

theorem above_neg {N : ℕ} (a : EuclideanSpace ℝ (Fin N)) {u : ℝ} (hu : u < 0) : above a u = 1 := by
  unfold above
  rw [show {x | u < ‖a + x‖ ^ 2} = Set.univ by ext x; simpa using hu.trans_le (sq_nonneg _)]
  exact probReal_univ

/-- The energy never takes a given value. -/
theorem sphere_null {N : ℕ} (a : EuclideanSpace ℝ (Fin (N + 1))) (u : ℝ) :
    stdGaussian (EuclideanSpace ℝ (Fin (N + 1))) {x | ‖a + x‖ ^ 2 = u} = 0 := by
  have hg : ∀ r c : ℝ, gaussianReal 0 1 {x | (r + x) ^ 2 = c} = 0 := by
    intro r c
    have := nullSingletonClass_gaussianReal (μ := 0) (v := 1) one_ne_zero
    refine measure_mono_null (t := {√c - r, -√c - r}) ?_ (Set.Finite.measure_zero (by simp) _)
    intro x hx
    have hx' : (r + x) ^ 2 = c := hx
    have : √c = |r + x| := by rw [← hx', Real.sqrt_sq_eq_abs]
    simp only [Set.mem_insert_iff, Set.mem_singleton_iff]
    rcases abs_cases (r + x) with ⟨e, -⟩ | ⟨e, -⟩
    · left; linarith
    · right; linarith
  have key : stdGaussian (EuclideanSpace ℝ (Fin (N + 1))) {x | ‖a + x‖ ^ 2 = u} =
      stdGaussian (EuclideanSpace ℝ (Fin (N + 1))) {x | ‖first N ‖a‖ + x‖ ^ 2 = u} := by
    have h : ‖a‖ = ‖first N ‖a‖‖ := by rw [first_norm, abs_norm]
    set b := first N ‖a‖
    set R := Submodule.reflection (ℝ ∙ (a - b))ᗮ with hR
    have hab : R a = b := Submodule.reflection_sub h
    conv_rhs => rw [← stdGaussian_map R]
    rw [Measure.map_apply R.continuous.measurable (measurableSet_eq_fun (by fun_prop) measurable_const)]
    congr 1
    ext x
    show ‖a + x‖ ^ 2 = u ↔ ‖b + R x‖ ^ 2 = u
    rw [← hab, ← map_add, R.norm_map]
  rw [key, ← map_pi_eq_stdGaussian, Measure.map_apply (by fun_prop) (measurableSet_eq_fun (by fun_prop) measurable_const)]
  have hp := measurePreserving_piFinSuccAbove (fun _ : Fin (N + 1) => gaussianReal 0 1) 0
  have e : WithLp.toLp 2 ⁻¹' {x | ‖first N ‖a‖ + x‖ ^ 2 = u} =
      (MeasurableEquiv.piFinSuccAbove (fun _ : Fin (N + 1) => ℝ) 0) ⁻¹' {q | (‖a‖ + q.1) ^ 2 + ∑ j, q.2 j ^ 2 = u} := by
    ext x
    show ‖first N ‖a‖ + WithLp.toLp 2 x‖ ^ 2 = u ↔ (‖a‖ + x 0) ^ 2 + ∑ j : Fin N, x (Fin.succAbove 0 j) ^ 2 = u
    rw [EuclideanSpace.real_norm_sq_eq, Fin.sum_univ_succ]
    simp [first]
  have hm : MeasurableSet {q : ℝ × (Fin N → ℝ) | (‖a‖ + q.1) ^ 2 + ∑ j, q.2 j ^ 2 = u} :=
    measurableSet_eq_fun (by fun_prop) measurable_const
  rw [e, hp.measure_preimage hm.nullMeasurableSet, Measure.prod_apply_symm hm, lintegral_eq_zero_iff' (measurable_measure_prodMk_right hm).aemeasurable]
  refine ae_of_all _ fun y => ?_
  refine measure_mono_null ?_ (hg ‖a‖ (u - ∑ j, y j ^ 2))
  intro x hx
  have hx' : (‖a‖ + x) ^ 2 + ∑ j, y j ^ 2 = u := hx
  show (‖a‖ + x) ^ 2 = u - ∑ j, y j ^ 2
  linarith

/-- A higher level is exceeded less often. -/
theorem above_anti {N : ℕ} (a : EuclideanSpace ℝ (Fin (N + 1))) {u v : ℝ} (hu : 0 ≤ u) (h : u < v) : above a v < above a u := by
  have hd : above a u = above a v + (stdGaussian (EuclideanSpace ℝ (Fin (N + 1)))).real {x | u < ‖a + x‖ ^ 2 ∧ ‖a + x‖ ^ 2 ≤ v} := by
    unfold above
    rw [← measureReal_union]
    · congr 1
      ext x
      simp only [Set.mem_union, Set.mem_ofPred_eq]
      constructor
      · intro hx
        rcases lt_or_ge v (‖a + x‖ ^ 2) with h' | h'
        · exact Or.inl h'
        · exact Or.inr ⟨hx, h'⟩
      · rintro (hx | hx)
        · exact h.trans hx
        · exact hx.1
    · rw [Set.disjoint_left]
      intro x h1 h2
      exact absurd h1 (not_lt.mpr h2.2)
    · exact (above_meas a u).inter (measurableSet_le (f := fun x => ‖a + x‖ ^ 2) (by fun_prop) measurable_const)
  rw [hd]
  refine lt_add_of_pos_right _ (ENNReal.toReal_pos ?_ (measure_ne_top _ _))
  have ho : IsOpen {x : EuclideanSpace ℝ (Fin (N + 1)) | u < ‖a + x‖ ^ 2 ∧ ‖a + x‖ ^ 2 < v} :=
    (isOpen_lt (g := fun x => ‖a + x‖ ^ 2) continuous_const (by fun_prop)).inter (isOpen_lt (f := fun x => ‖a + x‖ ^ 2) (by fun_prop) continuous_const)
  have hsub : {x : EuclideanSpace ℝ (Fin (N + 1)) | u < ‖a + x‖ ^ 2 ∧ ‖a + x‖ ^ 2 < v} ⊆ {x | u < ‖a + x‖ ^ 2 ∧ ‖a + x‖ ^ 2 ≤ v} :=
    fun x hx => ⟨hx.1, le_of_lt hx.2⟩
  refine fun h0 => ho.measure_ne_zero _ ⟨first N (√((u + v) / 2)) - a, ?_⟩ (measure_mono_null hsub h0)
  show u < ‖a + (first N (√((u + v) / 2)) - a)‖ ^ 2 ∧ ‖a + (first N (√((u + v) / 2)) - a)‖ ^ 2 < v
  rw [add_sub_cancel, first_norm, sq_abs, Real.sq_sqrt (by linarith)]
  constructor <;> linarith

/-! ## Comparing a recording with silence -/

/-- The chance that a signal in noise has more energy than another stretch of noise. -/
noncomputable def beats {N : ℕ} (a : EuclideanSpace ℝ (Fin N)) : ℝ :=
  ((stdGaussian (EuclideanSpace ℝ (Fin N))).prod (stdGaussian (EuclideanSpace ℝ (Fin N)))).real {q | ‖q.1‖ ^ 2 < ‖a + q.2‖ ^ 2}

theorem beats_meas {N : ℕ} (a : EuclideanSpace ℝ (Fin N)) :
    MeasurableSet {q : EuclideanSpace ℝ (Fin N) × EuclideanSpace ℝ (Fin N) | ‖q.1‖ ^ 2 < ‖a + q.2‖ ^ 2} :=
  measurableSet_lt (by fun_prop) (by fun_prop)

theorem beats_eq {N : ℕ} (a : EuclideanSpace ℝ (Fin N)) :
    ENNReal.ofReal (beats a) = ∫⁻ x, ENNReal.ofReal (above a (‖x‖ ^ 2)) ∂(stdGaussian (EuclideanSpace ℝ (Fin N))) := by
  unfold beats
  rw [ofReal_measureReal, Measure.prod_apply (beats_meas a)]
  refine lintegral_congr fun x => ?_
  unfold above
  rw [ofReal_measureReal]
  rfl

theorem beats_congr {N : ℕ} {a b : EuclideanSpace ℝ (Fin N)} (h : ‖a‖ = ‖b‖) : beats a = beats b := by
  have h1 : ENNReal.ofReal (beats a) = ENNReal.ofReal (beats b) := by
    rw [beats_eq, beats_eq]
    exact lintegral_congr fun x => by rw [above_congr h]
  exact (ENNReal.ofReal_eq_ofReal_iff measureReal_nonneg measureReal_nonneg).mp h1

theorem beats_lt {N : ℕ} {a b : EuclideanSpace ℝ (Fin N)} (h : ‖a‖ < ‖b‖) : beats a < beats b := by
  have h0 : 0 ≤ beats a := measureReal_nonneg
  cases N with
  | zero => rw [Subsingleton.elim a b] at h; exact absurd h (lt_irrefl _)
  | succ N =>
    rw [← ENNReal.ofReal_lt_ofReal_iff_of_nonneg h0, beats_eq, beats_eq]
    have hpos : ∀ x : EuclideanSpace ℝ (Fin (N + 1)), x ≠ 0 → 0 < ‖x‖ ^ 2 := fun x hx => by
      have := norm_pos_iff.mpr hx
      positivity
    refine lintegral_strict_mono_of_ae_le_of_ae_lt_on (s := {x | x ≠ 0}) ?_ ?_ ?_ ?_ ?_
    · have ha : Antitone (above b) := fun _ _ h => measureReal_mono fun _ hx => lt_of_le_of_lt h hx
      exact ((ha.measurable.comp (by fun_prop : Measurable fun x : EuclideanSpace ℝ (Fin (N + 1)) => ‖x‖ ^ 2)).ennreal_ofReal).aemeasurable
    · rw [← beats_eq]; exact ENNReal.ofReal_ne_top
    · refine ae_of_all _ fun x => ENNReal.ofReal_le_ofReal ?_
      by_cases hx : x = 0
      · have hone : ∀ c : EuclideanSpace ℝ (Fin (N + 1)), above c 0 = 1 := fun c => by
          unfold above
          have e : {y : EuclideanSpace ℝ (Fin (N + 1)) | (0 : ℝ) < ‖c + y‖ ^ 2} = {y | ‖c + y‖ ^ 2 = 0}ᶜ := by
            ext y
            show 0 < ‖c + y‖ ^ 2 ↔ ¬ ‖c + y‖ ^ 2 = 0
            exact ⟨fun h => h.ne', fun h => lt_of_le_of_ne (sq_nonneg _) (Ne.symm h)⟩
          rw [e, probReal_compl_eq_one_sub (measurableSet_eq_fun (by fun_prop) measurable_const), measureReal_def, sphere_null]
          simp
        rw [hx, norm_zero, zero_pow two_ne_zero, hone, hone]
      · exact (above_lt h (hpos x hx)).le
    · refine IsOpen.measure_ne_zero _ isOpen_ne ⟨first N 1, ?_⟩
      intro h0
      have := congrArg norm h0
      rw [first_norm] at this
      simp at this
    · exact ae_of_all _ fun x hx => (ENNReal.ofReal_lt_ofReal_iff_of_nonneg measureReal_nonneg).mpr (above_lt h (hpos x hx))

theorem beats_zero (N : ℕ) : beats (0 : EuclideanSpace ℝ (Fin (N + 1))) = 1 / 2 := by
  set E := EuclideanSpace ℝ (Fin (N + 1))
  set γ := stdGaussian E
  have e : beats (0 : E) = (γ.prod γ).real {q | ‖q.1‖ ^ 2 < ‖q.2‖ ^ 2} := by
    unfold beats; simp only [zero_add]; rfl
  have hm : MeasurableSet {q : E × E | ‖q.1‖ ^ 2 < ‖q.2‖ ^ 2} := measurableSet_lt (by fun_prop) (by fun_prop)
  have hm2 : MeasurableSet {q : E × E | ‖q.2‖ ^ 2 < ‖q.1‖ ^ 2} := measurableSet_lt (by fun_prop) (by fun_prop)
  have hm3 : MeasurableSet {q : E × E | ‖q.2‖ ^ 2 = ‖q.1‖ ^ 2} := measurableSet_eq_fun (by fun_prop) (by fun_prop)
  have hs : (γ.prod γ).real {q | ‖q.2‖ ^ 2 < ‖q.1‖ ^ 2} = (γ.prod γ).real {q | ‖q.1‖ ^ 2 < ‖q.2‖ ^ 2} := by
    conv_rhs => rw [← Measure.prod_swap]
    rw [measureReal_def, measureReal_def, Measure.map_apply measurable_swap hm]
    rfl
  have h0 : (γ.prod γ) {q | ‖q.2‖ ^ 2 = ‖q.1‖ ^ 2} = 0 := by
    rw [Measure.prod_apply hm3, lintegral_eq_zero_iff' (measurable_measure_prodMk_left hm3).aemeasurable]
    refine ae_of_all _ fun x => ?_
    have := sphere_null (0 : E) (‖x‖ ^ 2)
    simp only [zero_add] at this
    exact this
  have ht : (γ.prod γ).real {q | ‖q.1‖ ^ 2 < ‖q.2‖ ^ 2} + (γ.prod γ).real {q | ‖q.2‖ ^ 2 < ‖q.1‖ ^ 2} = 1 := by
    rw [← measureReal_union _ hm2]
    · rw [show ({q : E × E | ‖q.1‖ ^ 2 < ‖q.2‖ ^ 2} ∪ {q | ‖q.2‖ ^ 2 < ‖q.1‖ ^ 2}) = {q | ‖q.2‖ ^ 2 = ‖q.1‖ ^ 2}ᶜ by
        ext q
        show (‖q.1‖ ^ 2 < ‖q.2‖ ^ 2 ∨ ‖q.2‖ ^ 2 < ‖q.1‖ ^ 2) ↔ ¬ ‖q.2‖ ^ 2 = ‖q.1‖ ^ 2
        rw [or_comm]
        exact (ne_iff_lt_or_gt (a := ‖q.2‖ ^ 2) (b := ‖q.1‖ ^ 2)).symm]
      rw [probReal_compl_eq_one_sub hm3, measureReal_def, h0]
      simp
    · rw [Set.disjoint_left]
      intro q h1 h2
      have h1' : ‖q.1‖ ^ 2 < ‖q.2‖ ^ 2 := h1
      have h2' : ‖q.2‖ ^ 2 < ‖q.1‖ ^ 2 := h2
      exact lt_asymm h1' h2'
  rw [e]
  linarith

/-! ## White noise -/
section white
variable {Ω : Type} [MeasurableSpace Ω] {P : Measure Ω} {σ : ℝ} {z y : ℕ → Ω → ℝ}

/-- The first `N` samples as a vector. -/
noncomputable def vec (N : ℕ) (f : ℕ → ℝ) : EuclideanSpace ℝ (Fin N) := WithLp.toLp 2 (fun i => f i)

theorem vec_norm (N : ℕ) (f : ℕ → ℝ) : ‖vec N f‖ ^ 2 = ∑ i ∈ Finset.range N, f i ^ 2 := by
  rw [EuclideanSpace.real_norm_sq_eq, Finset.sum_range]
  rfl

theorem Spec.White.vec_law (h : White P 1 z) (N : ℕ) :
    AEMeasurable (fun ω => vec N (fun i => z i ω)) P ∧ P.map (fun ω => vec N (fun i => z i ω)) = stdGaussian (EuclideanSpace ℝ (Fin N)) := by
  have hP := h.prob
  have hm : ∀ i : Fin N, AEMeasurable (fun ω => z i ω) P := fun i => (h.law i).aemeasurable
  have hpi : AEMeasurable (fun ω (i : Fin N) => z i ω) P := aemeasurable_pi_iff.mpr hm
  refine ⟨(by fun_prop : Measurable (WithLp.toLp 2 : (Fin N → ℝ) → _)).comp_aemeasurable hpi, ?_⟩
  have hi : iIndepFun (fun (i : Fin N) ω => z i ω) P := h.indep.precomp (g := fun i : Fin N => (i : ℕ)) Fin.val_injective
  have h1 := (iIndepFun_iff_map_fun_eq_pi_map hm).mp hi
  have e : (fun ω => vec N (fun i => z i ω)) = (WithLp.toLp 2 : (Fin N → ℝ) → EuclideanSpace ℝ (Fin N)) ∘ (fun ω i => z i ω) := rfl
  rw [e, ← AEMeasurable.map_map_of_aemeasurable (by fun_prop) hpi, h1, ← map_pi_eq_stdGaussian]
  congr 2
  funext i
  rw [(h.law i).map_eq]
  simp

theorem vec_add (N : ℕ) (s x : ℕ → ℝ) (hσ : 0 < σ) :
    ∑ i ∈ Finset.range N, (s i + σ * x i) ^ 2 = σ ^ 2 * ‖vec N (fun i => s i / σ) + vec N x‖ ^ 2 := by
  have e : vec N (fun i => s i / σ) + vec N x = vec N (fun i => s i / σ + x i) := rfl
  rw [e, vec_norm, Finset.mul_sum]
  refine Finset.sum_congr rfl fun i _ => ?_
  field_simp

/-- The chance that the energy of a recording is above a level. -/
theorem Spec.White.energy_above (h : White P 1 z) (hσ : 0 < σ) (N : ℕ) (s : ℕ → ℝ) (u : ℝ) :
    P.real {ω | u < ∑ i ∈ Finset.range N, (s i + σ * z i ω) ^ 2} = above (vec N (fun i => s i / σ)) (u / σ ^ 2) := by
  obtain ⟨hm, hl⟩ := h.vec_law N
  unfold above
  rw [measureReal_def, measureReal_def, ← hl, Measure.map_apply_of_aemeasurable hm (above_meas _ _)]
  congr 2
  ext ω
  show u < ∑ i ∈ Finset.range N, (s i + σ * z i ω) ^ 2 ↔ u / σ ^ 2 < ‖vec N (fun i => s i / σ) + vec N (fun i => z i ω)‖ ^ 2
  rw [vec_add N s _ hσ, div_lt_iff₀ (by positivity), mul_comm]

/-- Energies are never tied with a level. -/
theorem Spec.White.energy_ne (h : White P 1 z) (hσ : 0 < σ) {N : ℕ} (hN : 0 < N) (s : ℕ → ℝ) (u : ℝ) :
    ∀ᵐ ω ∂P, ∑ i ∈ Finset.range N, (s i + σ * z i ω) ^ 2 ≠ u := by
  obtain ⟨M, rfl⟩ : ∃ M, N = M + 1 := ⟨N - 1, by omega⟩
  obtain ⟨hm, hl⟩ := h.vec_law (M + 1)
  have := sphere_null (vec (M + 1) (fun i => s i / σ)) (u / σ ^ 2)
  rw [← hl, Measure.map_apply_of_aemeasurable hm (measurableSet_eq_fun (by fun_prop) measurable_const)] at this
  rw [ae_iff]
  refine measure_mono_null (fun ω hω => ?_) this
  have hω' : ∑ i ∈ Finset.range (M + 1), (s i + σ * z i ω) ^ 2 = u := not_not.mp hω
  show ‖vec (M + 1) (fun i => s i / σ) + vec (M + 1) (fun i => z i ω)‖ ^ 2 = u / σ ^ 2
  rw [eq_div_iff (by positivity), mul_comm, ← vec_add (M + 1) s _ hσ, hω']

/-- The chance that a recording has more energy than another stretch of noise. -/
theorem Spec.White.energy_beats (h : White P 1 z) (hy : White P 1 y) (hi : IndepFun (fun ω i => y i ω) (fun ω i => z i ω) P) (hσ : 0 < σ)
    (N : ℕ) (s : ℕ → ℝ) :
    P.real {ω | ∑ i ∈ Finset.range N, (σ * y i ω) ^ 2 < ∑ i ∈ Finset.range N, (s i + σ * z i ω) ^ 2} = beats (vec N (fun i => s i / σ)) := by
  have hP := h.prob
  obtain ⟨hm, hl⟩ := h.vec_law N
  obtain ⟨hm', hl'⟩ := hy.vec_law N
  have hv : Measurable (vec N) := by
    have e : vec N = (WithLp.toLp 2 : (Fin N → ℝ) → EuclideanSpace ℝ (Fin N)) ∘ fun f i => f i := rfl
    rw [e]
    fun_prop
  have hj := (indepFun_iff_map_prod_eq_prod_map_map hm' hm).mp (hi.comp hv hv)
  rw [hl, hl'] at hj
  unfold beats
  rw [measureReal_def, measureReal_def, ← hj, Measure.map_apply_of_aemeasurable (hm'.prodMk hm) (beats_meas _)]
  congr 2
  ext ω
  show ∑ i ∈ Finset.range N, (σ * y i ω) ^ 2 < ∑ i ∈ Finset.range N, (s i + σ * z i ω) ^ 2 ↔
    ‖vec N (fun i => y i ω)‖ ^ 2 < ‖vec N (fun i => s i / σ) + vec N (fun i => z i ω)‖ ^ 2
  rw [vec_add N s _ hσ, vec_norm N (fun i => y i ω)]
  simp only [mul_pow]
  rw [← Finset.mul_sum, mul_lt_mul_iff_right₀ (by positivity)]

end white
end Verif
