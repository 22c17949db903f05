import Verif.Lemmas.Radiometer

/-! # No decision between two signals in white Gaussian noise does better than the textbook bound -/
namespace Verif
open Spec MeasureTheory ProbabilityTheory Filter

/-! ## One sample -/

theorem gauss_shift (r : ℝ) {A : Set ℝ} (hA : MeasurableSet A) : gaussianReal 0 1 {x | r + x ∈ A} = gaussianReal r 1 A := by
  have h := gaussianReal_map_const_add (μ := 0) (v := 1) r
  rw [zero_add] at h
  rw [← h, Measure.map_apply (measurable_const_add r) hA]
  rfl

theorem gauss_half {r : ℝ} (hr : 0 ≤ r) {B : Set ℝ} (hB : MeasurableSet B) :
    (B ⊆ Set.Iic 0 → gaussianReal r 1 B ≤ gaussianReal (-r) 1 B) ∧ (B ⊆ Set.Ioi 0 → gaussianReal (-r) 1 B ≤ gaussianReal r 1 B) := by
  have key : ∀ x : ℝ, ∀ a b : ℝ, (x - b) ^ 2 ≤ (x - a) ^ 2 → gaussianPDF a 1 x ≤ gaussianPDF b 1 x := by
    intro x a b h
    unfold gaussianPDF gaussianPDFReal
    refine ENNReal.ofReal_le_ofReal (mul_le_mul_of_nonneg_left (Real.exp_le_exp.mpr ?_) (by positivity))
    simp only [NNReal.coe_one, mul_one]
    linarith
  constructor <;> intro hs
  · rw [gaussianReal_apply _ one_ne_zero, gaussianReal_apply _ one_ne_zero]
    refine setLIntegral_mono' hB fun x hx => key x _ _ ?_
    have : x ≤ 0 := hs hx
    nlinarith
  · rw [gaussianReal_apply _ one_ne_zero, gaussianReal_apply _ one_ne_zero]
    refine setLIntegral_mono' hB fun x hx => key x _ _ ?_
    have : 0 < x := hs hx
    nlinarith

/-- Two means at distance `2r`: no set tells them apart better than the half line. -/
theorem gauss_gap {r : ℝ} (hr : 0 ≤ r) {A : Set ℝ} (hA : MeasurableSet A) :
    (gaussianReal 0 1).real {x | r + x ∈ A} ≤ (gaussianReal 0 1).real {x | -r + x ∈ A} + (1 - Erfc (r / √2)) := by
  have e : ∀ s {B : Set ℝ}, MeasurableSet B → (gaussianReal 0 1).real {x | s + x ∈ B} = (gaussianReal s 1).real B := fun s B hB => by
    rw [measureReal_def, measureReal_def, gauss_shift s hB]
  have h1 : ∀ s : ℝ, (gaussianReal s 1).real (Set.Ioi 0) = Erfc (-s / √2) / 2 := fun s => by
    rw [← e s measurableSet_Ioi, ← tail_one]
    congr 1
    ext x
    show 0 < s + x ↔ -s < x
    constructor <;> intro h <;> linarith
  have hi : MeasurableSet (Set.Ioi (0 : ℝ)) := measurableSet_Ioi
  have p1 : (gaussianReal r 1).real (A ∩ Set.Iic 0) ≤ (gaussianReal (-r) 1).real (A ∩ Set.Iic 0) :=
    ENNReal.toReal_mono (measure_ne_top _ _) ((gauss_half hr (hA.inter measurableSet_Iic)).1 Set.inter_subset_right)
  have p2 : (gaussianReal (-r) 1).real (Set.Ioi 0 \ A) ≤ (gaussianReal r 1).real (Set.Ioi 0 \ A) :=
    ENNReal.toReal_mono (measure_ne_top _ _) ((gauss_half hr (hi.diff hA)).2 Set.sdiff_subset)
  have s1 : ∀ s : ℝ, (gaussianReal s 1).real A = (gaussianReal s 1).real (A ∩ Set.Ioi 0) + (gaussianReal s 1).real (A ∩ Set.Iic 0) := fun s => by
    rw [← measureReal_inter_add_sdiff (s := A) hi]
    congr 2
    ext x; simp
  have s2 : ∀ s : ℝ, (gaussianReal s 1).real (Set.Ioi 0) = (gaussianReal s 1).real (A ∩ Set.Ioi 0) + (gaussianReal s 1).real (Set.Ioi 0 \ A) := fun s => by
    rw [← measureReal_inter_add_sdiff (s := Set.Ioi 0) hA, Set.inter_comm]
  rw [e r hA, e (-r) hA, s1 r, s1 (-r)]
  have t1 := s2 r
  have t2 := s2 (-r)
  rw [h1, neg_div, Erfc_neg] at t1
  rw [h1, neg_neg] at t2
  linarith

/-! ## Any number of samples -/

theorem shift_first (N : ℕ) (r : ℝ) {D : Set (EuclideanSpace ℝ (Fin (N + 1)))} (hD : MeasurableSet D) :
    stdGaussian (EuclideanSpace ℝ (Fin (N + 1))) {x | first N r + x ∈ D} =
      ∫⁻ y : Fin N → ℝ, gaussianReal 0 1 {x | r + x ∈ {t : ℝ | WithLp.toLp 2 (Fin.cons t y) ∈ D}} ∂(Measure.pi fun _ => gaussianReal 0 1) := by
  have hc : Measurable fun q : ℝ × (Fin N → ℝ) => (WithLp.toLp 2 (Fin.cons (r + q.1) q.2) : EuclideanSpace ℝ (Fin (N + 1))) := by
    have : Measurable fun q : ℝ × (Fin N → ℝ) => (Fin.cons (r + q.1) q.2 : Fin (N + 1) → ℝ) := by
      refine measurable_pi_iff.mpr fun i => ?_
      refine Fin.cases ?_ (fun j => ?_) i
      · simp only [Fin.cons_zero]; fun_prop
      · simp only [Fin.cons_succ]; fun_prop
    exact (by fun_prop : Measurable (WithLp.toLp 2 : (Fin (N + 1) → ℝ) → _)).comp this
  have hm : MeasurableSet {q : ℝ × (Fin N → ℝ) | WithLp.toLp 2 (Fin.cons (r + q.1) q.2) ∈ D} := hc hD
  have hm' : MeasurableSet {x : EuclideanSpace ℝ (Fin (N + 1)) | first N r + x ∈ D} := (measurable_const_add (first N r)) hD
  rw [← map_pi_eq_stdGaussian, Measure.map_apply (by fun_prop) hm']
  have hp := measurePreserving_piFinSuccAbove (fun _ : Fin (N + 1) => gaussianReal 0 1) 0
  have e : WithLp.toLp 2 ⁻¹' {x | first N r + x ∈ D} =
      (MeasurableEquiv.piFinSuccAbove (fun _ : Fin (N + 1) => ℝ) 0) ⁻¹' {q | WithLp.toLp 2 (Fin.cons (r + q.1) q.2) ∈ D} := by
    ext x
    show first N r + WithLp.toLp 2 x ∈ D ↔ WithLp.toLp 2 (Fin.cons (r + x 0) (fun j : Fin N => x (Fin.succAbove 0 j))) ∈ D
    have : first N r + WithLp.toLp 2 x = WithLp.toLp 2 (Fin.cons (r + x 0) (fun j : Fin N => x (Fin.succAbove 0 j)) : Fin (N + 1) → ℝ) := by
      ext i
      refine Fin.cases ?_ (fun j => ?_) i
      · simp [first]
      · simp [first]
    rw [this]
  rw [e, hp.measure_preimage hm.nullMeasurableSet, Measure.prod_apply_symm hm]
  rfl

theorem shift_gap {N : ℕ} (a : EuclideanSpace ℝ (Fin N)) {D : Set (EuclideanSpace ℝ (Fin N))} (hD : MeasurableSet D) :
    (stdGaussian (EuclideanSpace ℝ (Fin N))).real {x | a + x ∈ D} ≤
      (stdGaussian (EuclideanSpace ℝ (Fin N))).real {x | -a + x ∈ D} + (1 - Erfc (‖a‖ / √2)) := by
  cases N with
  | zero =>
    rw [Subsingleton.elim a 0]
    simp [Erfc_zero]
  | succ N =>
    have h : ‖a‖ = ‖first N ‖a‖‖ := by rw [first_norm, abs_norm]
    set b := first N ‖a‖ with hb
    set R := Submodule.reflection (ℝ ∙ (a - b))ᗮ with hR
    have hab : R a = b := Submodule.reflection_sub h
    set D' := R ⁻¹' D with hD'
    have hRR : ∀ x, R (R x) = x := fun x => Submodule.reflection_reflection _ x
    have hDm : MeasurableSet D' := R.continuous.measurable hD
    have mv : ∀ c : EuclideanSpace ℝ (Fin (N + 1)), stdGaussian (EuclideanSpace ℝ (Fin (N + 1))) {x | c + x ∈ D} =
        stdGaussian (EuclideanSpace ℝ (Fin (N + 1))) {x | R c + x ∈ D'} := by
      intro c
      conv_lhs => rw [← stdGaussian_map R]
      have hm : MeasurableSet {x | c + x ∈ D} := (measurable_const_add c) hD
      rw [Measure.map_apply R.continuous.measurable hm]
      congr 1
      ext x
      show c + R x ∈ D ↔ R (R c + x) ∈ D
      rw [map_add, hRR]
    have hneg : -b = first N (-‖a‖) := by
      rw [hb]; unfold first
      ext i
      simp only [EuclideanSpace.single, PiLp.neg_apply, PiLp.single_apply]
      split_ifs <;> simp
    have hr := norm_nonneg a
    have hK : 0 ≤ 1 - Erfc (‖a‖ / √2) := by
      have := Erfc_strictAnti.antitone (by positivity : (0 : ℝ) ≤ ‖a‖ / √2)
      rw [Erfc_zero] at this
      linarith
    have key : stdGaussian (EuclideanSpace ℝ (Fin (N + 1))) {x | a + x ∈ D} ≤
        stdGaussian (EuclideanSpace ℝ (Fin (N + 1))) {x | -a + x ∈ D} + ENNReal.ofReal (1 - Erfc (‖a‖ / √2)) := by
      rw [mv, mv, map_neg, hab, hneg, hb, shift_first N _ hDm, shift_first N _ hDm]
      refine (lintegral_mono (g := fun y => gaussianReal 0 1 {x | -‖a‖ + x ∈ {t : ℝ | WithLp.toLp 2 (Fin.cons t y) ∈ D'}} +
        ENNReal.ofReal (1 - Erfc (‖a‖ / √2))) fun y => ?_).trans ?_
      · have hc : Measurable fun t : ℝ => (WithLp.toLp 2 (Fin.cons t y) : EuclideanSpace ℝ (Fin (N + 1))) := by
          have : Measurable fun t : ℝ => (Fin.cons t y : Fin (N + 1) → ℝ) := by
            refine measurable_pi_iff.mpr fun i => ?_
            refine Fin.cases ?_ (fun j => ?_) i
            · simp only [Fin.cons_zero]; fun_prop
            · simp only [Fin.cons_succ]; fun_prop
          exact (by fun_prop : Measurable (WithLp.toLp 2 : (Fin (N + 1) → ℝ) → _)).comp this
        have := ENNReal.ofReal_le_ofReal (gauss_gap hr (hc hDm))
        rw [ENNReal.ofReal_add measureReal_nonneg hK, ofReal_measureReal, ofReal_measureReal] at this
        exact this
      · rw [lintegral_add_right _ measurable_const, lintegral_const, measure_univ, mul_one]
    have := ENNReal.toReal_mono (ENNReal.add_ne_top.mpr ⟨measure_ne_top _ _, ENNReal.ofReal_ne_top⟩) key
    rw [ENNReal.toReal_add (measure_ne_top _ _) ENNReal.ofReal_ne_top, ENNReal.toReal_ofReal hK] at this
    exact this

/-! ## White noise -/
section white
variable {Ω : Type} [MeasurableSpace Ω] {P : Measure Ω} {σ : ℝ} {z : ℕ → Ω → ℝ}

/-- A decision between two signals. -/
theorem Spec.White.two_signals (h : White P 1 z) (hσ : 0 < σ) (N : ℕ) (s t : ℕ → ℝ) {rule : (Fin N → ℝ) → Bool} (hr : Measurable rule) :
    Erfc (√((∑ i ∈ Finset.range N, (s i - t i) ^ 2) / (8 * σ ^ 2))) / 2 ≤
      (P.real {ω | rule (fun i => s i + σ * z i ω) = false} + P.real {ω | rule (fun i => t i + σ * z i ω) = true}) / 2 := by
  have hP := h.prob
  obtain ⟨hm, hl⟩ := h.vec_law N
  -- the recordings, centred and scaled
  set D : Set (EuclideanSpace ℝ (Fin N)) := {x | rule (fun i => (s i + t i) / 2 + σ * x i) = true} with hD
  have hf : Measurable fun x : EuclideanSpace ℝ (Fin N) => (fun i => (s i + t i) / 2 + σ * x i : Fin N → ℝ) := by
    refine measurable_pi_iff.mpr fun i => ?_
    have : Measurable fun x : EuclideanSpace ℝ (Fin N) => x i := by fun_prop
    exact (this.const_mul σ).const_add _
  have hDm : MeasurableSet D := (hr.comp hf) (measurableSet_singleton true)
  set a := vec N (fun i => (s i - t i) / 2 / σ) with ha
  have hit : ∀ (u : ℕ → ℝ) (c : EuclideanSpace ℝ (Fin N)), (∀ i : Fin N, (s i + t i) / 2 + σ * c i = u i) →
      P.real {ω | rule (fun i => u i + σ * z i ω) = true} = (stdGaussian (EuclideanSpace ℝ (Fin N))).real {x | c + x ∈ D} := by
    intro u c hu
    have hm' : MeasurableSet {x | c + x ∈ D} := (measurable_const_add c) hDm
    rw [measureReal_def, measureReal_def, ← hl, Measure.map_apply_of_aemeasurable hm hm']
    congr 2
    ext ω
    show rule _ = true ↔ rule (fun i => (s i + t i) / 2 + σ * (c i + z i ω)) = true
    have : (fun i : Fin N => u i + σ * z i ω) = fun i : Fin N => (s i + t i) / 2 + σ * (c i + z i ω) := by
      funext i; rw [← hu i]; ring
    rw [this]
  have h1 := hit s a (fun i => by show (s i + t i) / 2 + σ * ((s i - t i) / 2 / σ) = s i; field_simp; ring)
  have h2 := hit t (-a) (fun i => by show (s i + t i) / 2 + σ * (-((s i - t i) / 2 / σ)) = t i; field_simp; ring)
  have hc : P.real {ω | rule (fun i => s i + σ * z i ω) = false} = 1 - P.real {ω | rule (fun i => s i + σ * z i ω) = true} := by
    have hs : NullMeasurableSet {ω | rule (fun i => s i + σ * z i ω) = true} P := by
      have hz' : AEMeasurable (fun ω (i : Fin N) => s i + σ * z i ω) P :=
        aemeasurable_pi_iff.mpr fun i => ((h.law i).aemeasurable.const_mul σ).const_add _
      exact (hr.comp_aemeasurable hz').nullMeasurableSet_preimage (measurableSet_singleton true)
    rw [← probReal_compl_eq_one_sub₀ hs]
    congr 1
    ext ω
    simp
  have hg := shift_gap a hDm
  have hn : ‖a‖ / √2 = √((∑ i ∈ Finset.range N, (s i - t i) ^ 2) / (8 * σ ^ 2)) := by
    rw [← Real.sqrt_sq (norm_nonneg a), ← Real.sqrt_div (sq_nonneg _), ha, vec_norm]
    congr 1
    rw [Finset.sum_div, Finset.sum_div]
    refine Finset.sum_congr rfl fun i _ => ?_
    field_simp
    ring
  rw [hn] at hg
  rw [hc, h1, h2]
  linarith

end white
end Verif
