import Verif.Model.Costas
import Verif.Spec.Rrc
import Verif.F64.Libm
import Mathlib.Analysis.SpecialFunctions.Trigonometric.Deriv
import Mathlib.Analysis.Calculus.Deriv.Slope

/-! Costas loop and root-raised-cosine filter: lemmas. -/
namespace Verif
open F64

/-- `x` is finite with value zero, i.e. `0.0` or `-0.0`. -/
def F64.IsZ (x : Float) : Prop := Fin x ∧ val x = 0

theorem F64.IsZ.mul_left {a b : Float} (ha : IsZ a) (hb : Fin b) : IsZ (a * b) := by
  have e : rnd (val a * val b) = 0 := by rw [ha.2, zero_mul, rnd_zero]
  obtain ⟨h1, h2⟩ := mul_val ha.1 hb (by rw [e, abs_zero]; exact huge_pos)
  exact ⟨h1, by rw [h2, e]⟩

theorem F64.IsZ.mul_right {a b : Float} (ha : Fin a) (hb : IsZ b) : IsZ (a * b) := by
  have e : rnd (val a * val b) = 0 := by rw [hb.2, mul_zero, rnd_zero]
  obtain ⟨h1, h2⟩ := mul_val ha hb.1 (by rw [e, abs_zero]; exact huge_pos)
  exact ⟨h1, by rw [h2, e]⟩

theorem F64.IsZ.add {a b : Float} (ha : IsZ a) (hb : IsZ b) : IsZ (a + b) := by
  have e : rnd (val a + val b) = 0 := by rw [ha.2, hb.2, add_zero, rnd_zero]
  obtain ⟨h1, h2⟩ := add_val ha.1 hb.1 (by rw [e, abs_zero]; exact huge_pos)
  exact ⟨h1, by rw [h2, e]⟩

theorem F64.IsZ.sub {a b : Float} (ha : IsZ a) (hb : IsZ b) : IsZ (a - b) := by
  have e : rnd (val a - val b) = 0 := by rw [ha.2, hb.2, sub_zero, rnd_zero]
  obtain ⟨h1, h2⟩ := sub_val ha.1 hb.1 (by rw [e, abs_zero]; exact huge_pos)
  exact ⟨h1, by rw [h2, e]⟩

theorem F64.isZ_zero : IsZ 0 := ⟨fin_zero, val_zero⟩

/-- The state of a loop that has only seen finite samples. -/
structure CostasZ (s : CostasLoop Float) : Prop where
  alpha : Fin s.alpha
  beta : Fin s.beta
  phase : IsZ s.vco_phase
  freq : IsZ s.vco_freq

theorem costas_step {s : CostasLoop Float} (h : CostasZ s) {x : Cx Float} (hr : Fin x.re) (hi : Fin x.im) :
    IsZ (s.update x).1.re ∧ IsZ (s.update x).1.im ∧ CostasZ (s.update x).2 := by
  have v1 : IsZ (s.vco_phase * 0) := h.phase.mul_left fin_zero
  have v2 : IsZ (s.vco_phase * -1) := h.phase.mul_left (neg_fin.mpr fin_one)
  have o1 : IsZ (x.re * (s.vco_phase * 0) - x.im * (s.vco_phase * -1)) := (IsZ.mul_right hr v1).sub (IsZ.mul_right hi v2)
  have o2 : IsZ (x.re * (s.vco_phase * -1) + x.im * (s.vco_phase * 0)) := (IsZ.mul_right hr v2).add (IsZ.mul_right hi v1)
  have e := o1.mul_left o2.1
  have f := h.freq.add (IsZ.mul_right h.beta e)
  exact ⟨o1, o2, h.alpha, h.beta, h.phase.add ((IsZ.mul_right h.alpha e).add f), f⟩

theorem costas_run {s : CostasLoop Float} (h : CostasZ s) (l : List (Cx Float)) (hl : ∀ x ∈ l, Fin x.re ∧ Fin x.im) :
    ∀ y ∈ s.run l, IsZ y.re ∧ IsZ y.im := by
  induction l generalizing s with
  | nil => intro y hy; simp [CostasLoop.run] at hy
  | cons x l ih =>
    obtain ⟨h1, h2, h3⟩ := costas_step h (hl x (by simp)).1 (hl x (by simp)).2
    intro y hy
    rw [CostasLoop.run, List.mem_cons] at hy
    rcases hy with rfl | hy
    · exact ⟨h1, h2⟩
    · exact ih h3 (fun x hx => hl x (by simp [hx])) y hy

theorem costasZ_new : CostasZ CostasLoop.new where
  alpha := by show Fin (F64.lit 132 3); decide +kernel
  beta := by show Fin (F64.lit 932 5); decide +kernel
  phase := isZ_zero
  freq := isZ_zero

theorem costas_run_length {F : Type} [Add F] [Sub F] [Mul F] [Div F] [Neg F] [Zero F] [One F] [Flt F] (s : CostasLoop F)
    (l : List (Cx F)) : (s.run l).length = l.length := by
  induction l generalizing s with
  | nil => rfl
  | cons x l ih => rw [CostasLoop.run, List.length_cons, List.length_cons, ih]

/-! ### Root-raised-cosine -/

section rrc
open Real Filter Topology Spec

theorem tendsto_div_of_deriv {N D : ℝ → ℝ} {a n d : ℝ} (hN : HasDerivAt N n a) (hD : HasDerivAt D d a) (h0 : N a = 0)
    (h1 : D a = 0) (hd : d ≠ 0) : Tendsto (fun t => N t / D t) (𝓝[≠] a) (𝓝 (n / d)) := by
  have s1 := hasDerivAt_iff_tendsto_slope.mp hN
  have s2 := hasDerivAt_iff_tendsto_slope.mp hD
  refine (s1.div s2 hd).congr' ?_
  filter_upwards [self_mem_nhdsWithin] with t ht
  have ht' : t - a ≠ 0 := sub_ne_zero.mpr ht
  simp only [Pi.div_apply, slope_def_field, h0, h1, sub_zero]
  field_simp

/-- Numerator and denominator of the impulse response. -/
noncomputable def rrcN (β T t : ℝ) : ℝ := sin (π * t / T * (1 - β)) + 4 * β * t / T * cos (π * t / T * (1 + β))
noncomputable def rrcD (β T t : ℝ) : ℝ := π * t / T * (1 - (4 * β * t / T) ^ 2)

theorem rrcN_deriv (β T t : ℝ) : HasDerivAt (rrcN β T)
    (cos (π * t / T * (1 - β)) * (π / T * (1 - β)) + (4 * β / T * cos (π * t / T * (1 + β))
      + 4 * β * t / T * (-sin (π * t / T * (1 + β)) * (π / T * (1 + β))))) t := by
  have hid := hasDerivAt_id t
  have h1 : HasDerivAt (fun t : ℝ => π * t / T * (1 - β)) (π / T * (1 - β)) t := by
    have := ((hid.const_mul π).div_const T).mul_const (1 - β)
    simpa using this
  have h2 : HasDerivAt (fun t : ℝ => π * t / T * (1 + β)) (π / T * (1 + β)) t := by
    have := ((hid.const_mul π).div_const T).mul_const (1 + β)
    simpa using this
  have h3 : HasDerivAt (fun t : ℝ => 4 * β * t / T) (4 * β / T) t := by
    have := (hid.const_mul (4 * β)).div_const T
    simpa using this
  exact h1.sin.add (h3.mul h2.cos)

theorem rrcD_deriv (β T t : ℝ) : HasDerivAt (rrcD β T)
    (π / T * (1 - (4 * β * t / T) ^ 2) + π * t / T * (-(2 * (4 * β * t / T) * (4 * β / T)))) t := by
  have hid := hasDerivAt_id t
  have h1 : HasDerivAt (fun t : ℝ => π * t / T) (π / T) t := by
    have := (hid.const_mul π).div_const T
    simpa using this
  have h3 : HasDerivAt (fun t : ℝ => 4 * β * t / T) (4 * β / T) t := by
    have := (hid.const_mul (4 * β)).div_const T
    simpa using this
  have h4 := (h3.pow 2).const_sub 1
  have h5 := h1.mul h4
  refine h5.congr_deriv ?_
  simp

theorem rrc_generic {β T t : ℝ} (h0 : t ≠ 0) (h1 : 4 * β * t ≠ T) (h2 : 4 * β * t ≠ -T) :
    rrc β T t = 1 / T * (rrcN β T t / rrcD β T t) := by
  unfold rrc rrcN rrcD
  rw [if_neg h0, if_neg (by tauto)]

theorem rrc_even (β T t : ℝ) : rrc β T (-t) = rrc β T t := by
  have e0 : (-t = 0) ↔ t = 0 := neg_eq_zero
  have e1 : (4 * β * -t = T ∨ 4 * β * -t = -T) ↔ (4 * β * t = T ∨ 4 * β * t = -T) := by
    constructor <;> rintro (h | h)
    · right; linarith
    · left; linarith
    · right; linarith
    · left; linarith
  unfold rrc
  by_cases h0 : t = 0
  · rw [if_pos h0, if_pos (e0.mpr h0)]
  · rw [if_neg h0, if_neg (fun h => h0 (e0.mp h))]
    by_cases h1 : 4 * β * t = T ∨ 4 * β * t = -T
    · rw [if_pos h1, if_pos (e1.mpr h1)]
    · rw [if_neg h1, if_neg (fun h => h1 (e1.mp h))]
      congr 1
      rw [show π * -t / T * (1 - β) = -(π * t / T * (1 - β)) by ring, sin_neg,
        show π * -t / T * (1 + β) = -(π * t / T * (1 + β)) by ring, cos_neg,
        show π * -t / T * (1 - (4 * β * -t / T) ^ 2) = -(π * t / T * (1 - (4 * β * t / T) ^ 2)) by ring,
        show -sin (π * t / T * (1 - β)) + 4 * β * -t / T * cos (π * t / T * (1 + β))
          = -(sin (π * t / T * (1 - β)) + 4 * β * t / T * cos (π * t / T * (1 + β))) by ring, neg_div_neg_eq]

/-- The value given at `t = 0` is the limit. -/
theorem rrc_tendsto_zero {β T : ℝ} (hT : 0 < T) : Tendsto (rrc β T) (𝓝[≠] 0) (𝓝 (rrc β T 0)) := by
  have hp := pi_pos
  have h := tendsto_div_of_deriv (rrcN_deriv β T 0) (rrcD_deriv β T 0) (by simp [rrcN]) (by simp [rrcD])
    (by simp; exact hT.ne')
  have h' := h.const_mul (1 / T)
  have e : rrc β T 0 = 1 / T * ((cos (π * 0 / T * (1 - β)) * (π / T * (1 - β)) + (4 * β / T * cos (π * 0 / T * (1 + β))
      + 4 * β * 0 / T * (-sin (π * 0 / T * (1 + β)) * (π / T * (1 + β))))) /
      (π / T * (1 - (4 * β * 0 / T) ^ 2) + π * 0 / T * (-(2 * (4 * β * 0 / T) * (4 * β / T))))) := by
    unfold rrc
    rw [if_pos rfl]
    simp
    field_simp
    ring_nf
    simp
  rw [e]
  refine h'.congr' ?_
  have hc : ContinuousAt (fun t : ℝ => 4 * β * t) 0 := by fun_prop
  have n1 : ∀ᶠ t in 𝓝 (0 : ℝ), 4 * β * t ≠ T := hc.eventually_ne (by simp; exact hT.ne)
  have n2 : ∀ᶠ t in 𝓝 (0 : ℝ), 4 * β * t ≠ -T := hc.eventually_ne (by simp; exact hT.ne')
  filter_upwards [self_mem_nhdsWithin, nhdsWithin_le_nhds n1, nhdsWithin_le_nhds n2] with t ht h1 h2
  exact (rrc_generic ht h1 h2).symm

/-- The value given at `t = T/(4β)` is the limit. -/
theorem rrc_tendsto_sing {β T : ℝ} (hβ : 0 < β) (hT : 0 < T) :
    Tendsto (rrc β T) (𝓝[≠] (T / (4 * β))) (𝓝 (rrc β T (T / (4 * β)))) := by
  have hp := pi_pos
  set a := T / (4 * β) with ha
  have ha0 : 0 < a := by positivity
  have hx : 4 * β * a = T := by rw [ha]; field_simp
  have hx' : 4 * β * a / T = 1 := by rw [hx, div_self hT.ne']
  have e1 : π * a / T * (1 - β) = π / (4 * β) - π / 4 := by rw [ha]; field_simp
  have e2 : π * a / T * (1 + β) = π / (4 * β) + π / 4 := by rw [ha]; field_simp
  have hs : sin (π / 4) = √2 / 2 := sin_pi_div_four
  have hcq : cos (π / 4) = √2 / 2 := cos_pi_div_four
  have h2 : (√2) * √2 = 2 := mul_self_sqrt (by norm_num)
  have h20 : (0 : ℝ) < √2 := by positivity
  have hN0 : rrcN β T a = 0 := by
    unfold rrcN
    rw [e1, e2, hx', sin_sub, cos_add, hs, hcq]; ring
  have hD0 : rrcD β T a = 0 := by unfold rrcD; rw [hx']; ring
  have ed : π / T * (1 - (4 * β * a / T) ^ 2) + π * a / T * (-(2 * (4 * β * a / T) * (4 * β / T))) = -(2 * π / T) := by
    rw [hx', ha]; field_simp; ring
  have h := tendsto_div_of_deriv (rrcN_deriv β T a) (rrcD_deriv β T a) hN0 hD0 (by rw [ed]; exact neg_ne_zero.mpr (by positivity))
  rw [ed, e1, e2, hx'] at h
  have h' := h.const_mul (1 / T)
  have e : rrc β T a = 1 / T * ((cos (π / (4 * β) - π / 4) * (π / T * (1 - β)) + (4 * β / T * cos (π / (4 * β) + π / 4)
      + 1 * (-sin (π / (4 * β) + π / 4) * (π / T * (1 + β))))) / -(2 * π / T)) := by
    unfold rrc
    rw [if_neg ha0.ne', if_pos (.inl hx), cos_sub, cos_add, sin_add, hs, hcq]
    generalize sin (π / (4 * β)) = s
    generalize cos (π / (4 * β)) = c
    have h3 : (1 : ℝ) / √2 = √2 / 2 := by field_simp; linarith
    have : β / (T * √2) = β / T * (√2 / 2) := by rw [← h3]; field_simp
    rw [this]
    field_simp
    ring
  rw [e]
  refine h'.congr' ?_
  have hc : ContinuousAt (fun t : ℝ => 4 * β * t) a := by fun_prop
  have n2 : ∀ᶠ t in 𝓝 a, 4 * β * t ≠ -T := hc.eventually_ne (by rw [hx]; linarith)
  have n3 : ∀ᶠ t in 𝓝 a, t ≠ 0 := continuousAt_id.eventually_ne ha0.ne'
  filter_upwards [self_mem_nhdsWithin, nhdsWithin_le_nhds n2, nhdsWithin_le_nhds n3] with t ht h2 h3
  refine (rrc_generic h3 (fun h1 => ht ?_) h2).symm
  show t = a
  rw [ha, ← h1]; field_simp

theorem rrcosTap_real (β T t : ℝ) : rrcosTap β T t =
    if t = 0 then 1 / T + β * (4 / π - 1)
    else if β ≠ 0 ∧ (t = T / (2 * β) ∨ T = -T / (2 * β)) then
      β / (T * √2) * ((1 + 2 / π) * sin (π / (4 * β)) + (1 - 2 / π) * cos (π / (4 * β)))
    else (1 / T * sin (π * t / T * (1 - β)) + 4 * β * t / T * cos (π * t / T * (1 + β)))
      / (π * t / T * (1 - (4 * β * t / T) ^ 2)) := by
  unfold rrcosTap
  simp only [Flt.eq_real, Flt.ofNat_real, Flt.pi_real, Flt.sqrt_real, Flt.sin_real, Flt.cos_real, powi_real]
  by_cases h0 : t = 0
  · simp [h0]
  · by_cases h1 : β ≠ 0 ∧ (t = T / (2 * β) ∨ T = -T / (2 * β))
    · rw [if_neg (by simpa using h0), if_pos (by simpa using h1), if_neg h0, if_pos h1]; norm_num
    · rw [if_neg (by simpa using h0), if_neg (by simpa using h1), if_neg h0, if_neg h1]; norm_num

theorem rrcosTime_real (taps : ℕ) (fs : ℝ) (i : ℕ) : rrcosTime taps fs i = ((i : ℝ) - taps / 2) / fs := by
  unfold rrcosTime; simp

end rrc
end Verif
