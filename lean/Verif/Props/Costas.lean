import Verif.Lemmas.Costas
import Mathlib.Analysis.Real.Pi.Bounds

/-! # Properties C50 and C51: Costas loop and root-raised-cosine filter -/
namespace Verif.Props
open Verif Verif.F64 Spec

/-! ## C50 Costas loop -/

/-- The claim: a fresh loop turns a non-zero sample of a finite signal into a non-zero output. -/
def C50_claim : Prop := ∀ (xs : List (Cx Float)) (i : ℕ) (x y : Cx Float), (∀ x ∈ xs, x.re.isFinite = true ∧ x.im.isFinite = true) →
  xs[i]? = some x → (CostasLoop.new.run xs)[i]? = some y → ¬ (val x.re = 0 ∧ val x.im = 0) → ¬ (val y.re = 0 ∧ val y.im = 0)

/-- What the code does (IEEE): on every finite signal a fresh loop outputs zeros only. -/
theorem C50_partial (xs : List (Cx Float)) (hfin : ∀ x ∈ xs, x.re.isFinite = true ∧ x.im.isFinite = true) :
    (CostasLoop.new.run xs).length = xs.length ∧
      ∀ y ∈ CostasLoop.new.run xs, Float.beq y.re 0 = true ∧ Float.beq y.im 0 = true := by
  refine ⟨costas_run_length _ _, fun y hy => ?_⟩
  obtain ⟨h1, h2⟩ := costas_run costasZ_new xs hfin y hy
  exact ⟨(beq_iff h1.1 fin_zero).mpr (h1.2.trans val_zero.symm), (beq_iff h2.1 fin_zero).mpr (h2.2.trans val_zero.symm)⟩

example : (CostasLoop.new.run [⟨1, -2⟩, ⟨(0.5 : Float), 3⟩]).length = 2 ∧
    ∀ y ∈ CostasLoop.new.run [⟨1, -2⟩, ⟨(0.5 : Float), 3⟩], Float.beq y.re 0 = true ∧ Float.beq y.im 0 = true :=
  C50_partial _ (by decide +kernel)

theorem C50_false : ¬ C50_claim := by
  intro h
  have hf : ∀ x ∈ [(⟨1, 0⟩ : Cx Float)], x.re.isFinite = true ∧ x.im.isFinite = true := by
    simp only [List.mem_singleton, forall_eq]
    exact ⟨fin_one, fin_zero⟩
  have hr := costas_run costasZ_new [⟨1, 0⟩] hf ((CostasLoop.new : CostasLoop Float).update ⟨1, 0⟩).1 (by simp [CostasLoop.run])
  refine h [⟨1, 0⟩] 0 ⟨1, 0⟩ _ hf rfl rfl ?_ ⟨hr.1.2, hr.2.2⟩
  rintro ⟨h1, -⟩
  rw [show (⟨1, 0⟩ : Cx Float).re = 1 from rfl, val_one] at h1
  exact one_ne_zero h1

/-! ## C51 root-raised-cosine filter -/

theorem C51_length {F : Type} [Add F] [Sub F] [Mul F] [Div F] [Neg F] [Zero F] [One F] [Flt F] (taps : ℕ) (β T fs : F) :
    (rrcosfilter taps β T fs).length = taps := by simp [rrcosfilter]

/-- The claim, exact arithmetic: every tap is the impulse response at its time. -/
def C51_claim : Prop := ∀ (taps : ℕ) (β T fs : ℝ), 0 ≤ β → β ≤ 1 → 0 < T → 0 < fs → ∀ i < taps,
  (rrcosfilter taps β T fs)[i]? = some (rrc β T (((i : ℝ) - taps / 2) / fs))

theorem tap_getElem? {taps i : ℕ} {β T fs : ℝ} (hi : i < taps) :
    (rrcosfilter taps β T fs)[i]? = some (rrcosTap β T (((i : ℝ) - taps / 2) / fs)) := by
  unfold rrcosfilter
  rw [List.getElem?_map, List.getElem?_range hi, Option.map_some, rrcosTime_real]

/-- It fails when the symbol length is not 1: the factor `1/T` is applied to part of the formula only.
Centre tap, `β = 1`, `T = 2`. -/
theorem C51_false : ¬ C51_claim := by
  intro h
  have h1 := h 2 1 2 1 (by norm_num) le_rfl (by norm_num) (by norm_num) 1 (by norm_num)
  rw [tap_getElem? (by norm_num), Option.some.injEq] at h1
  norm_num [rrcosTap_real, rrc] at h1
  have hp := Real.pi_pos
  field_simp at h1
  have := Real.pi_lt_d2
  linarith

/-- It also fails for `T = 1` at the singular time `T/(4β)`, in IEEE arithmetic with any mathematical library: for
`β = 1/4`, `T = 1`, 4 taps at rate 1, the last tap is infinite or NaN. -/
theorem C51_singular_not_finite (L : Libm) :
    ∃ x : FloatL L, (rrcosfilter 4 (Flt.ofNat 1 / Flt.ofNat 4 : FloatL L) 1 1)[3]? = some x ∧ Float.isFinite x = false := by
  refine ⟨rrcosTap (Flt.ofNat 1 / Flt.ofNat 4 : FloatL L) 1 (rrcosTime 4 1 3), rfl, ?_⟩
  have c1 : Flt.eq (rrcosTime 4 1 3 : FloatL L) 0 = false :=
    (show Flt.eq (rrcosTime 4 1 3 : Float) 0 = false by decide +kernel)
  have c2 : (!Flt.eq (Flt.ofNat 1 / Flt.ofNat 4 : FloatL L) 0 && (Flt.eq (rrcosTime 4 1 3)
      (1 / (Flt.ofNat 2 * (Flt.ofNat 1 / Flt.ofNat 4 : FloatL L)))
      || Flt.eq 1 (-1 / (Flt.ofNat 2 * (Flt.ofNat 1 / Flt.ofNat 4 : FloatL L))))) = false :=
    (show (!Flt.eq (Flt.ofNat 1 / Flt.ofNat 4 : Float) 0 && (Flt.eq (rrcosTime 4 1 3)
      (1 / (Flt.ofNat 2 * (Flt.ofNat 1 / Flt.ofNat 4 : Float)))
      || Flt.eq 1 (-1 / (Flt.ofNat 2 * (Flt.ofNat 1 / Flt.ofNat 4 : Float))))) = false by decide +kernel)
  have c3 : (Flt.pi * rrcosTime 4 1 3 / 1 * (1 - powi (Flt.ofNat 4 * (Flt.ofNat 1 / Flt.ofNat 4) * rrcosTime 4 1 3 / 1) 2) : Float)
      = 0 := by decide +kernel
  have c4 : ∀ x : Float, (x / 0).isFinite = false := fun x => Bool.eq_false_iff.mpr (not_fin_div_zero x)
  unfold rrcosTap
  rw [c1, c2]
  refine (congrArg (fun d : Float => Float.isFinite ((1 / 1 * L.sin (Flt.pi * rrcosTime 4 1 3 / 1 * (1 - Flt.ofNat 1 / Flt.ofNat 4 : Float))
    + Flt.ofNat 4 * (Flt.ofNat 1 / Flt.ofNat 4) * rrcosTime 4 1 3 / 1 * L.cos (Flt.pi * rrcosTime 4 1 3 / 1
      * (1 + Flt.ofNat 1 / Flt.ofNat 4)) : Float) / d)) c3).trans (c4 _)

/-- Where it holds: symbol length 1 and times other than `±1/(4β)` (the true singularities) and `1/(2β)` (which the code
takes for one). -/
theorem C51_partial {taps i : ℕ} {β fs : ℝ} (hβ : 0 ≤ β) (_hfs : fs ≠ 0) (hi : i < taps)
    (h1 : 4 * β * (((i : ℝ) - taps / 2) / fs) ≠ 1) (h2 : 4 * β * (((i : ℝ) - taps / 2) / fs) ≠ -1)
    (h3 : 2 * β * (((i : ℝ) - taps / 2) / fs) ≠ 1) :
    (rrcosfilter taps β 1 fs)[i]? = some (rrc β 1 (((i : ℝ) - taps / 2) / fs)) := by
  rw [tap_getElem? hi, rrcosTap_real]
  congr 1
  unfold rrc
  generalize ((i : ℝ) - taps / 2) / fs = t at *
  by_cases h0 : t = 0
  · rw [if_pos h0, if_pos h0]; ring
  · rw [if_neg h0, if_neg h0, if_neg, if_neg (by tauto)]
    · ring
    · rintro ⟨hb, h | h⟩
      · rw [eq_div_iff (by positivity)] at h
        exact h3 (by linarith)
      · rw [eq_div_iff (by positivity)] at h
        have : 0 ≤ 1 * (2 * β) := by positivity
        linarith

/-- Symmetry about the centre, apart from the time the code takes for a singularity. -/
theorem C51_symmetric_partial {taps i : ℕ} {β T fs : ℝ} (hβ : 0 ≤ β) (hT : 0 < T) (_hfs : fs ≠ 0) (h0 : 0 < i)
    (hi : i < taps)
    (h1 : 2 * β * (((i : ℝ) - taps / 2) / fs) ≠ T) (h2 : 2 * β * (((i : ℝ) - taps / 2) / fs) ≠ -T) :
    (rrcosfilter taps β T fs)[taps - i]? = (rrcosfilter taps β T fs)[i]? := by
  rw [tap_getElem? hi, tap_getElem? (by omega), Nat.cast_sub hi.le]
  have e : ((taps : ℝ) - i - taps / 2) / fs = -(((i : ℝ) - taps / 2) / fs) := by ring
  rw [e]
  congr 1
  generalize ((i : ℝ) - taps / 2) / fs = t at *
  rw [rrcosTap_real, rrcosTap_real]
  have hn : ∀ u : ℝ, 2 * β * u ≠ T → ¬ (β ≠ 0 ∧ (u = T / (2 * β) ∨ T = -T / (2 * β))) := by
    rintro u hu ⟨hb, h | h⟩
    · rw [eq_div_iff (by positivity)] at h
      exact hu (by linarith)
    · rw [eq_div_iff (by positivity)] at h
      have : 0 ≤ T * (2 * β) := by positivity
      linarith
  rw [if_neg (hn t h1), if_neg (hn (-t) (by intro h; apply h2; linarith))]
  by_cases h0 : t = 0
  · simp [h0]
  · rw [if_neg h0, if_neg (neg_ne_zero.mpr h0), show Real.pi * -t / T * (1 - β) = -(Real.pi * t / T * (1 - β)) by ring,
      Real.sin_neg, show Real.pi * -t / T * (1 + β) = -(Real.pi * t / T * (1 + β)) by ring, Real.cos_neg,
      show Real.pi * -t / T * (1 - (4 * β * -t / T) ^ 2) = -(Real.pi * t / T * (1 - (4 * β * t / T) ^ 2)) by ring,
      show 1 / T * -Real.sin (Real.pi * t / T * (1 - β)) + 4 * β * -t / T * Real.cos (Real.pi * t / T * (1 + β))
        = -(1 / T * Real.sin (Real.pi * t / T * (1 - β)) + 4 * β * t / T * Real.cos (Real.pi * t / T * (1 + β))) by ring,
      neg_div_neg_eq]

example : (rrcosfilter 100 (0.35 : ℝ) 1 1)[97]? = (rrcosfilter 100 (0.35 : ℝ) 1 1)[3]? :=
  C51_symmetric_partial (taps := 100) (i := 3) (by norm_num) (by norm_num) (by norm_num) (by norm_num) (by norm_num) (by norm_num) (by norm_num)

/-- The specification is right at its special points: there the response is the limit of its values around them. -/
theorem C51_spec_continuous {β T : ℝ} (hβ : 0 < β) (hT : 0 < T) :
    Filter.Tendsto (rrc β T) (nhdsWithin 0 {0}ᶜ) (nhds (rrc β T 0)) ∧
    Filter.Tendsto (rrc β T) (nhdsWithin (T / (4 * β)) {T / (4 * β)}ᶜ) (nhds (rrc β T (T / (4 * β)))) ∧
    ∀ t, rrc β T (-t) = rrc β T t := ⟨rrc_tendsto_zero hT, rrc_tendsto_sing hβ hT, rrc_even β T⟩

example : Filter.Tendsto (rrc 0.5 1) (nhdsWithin (1 / 2) {1 / 2}ᶜ) (nhds (rrc 0.5 1 (1 / 2))) := by
  have := (C51_spec_continuous (β := 0.5) (T := 1) (by norm_num) (by norm_num)).2.1
  norm_num at this ⊢; exact this

/-- The parameters of the repository's test: 101 taps, roll-off 0.35. -/
example {i : ℕ} (hi : i < 101) : (rrcosfilter 101 (0.35 : ℝ) 1 1)[i]? = some (rrc 0.35 1 (((i : ℝ) - (101 : ℕ) / 2) / 1)) := by
  have key : ∀ (a b : ℤ), a * (2 * (i : ℤ) - 101) ≠ b → (a : ℝ) * (2 * (i : ℝ) - 101) ≠ b := by
    intro a b h h'; apply h; exact_mod_cast h'
  refine C51_partial (by norm_num) (by norm_num) hi ?_ ?_ ?_ <;> intro h
  · exact key 7 10 (by omega) (by push_cast at h ⊢; linarith)
  · exact key 7 (-10) (by omega) (by push_cast at h ⊢; linarith)
  · exact key 7 20 (by omega) (by push_cast at h ⊢; linarith)

end Verif.Props
