import Verif.Lemmas.FskNoise
import Verif.Lemmas.Chaos

/-! # Helpers for the chaotic links in noise -/
namespace Verif
set_option linter.unusedSectionVars false
open Spec MeasureTheory ProbabilityTheory

variable {Ω : Type} [MeasurableSpace Ω] {P : Measure Ω} {σ : ℝ} {w : ℕ → Ω → ℝ}

theorem proj_one (w : ℕ → Ω → ℝ) (i : ℕ) (ω : Ω) : proj 1 (fun _ => 1) (fun j => w (i + j)) ω = w i ω := by simp [proj]

/-- A sample of the noise is above a level. -/
theorem Spec.White.gt (h : White P σ w) (hσ : 0 < σ) (i : ℕ) (x : ℝ) : P.real {ω | x < w i ω} = Erfc (x / √(2 * σ ^ 2)) / 2 := by
  have := (h.shift i).proj_gt hσ (M := 1) (a := fun _ => 1) (by simp) x
  simpa only [proj_one, Finset.range_one, one_pow, Finset.sum_const, Finset.card_singleton, one_smul, mul_one] using this

theorem Spec.White.lt (h : White P σ w) (hσ : 0 < σ) (i : ℕ) (x : ℝ) : P.real {ω | w i ω < x} = Erfc (-x / √(2 * σ ^ 2)) / 2 := by
  have := (h.shift i).proj_lt hσ (M := 1) (a := fun _ => 1) (by simp) x
  simpa only [proj_one, Finset.range_one, one_pow, Finset.sum_const, Finset.card_singleton, one_smul, mul_one] using this

theorem Spec.White.ne (h : White P σ w) (hσ : 0 < σ) (i : ℕ) (x : ℝ) : ∀ᵐ ω ∂P, w i ω ≠ x := by
  have := (h.shift i).proj_ne hσ (M := 1) (a := fun _ => 1) (by simp) x
  simpa only [proj_one] using this

theorem bitError_sq (x σ : ℝ) : bitError (x ^ 2) σ = Erfc (|x| / √(2 * σ ^ 2)) / 2 := by
  unfold bitError
  rw [Real.sqrt_div (sq_nonneg x), Real.sqrt_sq_eq_abs]

/-- A positive amplitude in noise stays positive. -/
theorem Spec.White.stay (h : White P σ w) (hσ : 0 < σ) (i : ℕ) {x : ℝ} (hx : 0 < x) :
    P.real {ω | 0 < x + w i ω} = 1 - bitError (x ^ 2) σ := by
  have e : {ω | 0 < x + w i ω} = {ω | -x < w i ω} := by ext ω; show 0 < x + w i ω ↔ -x < w i ω; constructor <;> intro h <;> linarith
  rw [e, h.gt hσ, neg_div, Erfc_neg, bitError_sq, abs_of_pos hx]
  ring

/-- A negative one turns positive. -/
theorem Spec.White.turn (h : White P σ w) (hσ : 0 < σ) (i : ℕ) {x : ℝ} (hx : 0 < x) :
    P.real {ω | 0 < -x + w i ω} = bitError (x ^ 2) σ := by
  have e : {ω | 0 < -x + w i ω} = {ω | x < w i ω} := by ext ω; show 0 < -x + w i ω ↔ x < w i ω; constructor <;> intro h <;> linarith
  rw [e, h.gt hσ, bitError_sq, abs_of_pos hx]

/-- The product of two noisy amplitudes is positive. -/
theorem Spec.White.same_sign (h : White P σ w) (hσ : 0 < σ) {i j : ℕ} (hij : i ≠ j) (x y : ℝ) :
    P.real {ω | 0 < (x + w i ω) * (y + w j ω)}
      = P.real {ω | 0 < x + w i ω} * P.real {ω | 0 < y + w j ω} + (1 - P.real {ω | 0 < x + w i ω}) * (1 - P.real {ω | 0 < y + w j ω}) := by
  have hP := h.prob
  have hae : ∀ i, AEMeasurable (w i) P := fun i => (h.law i).aemeasurable
  have hi := h.indep.indepFun hij
  have hms : ∀ x : ℝ, MeasurableSet {t : ℝ | 0 < x + t} := fun x => measurableSet_lt (by fun_prop) (by fun_prop)
  have hms' : ∀ x : ℝ, MeasurableSet {t : ℝ | x + t ≤ 0} := fun x => measurableSet_le (by fun_prop) (by fun_prop)
  have n1 : ∀ i x, NullMeasurableSet {ω | 0 < x + w i ω} P := fun i x => (hae i).nullMeasurableSet_preimage (hms x)
  have n2 : ∀ i x, NullMeasurableSet {ω | x + w i ω ≤ 0} P := fun i x => (hae i).nullMeasurableSet_preimage (hms' x)
  have hc : ∀ i x, P.real {ω | x + w i ω ≤ 0} = 1 - P.real {ω | 0 < x + w i ω} := by
    intro i x
    rw [← probReal_compl_eq_one_sub₀ (n1 i x)]
    congr 1
    ext ω
    exact (not_lt (a := (0 : ℝ)) (b := x + w i ω)).symm
  have e1 : P.real ({ω | 0 < x + w i ω} ∩ {ω | 0 < y + w j ω}) = P.real {ω | 0 < x + w i ω} * P.real {ω | 0 < y + w j ω} := by
    have := hi.measure_inter_preimage_eq_mul _ _ (hms x) (hms y)
    rw [measureReal_def, measureReal_def, measureReal_def, ← ENNReal.toReal_mul]
    exact congrArg ENNReal.toReal this
  have e2 : P.real ({ω | x + w i ω ≤ 0} ∩ {ω | y + w j ω ≤ 0}) = P.real {ω | x + w i ω ≤ 0} * P.real {ω | y + w j ω ≤ 0} := by
    have := hi.measure_inter_preimage_eq_mul _ _ (hms' x) (hms' y)
    rw [measureReal_def, measureReal_def, measureReal_def, ← ENNReal.toReal_mul]
    exact congrArg ENNReal.toReal this
  rw [← hc, ← hc, ← e1, ← e2, ← measureReal_union₀ ((n2 i x).inter (n2 j y)) (Set.disjoint_left.mpr fun ω h1 h2 => by
    have a1 : 0 < x + w i ω := h1.1
    have a2 : x + w i ω ≤ 0 := h2.1
    linarith).aedisjoint]
  refine measureReal_congr ?_
  filter_upwards [h.ne hσ i (-x), h.ne hσ j (-y)] with ω z1 z2
  refine propext ⟨fun hp => ?_, fun hp => ?_⟩
  · have hp : 0 < (x + w i ω) * (y + w j ω) := hp
    rcases (mul_pos_iff.mp hp) with ⟨a, b⟩ | ⟨a, b⟩
    · exact Or.inl ⟨a, b⟩
    · exact Or.inr ⟨a.le, b.le⟩
  · show 0 < (x + w i ω) * (y + w j ω)
    rcases hp with ⟨a, b⟩ | ⟨a, b⟩
    · exact mul_pos a b
    · have a : x + w i ω ≤ 0 := a
      have b : y + w j ω ≤ 0 := b
      exact mul_pos_of_neg_of_neg (lt_of_le_of_ne a fun e => z1 (by linarith)) (lt_of_le_of_ne b fun e => z2 (by linarith))

/-- Two candidates at distance `d`: the noise moves the received value past the middle. -/
theorem Spec.White.nearer (h : White P σ w) (hσ : 0 < σ) (i : ℕ) {d : ℝ} (hd : d ≠ 0) :
    P.real {ω | ¬ |w i ω| < |d + w i ω|} = bitError ((d / 2) ^ 2) σ ∧ P.real {ω | |w i ω - d| < |w i ω|} = bitError ((d / 2) ^ 2) σ := by
  have hs : ∀ t : ℝ, |t| < |d + t| ↔ 0 < d * (d + 2 * t) := by
    intro t
    rw [← sq_lt_sq]
    constructor <;> intro h <;> nlinarith
  have hs' : ∀ t : ℝ, |t - d| < |t| ↔ d * (d - 2 * t) < 0 := by
    intro t
    rw [← sq_lt_sq]
    constructor <;> intro h <;> nlinarith
  rw [bitError_sq]
  rcases lt_or_gt_of_ne hd with hneg | hpos
  · constructor
    · have e : P.real {ω | ¬ |w i ω| < |d + w i ω|} = P.real {ω | -d / 2 < w i ω} := by
        refine measureReal_congr ?_
        filter_upwards [h.ne hσ i (-d / 2)] with ω hω
        refine propext ⟨fun hp => ?_, fun hp => ?_⟩
        · have hp : ¬ |w i ω| < |d + w i ω| := hp
          rw [hs, not_lt] at hp
          show -d / 2 < w i ω
          refine lt_of_le_of_ne ?_ (Ne.symm hω)
          by_contra hc
          nlinarith
        · have hp : -d / 2 < w i ω := hp
          show ¬ |w i ω| < |d + w i ω|
          rw [hs, not_lt]
          nlinarith
      rw [e, h.gt hσ, abs_of_neg (by linarith : d / 2 < 0), neg_div]
    · have e : {ω | |w i ω - d| < |w i ω|} = {ω | w i ω < d / 2} := by
        ext ω
        show |w i ω - d| < |w i ω| ↔ w i ω < d / 2
        rw [hs']
        constructor <;> intro h
        · by_contra hc; nlinarith
        · nlinarith
      rw [e, h.lt hσ, abs_of_neg (by linarith : d / 2 < 0)]
  · constructor
    · have e : P.real {ω | ¬ |w i ω| < |d + w i ω|} = P.real {ω | w i ω < -d / 2} := by
        refine measureReal_congr ?_
        filter_upwards [h.ne hσ i (-d / 2)] with ω hω
        refine propext ⟨fun hp => ?_, fun hp => ?_⟩
        · have hp : ¬ |w i ω| < |d + w i ω| := hp
          rw [hs, not_lt] at hp
          show w i ω < -d / 2
          refine lt_of_le_of_ne ?_ hω
          by_contra hc
          nlinarith
        · have hp : w i ω < -d / 2 := hp
          show ¬ |w i ω| < |d + w i ω|
          rw [hs, not_lt]
          nlinarith
      rw [e, h.lt hσ, abs_of_pos (by linarith : 0 < d / 2)]
      congr 2
      ring
    · have e : {ω | |w i ω - d| < |w i ω|} = {ω | d / 2 < w i ω} := by
        ext ω
        show |w i ω - d| < |w i ω| ↔ d / 2 < w i ω
        rw [hs']
        constructor <;> intro h
        · by_contra hc; nlinarith
        · nlinarith
      rw [e, h.gt hσ, abs_of_pos (by linarith : 0 < d / 2)]

theorem orbit_iterate (x : ℝ) (n : ℕ) : orbit (logisticMap (3.9 : ℝ)) x n = (fun t : ℝ => 3.9 * t * (1 - t))^[n + 1] x := by
  induction n with
  | zero => rfl
  | succ n ih => rw [Function.iterate_succ_apply', ← ih]; rfl

end Verif
