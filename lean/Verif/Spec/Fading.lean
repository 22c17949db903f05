import Mathlib.Analysis.SpecialFunctions.Trigonometric.Basic

/-! A carrier whose strength and phase change from symbol to symbol. -/
namespace Verif.Spec

/-- `r` is a recording of `n` symbols of `k` samples: sample `i` is `s (i / k) i`. -/
def Recording (r : List ℝ) (n k : ℕ) (s : ℕ → ℕ → ℝ) : Prop :=
  r.length = n * k ∧ ∀ i < n * k, r[i]? = some (s (i / k) i)

/-- The phase of a carrier of frequency `f` at sample `i`. -/
noncomputable def angle (fs : ℕ) (f : ℝ) (i : ℕ) : ℝ := 2 * Real.pi * f * i / fs

end Verif.Spec
