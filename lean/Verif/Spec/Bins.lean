import Mathlib.Data.Real.Basic

/-! Frequencies on the bins of a block transform. -/
namespace Verif.Spec

/-- The frequency `f` makes a whole number of cycles in `n` samples, and is at most half the sample rate. -/
def OnBin (fs n : ℕ) (f : ℝ) : Prop := ∃ p : ℕ, p ≤ n / 2 ∧ f * n = p * fs

end Verif.Spec
