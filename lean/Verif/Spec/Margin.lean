import Verif.Spec.Gauss

/-! # Decisions with a margin -/
namespace Verif.Spec

/-- The chance that noise of standard deviation `σ` overturns a decision whose margin is `a` times the one of an undisturbed
antipodal signal of energy `E`; negative margins stand for decisions that are wrong without noise. -/
noncomputable def marginError (a E σ : ℝ) : ℝ := Erfc (a * √(E / (2 * σ ^ 2))) / 2

end Verif.Spec
