import Mathlib.Analysis.SpecialFunctions.Trigonometric.Basic
import Mathlib.Algebra.BigOperators.Group.Finset.Basic
/-! Reference waveforms over the reals. -/
namespace Verif.Spec

/-- A linear chirp of duration `T` whose instantaneous frequency goes from `a` at time `0` to `b` at time `T`: the phase
is `2π` times the integral of `a + (b - a)·t/T`. -/
noncomputable def chirpSample (a b T t : ℝ) : ℝ := Real.cos (2 * Real.pi * (a * t + (b - a) / T * (t ^ 2 / 2)))

/-- Energy of a block at angular frequency `w` per sample: squared modulus of its correlation with `exp(i·w·j)`. -/
noncomputable def toneEnergy (w : ℝ) (k : ℕ) (x : ℕ → ℝ) : ℝ :=
  (∑ j ∈ Finset.range k, x j * Real.cos (w * j)) ^ 2 + (∑ j ∈ Finset.range k, x j * Real.sin (w * j)) ^ 2

end Verif.Spec
