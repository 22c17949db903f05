import Mathlib.Analysis.SpecialFunctions.Complex.Log
/-! The discrete Fourier transform of a list of complex numbers, unnormalised in both directions. -/
namespace Verif.Spec

/-- Item `k` of the DFT (`σ = -1`) or unnormalised inverse DFT (`σ = 1`) of `x`. -/
noncomputable def dftAt (σ : ℤ) (x : List ℂ) (k : ℕ) : ℂ :=
  ∑ j ∈ Finset.range x.length,
    x.getD j 0 * Complex.exp (σ * (2 * Real.pi * Complex.I * (j * k / x.length)))

/-- The DFT (`σ = -1`) or the unnormalised inverse DFT (`σ = 1`). -/
noncomputable def dft (σ : ℤ) (x : List ℂ) : List ℂ := (List.range x.length).map (dftAt σ x)

end Verif.Spec
