import Mathlib.Analysis.SpecialFunctions.Complex.Log
/-! Multipath channels: delayed and weighted copies of a signal added up. -/
namespace Verif.Spec

/-- What arrives when `x` is sent over paths with the complex gains `h`, path `d` being `d` samples late.  Nothing is on
the air before `x`; what arrives after as many samples as were sent is not looked at. -/
noncomputable def channel (h x : List ℂ) : List ℂ :=
  (List.range x.length).map (fun i => ∑ d ∈ Finset.range h.length, if d ≤ i then h.getD d 0 * x.getD (i - d) 0 else 0)

/-- The gain of the channel at `f` periods in `n` samples. -/
noncomputable def response (n : ℕ) (h : List ℂ) (f : ℤ) : ℂ :=
  ∑ d ∈ Finset.range h.length, h.getD d 0 * Complex.exp (-(2 * Real.pi * Complex.I * (d * f / n)))

end Verif.Spec
