import Mathlib.Analysis.SpecialFunctions.Complex.Log
/-! The strip spectral correlation analyser (SSCA) of the literature. -/
namespace Verif.Spec

/-- The (periodic) Hamming window of length `n`. -/
noncomputable def hammingW (n i : ℕ) : ℝ := 0.54 - 0.46 * Real.cos (2 * Real.pi * i / n)

/-- The SSCA at strip `k` of `np` and bin `q` of `n`, both centred: the demodulate of channel `k - np/2`, multiplied by the
conjugated centre sample, windowed and transformed at bin `q - n/2`. -/
noncomputable def ssca (s : ℕ → ℝ) (n np q k : ℕ) : ℂ :=
  ∑ i ∈ Finset.range n, ∑ j ∈ Finset.range np,
    (hammingW n i * hammingW np j * s (i + np / 2) * s (i + j) : ℝ)
      * Complex.exp (-(2 * Real.pi * Complex.I
          * (((i + j : ℕ) : ℂ) * ((k : ℂ) - ((np / 2 : ℕ) : ℂ)) / np + (i : ℂ) * ((q : ℂ) - ((n / 2 : ℕ) : ℂ)) / n)))

/-- The symmetric Hamming window of length `n ≥ 2`. -/
noncomputable def hammingSym (n i : ℕ) : ℝ := 0.54 - 0.46 * Real.cos (2 * Real.pi * i / ((n : ℝ) - 1))

/-- The same analysis with arbitrary windows: `wn` over the `n` demodulates, `wp` over the `np` samples of a channel. -/
noncomputable def sscaWith (wn wp : ℕ → ℝ) (s : ℕ → ℝ) (n np q k : ℕ) : ℂ :=
  ∑ i ∈ Finset.range n, ∑ j ∈ Finset.range np,
    (wn i * wp j * s (i + np / 2) * s (i + j) : ℝ)
      * Complex.exp (-(2 * Real.pi * Complex.I
          * (((i + j : ℕ) : ℂ) * ((k : ℂ) - ((np / 2 : ℕ) : ℂ)) / np + (i : ℂ) * ((q : ℂ) - ((n / 2 : ℕ) : ℂ)) / n)))

/-- The strip spectral correlation whose channel `k - ⌊np/2⌋` is demodulated with the frequency `k - d` instead. -/
noncomputable def sscaOff (wn wp : ℕ → ℝ) (d : ℝ) (s : ℕ → ℝ) (n np q k : ℕ) : ℂ :=
  ∑ i ∈ Finset.range n, ∑ j ∈ Finset.range np,
    (wn i * wp j * s (i + np / 2) * s (i + j) : ℝ)
      * Complex.exp (-(2 * Real.pi * Complex.I
          * ((j : ℂ) * ((k : ℂ) - ((np / 2 : ℕ) : ℂ)) / np + (i : ℂ) * ((k : ℂ) - d) / np
            + (i : ℂ) * ((q : ℂ) - ((n / 2 : ℕ) : ℂ)) / n)))

/-- The symmetric Hamming window with the convention that the window of one sample is `1`. -/
noncomputable def hammingOne (n i : ℕ) : ℝ := if n = 1 then 1 else hammingSym n i

end Verif.Spec
