import Verif.Model.Lib

/-!
# Model of the normality statistics in `tests/normtest.rs`
-/
namespace Verif
variable {F : Type} [Add F] [Sub F] [Mul F] [Div F] [Neg F] [Zero F] [One F] [Flt F]

/-- The arithmetic mean of the samples, as the `average` crate estimates it for tests/normtest.rs:9. -/
def sampleMean (data : List F) : F := rsum data / Flt.ofNat data.length

/-- `kurtosis()` of the collected estimator — tests/normtest.rs:9, 66-87: the excess kurtosis of the samples.  Simplified: the
`average` crate updates its sums of second and fourth powers of the deviations from the mean sample by sample; here they are taken
after the mean is known.  The two agree in exact arithmetic, which is where this definition is read. -/
def excessKurtosis (data : List F) : F :=
  let m := sampleMean data
  let s2 := rsum (data.map (fun x => (x - m) * (x - m)))
  let s4 := rsum (data.map (fun x => (x - m) * (x - m) * ((x - m) * (x - m))))
  Flt.ofNat data.length * s4 / (s2 * s2) - Flt.ofNat 3

end Verif
