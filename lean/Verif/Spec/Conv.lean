import Mathlib.Algebra.BigOperators.Group.Finset.Basic
import Mathlib.Algebra.BigOperators.Ring.Finset

/-! Linear convolution, independent of the model. -/
namespace Verif.Spec
open Finset

variable {R : Type} [CommSemiring R]

/-- Item `i` of the linear convolution of `x` and `h` (indices outside a list count as zero). -/
def linConvAt (x h : List R) (i : ℕ) : R := ∑ j ∈ range (i + 1), x.getD (i - j) 0 * h.getD j 0

/-- The whole linear convolution: `n + m - 1` items. -/
def linConv (x h : List R) : List R := (List.range (x.length + h.length - 1)).map (linConvAt x h)

end Verif.Spec
