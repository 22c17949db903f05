import Verif.Rust.Flt
import Mathlib.Data.Real.Basic

/-! Energy of signals and bit errors. -/
namespace Verif.Spec

/-- The energy of a complex signal: the sum of the squared magnitudes. -/
def cxEnergy (l : List (Cx ℝ)) : ℝ := (l.map (fun z => z.re * z.re + z.im * z.im)).sum

/-- The number of places where two bit strings differ. -/
def wrong (a b : List Bool) : ℕ := (a.zip b).countP (fun x => x.1 != x.2)

end Verif.Spec
