import Verif.F64.Libm
import Verif.Spec.Symbols

/-! # Samples that are not numbers -/
namespace Verif.Spec
variable {L : Libm}

/-- NaN is the one value that is not equal to itself. -/
def isMissing (x : FloatL L) : Bool := !Flt.eq x x

/-- NaN or an infinity. -/
def isUnusable (x : FloatL L) : Bool := !Flt.isFinite x

/-- `l'` is the recording `l`, some samples of which have been replaced by ones with the defect `P`. -/
def Spoilt (P : FloatL L → Bool) (l l' : List (FloatL L)) : Prop := List.Forall₂ (fun x y => y = x ∨ P y = true) l l'

/-- A receiver of `k` samples and `m` bits per symbol reads symbols with a spoilt sample as `false`, and the others as if nothing
had happened. -/
def FailsLow (P : FloatL L → Bool) (k m : ℕ) (rx : List (FloatL L) → RM (List Bool)) : Prop :=
  ∀ l l', Spoilt P l l' → ∃ bits, rx l = pure bits ∧
    rx l' = pure (bits.mapIdx (fun i b => b && !(symbol k (i / m) l').any P))

end Verif.Spec
