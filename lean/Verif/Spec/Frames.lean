import Verif.Rust.Beh

/-! # Specification: processing two pieces one after the other -/
namespace Verif.Spec

/-- The run `whole` returns what `first` returns followed by what `second` returns (all three without panic). -/
def CutAt {B : Type} (whole first second : RM (List B)) : Prop :=
  ∃ x y, first = pure x ∧ second = pure y ∧ whole = pure (x ++ y)

/-- The run `whole` returns what `first` returns followed by what `second` returns, each item changed by `g`. -/
def CutWith {B : Type} (g : B → B) (whole first second : RM (List B)) : Prop :=
  ∃ x y, first = pure x ∧ second = pure y ∧ whole = pure (x ++ y.map g)

end Verif.Spec
