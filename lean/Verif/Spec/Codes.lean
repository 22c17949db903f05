import Verif.Spec.Streams
/-! Hamming distance and byte errors. -/
namespace Verif.Spec

/-- Positions where two words differ. -/
def diffs {α : Type} [BEq α] (a b : List α) : List Bool := List.zipWith (· != ·) a b

/-- Number of positions where two words differ. -/
def hamming {α : Type} [BEq α] (a b : List α) : Nat := (diffs a b).countP id

/-- `b` arises from the bit stream `a` by corrupting at most `t` bytes in every frame of `n` bytes. -/
def FrameErrors (n t : Nat) (a b : List Bool) : Prop :=
  a.length = b.length ∧ ∀ e ∈ blocks n (diffs (blocks 8 a) (blocks 8 b)), e.countP id ≤ t

/-- Same, bytes. -/
def FrameErrors8 (n t : Nat) (a b : List UInt8) : Prop :=
  a.length = b.length ∧ ∀ e ∈ blocks n (diffs a b), e.countP id ≤ t

end Verif.Spec
