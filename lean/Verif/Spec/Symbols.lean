import Verif.Rust.Iter

/-!
# Symbol-by-symbol receivers

What it means for a receiver to treat a recorded signal one symbol at a time.
-/
namespace Verif.Spec
variable {F : Type}

/-- `rx` reads `k` samples per symbol and writes `m` bits per symbol: on every finite signal it terminates without panicking,
it answers `m` bits for every complete symbol and nothing else, and the bits of symbol `n` depend on nothing but the `k`
samples of that symbol. -/
structure Symbolwise (k m : Nat) (rx : List F → RM (List Bool)) : Prop where
  total : ∀ l, ∃ bits, rx l = pure bits ∧ bits.length = m * (l.length / k)
  local_ : ∀ {l l' bits bits'} (n : Nat), rx l = pure bits → rx l' = pure bits' →
    (n + 1) * k ≤ l.length → (n + 1) * k ≤ l'.length → (l.drop (n * k)).take k = (l'.drop (n * k)).take k →
    (bits.drop (n * m)).take m = (bits'.drop (n * m)).take m

/-- The same with a last symbol that may be incomplete and is answered too. -/
structure SymbolwiseCeil (k : Nat) (rx : List F → RM (List Bool)) : Prop where
  total : ∀ l, ∃ bits, rx l = pure bits ∧ bits.length = (l.length + k - 1) / k
  local_ : ∀ {l l' bits bits'} (n : Nat), rx l = pure bits → rx l' = pure bits' →
    n * k < l.length → n * k < l'.length → (l.drop (n * k)).take k = (l'.drop (n * k)).take k → bits[n]? = bits'[n]?

/-- The samples of symbol number `n`. -/
def symbol {F : Type} (k n : Nat) (l : List F) : List F := (l.drop (n * k)).take k

end Verif.Spec
