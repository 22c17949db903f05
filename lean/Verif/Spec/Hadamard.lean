/-! The Walsh–Hadamard matrix, by the parity of common bits. -/
namespace Verif.Spec

/-- Number of set bits. -/
def popcount (n : Nat) : Nat := if n = 0 then 0 else n % 2 + popcount (n / 2)
termination_by n

/-- Entry `(i, j)`: true iff `i AND j` has an even number of set bits. -/
def walsh (i j : Nat) : Bool := popcount (i &&& j) % 2 == 0

/-- Number of positions where two rows agree. -/
def agreements (a b : List Bool) : Nat := (a.zip b).countP (fun p => p.1 == p.2)

end Verif.Spec
