/-! # Which carrier an OFDM symbol rides on, and parts of a message -/
namespace Verif.Spec

/-- With `n` carriers of which `p` carry no data, a frame takes `n - p` symbols.  They go to the carriers `p/2, p/2 + 1, …` in this
order, leaving out the middle carrier `n/2`. -/
def carrierOf (n p i : Nat) : Nat :=
  if i % (n - p) < n / 2 - p / 2 then p / 2 + i % (n - p) else p / 2 + i % (n - p) + 1

/-- Symbols `i` and `j` are in the same frame, on carriers that mirror each other in the middle carrier: `c` and `n - c`. -/
def mirrored (n p i j : Nat) : Prop := i / (n - p) = j / (n - p) ∧ carrierOf n p i + carrierOf n p j = n

/-- The bits at the positions `js` of a message, in the order of `js`. -/
def atPositions (js : List Nat) (l : List Bool) : List Bool := js.filterMap (fun j => l[j]?)

end Verif.Spec
