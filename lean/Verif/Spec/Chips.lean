import Verif.Spec.Streams

/-! The chips of a spread message. -/
namespace Verif.Spec

/-- Every bit of the message sends the key, as it is for a 1 and inverted for a 0. -/
def chips (key msg : List Bool) : List Bool := msg.flatMap fun b => key.map fun k => b == k

/-- The same for symbols of two bits: each pair is sent once for every bit of the key. -/
def chips2 (key msg : List Bool) : List Bool := (pairs msg).flatMap fun p => key.flatMap fun k => [p.1 == k, p.2 == k]

end Verif.Spec
