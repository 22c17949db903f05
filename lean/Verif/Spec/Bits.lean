/-!
# Specification of bits and bytes

`byteVal l` is the number with the binary digits `l`, least significant first.
-/
namespace Verif.Spec

/-- The natural number whose binary digits, least significant first, are `l`. -/
def bitsVal : List Bool → Nat
  | [] => 0
  | b :: l => (if b then 1 else 0) + 2 * bitsVal l

/-- Bytes sent least significant bit first. -/
def bitsOf (l : List UInt8) : List Bool := l.flatMap (fun b => (List.range 8).map b.toNat.testBit)

end Verif.Spec
