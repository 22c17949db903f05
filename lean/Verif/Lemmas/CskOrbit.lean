/-!
# Two logistic orbits in binary64, in integers

The two carriers of `src/csk.rs` are orbits of `3.9 x (1 - x)` started at 0.1 and 0.15.  All their values are multiples of `2^-60`, so
a value is the integer numerator over `2^60` and a step of the orbit in double precision is integer arithmetic with rounding to 53
bits.  `Verif.Lemmas.CskSim` shows that these steps are the double-precision steps; here the kernel runs them.
-/
namespace Verif.CskOrbit

/-- Round to a multiple of `2^s`, to nearest, ties to even (`1 ≤ s`). -/
def rsh (P s : Nat) : Nat :=
  Nat.shiftLeft (Nat.shiftRight (Nat.add (Nat.add P (Nat.sub (Nat.pow (nat_lit 2) (Nat.sub s (nat_lit 1))) (nat_lit 1)))
    (Nat.mod (Nat.shiftRight P s) (nat_lit 2))) s) s

/-- Round to 53 significant bits. -/
def r53 (P : Nat) : Nat := rsh P (Nat.sub (Nat.log2 P) (nat_lit 52))

/-- One step of the orbit: 3.9 is `8782019273372467 / 2^51` in double precision. -/
def stepN (X : Nat) : Nat :=
  Nat.shiftRight (r53 (Nat.mul (r53 (Nat.mul (nat_lit 8782019273372467) X)) (r53 (Nat.sub (nat_lit 1152921504606846976) X)))) (nat_lit 111)

/-- The orbits of `X` and `Y` differ after each of the first `n` steps, and arrive at `X'` and `Y'`. -/
def leg (X' Y' n X Y : Nat) : Bool :=
  Nat.rec (motive := fun _ => Nat → Nat → Bool) (fun X Y => cond (Nat.beq X X') (Nat.beq Y Y') false)
    (fun _ f X Y => cond (Nat.beq (stepN X) (stepN Y)) false (f (stepN X) (stepN Y))) n X Y

/-! The first 9001 steps from the numerators of 0.1 and 0.15, in legs that the kernel can check one at a time. -/

theorem leg_0 : leg (nat_lit 1040468269043576192) (nat_lit 389428729770709056) (nat_lit 500) (nat_lit 115292150460684704) (nat_lit 172938225691027040) = true := by decide +kernel
theorem leg_1 : leg (nat_lit 449527912121366208) (nat_lit 585054339172586880) (nat_lit 500) (nat_lit 1040468269043576192) (nat_lit 389428729770709056) = true := by decide +kernel
theorem leg_2 : leg (nat_lit 735573671113536512) (nat_lit 172180497228703040) (nat_lit 500) (nat_lit 449527912121366208) (nat_lit 585054339172586880) = true := by decide +kernel
theorem leg_3 : leg (nat_lit 109646976968735664) (nat_lit 706177769722891648) (nat_lit 500) (nat_lit 735573671113536512) (nat_lit 172180497228703040) = true := by decide +kernel
theorem leg_4 : leg (nat_lit 578109650625647744) (nat_lit 1104944554667853952) (nat_lit 500) (nat_lit 109646976968735664) (nat_lit 706177769722891648) = true := by decide +kernel
theorem leg_5 : leg (nat_lit 950199868174738304) (nat_lit 988284994474581760) (nat_lit 500) (nat_lit 578109650625647744) (nat_lit 1104944554667853952) = true := by decide +kernel
theorem leg_6 : leg (nat_lit 439895683909749952) (nat_lit 388963126991352320) (nat_lit 500) (nat_lit 950199868174738304) (nat_lit 988284994474581760) = true := by decide +kernel
theorem leg_7 : leg (nat_lit 1119263301139253888) (nat_lit 808738796412831872) (nat_lit 500) (nat_lit 439895683909749952) (nat_lit 388963126991352320) = true := by decide +kernel
theorem leg_8 : leg (nat_lit 1019004037317296768) (nat_lit 764263260256918016) (nat_lit 500) (nat_lit 1119263301139253888) (nat_lit 808738796412831872) = true := by decide +kernel
theorem leg_9 : leg (nat_lit 778217128435233024) (nat_lit 243585551190410176) (nat_lit 500) (nat_lit 1019004037317296768) (nat_lit 764263260256918016) = true := by decide +kernel
theorem leg_10 : leg (nat_lit 168046102244930176) (nat_lit 1106553086982095744) (nat_lit 500) (nat_lit 778217128435233024) (nat_lit 243585551190410176) = true := by decide +kernel
theorem leg_11 : leg (nat_lit 1085706649113123584) (nat_lit 957026492543588224) (nat_lit 500) (nat_lit 168046102244930176) (nat_lit 1106553086982095744) = true := by decide +kernel
theorem leg_12 : leg (nat_lit 167999749569946624) (nat_lit 179413004570298112) (nat_lit 500) (nat_lit 1085706649113123584) (nat_lit 957026492543588224) = true := by decide +kernel
theorem leg_13 : leg (nat_lit 334582693700092224) (nat_lit 430175305751364672) (nat_lit 500) (nat_lit 167999749569946624) (nat_lit 179413004570298112) = true := by decide +kernel
theorem leg_14 : leg (nat_lit 715467689772269184) (nat_lit 402905386830725440) (nat_lit 500) (nat_lit 334582693700092224) (nat_lit 430175305751364672) = true := by decide +kernel
theorem leg_15 : leg (nat_lit 1011443327040808960) (nat_lit 764791508883396608) (nat_lit 500) (nat_lit 715467689772269184) (nat_lit 402905386830725440) = true := by decide +kernel
theorem leg_16 : leg (nat_lit 442547212854009088) (nat_lit 1124048683116451328) (nat_lit 500) (nat_lit 1011443327040808960) (nat_lit 764791508883396608) = true := by decide +kernel
theorem leg_17 : leg (nat_lit 935170760544684416) (nat_lit 1078239392878235648) (nat_lit 500) (nat_lit 442547212854009088) (nat_lit 1124048683116451328) = true := by decide +kernel
theorem leg_18 : leg (nat_lit 688835362744468224) (nat_lit 272393444393831296) (nat_lit 1) (nat_lit 935170760544684416) (nat_lit 1078239392878235648) = true := by decide +kernel

end Verif.CskOrbit
