import Verif.Lemmas.IntPoly

/-!
# The polynomials behind the library's error function

`P` is the polynomial in the exponent of `erf` (src/lib.rs:162-175), times `10⁸`.  `W` (times `10¹³`) approximates
`exp(x²)·erfc(x)/t` for `t = 1/(1 + x/2)`, and `U` (times `10¹³`) the difference `P - log W`.  Both were found numerically;
what is needed of them is checked here.
-/
namespace Verif.ErfPoly
open IPoly

/-- The exponent, times `10⁸`. -/
def P : List ℤ := [-126551223, 100002368, 37409196, 9678418, -18628806, 27886807, -113520398, 148851587, -82215223, 17087277]
/-- Approximation of `exp(x²)·erfc(x)/t`, times `10¹³`. -/
def W : List ℤ := [2820947916904, 2820948292009, 2468301941383, 1763877885479, 825905418280, 56392934153, -1121886021311, 1480229105171, -4884609302807, 7938707882579, -5834681037911, 1356688915781, 777001015339, -579796399840, 111971454780]
/-- Approximation of `P - log W`, times `10¹³`. -/
def U : List ℤ := [-1062204, 235473868, -8982553968, 131679231919, -961072517684, 3848365755842, -8288851208348, 6571119845587, 10013381898172, -27988417704058, 14219456396591, 33763529329097, -70479926542631, 63366383958463, -32030606626345, 8918804919460, -1075098293761]

/-- `2·(4(1-t)W + t²(W + tW')/2)`, times `10¹³`: `-2·exp(x²)` times the derivative of `exp(-x²)·t·W(t)` with respect to `x`. -/
def A : List ℤ := add (mul [8, -8, 1] W) (0 :: 0 :: 0 :: der W)

/-- `P'W - W' - U'W`, times `10²⁶`. -/
def B : List ℤ := add (mul (add (smul (10 ^ 5) (der P)) (smul (-1) (der U))) W) (smul (-10 ^ 13) (der W))

/-- `2·(4(1-t) + t²(1 + tP')/2)`, times `10⁸`: `-2·exp(x² - P)` times the derivative of `exp(-x² + P(t))·t` with respect
to `x`. -/
def G : List ℤ := add (smul (10 ^ 8) [8, -8, 1]) (0 :: 0 :: 0 :: der P)

theorem G_check : bounded (2 * 10 ^ 8 * 20 ^ 11) (9 * 10 ^ 8 * 20 ^ 11) 20 (dilate 20 G) = true := by decide +kernel
theorem W_check : bounded (28 * 10 ^ 11 * 20 ^ 14) (11 * 10 ^ 12 * 20 ^ 14) 20 (dilate 20 W) = true := by decide +kernel
theorem U_check : bounded (-1120000 * 400 ^ 16) (1120000 * 400 ^ 16) 400 (dilate 400 U) = true := by decide +kernel
theorem A_check : bounded ((22567583341910 - 12400) * 200 ^ 16) ((22567583341910 + 12400) * 200 ^ 16) 200 (dilate 200 A) = true := by
  decide +kernel
theorem B_check : bounded (-34 * 10 ^ 15 * 200 ^ 29) (34 * 10 ^ 15 * 200 ^ 29) 200 (dilate 200 B) = true := by decide +kernel

end Verif.ErfPoly
