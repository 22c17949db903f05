import Mathlib.Analysis.SpecialFunctions.Trigonometric.Basic
import Mathlib.Analysis.SpecialFunctions.Pow.Real
import Mathlib.Analysis.SpecialFunctions.Log.Base
import Mathlib.Algebra.Order.Floor.Defs

/-!
# The number type

The Rust code computes with `f64`.  The model is written once, for an arbitrary number type `F` that has `+ - * / - 0 1`
and the operations of the class `Flt`, and is then read at two instances:

* `Float`, Lean's IEEE-754 binary64 type.  In Lean 4.33 its `+ - * / sqrt abs`, comparisons and conversions are
  *defined* (bit-exactly) and can be reasoned about; `sin cos exp log10 pow` are opaque constants, so whatever is proved
  about them holds for any implementation of the C library.
* `ℝ`, exact real arithmetic.

Theorems that are proved for every `F` hold in particular for IEEE arithmetic, whatever rounding does.
-/
namespace Verif

/-- What the code uses from `f64` besides `+ - * /`, unary `-`, `0` and `1`. -/
class Flt (F : Type) where
  /-- `n as f64` for an unsigned integer `n` -/
  ofNat : ℕ → F
  /-- the decimal literal `m·10^(-e)` -/
  lit : ℕ → ℕ → F
  /-- `x as usize`, `x as u64`: truncation, saturating, NaN ↦ 0 -/
  toNat : F → ℕ
  /-- `x < y` -/
  lt : F → F → Bool
  /-- `x <= y` -/
  le : F → F → Bool
  /-- `x == y` -/
  eq : F → F → Bool
  /-- `x.abs()` -/
  abs : F → F
  /-- `x.sqrt()` -/
  sqrt : F → F
  /-- `x.sin()` -/
  sin : F → F
  /-- `x.cos()` -/
  cos : F → F
  /-- `x.exp()` -/
  exp : F → F
  /-- `x.log10()` -/
  log10 : F → F
  /-- `x.powf(y)` -/
  powf : F → F → F
  /-- `std::f64::consts::PI` -/
  pi : F
  /-- `x.is_sign_positive()` -/
  signPos : F → Bool
  /-- `x.is_finite()` -/
  isFinite : F → Bool

/-! ## IEEE binary64 -/

instance : Zero Float := ⟨Float.ofBits 0⟩
instance : One Float := ⟨Float.ofBits 0x3FF0000000000000⟩

/-- `n as f64`: the nearest binary64 number, ties to even. -/
def F64.ofNat (n : ℕ) : Float :=
  Float.ofModel (Float.Model.pack (Float.Model.UnpackedFloat.ofNat Float.Model.Format.binary64 n))

/-- The binary64 number nearest to `m·10^(-e)`. -/
def F64.lit (m e : ℕ) : Float := Float.ofModel (Float.Model.ofScientific m (-(e : ℤ)))

/-- IEEE-754 binary64. -/
instance : Flt Float where
  ofNat := F64.ofNat
  lit := F64.lit
  toNat x := x.toUInt64.toNat
  lt := Float.lt
  le := Float.le
  eq := Float.beq
  abs := Float.abs
  sqrt := Float.sqrt
  sin := Float.sin
  cos := Float.cos
  exp := Float.exp
  log10 := Float.log10
  powf := Float.pow
  pi := Float.ofBits 0x400921FB54442D18
  signPos x := x.toBits.toNat < 2 ^ 63
  isFinite := Float.isFinite

/-! ## Exact real arithmetic -/

/-- Exact real arithmetic.  `as usize` saturates at `2^64 - 1`; every real is finite. -/
noncomputable instance : Flt ℝ where
  ofNat n := n
  lit m e := (m : ℝ) / 10 ^ e
  toNat x := min ⌊x⌋₊ (2 ^ 64 - 1)
  lt x y := decide (x < y)
  le x y := decide (x ≤ y)
  eq x y := decide (x = y)
  abs x := |x|
  sqrt := Real.sqrt
  sin := Real.sin
  cos := Real.cos
  exp := Real.exp
  log10 x := Real.logb 10 x
  powf x y := x ^ y
  pi := Real.pi
  signPos x := decide (0 ≤ x)
  isFinite _ := true

namespace Flt
@[simp] theorem ofNat_real (n : ℕ) : (Flt.ofNat n : ℝ) = n := rfl
@[simp] theorem lit_real (m e : ℕ) : (Flt.lit m e : ℝ) = (m : ℝ) / 10 ^ e := rfl
@[simp] theorem toNat_real (x : ℝ) : Flt.toNat x = min ⌊x⌋₊ (2 ^ 64 - 1) := rfl
@[simp] theorem lt_real (x y : ℝ) : Flt.lt x y = decide (x < y) := rfl
@[simp] theorem le_real (x y : ℝ) : Flt.le x y = decide (x ≤ y) := rfl
@[simp] theorem eq_real (x y : ℝ) : Flt.eq x y = decide (x = y) := rfl
@[simp] theorem abs_real (x : ℝ) : Flt.abs x = |x| := rfl
@[simp] theorem sqrt_real (x : ℝ) : Flt.sqrt x = Real.sqrt x := rfl
@[simp] theorem sin_real (x : ℝ) : Flt.sin x = Real.sin x := rfl
@[simp] theorem cos_real (x : ℝ) : Flt.cos x = Real.cos x := rfl
@[simp] theorem exp_real (x : ℝ) : Flt.exp x = Real.exp x := rfl
@[simp] theorem log10_real (x : ℝ) : Flt.log10 x = Real.logb 10 x := rfl
@[simp] theorem powf_real (x y : ℝ) : Flt.powf x y = x ^ y := rfl
@[simp] theorem pi_real : (Flt.pi : ℝ) = Real.pi := rfl
@[simp] theorem signPos_real (x : ℝ) : Flt.signPos x = decide (0 ≤ x) := rfl
@[simp] theorem isFinite_real (x : ℝ) : Flt.isFinite x = true := rfl
end Flt

/-- `x.powi(n)` for `n ≥ 0`, by repeated multiplication (`powi(2)` is `x * x`).  The Rust documentation leaves the
rounding of `powi` unspecified; over `ℝ` this is `x ^ n`. -/
def powi {F : Type} [Mul F] [One F] (x : F) : ℕ → F
  | 0 => 1
  | 1 => x
  | n + 2 => powi x (n + 1) * x

@[simp] theorem powi_real (x : ℝ) (n : ℕ) : powi x n = x ^ n := by
  induction n using powi.induct with
  | case1 => simp [powi]
  | case2 => simp [powi]
  | case3 n ih => rw [powi, ih]; exact (pow_succ x (n + 1)).symm

/-! ## Complex numbers -/

/-- `num_complex::Complex<f64>`. -/
structure Cx (F : Type) where
  re : F
  im : F
  deriving DecidableEq

namespace Cx
set_option linter.unusedSectionVars false
variable {F : Type} [Add F] [Sub F] [Mul F] [Div F] [Neg F] [Zero F] [One F] [Flt F]

instance : Zero (Cx F) := ⟨⟨0, 0⟩⟩
instance : Add (Cx F) := ⟨fun a b => ⟨a.re + b.re, a.im + b.im⟩⟩
/-- `(a + i b) * (c + i d) == (a*c - b*d) + i (a*d + b*c)`, as in num-complex. -/
instance : Mul (Cx F) := ⟨fun a b => ⟨a.re * b.re - a.im * b.im, a.re * b.im + a.im * b.re⟩⟩
/-- `z.conj()` -/
def conj (a : Cx F) : Cx F := ⟨a.re, -a.im⟩
/-- `z.norm_sqr()` -/
def normSq (a : Cx F) : F := a.re * a.re + a.im * a.im
/-- `z / x` for real `x` -/
def divR (a : Cx F) (x : F) : Cx F := ⟨a.re / x, a.im / x⟩
/-- `x * z` for real `x` -/
def smulR (x : F) (a : Cx F) : Cx F := ⟨x * a.re, x * a.im⟩
/-- `z + x` for real `x` -/
def addR (a : Cx F) (x : F) : Cx F := ⟨a.re + x, a.im⟩
/-- `Complex::from(x)` -/
def ofR (x : F) : Cx F := ⟨x, 0⟩
/-- `z.exp()` = `from_polar(re.exp(), im)` (the branches of num-complex for infinite and NaN real parts are left out:
every caller passes real part `0`) -/
def exp (a : Cx F) : Cx F := ⟨Flt.exp a.re * Flt.cos a.im, Flt.exp a.re * Flt.sin a.im⟩

@[simp] theorem zero_re : (0 : Cx F).re = 0 := rfl
@[simp] theorem zero_im : (0 : Cx F).im = 0 := rfl
@[simp] theorem add_re (a b : Cx F) : (a + b).re = a.re + b.re := rfl
@[simp] theorem add_im (a b : Cx F) : (a + b).im = a.im + b.im := rfl
@[simp] theorem mul_re (a b : Cx F) : (a * b).re = a.re * b.re - a.im * b.im := rfl
@[simp] theorem mul_im (a b : Cx F) : (a * b).im = a.re * b.im + a.im * b.re := rfl
theorem ext {a b : Cx F} (h₁ : a.re = b.re) (h₂ : a.im = b.im) : a = b := by
  cases a; cases b; simp_all
end Cx

end Verif
