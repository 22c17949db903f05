import Verif.F64.Sign

/-! # Signs disappear in squares, for every double -/
namespace Verif.F64
open Float.Model Float.Model.UnpackedFloat

theorem sign_mul_comm (a b : Sign) : a * b = b * a := by cases a <;> cases b <;> rfl

theorem sign_neg_mul_neg (a b : Sign) : (-a) * (-b) = a * b := by cases a <;> cases b <;> rfl

/-- Multiplication of doubles is commutative (all special values included). -/
theorem mul_comm' (a b : Float) : a * b = b * a := by
  rw [mul_eq, mul_eq]
  congr 1
  cases up a with
  | notANumber => cases up b <;> rfl
  | infinity s => cases up b <;> simp only [UnpackedFloat.mul, sign_mul_comm]
  | zero s => cases up b <;> simp only [UnpackedFloat.mul, sign_mul_comm]
  | finite s m e h =>
    cases up b with
    | notANumber => rfl
    | infinity s => simp only [UnpackedFloat.mul, sign_mul_comm]
    | zero s => simp only [UnpackedFloat.mul, sign_mul_comm]
    | finite s' m' e' h' =>
      simp only [UnpackedFloat.mul, sign_mul_comm s s', Nat.mul_comm m m', Int.add_comm e e']

/-- `(-x) * (-x)` is `x * x`, for every double. -/
theorem neg_sq_eq (x : Float) : -x * -x = x * x := by
  rw [mul_eq, mul_eq, up_neg]
  congr 1
  cases up x with
  | notANumber => rfl
  | infinity s => cases s <;> rfl
  | zero s => cases s <;> rfl
  | finite s m e h => cases s <;> rfl

end Verif.F64
