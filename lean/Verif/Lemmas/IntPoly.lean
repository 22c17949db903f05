import Mathlib.Analysis.Calculus.Deriv.Mul
import Mathlib.Analysis.Calculus.Deriv.Add
import Mathlib.Analysis.Calculus.Deriv.Pow
import Mathlib.Tactic.Linarith
import Mathlib.Tactic.Ring
import Mathlib.Tactic.FieldSimp
import Mathlib.Tactic.Positivity
import Mathlib.Tactic.GCongr
import Mathlib.Tactic.Push

/-!
# Polynomials with integer coefficients, bounded on an interval by computation

A polynomial is the list of its coefficients, lowest first.  `bounded lo hi N l` checks with integer arithmetic that the
polynomial stays between `lo` and `hi` on `[0, N]`, one unit interval after the other.
-/
namespace Verif.IPoly

/-- The value of a polynomial. -/
def ev (l : List ℤ) (y : ℝ) : ℝ := l.foldr (fun a r => (a : ℝ) + y * r) 0

@[simp] theorem ev_nil (y : ℝ) : ev [] y = 0 := rfl
@[simp] theorem ev_cons (a : ℤ) (l : List ℤ) (y : ℝ) : ev (a :: l) y = a + y * ev l y := rfl

/-- Sum. -/
def add : List ℤ → List ℤ → List ℤ
  | [], m => m
  | l, [] => l
  | a :: l, b :: m => (a + b) :: add l m

theorem ev_add (l m : List ℤ) (y : ℝ) : ev (add l m) y = ev l y + ev m y := by
  induction l generalizing m with
  | nil => simp [add]
  | cons a l ih =>
    cases m with
    | nil => simp [add]
    | cons b m => simp only [add, ev_cons, ih]; push_cast; ring

/-- Multiple. -/
def smul (c : ℤ) (l : List ℤ) : List ℤ := l.map (c * ·)

theorem ev_smul (c : ℤ) (l : List ℤ) (y : ℝ) : ev (smul c l) y = c * ev l y := by
  induction l with
  | nil => simp [smul]
  | cons a l ih =>
    simp only [smul, List.map_cons, ev_cons] at ih ⊢
    rw [ih]; push_cast; ring

/-- Product. -/
def mul : List ℤ → List ℤ → List ℤ
  | [], _ => []
  | a :: l, m => add (smul a m) (0 :: mul l m)

theorem ev_mul (l m : List ℤ) (y : ℝ) : ev (mul l m) y = ev l y * ev m y := by
  induction l with
  | nil => simp [mul]
  | cons a l ih => simp only [mul, ev_add, ev_smul, ev_cons, ih]; push_cast; ring

/-- Derivative of the polynomial whose first coefficient belongs to the power `k`, divided by the power `k - 1`. -/
def derFrom : ℕ → List ℤ → List ℤ
  | _, [] => []
  | k, a :: l => (k * a) :: derFrom (k + 1) l

/-- Derivative. -/
def der : List ℤ → List ℤ
  | [] => []
  | _ :: l => derFrom 1 l

theorem derFrom_succ (k : ℕ) (l : List ℤ) (y : ℝ) : ev (derFrom (k + 1) l) y = ev (derFrom k l) y + ev l y := by
  induction l generalizing k with
  | nil => simp [derFrom]
  | cons a l ih => simp only [derFrom, ev_cons, ih (k + 1)]; push_cast; ring

theorem derFrom_zero (l : List ℤ) (y : ℝ) : ev (derFrom 0 l) y = y * ev (der l) y := by
  cases l with
  | nil => simp [derFrom, der]
  | cons a l => simp [derFrom, der]

theorem hasDerivAt_ev (l : List ℤ) (y : ℝ) : HasDerivAt (ev l) (ev (der l) y) y := by
  induction l with
  | nil => exact hasDerivAt_const y (0 : ℝ)
  | cons a l ih =>
    have h := ((hasDerivAt_id y).mul ih).const_add (a : ℝ)
    have e : ev (der (a :: l)) y = 1 * ev l y + id y * ev (der l) y := by
      simp only [der, derFrom_succ, derFrom_zero, id]; ring
    rw [e]
    exact h

/-- Coefficients scaled so that `ev (dilate N l) (N * t)` is a multiple of `ev l t`. -/
def dilate (N : ℤ) : List ℤ → List ℤ
  | [] => []
  | a :: l => (a * N ^ l.length) :: dilate N l

theorem ev_dilate (N : ℤ) (a : ℤ) (l : List ℤ) (t : ℝ) :
    ev (dilate N (a :: l)) (N * t) = N ^ l.length * ev (a :: l) t := by
  induction l generalizing a with
  | nil => simp [dilate]
  | cons b l ih =>
    have e : dilate N (a :: b :: l) = (a * N ^ (l.length + 1)) :: dilate N (b :: l) := rfl
    rw [e, ev_cons, ih b, ev_cons a]
    simp only [List.length_cons]
    push_cast
    ring

/-- One step of the Taylor shift: `p + (s + j)·r`. -/
def stepJ (j : ℤ) : ℤ → List ℤ → List ℤ
  | p, [] => [p]
  | p, b :: m => (p + j * b) :: stepJ j b m

theorem ev_stepJ (j p : ℤ) (r : List ℤ) (s : ℝ) : ev (stepJ j p r) s = p + (s + j) * ev r s := by
  induction r generalizing p with
  | nil => simp [stepJ]
  | cons b m ih => simp only [stepJ, ev_cons, ih]; push_cast; ring

/-- Taylor shift: the coefficients in `s` of the polynomial at `s + j`. -/
def shift (j : ℤ) : List ℤ → List ℤ
  | [] => []
  | a :: l => stepJ j a (shift j l)

theorem ev_shift (j : ℤ) (l : List ℤ) (s : ℝ) : ev (shift j l) s = ev l (s + j) := by
  induction l with
  | nil => simp [shift]
  | cons a l ih => simp only [shift, ev_stepJ, ih, ev_cons]

/-- Sum of the positive coefficients. -/
def pos : List ℤ → ℤ
  | [] => 0
  | a :: l => max a 0 + pos l
/-- Sum of the negative coefficients. -/
def neg : List ℤ → ℤ
  | [] => 0
  | a :: l => min a 0 + neg l

theorem pos_nonneg (l : List ℤ) : 0 ≤ pos l := by
  induction l with
  | nil => exact le_rfl
  | cons a l ih => exact add_nonneg (le_max_right _ _) ih

theorem neg_nonpos (l : List ℤ) : neg l ≤ 0 := by
  induction l with
  | nil => exact le_rfl
  | cons a l ih => exact add_nonpos (min_le_right _ _) ih

theorem ev_le_pos (l : List ℤ) {s : ℝ} (h0 : 0 ≤ s) (h1 : s ≤ 1) : ev l s ≤ pos l ∧ (neg l : ℝ) ≤ ev l s := by
  induction l with
  | nil => simp [pos, neg]
  | cons a l ih =>
    have hp : (0 : ℝ) ≤ pos l := by exact_mod_cast pos_nonneg l
    have hn : (neg l : ℝ) ≤ 0 := by exact_mod_cast neg_nonpos l
    have ha : (a : ℝ) ≤ (max a 0 : ℤ) := by exact_mod_cast le_max_left a 0
    have hb : ((min a 0 : ℤ) : ℝ) ≤ a := by exact_mod_cast min_le_left a 0
    simp only [pos, neg, ev_cons]
    push_cast at ha hb ⊢
    constructor
    · nlinarith [ih.1, mul_le_mul_of_nonneg_left ih.1 h0, mul_le_mul_of_nonneg_right h1 hp]
    · nlinarith [ih.2, mul_le_mul_of_nonneg_left ih.2 h0, mul_le_mul_of_nonpos_right h1 hn]

/-- On `[0, 1]` the polynomial is between `lo` and `hi`. -/
def unit (lo hi : ℤ) : List ℤ → Bool
  | [] => decide (lo ≤ 0) && decide (0 ≤ hi)
  | a :: l => decide (lo ≤ a + neg l) && decide (a + pos l ≤ hi)

theorem unit_sound {lo hi : ℤ} {l : List ℤ} (h : unit lo hi l = true) {s : ℝ} (h0 : 0 ≤ s) (h1 : s ≤ 1) :
    (lo : ℝ) ≤ ev l s ∧ ev l s ≤ hi := by
  cases l with
  | nil =>
    simp only [unit, Bool.and_eq_true, decide_eq_true_eq] at h
    rw [ev_nil]; exact ⟨by exact_mod_cast h.1, by exact_mod_cast h.2⟩
  | cons a l =>
    simp only [unit, Bool.and_eq_true, decide_eq_true_eq] at h
    have g1 : (lo : ℝ) ≤ a + neg l := by exact_mod_cast h.1
    have g2 : (a : ℝ) + pos l ≤ hi := by exact_mod_cast h.2
    have hp : (0 : ℝ) ≤ pos l := by exact_mod_cast pos_nonneg l
    have hn : (neg l : ℝ) ≤ 0 := by exact_mod_cast neg_nonpos l
    have e := ev_le_pos l h0 h1
    rw [ev_cons]
    constructor
    · nlinarith [mul_le_mul_of_nonneg_left e.2 h0, mul_le_mul_of_nonpos_right h1 hn]
    · nlinarith [mul_le_mul_of_nonneg_left e.1 h0, mul_le_mul_of_nonneg_right h1 hp]

/-- On `[0, N]` the polynomial is between `lo` and `hi`. -/
def bounded (lo hi : ℤ) : ℕ → List ℤ → Bool
  | 0, _ => true
  | n + 1, l => unit lo hi (shift n l) && bounded lo hi n l

theorem bounded_sound {lo hi : ℤ} {N : ℕ} {l : List ℤ} (h : bounded lo hi N l = true) {y : ℝ} (h0 : 0 ≤ y)
    (h1 : y ≤ N) (hN : 0 < N) : (lo : ℝ) ≤ ev l y ∧ ev l y ≤ hi := by
  induction N with
  | zero => omega
  | succ n ih =>
    simp only [bounded, Bool.and_eq_true] at h
    rcases le_or_gt (n : ℝ) y with hy | hy
    · have := unit_sound h.1 (s := y - n) (by linarith) (by push_cast at h1; linarith)
      rw [ev_shift] at this
      push_cast at this
      rwa [sub_add_cancel] at this
    · refine ih h.2 hy.le ?_
      rcases Nat.eq_zero_or_pos n with h' | h'
      · rw [h'] at hy; push_cast at hy; linarith
      · exact h'

/-- The check on `[0, 1]`, in `N` pieces. -/
theorem bounded_unit (lo hi : ℤ) (N : ℕ) (M : ℤ) (hM : M = N) (n : ℕ) (l : List ℤ) (hl : l.length = n + 1) (hN : 0 < N)
    (h : bounded (lo * M ^ n) (hi * M ^ n) N (dilate M l) = true) {t : ℝ} (h0 : 0 ≤ t) (h1 : t ≤ 1) :
    (lo : ℝ) ≤ ev l t ∧ ev l t ≤ hi := by
  obtain ⟨a, l, rfl⟩ : ∃ a m, l = a :: m := by
    cases l with
    | nil => simp at hl
    | cons a m => exact ⟨a, m, rfl⟩
  have hl' : l.length = n := by simpa using hl
  subst hM hl'
  have hN' : (0 : ℝ) < N := by exact_mod_cast hN
  have := bounded_sound h (y := (N : ℤ) * t) (by push_cast; positivity) (by push_cast; nlinarith) hN
  rw [ev_dilate] at this
  push_cast at this
  have hp : (0 : ℝ) < (N : ℝ) ^ l.length := by positivity
  constructor
  · have := this.1; rw [mul_comm] at this; exact le_of_mul_le_mul_left this hp
  · have := this.2; rw [mul_comm (hi : ℝ)] at this; exact le_of_mul_le_mul_left this hp

end Verif.IPoly
