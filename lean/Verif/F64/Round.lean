import Mathlib.Data.Int.Log
import Mathlib.Data.Real.Archimedean
import Mathlib.Algebra.Order.Round
import Mathlib.Tactic.Linarith
import Mathlib.Tactic.Positivity
import Mathlib.Tactic.Ring
import Mathlib.Tactic.NormNum
import Mathlib.Tactic.FieldSimp

/-!
# Rounding to binary64

The mathematical description of IEEE rounding to nearest, ties to even, with 53 bits and least exponent -1074 and without an
upper bound of the exponent.  `Verif.F64.Model` shows that Lean's bit-level definition of `Float` computes exactly this.
-/
namespace Verif.F64

/-- Rounding to the nearest integer, ties to even. -/
noncomputable def rne (y : ℝ) : ℤ :=
  if Int.fract y < 1 / 2 then ⌊y⌋ else if 1 / 2 < Int.fract y then ⌊y⌋ + 1 else if Even ⌊y⌋ then ⌊y⌋ else ⌊y⌋ + 1

theorem rne_intCast (n : ℤ) : rne n = n := by
  unfold rne
  rw [Int.fract_intCast, if_pos (by norm_num), Int.floor_intCast]

theorem abs_rne_sub_le (y : ℝ) : |(rne y : ℝ) - y| ≤ 1 / 2 := by
  have h := Int.floor_add_fract y
  have h0 := Int.fract_nonneg y
  have h1 := Int.fract_lt_one y
  unfold rne
  split
  · rw [abs_le]; constructor <;> linarith
  · split
    · push_cast; rw [abs_le]; constructor <;> linarith
    · split
      · rw [abs_le]; constructor <;> linarith
      · push_cast; rw [abs_le]; constructor <;> linarith

theorem floor_le_rne (y : ℝ) : ⌊y⌋ ≤ rne y := by
  unfold rne; split_ifs <;> omega

theorem rne_le_floor_add_one (y : ℝ) : rne y ≤ ⌊y⌋ + 1 := by
  unfold rne; split_ifs <;> omega

theorem rne_mono {x y : ℝ} (h : x ≤ y) : rne x ≤ rne y := by
  rcases lt_or_eq_of_le (Int.floor_le_floor h) with h1 | h1
  · have := rne_le_floor_add_one x
    have := floor_le_rne y
    omega
  · have hf : Int.fract x ≤ Int.fract y := by
      unfold Int.fract; rw [h1]; linarith
    unfold rne
    rw [h1]
    split_ifs <;> first | omega | (exfalso; linarith)

theorem rne_neg (y : ℝ) : rne (-y) = - rne y := by
  by_cases h0 : Int.fract y = 0
  · obtain ⟨n, hn⟩ : ∃ n : ℤ, y = n := ⟨⌊y⌋, by have := Int.floor_add_fract y; rw [h0] at this; linarith⟩
    subst hn
    rw [show (-(n : ℝ)) = ((-n : ℤ) : ℝ) by push_cast; rfl, rne_intCast, rne_intCast]
  · have hf : Int.fract (-y) = 1 - Int.fract y := Int.fract_neg h0
    have hfl : ⌊-y⌋ = -⌊y⌋ - 1 := by
      have h1 := Int.floor_add_fract (-y)
      have h2 := Int.floor_add_fract y
      rw [hf] at h1
      have : ((⌊-y⌋ : ℤ) : ℝ) = ((-⌊y⌋ - 1 : ℤ) : ℝ) := by push_cast; linarith
      exact_mod_cast this
    unfold rne
    rw [hf, hfl]
    have hpar : Even (-⌊y⌋ - 1) ↔ ¬ Even ⌊y⌋ := by
      rw [Int.even_sub, even_neg]; simp
    simp only [hpar]
    split_ifs <;> first | omega | (exfalso; linarith) | (exfalso; tauto)

theorem rne_eq_of_le_le {y : ℝ} {n : ℤ} (h1 : (n : ℝ) ≤ y) (h2 : y ≤ n) : rne y = n := by
  rw [le_antisymm h2 h1, rne_intCast]

/-- The exponent of the last place. -/
noncomputable def tgt (x : ℝ) : ℤ := max (Int.log 2 |x| - 52) (-1074)

/-- Rounding to binary64 (unbounded exponent). -/
noncomputable def rnd (x : ℝ) : ℝ := rne (x / 2 ^ tgt x) * 2 ^ tgt x

theorem tgt_neg (x : ℝ) : tgt (-x) = tgt x := by unfold tgt; rw [abs_neg]

theorem rnd_neg (x : ℝ) : rnd (-x) = - rnd x := by
  unfold rnd; rw [tgt_neg, neg_div, rne_neg]; push_cast; ring

theorem rnd_zero : rnd 0 = 0 := by
  unfold rnd
  rw [zero_div]
  have : rne 0 = 0 := by exact_mod_cast rne_intCast 0
  rw [this]; simp

theorem two_zpow_pos (e : ℤ) : (0 : ℝ) < 2 ^ e := zpow_pos two_pos e

theorem two_zpow_natCast (n : ℕ) : (2 : ℝ) ^ (n : ℤ) = ((2 ^ n : ℤ) : ℝ) := by
  rw [zpow_natCast]; push_cast; rfl

theorem lt_zpow_log {x : ℝ} : |x| < 2 ^ (Int.log 2 |x| + 1) := by
  simpa using Int.lt_zpow_succ_log_self (b := 2) (by norm_num) |x|

theorem zpow_log_le {x : ℝ} (h : x ≠ 0) : (2 : ℝ) ^ Int.log 2 |x| ≤ |x| := by
  simpa using Int.zpow_log_le_self (b := 2) (by norm_num) (abs_pos.mpr h)

theorem abs_div_tgt_lt (x : ℝ) : |x / 2 ^ tgt x| < 2 ^ 53 := by
  rw [abs_div, abs_of_pos (two_zpow_pos _), div_lt_iff₀ (two_zpow_pos _)]
  refine lt_of_lt_of_le lt_zpow_log ?_
  have h : (2 : ℝ) ^ 53 * 2 ^ tgt x = 2 ^ (53 + tgt x) := by
    rw [zpow_add₀ two_ne_zero]; norm_num
  rw [h]
  refine zpow_le_zpow_right₀ (by norm_num) ?_
  unfold tgt
  have := le_max_left (Int.log 2 |x| - 52) (-1074)
  omega

theorem abs_rnd_sub_le (x : ℝ) : |rnd x - x| ≤ 2 ^ tgt x / 2 := by
  have h := abs_rne_sub_le (x / 2 ^ tgt x)
  have hp := two_zpow_pos (tgt x)
  have e : rnd x - x = ((rne (x / 2 ^ tgt x) : ℝ) - x / 2 ^ tgt x) * 2 ^ tgt x := by
    unfold rnd; field_simp
  rw [e, abs_mul, abs_of_pos hp]
  nlinarith

/-- Relative error of one rounding in the normal range. -/
theorem abs_rnd_sub_le_rel {x : ℝ} (h : (2 : ℝ) ^ (-1022 : ℤ) ≤ |x|) : |rnd x - x| ≤ |x| * 2 ^ (-53 : ℤ) := by
  have hx : x ≠ 0 := by
    rintro rfl
    rw [abs_zero] at h
    exact absurd h (not_le.mpr (two_zpow_pos _))
  have h1 := abs_rnd_sub_le x
  have h2 := zpow_log_le hx
  have hl : -1022 ≤ Int.log 2 |x| := by
    have := h.trans_lt (lt_zpow_log (x := x))
    rw [zpow_lt_zpow_iff_right₀ (by norm_num)] at this
    omega
  have ht : tgt x = Int.log 2 |x| - 52 := by unfold tgt; omega
  rw [ht] at h1
  calc _ ≤ (2 : ℝ) ^ (Int.log 2 |x| - 52) / 2 := h1
    _ = 2 ^ Int.log 2 |x| * 2 ^ (-53 : ℤ) := by
      rw [show Int.log 2 |x| - 52 = Int.log 2 |x| + (-53) + 1 by ring, zpow_add₀ two_ne_zero, zpow_add₀ two_ne_zero, zpow_one]
      ring
    _ ≤ _ := mul_le_mul_of_nonneg_right h2 (two_zpow_pos _).le

/-- General error bound. -/
theorem abs_rnd_sub_le_abs (x : ℝ) : |rnd x - x| ≤ max (|x| * 2 ^ (-53 : ℤ)) (2 ^ (-1075 : ℤ)) := by
  by_cases hx : x = 0
  · subst hx
    rw [rnd_zero, sub_zero, abs_zero]
    exact (two_zpow_pos _).le.trans (le_max_right _ _)
  by_cases h : (2 : ℝ) ^ (-1022 : ℤ) ≤ |x|
  · exact (abs_rnd_sub_le_rel h).trans (le_max_left _ _)
  · refine (abs_rnd_sub_le x).trans (le_trans ?_ (le_max_right _ _))
    have hl : Int.log 2 |x| < -1022 := by
      have := (zpow_log_le hx).trans_lt (not_le.mp h)
      rwa [zpow_lt_zpow_iff_right₀ (by norm_num)] at this
    have ht : tgt x = -1074 := by unfold tgt; omega
    rw [ht, show (-1074 : ℤ) = -1075 + 1 by norm_num, zpow_add₀ two_ne_zero, zpow_one]
    simp

/-- The numbers of the format (unbounded exponent). -/
def IsF (x : ℝ) : Prop := ∃ m e : ℤ, |m| ≤ 2 ^ 53 ∧ -1074 ≤ e ∧ x = m * 2 ^ e

theorem IsF.neg {x : ℝ} (h : IsF x) : IsF (-x) := by
  obtain ⟨m, e, h1, h2, rfl⟩ := h
  exact ⟨-m, e, by rwa [abs_neg], h2, by push_cast; ring⟩

theorem isF_zero : IsF 0 := ⟨0, 0, by norm_num, by norm_num, by norm_num⟩

theorem isF_int {n : ℤ} (h : |n| ≤ 2 ^ 53) : IsF n := ⟨n, 0, h, by norm_num, by simp⟩

theorem isF_nat {n : ℕ} (h : n ≤ 2 ^ 53) : IsF n := by
  have := isF_int (n := (n : ℤ)) (by rw [abs_of_nonneg (by positivity)]; exact_mod_cast h)
  exact_mod_cast this

theorem isF_zpow {e : ℤ} (h : -1074 ≤ e) : IsF (2 ^ e) := ⟨1, e, by norm_num, h, by simp⟩

theorem tgt_ge (x : ℝ) : -1074 ≤ tgt x := le_max_right _ _

theorem isF_rnd (x : ℝ) : IsF (rnd x) := by
  refine ⟨rne (x / 2 ^ tgt x), tgt x, ?_, tgt_ge x, rfl⟩
  have h := abs_lt.mp (abs_div_tgt_lt x)
  rw [abs_le]
  constructor
  · have : rne (((-2 ^ 53 : ℤ)) : ℝ) ≤ rne (x / 2 ^ tgt x) := rne_mono (by push_cast; norm_num at h ⊢; exact h.1.le)
    rwa [rne_intCast] at this
  · have : rne (x / 2 ^ tgt x) ≤ rne (((2 ^ 53 : ℤ)) : ℝ) := rne_mono (by push_cast; norm_num at h ⊢; exact h.2.le)
    rwa [rne_intCast] at this

theorem tgt_le_of {m e : ℤ} (h1 : |m| < 2 ^ 53) (h2 : -1074 ≤ e) (h0 : m ≠ 0) : tgt (m * 2 ^ e) ≤ e := by
  unfold tgt
  refine max_le ?_ h2
  have hne : ((m : ℝ) * 2 ^ e) ≠ 0 := mul_ne_zero (by exact_mod_cast h0) (two_zpow_pos e).ne'
  have h3 := zpow_log_le hne
  have h4 : |(m : ℝ) * 2 ^ e| < 2 ^ (53 + e) := by
    rw [abs_mul, abs_of_pos (two_zpow_pos e), zpow_add₀ two_ne_zero]
    refine mul_lt_mul_of_pos_right ?_ (two_zpow_pos e)
    have : ((|m| : ℤ) : ℝ) < ((2 ^ 53 : ℤ) : ℝ) := Int.cast_lt.mpr h1
    rw [Int.cast_abs] at this
    refine this.trans_le (le_of_eq ?_)
    norm_num
  have h5 := h3.trans_lt h4
  rw [zpow_lt_zpow_iff_right₀ (by norm_num)] at h5
  omega

theorem rnd_of_int_mul {m e : ℤ} (h : tgt (m * 2 ^ e) ≤ e) : rnd (m * 2 ^ e) = m * 2 ^ e := by
  unfold rnd
  set t := tgt ((m : ℝ) * 2 ^ e)
  have he : (2 : ℝ) ^ e = ((2 ^ (e - t).toNat : ℤ) : ℝ) * 2 ^ t := by
    rw [← two_zpow_natCast, ← zpow_add₀ two_ne_zero]
    congr 1; omega
  have hd : (m : ℝ) * 2 ^ e / 2 ^ t = ((m * 2 ^ (e - t).toNat : ℤ) : ℝ) := by
    rw [he, ← mul_assoc, mul_div_cancel_right₀ _ (two_zpow_pos t).ne']; push_cast; ring
  rw [hd, rne_intCast]
  rw [he]; push_cast; ring

theorem IsF.strict {x : ℝ} (h : IsF x) : ∃ m e : ℤ, |m| < 2 ^ 53 ∧ -1074 ≤ e ∧ x = m * 2 ^ e := by
  obtain ⟨m, e, h1, h2, rfl⟩ := h
  rcases lt_or_eq_of_le h1 with h1 | h1
  · exact ⟨m, e, h1, h2, rfl⟩
  · rcases (abs_eq (by norm_num)).mp h1 with h | h
    · subst h
      refine ⟨2 ^ 52, e + 1, by norm_num, by omega, ?_⟩
      rw [zpow_add₀ two_ne_zero]; push_cast; ring
    · subst h
      refine ⟨-2 ^ 52, e + 1, by norm_num, by omega, ?_⟩
      rw [zpow_add₀ two_ne_zero]; push_cast; ring

theorem rnd_of_isF {x : ℝ} (h : IsF x) : rnd x = x := by
  obtain ⟨m, e, h1, h2, rfl⟩ := h.strict
  by_cases h0 : m = 0
  · subst h0; simp [rnd_zero]
  · exact rnd_of_int_mul (tgt_le_of h1 h2 h0)

theorem rnd_nonneg {x : ℝ} (h : 0 ≤ x) : 0 ≤ rnd x := by
  unfold rnd
  have : rne ((0 : ℤ) : ℝ) ≤ rne (x / 2 ^ tgt x) := rne_mono (by push_cast; exact div_nonneg h (two_zpow_pos _).le)
  rw [rne_intCast] at this
  exact mul_nonneg (by exact_mod_cast this) (two_zpow_pos _).le

/-- Upper bound by the next power of two. -/
theorem rnd_le_zpow {x : ℝ} (h : 0 < x) : rnd x ≤ 2 ^ max (Int.log 2 |x| + 1) (-1074) := by
  unfold rnd
  set t := tgt x with ht
  by_cases hc : t ≤ Int.log 2 |x| + 1
  · rw [max_eq_left (by have := tgt_ge x; omega)]
    have he : (2 : ℝ) ^ (Int.log 2 |x| + 1) = ((2 ^ (Int.log 2 |x| + 1 - t).toNat : ℤ) : ℝ) * 2 ^ t := by
      rw [← two_zpow_natCast, ← zpow_add₀ two_ne_zero]
      congr 1; omega
    rw [he]
    refine mul_le_mul_of_nonneg_right ?_ (two_zpow_pos t).le
    have : rne (x / 2 ^ t) ≤ rne ((2 ^ (Int.log 2 |x| + 1 - t).toNat : ℤ) : ℝ) := by
      refine rne_mono ?_
      rw [div_le_iff₀ (two_zpow_pos t), ← he, ← abs_of_pos h]
      simpa [abs_abs] using (lt_zpow_log (x := x)).le
    rw [rne_intCast] at this
    exact_mod_cast this
  · have ht' : t = -1074 := by rw [ht] at hc ⊢; unfold tgt at hc ⊢; omega
    rw [max_eq_right (by omega), ht']
    have : rne (x / 2 ^ t) ≤ rne ((1 : ℤ) : ℝ) := by
      refine rne_mono ?_
      rw [div_le_iff₀ (two_zpow_pos t), Int.cast_one, one_mul]
      rw [← abs_of_pos h]
      refine (lt_zpow_log (x := x)).le.trans (zpow_le_zpow_right₀ (by norm_num) (by omega))
    rw [rne_intCast] at this
    have h1 : ((rne (x / 2 ^ t) : ℤ) : ℝ) ≤ 1 := by exact_mod_cast this
    rw [ht'] at h1
    nlinarith [two_zpow_pos (-1074)]

/-- Lower bound by the power of two below. -/
theorem zpow_le_rnd {x : ℝ} (h : 0 < x) (hl : tgt x = Int.log 2 |x| - 52) : 2 ^ Int.log 2 |x| ≤ rnd x := by
  unfold rnd
  rw [hl]
  set t := Int.log 2 |x| - 52 with ht
  have he : (2 : ℝ) ^ Int.log 2 |x| = ((2 ^ 52 : ℤ) : ℝ) * 2 ^ t := by
    rw [show ((2 ^ 52 : ℤ) : ℝ) = (2 : ℝ) ^ ((52 : ℕ) : ℤ) by rw [two_zpow_natCast], ← zpow_add₀ two_ne_zero]
    congr 1; push_cast; omega
  rw [he]
  refine mul_le_mul_of_nonneg_right ?_ (two_zpow_pos t).le
  have : rne ((2 ^ 52 : ℤ) : ℝ) ≤ rne (x / 2 ^ t) := by
    refine rne_mono ?_
    rw [le_div_iff₀ (two_zpow_pos t), ← he]
    simpa [abs_of_pos h] using zpow_log_le h.ne'
  rw [rne_intCast] at this
  exact_mod_cast this

theorem rnd_mono_pos {x y : ℝ} (hx : 0 < x) (h : x ≤ y) : rnd x ≤ rnd y := by
  have hy := hx.trans_le h
  have hlog : Int.log 2 |x| ≤ Int.log 2 |y| := Int.log_mono_right (abs_pos.mpr hx.ne') (by rwa [abs_of_pos hx, abs_of_pos hy])
  have htt : tgt x ≤ tgt y := by unfold tgt; omega
  rcases eq_or_lt_of_le htt with he | hlt
  · unfold rnd
    rw [he]
    refine mul_le_mul_of_nonneg_right ?_ (two_zpow_pos _).le
    exact_mod_cast rne_mono (div_le_div_of_nonneg_right h (two_zpow_pos _).le)
  · have hty : tgt y = Int.log 2 |y| - 52 := by
      have := tgt_ge x
      unfold tgt at hlt this ⊢; omega
    refine (rnd_le_zpow hx).trans (le_trans ?_ (zpow_le_rnd hy hty))
    refine zpow_le_zpow_right₀ (by norm_num) ?_
    have := tgt_ge x
    unfold tgt at hlt this hty
    omega

theorem rnd_mono {x y : ℝ} (h : x ≤ y) : rnd x ≤ rnd y := by
  rcases lt_or_ge 0 x with hx | hx
  · exact rnd_mono_pos hx h
  · rcases lt_or_ge y 0 with hy | hy
    · have := rnd_mono_pos (x := -y) (y := -x) (by linarith) (by linarith)
      rw [rnd_neg, rnd_neg] at this
      linarith
    · have h1 := rnd_nonneg hy
      have h2 := rnd_nonneg (x := -x) (by linarith)
      rw [rnd_neg] at h2
      linarith

theorem rnd_le_of_le {x b : ℝ} (hb : IsF b) (h : x ≤ b) : rnd x ≤ b := by
  rw [← rnd_of_isF hb]; exact rnd_mono h

theorem le_rnd_of_le {x b : ℝ} (hb : IsF b) (h : b ≤ x) : b ≤ rnd x := by
  rw [← rnd_of_isF hb]; exact rnd_mono h

theorem abs_rnd (x : ℝ) : |rnd x| = rnd |x| := by
  rcases le_total 0 x with h | h
  · rw [abs_of_nonneg h, abs_of_nonneg (rnd_nonneg h)]
  · rw [abs_of_nonpos h, rnd_neg, abs_of_nonpos]
    have := rnd_nonneg (x := -x) (by linarith)
    rw [rnd_neg] at this; linarith

end Verif.F64
