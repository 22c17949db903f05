import Verif.F64.Unpacked
import Mathlib.Analysis.SpecialFunctions.Pow.NNReal
import Mathlib.Algebra.Order.Floor.Semifield

/-! Square root, comparison and conversion to integers of unpacked floating point numbers. -/
namespace Verif.F64
open Float.Model Float.Model.UnpackedFloat

/-! ## Square root -/

theorem repY_sqrt (M : ℕ) :
    RepY (ExtendedMantissa.ofMantissaAndAccuracy (Nat.sqrt M)
      (if M - Nat.sqrt M * Nat.sqrt M = 0 then .exact
        else .inexact (if M - Nat.sqrt M * Nat.sqrt M ≤ Nat.sqrt M then .lt else .gt))) (Real.sqrt M) := by
  have h1 := Nat.sqrt_le M
  have h2 := Nat.sqrt_lt' (m := M) (n := Nat.sqrt M + 1) |>.mp (Nat.lt_succ_self _)
  set r := Nat.sqrt M
  have h1' : (r : ℝ) * r ≤ M := by exact_mod_cast h1
  have h2' : (M : ℝ) < (r + 1) ^ 2 := by exact_mod_cast h2
  have hr0 : (0 : ℝ) ≤ r := by positivity
  split
  · rename_i h
    have : M = r * r := by omega
    simp only [ExtendedMantissa.ofMantissaAndAccuracy, RepY]
    rw [this]; push_cast
    exact Real.sqrt_mul_self hr0
  · rename_i h
    have hlt : (r : ℝ) * r < M := by
      have : r * r < M := by omega
      exact_mod_cast this
    split
    · rename_i h3
      have h3' : (M : ℝ) ≤ r * r + r := by
        have : M ≤ r * r + r := by omega
        exact_mod_cast this
      simp only [ExtendedMantissa.ofMantissaAndAccuracy, RepY]
      constructor
      · exact Real.lt_sqrt_of_sq_lt (by nlinarith)
      · rw [Real.sqrt_lt' (by positivity)]; nlinarith
    · rename_i h3
      have h3' : (r * r + r + 1 : ℝ) ≤ M := by
        have : r * r + r + 1 ≤ M := by omega
        exact_mod_cast this
      simp only [ExtendedMantissa.ofMantissaAndAccuracy, RepY]
      constructor
      · exact Real.lt_sqrt_of_sq_lt (by nlinarith)
      · rw [Real.sqrt_lt' (by positivity)]; exact h2'

theorem log_sqrt {x : ℝ} (hx : 0 < x) : Int.log 2 |Real.sqrt x| = (Int.log 2 |x|) / 2 := by
  have h1 := zpow_log_le hx.ne'
  have h2 := lt_zpow_log (x := x)
  rw [abs_of_pos hx] at *
  set L := Int.log 2 x
  have hs : 0 < Real.sqrt x := Real.sqrt_pos.mpr hx
  apply le_antisymm
  · have : Real.sqrt x < 2 ^ (L / 2 + 1) := by
      rw [Real.sqrt_lt' (two_zpow_pos _)]
      refine h2.trans_le ?_
      rw [← zpow_natCast, ← zpow_mul]
      exact zpow_le_zpow_right₀ (by norm_num) (by push_cast; omega)
    have := log_lt_of_lt hs this
    omega
  · have : (2 : ℝ) ^ (L / 2) ≤ Real.sqrt x := by
      apply Real.le_sqrt_of_sq_le
      refine le_trans ?_ h1
      rw [← zpow_natCast, ← zpow_mul]
      exact zpow_le_zpow_right₀ (by norm_num) (by push_cast; omega)
    exact le_log_of_le hs this

theorem sqrt_finite_spec {m : ℕ} {e : ℤ} (hm : 0 < m) :
    IsRound .positive (Real.sqrt (m * 2 ^ e)) (sqrt Format.binary64 (.finite .positive m e hm)) := by
  set T := min (e.ediv 2) (Format.binary64.targetExponent ((totalExponent m e + 1).ediv 2)) with hT
  set M := m <<< (e - 2 * T).toNat with hM
  have hsq : sqrt Format.binary64 (.finite .positive m e hm)
      = roundWithAccuracy Format.binary64 .positive (Nat.sqrt M) T (if M - Nat.sqrt M * Nat.sqrt M = 0 then .exact
        else .inexact (if M - Nat.sqrt M * Nat.sqrt M ≤ Nat.sqrt M then .lt else .gt)) := rfl
  have hx := finite_pos hm e
  have hTe : T ≤ e / 2 := min_le_left _ _
  have hxT : Real.sqrt (m * 2 ^ e) / 2 ^ T = Real.sqrt M := by
    rw [div_eq_iff (two_zpow_pos T).ne', ← Real.sqrt_mul_self (two_zpow_pos T).le, ← Real.sqrt_mul (by positivity)]
    congr 1
    rw [hM, shiftLeft_cast, ← zpow_natCast, show (((e - 2 * T).toNat : ℕ) : ℤ) = e - 2 * T by omega, mul_assoc,
      ← zpow_add₀ two_ne_zero, ← zpow_add₀ two_ne_zero]
    congr 2; ring
  rw [hsq]
  refine roundWithAccuracy_spec _ (Real.sqrt_pos.mpr hx) ?_ ?_
  · rw [hxT]; exact repY_sqrt M
  · have hT2 : T ≤ Format.binary64.targetExponent ((totalExponent m e + 1) / 2) := min_le_right _ _
    rw [targetExponent64] at hT2
    unfold totalExponent at hT2
    unfold tgt
    rw [log_sqrt hx, log_finite hm]
    omega

theorem sqrt_spec {a : UnpackedFloat} (fa : a.isFinite = true) (h0 : 0 ≤ uval a) :
    Good (sqrt Format.binary64 a) (rnd (Real.sqrt (uval a))) := by
  cases a with
  | infinity | notANumber => simp [UnpackedFloat.isFinite] at fa
  | zero s => exact ⟨trivial, rfl, by simp [uval, UnpackedFloat.sqrt, rnd_zero]⟩
  | finite s m e hm =>
    cases s with
    | negative =>
      have := finite_pos hm e
      simp only [uval, sgn] at h0
      linarith
    | positive =>
      have h := sqrt_finite_spec (e := e) hm
      refine ⟨h.canon, h.finite, ?_⟩
      rw [h.uval]
      simp [uval, sgn]

/-! ## Comparison -/

theorem canonME_lt {m m' : ℕ} {e e' : ℤ} (h : CanonME m e) (h' : CanonME m' e') (he : e < e') :
    (m : ℝ) * 2 ^ e < m' * 2 ^ e' := by
  obtain ⟨h1, h2, _⟩ := h
  obtain ⟨_, _, h3⟩ := h'
  have h3 : 2 ^ 52 ≤ m' := by rcases h3 with h | h <;> [exact h; omega]
  calc (m : ℝ) * 2 ^ e < 2 ^ 53 * 2 ^ e := by
        refine mul_lt_mul_of_pos_right ?_ (two_zpow_pos e); exact_mod_cast h1
    _ = 2 ^ 52 * 2 ^ (e + 1) := by rw [zpow_add₀ two_ne_zero]; norm_num; ring
    _ ≤ 2 ^ 52 * 2 ^ e' := by
        refine mul_le_mul_of_nonneg_left (zpow_le_zpow_right₀ (by norm_num) (by omega)) (by positivity)
    _ ≤ m' * 2 ^ e' := by
        refine mul_le_mul_of_nonneg_right ?_ (two_zpow_pos _).le; exact_mod_cast h3

theorem compare_lex {m m' : ℕ} {e e' : ℤ} (h : CanonME m e) (h' : CanonME m' e') :
    (compare e e').then (compare m m') = compare ((m : ℝ) * 2 ^ e) (m' * 2 ^ e') := by
  rcases lt_trichotomy e e' with he | he | he
  · rw [compare_lt_iff_lt.mpr he, compare_lt_iff_lt.mpr (canonME_lt h h' he)]; rfl
  · subst he
    rw [compare_eq_iff_eq.mpr rfl]
    have hp := two_zpow_pos e
    rcases lt_trichotomy m m' with hm | hm | hm
    · rw [compare_lt_iff_lt.mpr hm, compare_lt_iff_lt.mpr (mul_lt_mul_of_pos_right (by exact_mod_cast hm) hp)]; rfl
    · subst hm
      rw [compare_eq_iff_eq.mpr rfl, compare_eq_iff_eq.mpr rfl]; rfl
    · rw [compare_gt_iff_gt.mpr hm, compare_gt_iff_gt.mpr (mul_lt_mul_of_pos_right (by exact_mod_cast hm) hp)]; rfl
  · rw [compare_gt_iff_gt.mpr he, compare_gt_iff_gt.mpr (canonME_lt h' h he)]; rfl

theorem compare_neg_neg (x y : ℝ) : compare (-x) (-y) = (compare x y).swap := by
  rcases lt_trichotomy x y with h | h | h
  · rw [compare_lt_iff_lt.mpr h, compare_gt_iff_gt.mpr (neg_lt_neg h)]; rfl
  · subst h; rw [compare_eq_iff_eq.mpr rfl, compare_eq_iff_eq.mpr rfl]; rfl
  · rw [compare_gt_iff_gt.mpr h, compare_lt_iff_lt.mpr (neg_lt_neg h)]; rfl

theorem compare_spec {a b : UnpackedFloat} (ha : Canon' a) (hb : Canon' b) (fa : a.isFinite = true)
    (fb : b.isFinite = true) : a.compare b = some (compare (uval a) (uval b)) := by
  cases a with
  | infinity | notANumber => simp [UnpackedFloat.isFinite] at fa
  | zero s =>
    cases b with
    | infinity | notANumber => simp [UnpackedFloat.isFinite] at fb
    | zero s' =>
      show some Ordering.eq = some (compare (0 : ℝ) 0)
      rw [compare_eq_iff_eq.mpr rfl]
    | finite s' m e hm =>
      have hp := finite_pos hm e
      cases s'
      · show some Ordering.gt = some (compare (0 : ℝ) (-1 * (m * 2 ^ e)))
        rw [compare_gt_iff_gt.mpr (show (0 : ℝ) > -1 * (m * 2 ^ e) by linarith)]
      · show some Ordering.lt = some (compare (0 : ℝ) (1 * (m * 2 ^ e)))
        rw [compare_lt_iff_lt.mpr (show (0 : ℝ) < 1 * (m * 2 ^ e) by linarith)]
  | finite s m e hm =>
    have hp := finite_pos hm e
    cases b with
    | infinity | notANumber => simp [UnpackedFloat.isFinite] at fb
    | zero s' =>
      cases s
      · show some Ordering.lt = some (compare (-1 * (m * 2 ^ e) : ℝ) 0)
        rw [compare_lt_iff_lt.mpr (show (-1 * (m * 2 ^ e) : ℝ) < 0 by linarith)]
      · show some Ordering.gt = some (compare (1 * (m * 2 ^ e) : ℝ) 0)
        rw [compare_gt_iff_gt.mpr (show (1 * (m * 2 ^ e) : ℝ) > 0 by linarith)]
    | finite s' m' e' hm' =>
      have hp' := finite_pos hm' e'
      cases s <;> cases s'
      · show some ((compare e e').then (compare m m')).swap = some (compare (-1 * (m * 2 ^ e) : ℝ) (-1 * (m' * 2 ^ e')))
        rw [compare_lex ha hb, neg_one_mul, neg_one_mul, compare_neg_neg]
      · show some Ordering.lt = some (compare (-1 * (m * 2 ^ e) : ℝ) (1 * (m' * 2 ^ e')))
        rw [compare_lt_iff_lt.mpr (show (-1 * (m * 2 ^ e) : ℝ) < 1 * (m' * 2 ^ e') by linarith)]
      · show some Ordering.gt = some (compare (1 * (m * 2 ^ e) : ℝ) (-1 * (m' * 2 ^ e')))
        rw [compare_gt_iff_gt.mpr (show (1 * (m * 2 ^ e) : ℝ) > -1 * (m' * 2 ^ e') by linarith)]
      · show some ((compare e e').then (compare m m')) = some (compare (1 * (m * 2 ^ e) : ℝ) (1 * (m' * 2 ^ e')))
        rw [compare_lex ha hb, one_mul, one_mul]

/-! ## Conversion to integers -/

theorem shiftRight_mantissa (em : ExtendedMantissa) (n : ℕ) : (em >>> n).mantissa = em.mantissa / 2 ^ n := by
  induction n with
  | zero =>
    have : em >>> 0 = em := rfl
    rw [this]; simp
  | succ n ih =>
    have : em >>> (n + 1) = (em >>> n).shiftRightOne := rfl
    rw [this, ExtendedMantissa.shiftRightOne]
    simp only [ih]
    rw [pow_succ, Nat.div_div_eq_div_mul]

theorem roundToInt_nat (m : ℕ) (e : ℤ) : ∃ k : ℕ, (k = ⌊(m : ℝ) * 2 ^ e⌋₊) ∧ ∀ s, roundToInt s m e = s.apply k := by
  refine ⟨(m <<< (e - 0).toNat) / 2 ^ (0 - (e - ((e - 0).toNat : ℤ))).toNat, ?_, ?_⟩
  · symm
    rcases le_total 0 e with he | he
    · rw [show (0 - (e - ((e - 0).toNat : ℤ))).toNat = 0 by omega, pow_zero, Nat.div_one]
      have : (m : ℝ) * 2 ^ e = ((m <<< (e - 0).toNat : ℕ) : ℝ) := by
        rw [shiftLeft_cast, ← zpow_natCast]; congr 2; omega
      rw [this, Nat.floor_natCast]
    · rw [show (e - 0).toNat = 0 by omega]
      have : (m : ℝ) * 2 ^ e = (m : ℝ) / ((2 ^ (-e).toNat : ℕ) : ℝ) := by
        push_cast
        rw [← zpow_natCast, show (((-e).toNat : ℕ) : ℤ) = -e by omega, zpow_neg, div_inv_eq_mul]
      rw [this, Nat.floor_div_natCast, Nat.floor_natCast]
      simp
  · intro s
    show s.apply ((ExtendedMantissa.ofMantissaAndAccuracy (m <<< (e - 0).toNat) Accuracy.exact
      >>> (0 - (e - ((e - 0).toNat : ℤ))).toNat).mantissa) = _
    rw [shiftRight_mantissa]
    rfl

theorem toNat_spec {a : UnpackedFloat} (fa : a.isFinite = true) (p q : ℤ) : (a.toInt p q).toNat = ⌊uval a⌋₊ := by
  cases a with
  | infinity | notANumber => simp [UnpackedFloat.isFinite] at fa
  | zero s => simp [UnpackedFloat.toInt, uval]
  | finite s m e hm =>
    obtain ⟨k, h1, h2⟩ := roundToInt_nat m e
    show (roundToInt s m e).toNat = _
    rw [h2]
    cases s
    · have : uval (.finite .negative m e hm) ≤ 0 := by
        have := finite_pos hm e
        simp only [uval, sgn]; linarith
      rw [Nat.floor_of_nonpos this]
      simp only [Sign.apply]; omega
    · simp only [Sign.apply, uval, sgn, one_mul]
      rw [← h1]; simp

end Verif.F64
