import Verif.F64.Basic
import Verif.Model.Lib

/-! The integer test and the NaN test of the crate in IEEE arithmetic. -/
namespace Verif.F64
open Float.Model Float.Model.UnpackedFloat

theorem isF_int_of_rnd (k : ℤ) : ∃ n : ℤ, rnd k = n := by
  unfold rnd
  rcases le_total (tgt k) 0 with h | h
  · have : (k : ℝ) / 2 ^ tgt k = ((k * 2 ^ (-tgt k).toNat : ℤ) : ℝ) := by
      push_cast
      rw [← zpow_natCast, show (((-tgt (k : ℝ)).toNat : ℕ) : ℤ) = -tgt k by omega, zpow_neg, div_eq_mul_inv]
    refine ⟨k, ?_⟩
    rw [this, rne_intCast, ← this, div_mul_cancel₀ _ (two_zpow_pos _).ne']
  · refine ⟨rne (k / 2 ^ tgt k) * 2 ^ (tgt k).toNat, ?_⟩
    push_cast
    rw [← zpow_natCast (2 : ℝ) (tgt k).toNat, show (((tgt (k : ℝ)).toNat : ℕ) : ℤ) = tgt k by omega]

theorem isF_nat_of_rnd (k : ℕ) : ∃ n : ℕ, rnd k = n := by
  obtain ⟨n, hn⟩ := isF_int_of_rnd k
  have h0 : 0 ≤ rnd ((k : ℤ) : ℝ) := rnd_nonneg (by positivity)
  rw [hn] at h0
  refine ⟨n.toNat, ?_⟩
  rw [Int.cast_natCast] at hn
  rw [hn]
  have h1 : 0 ≤ n := by exact_mod_cast h0
  have : ((n.toNat : ℕ) : ℤ) = n := Int.toNat_of_nonneg h1
  exact_mod_cast this.symm

theorem ofNat_fin {k : ℕ} (h : k ≤ 2 ^ 64) : Fin (F64.ofNat k) ∧ val (F64.ofNat k) = rnd k := by
  refine ofNat_val (rnd_lt_huge ?_)
  rw [abs_of_nonneg (by positivity)]
  have h1 : (k : ℝ) ≤ 2 ^ 64 := by exact_mod_cast h
  refine h1.trans ?_
  rw [← zpow_natCast]
  exact zpow_le_zpow_right₀ (by norm_num) (by norm_num)

theorem compare_notFin {a b : Float} (ha : ¬ Fin a) (hb : Fin b) : Float.beq a b = false := by
  rw [beq_eq]
  rw [fin_iff] at ha hb
  revert ha hb
  cases up a with
  | zero | finite => intro ha; exact absurd rfl ha
  | notANumber => intros; rfl
  | infinity s =>
    cases up b with
    | infinity | notANumber => intro _ hb; simp [UnpackedFloat.isFinite] at hb
    | zero s' => intros; cases s <;> rfl
    | finite s' m e hm => intros; cases s <;> rfl

theorem isInt_iff (x : Float) : isInt x = true ↔ Fin x ∧ ∃ n : ℕ, n ≤ 2 ^ 64 ∧ val x = n := by
  have hk : x.toUInt64.toNat ≤ 2 ^ 64 := x.toUInt64.toNat_lt.le
  obtain ⟨hf, hv⟩ := ofNat_fin hk
  show Float.beq x (F64.ofNat x.toUInt64.toNat) = true ↔ _
  by_cases hx : Fin x
  · rw [beq_iff hx hf, hv, toNat_val hx]
    constructor
    · intro h
      obtain ⟨n, hn⟩ := isF_nat_of_rnd (min ⌊val x⌋₊ (2 ^ 64 - 1))
      refine ⟨hx, n, ?_, h.trans hn⟩
      have h2 : rnd ((min ⌊val x⌋₊ (2 ^ 64 - 1) : ℕ) : ℝ) ≤ (2 : ℝ) ^ (64 : ℤ) := by
        refine rnd_le_of_le (isF_zpow (by norm_num)) ?_
        have : min ⌊val x⌋₊ (2 ^ 64 - 1) ≤ 2 ^ 64 := by omega
        exact_mod_cast this
      rw [hn] at h2
      exact_mod_cast h2
    · rintro ⟨_, n, hn, h⟩
      rw [h, Nat.floor_natCast]
      rcases Nat.lt_or_ge n (2 ^ 64) with hlt | hge
      · rw [min_eq_left (by omega), ← h, rnd_val]
      · have : n = 2 ^ 64 := by omega
        subst this
        rw [min_eq_right (by omega)]
        have e1 : F64.ofNat (2 ^ 64 - 1) = F64.ofNat (2 ^ 64) := by decide +kernel
        rw [← (ofNat_fin (k := 2 ^ 64 - 1) (by norm_num)).2, e1, (ofNat_fin (k := 2 ^ 64) le_rfl).2, ← h, rnd_val]
  · rw [compare_notFin hx hf]
    simp [hx]

theorem guard_iff {a b : ℕ} (ha : a < 2 ^ 53) (hb : b < 2 ^ 53) :
    isInt (F64.ofNat a / F64.ofNat b) = true ↔ b ≠ 0 ∧ b ∣ a := by
  obtain ⟨fa, va⟩ := ofNat_exact ha.le
  obtain ⟨fb, vb⟩ := ofNat_exact hb.le
  rcases Nat.eq_zero_or_pos b with h0 | hpos
  · subst h0
    have hnf : ¬ Fin (F64.ofNat a / F64.ofNat 0) := by
      have h0 : up (F64.ofNat 0) = .zero .positive := unpack_pack_zero .positive
      rw [fin_iff, div_eq, h0]
      cases hu : up (F64.ofNat a) with
      | infinity | notANumber => rw [fin_iff, hu] at fa; simp [UnpackedFloat.isFinite] at fa
      | zero s =>
        have : up (mk (.notANumber)) = .notANumber := unpack_pack_nan
        show ¬ (up (mk .notANumber)).isFinite = true
        rw [this]; simp [UnpackedFloat.isFinite]
      | finite s m e hm =>
        have : up (mk (.infinity (s / .positive))) = .infinity (s / .positive) := unpack_pack_infinity _
        show ¬ (up (mk (.infinity (s / .positive)))).isFinite = true
        rw [this]; simp [UnpackedFloat.isFinite]
    rw [isInt_iff]
    simp [hnf]
  · have hb' : (0 : ℝ) < b := by exact_mod_cast hpos
    have hb1 : (1 : ℝ) ≤ b := by exact_mod_cast hpos
    have ha53 : (a : ℝ) < 2 ^ 53 := by exact_mod_cast ha
    have hq : (a : ℝ) / b ≤ 2 ^ 53 := by rw [div_le_iff₀ hb']; nlinarith
    have hq0 : (0 : ℝ) ≤ (a : ℝ) / b := by positivity
    obtain ⟨fq, vq⟩ := div_val fa fb (by rw [vb]; exact hb'.ne') (by
      rw [va, vb]
      refine rnd_lt_huge ?_
      rw [abs_of_nonneg hq0]
      refine hq.trans ?_
      rw [← zpow_natCast]
      exact zpow_le_zpow_right₀ (by norm_num) (by norm_num))
    rw [va, vb] at vq
    rw [isInt_iff, vq]
    constructor
    · rintro ⟨_, n, _, hn⟩
      refine ⟨hpos.ne', ?_⟩
      rcases Nat.eq_zero_or_pos a with h0 | hapos
      · subst h0; exact dvd_zero b
      · have ha1 : (1 : ℝ) ≤ a := by exact_mod_cast hapos
        have hb53 : (b : ℝ) < 2 ^ 53 := by exact_mod_cast hb
        have hlow : (2 : ℝ) ^ (-1022 : ℤ) ≤ |(a : ℝ) / b| := by
          rw [abs_of_nonneg hq0, le_div_iff₀ hb']
          refine le_trans ?_ ha1
          calc (2 : ℝ) ^ (-1022 : ℤ) * b ≤ 2 ^ (-53 : ℤ) * 2 ^ 53 := by
                refine mul_le_mul (zpow_le_zpow_right₀ (by norm_num) (by norm_num)) hb53.le hb'.le (two_zpow_pos _).le
            _ = 1 := by norm_num
        have herr := abs_rnd_sub_le_rel hlow
        rw [hn, abs_of_nonneg hq0] at herr
        have hlt : |(n : ℝ) * b - a| < 1 := by
          have e1 : (n : ℝ) * b - a = (n - a / b) * b := by field_simp
          rw [e1, abs_mul, abs_of_pos hb']
          calc |(n : ℝ) - a / b| * b ≤ (a / b * 2 ^ (-53 : ℤ)) * b := mul_le_mul_of_nonneg_right herr hb'.le
            _ = a * 2 ^ (-53 : ℤ) := by field_simp
            _ < 2 ^ 53 * 2 ^ (-53 : ℤ) := mul_lt_mul_of_pos_right ha53 (two_zpow_pos _)
            _ = 1 := by norm_num
        have hint : |(n * b - a : ℤ)| < 1 := by exact_mod_cast hlt
        rw [Int.abs_lt_one_iff] at hint
        refine ⟨n, ?_⟩
        have : (a : ℤ) = b * n := by linarith
        exact_mod_cast this
    · rintro ⟨_, k, rfl⟩
      have e1 : ((b * k : ℕ) : ℝ) / b = k := by push_cast; field_simp
      have hk : k ≤ b * k := Nat.le_mul_of_pos_left k hpos
      refine ⟨fq, k, by omega, ?_⟩
      rw [e1, rnd_of_isF (isF_nat (by omega))]

/-! ## NaN test -/

theorem isNaN_eq (x : Float) : x.isNaN = (up x).isNaN := rfl
theorem isInf_eq (x : Float) : x.isInf = (up x).isInf := rfl
theorem isFinite_eq (x : Float) : x.isFinite = (up x).isFinite := rfl

theorem up_nan : up F64.nan = .notANumber := by
  have h : F64.nan = mk .notANumber := by decide +kernel
  rw [h]; exact unpack_pack_nan
theorem up_inf : up F64.inf = .infinity .positive := by
  have h : F64.inf = mk (.infinity .positive) := by decide +kernel
  rw [h]; exact unpack_pack_infinity .positive
theorem up_negInf : up F64.negInf = .infinity .negative := by
  have h : F64.negInf = mk (.infinity .negative) := by decide +kernel
  rw [h]; exact unpack_pack_infinity .negative

theorem beq_nan (x : Float) : Float.beq x F64.nan = false := by
  rw [beq_eq, up_nan]
  cases up x <;> rfl

theorem isInf_iff (x : Float) : (Float.beq x F64.inf || Float.beq x F64.negInf) = x.isInf := by
  rw [beq_eq, beq_eq, up_inf, up_negInf, isInf_eq]
  cases up x with
  | infinity s => cases s <;> rfl
  | notANumber => rfl
  | zero s => rfl
  | finite s m e hm => cases s <;> rfl

theorem isNan_eq_isInf (x : Float) : isNan x = x.isInf := by
  unfold isNan
  rw [beq_nan, Bool.false_or, isInf_iff]

theorem finite_iff (x : Float) : x.isFinite = (!x.isNaN && !x.isInf) := by
  rw [isFinite_eq, isNaN_eq, isInf_eq]
  cases up x <;> rfl

theorem isNanC_eq (z : Cx Float) : isNanC z = (z.re.isInf || z.im.isInf) := by
  unfold isNanC
  rw [beq_nan, beq_nan, ← isInf_iff z.re, ← isInf_iff z.im]
  cases Float.beq z.re F64.inf <;> cases Float.beq z.im F64.inf <;> cases Float.beq z.re F64.negInf <;>
    cases Float.beq z.im F64.negInf <;> rfl

end Verif.F64
