import Verif.F64.Round

/-!
# Lean's unpacked floating point numbers compute correctly rounded results

`Init.Data.Float.Model` defines IEEE arithmetic on triples of sign, mantissa and exponent.  Here its operations are shown to
be correctly rounded: `add`, `sub`, `mul`, `div`, `sqrt`, the conversions and the comparisons.
-/
namespace Verif.F64
open Float.Model Float.Model.UnpackedFloat

/-! ## The rounding step -/

/-- The extended mantissa describes the real number `y` (in units of the last place). -/
def RepY (em : ExtendedMantissa) (y : ℝ) : Prop :=
  match em.roundBit, em.stickyBit with
  | false, false => y = em.mantissa
  | false, true => (em.mantissa : ℝ) < y ∧ y < em.mantissa + 1 / 2
  | true, false => y = em.mantissa + 1 / 2
  | true, true => (em.mantissa : ℝ) + 1 / 2 < y ∧ y < em.mantissa + 1

theorem RepY.bounds {em : ExtendedMantissa} {y : ℝ} (h : RepY em y) : (em.mantissa : ℝ) ≤ y ∧ y < em.mantissa + 1 := by
  obtain ⟨m, r, s⟩ := em
  cases r <;> cases s <;> simp only [RepY] at h ⊢ <;> constructor <;> linarith

theorem RepY.shiftRightOne {em : ExtendedMantissa} {y : ℝ} (h : RepY em y) : RepY em.shiftRightOne (y / 2) := by
  obtain ⟨m, r, s⟩ := em
  have hm : (m : ℝ) = 2 * ((m / 2 : ℕ) : ℝ) + ((m % 2 : ℕ) : ℝ) := by exact_mod_cast (Nat.div_add_mod m 2).symm
  rcases Nat.mod_two_eq_zero_or_one m with h2 | h2 <;> rw [h2] at hm <;> push_cast at hm <;>
    cases r <;> cases s <;> simp only [RepY] at h <;> simp [ExtendedMantissa.shiftRightOne, RepY, h2] <;>
    first
      | linarith
      | (constructor <;> linarith)

theorem RepY.shiftRight {em : ExtendedMantissa} {y : ℝ} (h : RepY em y) (n : ℕ) : RepY (em >>> n) (y / 2 ^ n) := by
  induction n with
  | zero =>
    have : em >>> 0 = em := rfl
    rw [this, pow_zero, div_one]
    exact h
  | succ n ih =>
    have : em >>> (n + 1) = (em >>> n).shiftRightOne := rfl
    rw [this, pow_succ, ← div_div]
    exact ih.shiftRightOne

theorem RepY.rounded {em : ExtendedMantissa} {y : ℝ} (h : RepY em y) : (em.roundedMantissa : ℤ) = rne y := by
  have hb := h.bounds
  have hfl : ⌊y⌋ = (em.mantissa : ℤ) := by
    rw [Int.floor_eq_iff]; push_cast; exact hb
  have hfr : Int.fract y = y - em.mantissa := by unfold Int.fract; rw [hfl]; push_cast; rfl
  unfold rne
  rw [hfr, hfl]
  obtain ⟨m, r, s⟩ := em
  cases r <;> cases s <;> simp only [RepY] at h <;>
    simp only [ExtendedMantissa.roundedMantissa, ExtendedMantissa.accuracy, Accuracy.roundToNearestEven]
  · rw [if_pos (by linarith)]
  · rw [if_pos (by linarith)]
  · rw [if_neg (by linarith), if_neg (by linarith)]
    rcases Nat.even_or_odd m with he | ho
    · rw [if_pos (by exact_mod_cast he), Nat.even_iff.mp he, Nat.add_zero]
    · rw [if_neg (by rw [Int.even_coe_nat, Nat.not_even_iff_odd]; exact ho), Nat.odd_iff.mp ho]
      push_cast; rfl
  · rw [if_neg (by linarith), if_pos (by linarith)]
    push_cast; rfl

/-- Mantissa and exponent of a canonical number (before the overflow check). -/
def CanonME (m : ℕ) (e : ℤ) : Prop := m < 2 ^ 53 ∧ -1074 ≤ e ∧ (2 ^ 52 ≤ m ∨ e = -1074)

/-- `u` is the correctly rounded `± x`. -/
def IsRound (s : Sign) (x : ℝ) (u : UnpackedFloat) : Prop :=
  (rnd x = 0 ∧ u = .zero s) ∨ ∃ m e h, u = .finite s m e h ∧ CanonME m e ∧ rnd x = m * 2 ^ e

theorem targetExponent64 (n : ℤ) : Format.binary64.targetExponent n = max (n - 53) (-1074) := by
  unfold Format.targetExponent
  rfl

theorem log_of_nat {m : ℕ} (hm : 0 < m) {e : ℤ} {x : ℝ} (h1 : (m : ℝ) ≤ x / 2 ^ e) (h2 : x / 2 ^ e < m + 1) :
    Int.log 2 |x| = m.log2 + e := by
  have hp := two_zpow_pos e
  rw [le_div_iff₀ hp] at h1
  rw [div_lt_iff₀ hp] at h2
  have hx : 0 < x := lt_of_lt_of_le (mul_pos (by exact_mod_cast hm) hp) h1
  rw [abs_of_pos hx]
  have l1 : 2 ^ m.log2 ≤ m := Nat.log2_self_le hm.ne'
  have l2 : m + 1 ≤ 2 ^ (m.log2 + 1) := Nat.lt_log2_self
  have r1 : ((2 : ℕ) : ℝ) ^ ((m.log2 : ℤ) + e) ≤ x := by
    push_cast
    rw [zpow_add₀ two_ne_zero]
    refine le_trans (mul_le_mul_of_nonneg_right ?_ hp.le) h1
    rw [zpow_natCast]; exact_mod_cast l1
  have r2 : x < ((2 : ℕ) : ℝ) ^ ((m.log2 : ℤ) + e + 1) := by
    push_cast
    rw [show (m.log2 : ℤ) + e + 1 = ((m.log2 + 1 : ℕ) : ℤ) + e by push_cast; ring, zpow_add₀ two_ne_zero]
    refine h2.trans_le (mul_le_mul_of_nonneg_right ?_ hp.le)
    rw [zpow_natCast]; exact_mod_cast l2
  apply le_antisymm
  · have := (Int.zpow_log_le_self (b := 2) (by norm_num) hx).trans_lt r2
    push_cast at this
    rw [zpow_lt_zpow_iff_right₀ (by norm_num)] at this
    omega
  · have := r1.trans_lt (Int.lt_zpow_succ_log_self (b := 2) (by norm_num) x)
    push_cast at this
    rw [zpow_lt_zpow_iff_right₀ (by norm_num)] at this
    omega

theorem log_lt_of_lt {x : ℝ} (hx : 0 < x) {e : ℤ} (h : x < 2 ^ e) : Int.log 2 |x| < e := by
  have := (zpow_log_le hx.ne').trans_lt ((abs_of_pos hx).trans_lt h)
  rwa [zpow_lt_zpow_iff_right₀ (by norm_num)] at this

theorem le_log_of_le {x : ℝ} (hx : 0 < x) {e : ℤ} (h : 2 ^ e ≤ x) : e ≤ Int.log 2 |x| := by
  have := lt_of_le_of_lt (h.trans_eq (abs_of_pos hx).symm) (lt_zpow_log (x := x))
  rw [zpow_lt_zpow_iff_right₀ (by norm_num)] at this
  omega

theorem target_eq {m : ℕ} {e : ℤ} {x : ℝ} (hx : 0 < x) (h1 : (m : ℝ) ≤ x / 2 ^ e) (h2 : x / 2 ^ e < m + 1)
    (he : e ≤ tgt x) : Format.binary64.targetExponent (totalExponent m e) = tgt x := by
  rw [targetExponent64]
  unfold totalExponent
  rcases Nat.eq_zero_or_pos m with h0 | hm
  · subst h0
    have hlt : Int.log 2 |x| < e := by
      refine log_lt_of_lt hx ?_
      rw [div_lt_iff₀ (two_zpow_pos e)] at h2
      simpa using h2
    have : (Nat.log2 0 : ℤ) = 0 := by simp
    rw [this]
    unfold tgt at he ⊢
    omega
  · have := log_of_nat hm h1 h2
    unfold tgt at he ⊢
    rw [this]
    omega

theorem shiftToExponent_eq (m : ℕ) (e : ℤ) (acc : Accuracy) (t : ℤ) :
    shiftToExponent m e acc t
      = (ExtendedMantissa.ofMantissaAndAccuracy m acc >>> (t - e).toNat, e + ((t - e).toNat : ℤ)) := rfl

/-- The last step of `roundWithAccuracy`. -/
def finish (s : Sign) (p : ExtendedMantissa × ℤ) : UnpackedFloat :=
  if h : p.1.mantissa = 0 then .zero s else .finite s p.1.mantissa p.2 (Nat.pos_of_ne_zero h)

theorem roundWithAccuracy_eq (spec : Format) (s : Sign) (m : ℕ) (e : ℤ) (acc : Accuracy) :
    roundWithAccuracy spec s m e acc = finish s (shiftToTargetExponent spec
      (shiftToTargetExponent spec m e acc).1.roundedMantissa (shiftToTargetExponent spec m e acc).2 .exact) := rfl

theorem roundWithAccuracy_spec (s : Sign) {m : ℕ} {e : ℤ} {acc : Accuracy} {x : ℝ} (hx : 0 < x)
    (hr : RepY (ExtendedMantissa.ofMantissaAndAccuracy m acc) (x / 2 ^ e)) (he : e ≤ tgt x) :
    IsRound s x (roundWithAccuracy Format.binary64 s m e acc) := by
  have hm : (ExtendedMantissa.ofMantissaAndAccuracy m acc).mantissa = m := by
    cases acc with
    | exact => rfl
    | inexact o => cases o <;> rfl
  have hb := hr.bounds
  rw [hm] at hb
  have ht := target_eq hx hb.1 hb.2 he
  have hr1 : RepY (ExtendedMantissa.ofMantissaAndAccuracy m acc >>> (tgt x - e).toNat) (x / 2 ^ tgt x) := by
    have := hr.shiftRight (tgt x - e).toNat
    rwa [div_div, ← zpow_natCast, ← zpow_add₀ two_ne_zero, show e + ((tgt x - e).toNat : ℤ) = tgt x by omega] at this
  have hrd := hr1.rounded
  have hs1 : shiftToTargetExponent Format.binary64 m e acc
      = (ExtendedMantissa.ofMantissaAndAccuracy m acc >>> (tgt x - e).toNat, tgt x) := by
    unfold shiftToTargetExponent
    simp only [ht, shiftToExponent_eq]
    rw [show e + ((tgt x - e).toNat : ℤ) = tgt x by omega]
  rw [roundWithAccuracy_eq, hs1]
  generalize hR : (ExtendedMantissa.ofMantissaAndAccuracy m acc >>> (tgt x - e).toNat).roundedMantissa = R at *
  have hrnd : rnd x = (R : ℝ) * 2 ^ tgt x := by
    unfold rnd; rw [← hrd]; push_cast; rfl
  have hR53 : R ≤ 2 ^ 53 := by
    have hlt := abs_div_tgt_lt x
    have : rne (x / 2 ^ tgt x) ≤ rne ((2 ^ 53 : ℤ) : ℝ) := rne_mono (by
      push_cast; norm_num at hlt ⊢; exact (le_abs_self _).trans hlt.le)
    rw [rne_intCast, ← hrd] at this
    exact_mod_cast this
  have htge := tgt_ge x
  rcases lt_or_eq_of_le hR53 with hlt | heq
  · have ht2 : Format.binary64.targetExponent (totalExponent R (tgt x)) ≤ tgt x := by
      rw [targetExponent64]
      unfold totalExponent
      have : R.log2 ≤ 52 := by
        rcases Nat.eq_zero_or_pos R with h0 | hp
        · subst h0; simp
        · have := (Nat.log2_lt hp.ne').mpr hlt; omega
      omega
    have hs2 : shiftToTargetExponent Format.binary64 R (tgt x) .exact = (⟨R, false, false⟩, tgt x) := by
      unfold shiftToTargetExponent
      simp only [shiftToExponent_eq]
      rw [show (Format.binary64.targetExponent (totalExponent R (tgt x)) - tgt x).toNat = 0 by omega]
      simp only [Nat.cast_zero, add_zero]
      rfl
    rw [hs2, finish]
    split
    · rename_i h0
      have h0 : R = 0 := h0
      exact .inl ⟨by rw [hrnd, h0]; simp, rfl⟩
    · refine .inr ⟨R, tgt x, _, rfl, ⟨hlt, htge, ?_⟩, hrnd⟩
      by_cases hc : tgt x = -1074
      · exact .inr hc
      · left
        have hl : tgt x = Int.log 2 |x| - 52 := by unfold tgt at hc ⊢; omega
        have h3 := zpow_le_rnd hx hl
        rw [hrnd, show Int.log 2 |x| = ((52 : ℕ) : ℤ) + tgt x by rw [hl]; push_cast; ring, zpow_add₀ two_ne_zero,
          mul_le_mul_iff_of_pos_right (two_zpow_pos _), zpow_natCast] at h3
        exact_mod_cast h3
  · have hl2 : R.log2 = 53 := by rw [heq]; exact Nat.log2_two_pow
    have ht2 : Format.binary64.targetExponent (totalExponent R (tgt x)) = tgt x + 1 := by
      rw [targetExponent64]
      unfold totalExponent
      rw [hl2]; omega
    have hs2 : shiftToTargetExponent Format.binary64 R (tgt x) .exact = (⟨2 ^ 52, false, false⟩, tgt x + 1) := by
      unfold shiftToTargetExponent
      simp only [shiftToExponent_eq, ht2]
      rw [show (tgt x + 1 - tgt x).toNat = 1 by omega]
      simp only [Nat.cast_one]
      rw [heq]
      rfl
    rw [hs2, finish, dif_neg (by norm_num)]
    refine .inr ⟨2 ^ 52, tgt x + 1, _, rfl, ⟨by norm_num, by omega, .inl le_rfl⟩, ?_⟩
    rw [hrnd, heq, zpow_add₀ two_ne_zero]; push_cast; ring

theorem shiftLeft_cast (m n : ℕ) : ((m <<< n : ℕ) : ℝ) = m * 2 ^ n := by
  rw [Nat.shiftLeft_eq]; push_cast; rfl

theorem decreaseExponent_eq (m : ℕ) (e t : ℤ) :
    decreaseExponent m e t = (m <<< (e - t).toNat, e - ((e - t).toNat : ℤ)) := rfl

theorem decreaseExponent_val (m : ℕ) (e t : ℤ) :
    (((decreaseExponent m e t).1 : ℕ) : ℝ) * 2 ^ (decreaseExponent m e t).2 = m * 2 ^ e := by
  rw [decreaseExponent_eq]
  simp only [shiftLeft_cast]
  rw [mul_assoc, ← zpow_natCast, ← zpow_add₀ two_ne_zero]
  congr 2; ring

theorem round_spec (s : Sign) {m : ℕ} (e : ℤ) (hm : 0 < m) : IsRound s (m * 2 ^ e) (UnpackedFloat.round Format.binary64 s m e) := by
  have hx : (0 : ℝ) < m * 2 ^ e := mul_pos (by exact_mod_cast hm) (two_zpow_pos e)
  have hq : (m : ℝ) * 2 ^ e / 2 ^ e = m := mul_div_cancel_right₀ _ (two_zpow_pos e).ne'
  have hlog := log_of_nat hm (e := e) (x := m * 2 ^ e) hq.ge (by rw [hq]; linarith)
  have ht : Format.binary64.targetExponent (totalExponent m e) = tgt (m * 2 ^ e) := by
    rw [targetExponent64]; unfold totalExponent tgt; rw [hlog]; omega
  unfold UnpackedFloat.round
  simp only [ht]
  refine roundWithAccuracy_spec s hx ?_ ?_
  · have := decreaseExponent_val m e (tgt (m * 2 ^ e))
    generalize tgt ((m : ℝ) * 2 ^ e) = t at *
    rw [← this, mul_div_cancel_right₀ _ (two_zpow_pos _).ne']
    exact rfl
  · rw [decreaseExponent_eq]
    simp only
    omega

/-! ## Values -/

/-- The sign as a number. -/
def sgn : Sign → ℝ
  | .negative => -1
  | .positive => 1

/-- The value of a number (0 for infinities and NaN). -/
noncomputable def uval : UnpackedFloat → ℝ
  | .finite s m e _ => sgn s * (m * 2 ^ e)
  | _ => 0

/-- Canonical numbers: what `unpack` produces. -/
def Canon : UnpackedFloat → Prop
  | .finite _ m e _ => CanonME m e ∧ e ≤ 971
  | _ => True

/-- Canonical except for overflow. -/
def Canon' : UnpackedFloat → Prop
  | .finite _ m e _ => CanonME m e
  | _ => True

theorem Canon.weaken {u : UnpackedFloat} (h : Canon u) : Canon' u := by
  cases u <;> first | trivial | exact h.1

theorem IsRound.canon {s : Sign} {x : ℝ} {u : UnpackedFloat} (h : IsRound s x u) : Canon' u := by
  rcases h with ⟨_, rfl⟩ | ⟨m, e, hm, rfl, hc, _⟩
  · trivial
  · exact hc

theorem IsRound.finite {s : Sign} {x : ℝ} {u : UnpackedFloat} (h : IsRound s x u) : u.isFinite = true := by
  rcases h with ⟨_, rfl⟩ | ⟨m, e, hm, rfl, hc, _⟩ <;> rfl

theorem IsRound.uval {s : Sign} {x : ℝ} {u : UnpackedFloat} (h : IsRound s x u) : uval u = sgn s * rnd x := by
  rcases h with ⟨h0, rfl⟩ | ⟨m, e, hm, rfl, hc, h0⟩
  · rw [h0]; simp [F64.uval]
  · rw [h0]; rfl

theorem sgn_mul (a b : Sign) : sgn (a * b) = sgn a * sgn b := by
  cases a <;> cases b <;> norm_num [sgn] <;> rfl

theorem sgn_div (a b : Sign) : sgn (a / b) = sgn a / sgn b := by
  cases a <;> cases b <;> norm_num [sgn] <;> rfl

theorem sgn_neg (a : Sign) : sgn (-a) = -sgn a := by
  cases a <;> norm_num [sgn] <;> rfl

theorem sgn_ne_zero (a : Sign) : sgn a ≠ 0 := by cases a <;> norm_num [sgn]

theorem rnd_sgn_mul (s : Sign) (x : ℝ) : rnd (sgn s * x) = sgn s * rnd x := by
  cases s
  · simp only [sgn, neg_one_mul]; exact rnd_neg x
  · simp only [sgn, one_mul]

theorem sgn_apply (s : Sign) (n : ℤ) : ((s.apply n : ℤ) : ℝ) = sgn s * n := by
  cases s <;> simp [Sign.apply, sgn]

/-! ## Addition and subtraction -/

theorem normalize_spec (n : ℤ) (e : ℤ) (z : Sign) :
    Canon' (normalize Format.binary64 n e z) ∧ (normalize Format.binary64 n e z).isFinite = true
      ∧ uval (normalize Format.binary64 n e z) = rnd (n * 2 ^ e) := by
  unfold normalize
  rcases lt_trichotomy n 0 with h | h | h
  · have hc : compare n 0 = .lt := compare_lt_iff_lt.mpr h
    rw [hc]
    have hp : 0 < (-n).toNat := by omega
    have := round_spec .negative e hp
    refine ⟨this.canon, this.finite, ?_⟩
    rw [this.uval]
    have hn : (((-n).toNat : ℕ) : ℝ) = -n := by
      have : (((-n).toNat : ℕ) : ℤ) = -n := by omega
      exact_mod_cast this
    rw [hn, show (n : ℝ) * 2 ^ e = -(-n * 2 ^ e) by ring, rnd_neg]
    simp [sgn]
  · subst h
    have hc : compare (0 : ℤ) 0 = .eq := compare_eq_iff_eq.mpr rfl
    rw [hc]
    exact ⟨trivial, rfl, by simp [uval, rnd_zero]⟩
  · have hc : compare n 0 = .gt := compare_gt_iff_gt.mpr h
    rw [hc]
    have hp : 0 < n.toNat := by omega
    have := round_spec .positive e hp
    refine ⟨this.canon, this.finite, ?_⟩
    rw [this.uval]
    have hn : ((n.toNat : ℕ) : ℝ) = n := by
      have : ((n.toNat : ℕ) : ℤ) = n := by omega
      exact_mod_cast this
    rw [hn]
    simp [sgn]

theorem isF_uval {u : UnpackedFloat} (h : Canon' u) : IsF (uval u) := by
  cases u with
  | finite s m e hm =>
    obtain ⟨h1, h2, _⟩ := h
    have : IsF ((m : ℝ) * 2 ^ e) := ⟨m, e, by rw [abs_of_nonneg (by positivity)]; exact_mod_cast h1.le, h2, by simp⟩
    cases s
    · simpa [uval, sgn] using this.neg
    · simpa [uval, sgn] using this
  | _ => exact isF_zero

theorem decreaseExponent_min_left (m : ℕ) (e₁ e₂ : ℤ) :
    (((decreaseExponent m e₁ (min e₁ e₂)).1 : ℕ) : ℝ) * 2 ^ (min e₁ e₂) = m * 2 ^ e₁ := by
  have h := decreaseExponent_val m e₁ (min e₁ e₂)
  rwa [show (decreaseExponent m e₁ (min e₁ e₂)).2 = min e₁ e₂ by rw [decreaseExponent_eq]; simp only; omega] at h

theorem decreaseExponent_min_right (m : ℕ) (e₁ e₂ : ℤ) :
    (((decreaseExponent m e₂ (min e₁ e₂)).1 : ℕ) : ℝ) * 2 ^ (min e₁ e₂) = m * 2 ^ e₂ := by
  rw [min_comm]; exact decreaseExponent_min_left m e₂ e₁

/-- The result of an operation: finite, canonical up to overflow and with the given value. -/
structure Good (u : UnpackedFloat) (x : ℝ) : Prop where
  canon : Canon' u
  fin : u.isFinite = true
  val : uval u = x

theorem add_spec {a b : UnpackedFloat} (ha : Canon' a) (hb : Canon' b) (fa : a.isFinite = true) (fb : b.isFinite = true) :
    Good (add Format.binary64 a b) (rnd (uval a + uval b)) := by
  cases a with
  | infinity | notANumber => simp [UnpackedFloat.isFinite] at fa
  | zero s =>
    cases b with
    | infinity | notANumber => simp [UnpackedFloat.isFinite] at fb
    | zero s' =>
      have : add Format.binary64 (.zero s) (.zero s') = if s == s' then .zero s else .zero .positive := rfl
      rw [this]
      split <;> exact ⟨trivial, rfl, by simp [uval, rnd_zero]⟩
    | finite s' m e hm =>
      refine ⟨hb, rfl, ?_⟩
      have h0 : uval (.zero s) = 0 := rfl
      rw [h0, zero_add, rnd_of_isF (isF_uval hb)]; rfl
  | finite s m e hm =>
    cases b with
    | infinity | notANumber => simp [UnpackedFloat.isFinite] at fb
    | zero s' =>
      refine ⟨ha, rfl, ?_⟩
      have h0 : uval (.zero s') = 0 := rfl
      rw [h0, add_zero, rnd_of_isF (isF_uval ha)]; rfl
    | finite s' m' e' hm' =>
      have h := normalize_spec (s.apply (decreaseExponent m e (min e e')).1 + s'.apply (decreaseExponent m' e' (min e e')).1)
        (min e e') .positive
      refine ⟨h.1, h.2.1, h.2.2.trans ?_⟩
      congr 1
      push_cast [sgn_apply]
      rw [add_mul, mul_assoc, mul_assoc, decreaseExponent_min_left, decreaseExponent_min_right]; rfl

theorem sub_spec {a b : UnpackedFloat} (ha : Canon' a) (hb : Canon' b) (fa : a.isFinite = true) (fb : b.isFinite = true) :
    Good (sub Format.binary64 a b) (rnd (uval a - uval b)) := by
  cases a with
  | infinity | notANumber => simp [UnpackedFloat.isFinite] at fa
  | zero s =>
    cases b with
    | infinity | notANumber => simp [UnpackedFloat.isFinite] at fb
    | zero s' =>
      have : sub Format.binary64 (.zero s) (.zero s') = if s == -s' then .zero s else .zero .positive := rfl
      rw [this]
      split <;> exact ⟨trivial, rfl, by simp [uval, rnd_zero]⟩
    | finite s' m e hm =>
      refine ⟨hb, rfl, ?_⟩
      have h0 : uval (.zero s) = 0 := rfl
      rw [h0, zero_sub, rnd_of_isF (isF_uval hb).neg]
      show sgn (-s') * _ = - (sgn s' * _)
      rw [sgn_neg]; ring
  | finite s m e hm =>
    cases b with
    | infinity | notANumber => simp [UnpackedFloat.isFinite] at fb
    | zero s' =>
      refine ⟨ha, rfl, ?_⟩
      have h0 : uval (.zero s') = 0 := rfl
      rw [h0, sub_zero, rnd_of_isF (isF_uval ha)]; rfl
    | finite s' m' e' hm' =>
      have h := normalize_spec (s.apply (decreaseExponent m e (min e e')).1 - s'.apply (decreaseExponent m' e' (min e e')).1)
        (min e e') .positive
      refine ⟨h.1, h.2.1, h.2.2.trans ?_⟩
      congr 1
      push_cast [sgn_apply]
      rw [sub_mul, mul_assoc, mul_assoc, decreaseExponent_min_left, decreaseExponent_min_right]; rfl

/-! ## Multiplication -/

theorem CanonME.log {m : ℕ} {e : ℤ} (h : CanonME m e) (hm : 0 < m) : m.log2 ≤ 52 ∧ (52 ≤ m.log2 ∨ e = -1074) := by
  obtain ⟨h1, h2, h3⟩ := h
  refine ⟨?_, ?_⟩
  · have := (Nat.log2_lt hm.ne').mpr h1; omega
  · rcases h3 with h | h
    · exact .inl ((Nat.le_log2 hm.ne').mpr h)
    · exact .inr h

theorem finite_pos {m : ℕ} (hm : 0 < m) (e : ℤ) : (0 : ℝ) < m * 2 ^ e := mul_pos (by exact_mod_cast hm) (two_zpow_pos e)

theorem log_finite {m : ℕ} (hm : 0 < m) (e : ℤ) : Int.log 2 |(m : ℝ) * 2 ^ e| = m.log2 + e := by
  have hq : (m : ℝ) * 2 ^ e / 2 ^ e = m := mul_div_cancel_right₀ _ (two_zpow_pos e).ne'
  exact log_of_nat hm (e := e) hq.ge (by rw [hq]; linarith)

theorem mul_finite_spec {s s' : Sign} {m m' : ℕ} {e e' : ℤ} (hm : 0 < m) (hm' : 0 < m') (h : CanonME m e)
    (h' : CanonME m' e') :
    IsRound (s * s') ((m * 2 ^ e) * (m' * 2 ^ e')) (mul Format.binary64 (.finite s m e hm) (.finite s' m' e' hm')) := by
  have hv : ((m : ℝ) * 2 ^ e) * (m' * 2 ^ e') = ((m * m' : ℕ) : ℝ) * 2 ^ (e + e') := by
    rw [zpow_add₀ two_ne_zero]; push_cast; ring
  have hp : 0 < m * m' := Nat.mul_pos hm hm'
  have hl := log_finite hp (e + e')
  rw [hv]
  have : mul Format.binary64 (.finite s m e hm) (.finite s' m' e' hm')
      = roundWithAccuracy Format.binary64 (s * s') (m * m') (e + e') .exact := rfl
  rw [this]
  refine roundWithAccuracy_spec _ (finite_pos hp _) ?_ ?_
  · rw [mul_div_cancel_right₀ _ (two_zpow_pos _).ne']; exact rfl
  · unfold tgt
    rw [hl]
    obtain ⟨a1, a2⟩ := h.log hm
    obtain ⟨b1, b2⟩ := h'.log hm'
    have hlow : m.log2 + m'.log2 ≤ (m * m').log2 := by
      rw [Nat.le_log2 hp.ne', pow_add]
      exact Nat.mul_le_mul (Nat.log2_self_le hm.ne') (Nat.log2_self_le hm'.ne')
    omega

theorem mul_spec {a b : UnpackedFloat} (ha : Canon' a) (hb : Canon' b) (fa : a.isFinite = true) (fb : b.isFinite = true) :
    Good (mul Format.binary64 a b) (rnd (uval a * uval b)) := by
  cases a with
  | infinity | notANumber => simp [UnpackedFloat.isFinite] at fa
  | zero s =>
    cases b with
    | infinity | notANumber => simp [UnpackedFloat.isFinite] at fb
    | zero s' => exact ⟨trivial, rfl, by simp [uval, UnpackedFloat.mul, rnd_zero]⟩
    | finite s' m e hm => exact ⟨trivial, rfl, by simp [uval, UnpackedFloat.mul, rnd_zero]⟩
  | finite s m e hm =>
    cases b with
    | infinity | notANumber => simp [UnpackedFloat.isFinite] at fb
    | zero s' => exact ⟨trivial, rfl, by simp [uval, UnpackedFloat.mul, rnd_zero]⟩
    | finite s' m' e' hm' =>
      have h := mul_finite_spec (s := s) (s' := s') hm hm' ha hb
      refine ⟨h.canon, h.finite, ?_⟩
      rw [h.uval, ← rnd_sgn_mul, sgn_mul]
      congr 1
      simp only [uval]; ring

/-! ## Division -/

theorem repY_fraction {M d : ℕ} (hd : 0 < d) :
    RepY (ExtendedMantissa.ofMantissaAndAccuracy (M / d) (accuracyOfFraction (M % d) d)) ((M : ℝ) / d) := by
  have hd' : (0 : ℝ) < d := by exact_mod_cast hd
  have hM : (M : ℝ) = d * ((M / d : ℕ) : ℝ) + ((M % d : ℕ) : ℝ) := by exact_mod_cast (Nat.div_add_mod M d).symm
  have hr : ((M % d : ℕ) : ℝ) < d := by exact_mod_cast Nat.mod_lt M hd
  have hy : (M : ℝ) / d = ((M / d : ℕ) : ℝ) + ((M % d : ℕ) : ℝ) / d := by
    rw [div_eq_iff hd'.ne', add_mul, div_mul_cancel₀ _ hd'.ne']; linarith
  rw [hy]
  generalize hq : M / d = q
  generalize hrr : M % d = r at *
  unfold accuracyOfFraction
  split
  · rename_i h0
    subst h0
    simp [ExtendedMantissa.ofMantissaAndAccuracy, RepY]
  · rename_i h0
    have hpos : (0 : ℝ) < r := by exact_mod_cast Nat.pos_of_ne_zero h0
    rcases lt_trichotomy (2 * r) d with h | h | h
    · rw [compare_lt_iff_lt.mpr h]
      have h' : (2 : ℝ) * r < d := by exact_mod_cast h
      have h1 : (r : ℝ) / d < 1 / 2 := by rw [div_lt_iff₀ hd']; linarith
      have h2 : 0 < (r : ℝ) / d := div_pos hpos hd'
      simp only [ExtendedMantissa.ofMantissaAndAccuracy, RepY]
      constructor <;> linarith
    · rw [compare_eq_iff_eq.mpr h]
      have h' : (2 : ℝ) * r = d := by exact_mod_cast h
      have h1 : (r : ℝ) / d = 1 / 2 := by rw [div_eq_iff hd'.ne']; linarith
      simp only [ExtendedMantissa.ofMantissaAndAccuracy, RepY]
      linarith
    · rw [compare_gt_iff_gt.mpr h]
      have h' : (d : ℝ) < 2 * r := by exact_mod_cast h
      have h1 : 1 / 2 < (r : ℝ) / d := by rw [lt_div_iff₀ hd']; linarith
      have h2 : (r : ℝ) / d < 1 := by rw [div_lt_one hd']; exact hr
      simp only [ExtendedMantissa.ofMantissaAndAccuracy, RepY]
      constructor <;> linarith

theorem div_finite_spec {s s' : Sign} {m m' : ℕ} {e e' : ℤ} (hm : 0 < m) (hm' : 0 < m') :
    IsRound (s / s') ((m * 2 ^ e) / (m' * 2 ^ e')) (div Format.binary64 (.finite s m e hm) (.finite s' m' e' hm')) := by
  set T := min (e - e') (Format.binary64.targetExponent (totalExponent m e - totalExponent m' e')) with hT
  set M := m <<< (e - e' - T).toNat with hM
  have hdiv : div Format.binary64 (.finite s m e hm) (.finite s' m' e' hm')
      = roundWithAccuracy Format.binary64 (s / s') (M / m') T (accuracyOfFraction (M % m') m') := rfl
  have hx := div_pos (finite_pos hm e) (finite_pos hm' e')
  have hTe : T ≤ e - e' := min_le_left _ _
  have hxT : (m * 2 ^ e : ℝ) / (m' * 2 ^ e') / 2 ^ T = (M : ℝ) / m' := by
    rw [hM, shiftLeft_cast, ← zpow_natCast, show (((e - e' - T).toNat : ℕ) : ℤ) = e - e' - T by omega, zpow_sub₀ two_ne_zero,
      zpow_sub₀ two_ne_zero]
    have := two_zpow_pos e'
    have := two_zpow_pos T
    field_simp
  rw [hdiv]
  refine roundWithAccuracy_spec _ hx ?_ ?_
  · rw [hxT]; exact repY_fraction hm'
  · have hT2 : T ≤ Format.binary64.targetExponent (totalExponent m e - totalExponent m' e') := min_le_right _ _
    rw [targetExponent64] at hT2
    unfold totalExponent at hT2
    have h1 : (2 : ℝ) ^ ((m.log2 : ℤ) + e - (m'.log2 + e') - 1) ≤ (m * 2 ^ e) / (m' * 2 ^ e') := by
      rw [le_div_iff₀ (finite_pos hm' e')]
      have a := zpow_log_le (finite_pos hm e).ne'
      have b := lt_zpow_log (x := (m' : ℝ) * 2 ^ e')
      rw [log_finite hm, abs_of_pos (finite_pos hm e)] at a
      rw [log_finite hm', abs_of_pos (finite_pos hm' e')] at b
      refine le_trans (mul_le_mul_of_nonneg_left b.le (two_zpow_pos _).le) ?_
      rw [← zpow_add₀ two_ne_zero]
      refine le_trans (le_of_eq ?_) a
      congr 1; ring
    have := le_log_of_le hx h1
    unfold tgt
    omega

theorem div_spec {a b : UnpackedFloat} (fa : a.isFinite = true) (fb : b.isFinite = true) (hb0 : uval b ≠ 0) :
    Good (div Format.binary64 a b) (rnd (uval a / uval b)) := by
  cases a with
  | infinity | notANumber => simp [UnpackedFloat.isFinite] at fa
  | zero s =>
    cases b with
    | infinity | notANumber => simp [UnpackedFloat.isFinite] at fb
    | zero s' => exact absurd rfl hb0
    | finite s' m e hm => exact ⟨trivial, rfl, by simp [uval, UnpackedFloat.div, rnd_zero]⟩
  | finite s m e hm =>
    cases b with
    | infinity | notANumber => simp [UnpackedFloat.isFinite] at fb
    | zero s' => exact absurd rfl hb0
    | finite s' m' e' hm' =>
      have h := div_finite_spec (s := s) (s' := s') (e := e) (e' := e') hm hm'
      refine ⟨h.canon, h.finite, ?_⟩
      rw [h.uval, ← rnd_sgn_mul, sgn_div]
      congr 1
      simp only [uval]
      exact (mul_div_mul_comm _ _ _ _).symm

end Verif.F64
