import Verif.F64.Pack
import Verif.Rust.Flt

/-!
# IEEE binary64 arithmetic is correctly rounded

`val x` is the real number denoted by a finite `Float`.  Each operation returns the rounding (`rnd`) of the exact result,
unless that overflows, in which case it is an infinity of the right sign.
-/
namespace Verif.F64
open Float.Model Float.Model.UnpackedFloat

/-- The fields of a `Float`. -/
def up (x : Float) : UnpackedFloat := x.toModel.unpack

/-- The value of a finite `Float` (0 for infinities and NaN). -/
noncomputable def val (x : Float) : ℝ := uval (up x)

/-- `x` is neither infinite nor NaN. -/
def Fin (x : Float) : Prop := x.isFinite = true

instance (x : Float) : Decidable (Fin x) := inferInstanceAs (Decidable (_ = _))

/-- The float with the given fields. -/
def mk (u : UnpackedFloat) : Float := ⟨Float.Model.pack u⟩

theorem fin_iff {x : Float} : Fin x ↔ (up x).isFinite = true := Iff.rfl

theorem canon_up (x : Float) : Canon (up x) := canon_unpack _

theorem up_mk {u : UnpackedFloat} (h : Canon u) : up (mk u) = u := unpack_pack h

theorem mk_up (x : Float) : mk (up x) = x := by
  obtain ⟨⟨b, hv⟩⟩ := x
  have h := pack_unpack hv
  unfold mk up Float.Model.pack Float.Model.unpack
  simp only
  congr 2
  simp only [h]

theorem up_inj {x y : Float} (h : up x = up y) : x = y := by rw [← mk_up x, ← mk_up y, h]

theorem isF_val (x : Float) : IsF (val x) := isF_uval (canon_up x).weaken

theorem rnd_val (x : Float) : rnd (val x) = val x := rnd_of_isF (isF_val x)

/-- The bound beyond which results overflow. -/
noncomputable def huge : ℝ := 2 ^ (1024 : ℤ)

theorem huge_pos : 0 < huge := two_zpow_pos _

theorem abs_uval (s : Sign) (m : ℕ) (e : ℤ) (hm : 0 < m) : |uval (.finite s m e hm)| = m * 2 ^ e := by
  have := finite_pos hm e
  cases s <;> simp only [uval, sgn] <;> [rw [neg_one_mul, abs_neg, abs_of_pos this]; rw [one_mul, abs_of_pos this]]

theorem canonME_huge {m : ℕ} {e : ℤ} (hc : CanonME m e) : (m : ℝ) * 2 ^ e < huge ↔ e ≤ 971 := by
  obtain ⟨h1, h2, h3⟩ := hc
  unfold huge
  constructor
  · intro h
    by_contra he
    have h3 : 2 ^ 52 ≤ m := by rcases h3 with h | h <;> [exact h; omega]
    refine absurd h (not_lt.mpr ?_)
    calc (2 : ℝ) ^ (1024 : ℤ) ≤ 2 ^ (52 + e) := zpow_le_zpow_right₀ (by norm_num) (by omega)
      _ = 2 ^ 52 * 2 ^ e := by rw [zpow_add₀ two_ne_zero]; norm_num
      _ ≤ m * 2 ^ e := by refine mul_le_mul_of_nonneg_right ?_ (two_zpow_pos _).le; exact_mod_cast h3
  · intro h
    calc (m : ℝ) * 2 ^ e < 2 ^ 53 * 2 ^ e := by
          refine mul_lt_mul_of_pos_right ?_ (two_zpow_pos e); exact_mod_cast h1
      _ = 2 ^ (53 + e) := by rw [zpow_add₀ two_ne_zero]; norm_num
      _ ≤ 2 ^ (1024 : ℤ) := zpow_le_zpow_right₀ (by norm_num) (by omega)

theorem abs_val_lt (x : Float) : |val x| < huge := by
  have h := canon_up x
  unfold val
  cases hu : up x with
  | finite s m e hm =>
    rw [hu] at h
    rw [abs_uval]
    exact (canonME_huge h.1).mpr h.2
  | _ => simp only [uval, abs_zero]; exact huge_pos

/-- Packing a correctly rounded result. -/
theorem mk_good {u : UnpackedFloat} {x : ℝ} (h : Good u x) (hx : |x| < huge) : Fin (mk u) ∧ val (mk u) = x := by
  have hc : Canon u := by
    cases u with
    | finite s m e hm =>
      refine ⟨h.canon, ?_⟩
      rw [← h.val, abs_uval] at hx
      exact (canonME_huge h.canon).mp hx
    | _ => trivial
  constructor
  · rw [fin_iff, up_mk hc]; exact h.fin
  · unfold val; rw [up_mk hc]; exact h.val

/-- Overflow. -/
theorem mk_overflow {u : UnpackedFloat} {x : ℝ} (h : Good u x) (hx : huge ≤ |x|) :
    up (mk u) = .infinity (if 0 < x then .positive else .negative) := by
  cases u with
  | infinity | notANumber => exact absurd h.fin (by simp [UnpackedFloat.isFinite])
  | zero s => rw [← h.val] at hx; simp only [uval, abs_zero] at hx; exact absurd hx (not_le.mpr huge_pos)
  | finite s m e hm =>
    have hc : CanonME m e := h.canon
    have he : 971 < e := by
      rw [← h.val, abs_uval] at hx
      by_contra he
      exact absurd ((canonME_huge hc).mpr (not_lt.mp he)) (not_lt.mpr hx)
    have hp := finite_pos hm e
    have h1 : up (mk (.finite s m e hm)) = .infinity s := unpack_pack_overflow s hm he
    rw [h1, ← h.val]
    cases s
    · rw [if_neg]; simp only [uval, sgn]; linarith
    · rw [if_pos]; simp only [uval, sgn]; linarith

/-! ## The operations -/

theorem add_eq (a b : Float) : a + b = mk (UnpackedFloat.add Format.binary64 (up a) (up b)) := rfl
theorem sub_eq (a b : Float) : a - b = mk (UnpackedFloat.sub Format.binary64 (up a) (up b)) := rfl
theorem mul_eq (a b : Float) : a * b = mk (UnpackedFloat.mul Format.binary64 (up a) (up b)) := rfl
theorem div_eq (a b : Float) : a / b = mk (UnpackedFloat.div Format.binary64 (up a) (up b)) := rfl
theorem neg_eq (a : Float) : -a = mk (up a).neg := rfl
theorem abs_eq (a : Float) : a.abs = mk (up a).abs := rfl
theorem sqrt_eq (a : Float) : a.sqrt = mk (UnpackedFloat.sqrt Format.binary64 (up a)) := rfl

theorem add_good {a b : Float} (ha : Fin a) (hb : Fin b) :
    Good (UnpackedFloat.add Format.binary64 (up a) (up b)) (rnd (val a + val b)) :=
  add_spec (canon_up a).weaken (canon_up b).weaken ha hb
theorem sub_good {a b : Float} (ha : Fin a) (hb : Fin b) :
    Good (UnpackedFloat.sub Format.binary64 (up a) (up b)) (rnd (val a - val b)) :=
  sub_spec (canon_up a).weaken (canon_up b).weaken ha hb
theorem mul_good {a b : Float} (ha : Fin a) (hb : Fin b) :
    Good (UnpackedFloat.mul Format.binary64 (up a) (up b)) (rnd (val a * val b)) :=
  mul_spec (canon_up a).weaken (canon_up b).weaken ha hb
theorem div_good {a b : Float} (ha : Fin a) (hb : Fin b) (h0 : val b ≠ 0) :
    Good (UnpackedFloat.div Format.binary64 (up a) (up b)) (rnd (val a / val b)) := div_spec ha hb h0

theorem add_val {a b : Float} (ha : Fin a) (hb : Fin b) (h : |rnd (val a + val b)| < huge) :
    Fin (a + b) ∧ val (a + b) = rnd (val a + val b) := mk_good (add_good ha hb) h
theorem sub_val {a b : Float} (ha : Fin a) (hb : Fin b) (h : |rnd (val a - val b)| < huge) :
    Fin (a - b) ∧ val (a - b) = rnd (val a - val b) := mk_good (sub_good ha hb) h
theorem mul_val {a b : Float} (ha : Fin a) (hb : Fin b) (h : |rnd (val a * val b)| < huge) :
    Fin (a * b) ∧ val (a * b) = rnd (val a * val b) := mk_good (mul_good ha hb) h
theorem div_val {a b : Float} (ha : Fin a) (hb : Fin b) (h0 : val b ≠ 0) (h : |rnd (val a / val b)| < huge) :
    Fin (a / b) ∧ val (a / b) = rnd (val a / val b) := mk_good (div_good ha hb h0) h

theorem rnd_lt_huge {x : ℝ} (h : |x| ≤ 2 ^ (1023 : ℤ)) : |rnd x| < huge := by
  rw [abs_rnd]
  refine lt_of_le_of_lt (rnd_le_of_le (isF_zpow (e := 1023) (by norm_num)) h) ?_
  exact zpow_lt_zpow_right₀ (by norm_num) (by norm_num)

theorem sqrt_val {a : Float} (ha : Fin a) (h0 : 0 ≤ val a) : Fin a.sqrt ∧ val a.sqrt = rnd (Real.sqrt (val a)) := by
  refine mk_good (sqrt_spec ha h0) (rnd_lt_huge ?_)
  rw [abs_of_nonneg (Real.sqrt_nonneg _), Real.sqrt_le_left (two_zpow_pos _).le]
  have := abs_val_lt a
  rw [abs_of_nonneg h0] at this
  refine this.le.trans ?_
  unfold huge
  rw [← zpow_natCast, ← zpow_mul]
  exact zpow_le_zpow_right₀ (by norm_num) (by norm_num)

theorem neg_canon {u : UnpackedFloat} (h : Canon u) : Canon u.neg := by cases u <;> exact h

theorem abs_canon {u : UnpackedFloat} (h : Canon u) : Canon u.abs := by cases u <;> exact h

theorem up_neg (a : Float) : up (-a) = (up a).neg := by rw [neg_eq, up_mk (neg_canon (canon_up a))]

theorem up_abs (a : Float) : up a.abs = (up a).abs := by rw [abs_eq, up_mk (abs_canon (canon_up a))]

theorem neg_val (a : Float) : val (-a) = - val a := by
  unfold val; rw [up_neg]
  cases up a <;> simp only [UnpackedFloat.neg, uval, neg_zero]
  rw [sgn_neg, neg_mul]

theorem neg_fin {a : Float} : Fin (-a) ↔ Fin a := by
  rw [fin_iff, fin_iff, up_neg]
  cases up a <;> exact Iff.rfl

theorem abs_val (a : Float) : val a.abs = |val a| := by
  unfold val; rw [up_abs]
  cases h : up a with
  | finite s m e hm =>
    rw [abs_uval]
    simp only [UnpackedFloat.abs, uval, sgn, one_mul]
  | _ => simp only [UnpackedFloat.abs, uval, abs_zero]

theorem abs_fin {a : Float} : Fin a.abs ↔ Fin a := by
  rw [fin_iff, fin_iff, up_abs]
  cases up a <;> exact Iff.rfl

theorem neg_neg' (a : Float) : - -a = a := by
  apply up_inj
  rw [up_neg, up_neg]
  cases up a with
  | infinity s => cases s <;> rfl
  | notANumber => rfl
  | zero s => cases s <;> rfl
  | finite s m e hm => cases s <;> rfl

/-! ## Comparisons -/

theorem lt_eq (a b : Float) : Float.lt a b = ((up a).compare (up b) == some .lt) := by
  exact Bool.decide_coe ((up a).compare (up b) == some .lt)
theorem le_eq (a b : Float) : Float.le a b = ((up a).compare (up b)).any (·.isLE) := by
  exact Bool.decide_coe (((up a).compare (up b)).any (·.isLE))
theorem beq_eq (a b : Float) : Float.beq a b = ((up a).compare (up b) == some .eq) := rfl

theorem compare_fin {a b : Float} (ha : Fin a) (hb : Fin b) : (up a).compare (up b) = some (compare (val a) (val b)) :=
  compare_spec (canon_up a).weaken (canon_up b).weaken ha hb

theorem lt_iff {a b : Float} (ha : Fin a) (hb : Fin b) : Float.lt a b = true ↔ val a < val b := by
  rw [lt_eq, compare_fin ha hb, ← compare_lt_iff_lt]
  cases compare (val a) (val b) <;> simp
theorem le_iff {a b : Float} (ha : Fin a) (hb : Fin b) : Float.le a b = true ↔ val a ≤ val b := by
  rw [le_eq, compare_fin ha hb, ← compare_le_iff_le]
  cases compare (val a) (val b) <;> simp
theorem beq_iff {a b : Float} (ha : Fin a) (hb : Fin b) : Float.beq a b = true ↔ val a = val b := by
  rw [beq_eq, compare_fin ha hb, ← compare_eq_iff_eq (a := val a)]
  generalize compare (val a) (val b) = o
  cases o <;> simp

/-! ## Conversions -/

theorem toNat_val {a : Float} (ha : Fin a) : a.toUInt64.toNat = min ⌊val a⌋₊ (2 ^ 64 - 1) := by
  have h := toNat_spec (a := up a) ha 0 (UInt64.size - 1)
  show (UInt64.ofNatClamp ((up a).toInt 0 (UInt64.size - 1)).toNat).toNat = _
  rw [h]
  unfold UInt64.ofNatClamp
  show _ = min ⌊uval (up a)⌋₊ _
  split
  · rename_i hlt
    have : UInt64.size = 2 ^ 64 := rfl
    rw [UInt64.toNat_ofNatLT]; omega
  · rename_i hlt
    have : UInt64.size = 2 ^ 64 := rfl
    have h2 : (UInt64.ofNatLT (UInt64.size - 1) (by decide)).toNat = 2 ^ 64 - 1 := by decide
    omega

theorem ofNat_good (n : ℕ) : Good (UnpackedFloat.ofNat Format.binary64 n) (rnd n) := by
  have h := normalize_spec (n : ℤ) 0 .positive
  refine ⟨h.1, h.2.1, h.2.2.trans ?_⟩
  congr 1
  simp

theorem ofNat_val {n : ℕ} (h : |rnd n| < huge) : Fin (F64.ofNat n) ∧ val (F64.ofNat n) = rnd n := mk_good (ofNat_good n) h

/-- Exact conversion of integers up to `2^53`. -/
theorem ofNat_exact {n : ℕ} (h : n ≤ 2 ^ 53) : Fin (F64.ofNat n) ∧ val (F64.ofNat n) = n := by
  have hF := rnd_of_isF (isF_nat h)
  have := ofNat_val (n := n) (by
    rw [hF, abs_of_nonneg (by positivity)]
    have h1 : (n : ℝ) ≤ 2 ^ 53 := by exact_mod_cast h
    refine h1.trans_lt ?_
    unfold huge
    rw [← zpow_natCast]
    exact zpow_lt_zpow_right₀ (by norm_num) (by norm_num))
  rwa [hF] at this

theorem lit_val {m e : ℕ} (hm : 0 < m) (he : 0 < e) (hm2 : m ≤ 2 ^ 53) (h : e ≤ 2048) :
    Fin (F64.lit m e) ∧ val (F64.lit m e) = rnd (m / 10 ^ e) := by
  have heq : F64.lit m e = mk (UnpackedFloat.div Format.binary64 (.finite .positive m 0 hm)
      (.finite .positive (10 ^ e) 0 (Nat.pow_pos (by decide)))) := by
    unfold F64.lit Float.Model.ofScientific mk UnpackedFloat.ofScientific
    rw [dif_neg hm.ne', if_neg (by push_cast; omega), if_neg (by
      have : (2 : ℤ) ^ Format.binary64.exponentBits = 2048 := rfl
      rw [this]; omega), if_neg (by omega)]
    congr 3
    refine finite_congr ?_ rfl
    rw [neg_neg, Int.toNat_natCast]
  have hv : uval (.finite .positive (10 ^ e) 0 (Nat.pow_pos (by decide))) = 10 ^ e := by
    simp [uval, sgn]
  have hg := div_spec (a := .finite .positive m 0 hm) (b := .finite .positive (10 ^ e) 0 (Nat.pow_pos (by decide))) rfl rfl
    (by rw [hv]; positivity)
  rw [hv, show uval (.finite .positive m 0 hm) = m by simp [uval, sgn]] at hg
  rw [heq]
  refine mk_good hg (rnd_lt_huge ?_)
  rw [abs_of_nonneg (by positivity), div_le_iff₀ (by positivity)]
  have h1 : (m : ℝ) ≤ 2 ^ 53 := by exact_mod_cast hm2
  have h2 : (1 : ℝ) ≤ 10 ^ e := one_le_pow₀ (by norm_num)
  have h3 : (2 : ℝ) ^ 53 ≤ 2 ^ (1023 : ℤ) := by
    rw [← zpow_natCast]; exact zpow_le_zpow_right₀ (by norm_num) (by norm_num)
  have h4 := two_zpow_pos 1023
  exact h1.trans (h3.trans (le_mul_of_one_le_right h4.le h2))

/-- Finite numbers with the same non-zero value are equal. -/
theorem eq_of_val {a b : Float} (ha : Fin a) (hb : Fin b) (h : val a = val b) (h0 : val a ≠ 0) : a = b := by
  apply up_inj
  have hc := compare_fin ha hb
  rw [compare_eq_iff_eq.mpr h] at hc
  unfold val at h0 h
  rw [fin_iff] at ha hb
  have ca := canon_up a
  have cb := canon_up b
  cases hu : up a with
  | infinity | notANumber => rw [hu] at ha; simp [UnpackedFloat.isFinite] at ha
  | zero => rw [hu] at h0; exact absurd rfl h0
  | finite s m e hm =>
    cases hw : up b with
    | infinity | notANumber => rw [hw] at hb; simp [UnpackedFloat.isFinite] at hb
    | zero => rw [hw] at h; exact absurd h h0
    | finite s' m' e' hm' =>
      rw [hu] at h ca
      rw [hw] at h cb
      have hp := finite_pos hm e
      have hp' := finite_pos hm' e'
      have habs : (m : ℝ) * 2 ^ e = m' * 2 ^ e' := by
        rw [← abs_uval s m e hm, ← abs_uval s' m' e' hm', h]
      have hs : s = s' := by
        cases s <;> cases s' <;> first | rfl | (simp only [uval, sgn] at h; linarith)
      have hee : e = e' := by
        rcases lt_trichotomy e e' with he | he | he
        · exact absurd habs (canonME_lt ca.1 cb.1 he).ne
        · exact he
        · exact absurd habs (canonME_lt cb.1 ca.1 he).ne'
      subst hs; subst hee
      have hmm : m = m' := by
        have := mul_right_cancel₀ (two_zpow_pos e).ne' habs
        exact_mod_cast this
      subst hmm
      rfl

end Verif.F64
