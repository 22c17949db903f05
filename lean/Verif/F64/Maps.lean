import Verif.F64.Sign
import Verif.Lemmas.Chaos

/-!
# The chaotic maps in IEEE arithmetic
-/
namespace Verif.F64
open Float.Model Float.Model.UnpackedFloat

/-- A double between two finite doubles (for IEEE `<=`) is finite. -/
theorem between_fin {a x b : Float} (ha : Fin a) (hb : Fin b) (h1 : Float.le a x = true) (h2 : Float.le x b = true) :
    Fin x ∧ val a ≤ val x ∧ val x ≤ val b := by
  have hx : Fin x := by
    rw [le_eq] at h1 h2
    rw [fin_iff] at ha hb ⊢
    revert ha hb h1 h2
    cases up x with
    | zero | finite => intros; rfl
    | notANumber =>
      intro ha hb h1
      cases hu : up a <;> rw [hu] at h1 <;> simp [UnpackedFloat.compare] at h1
    | infinity s =>
      intro ha hb h1 h2
      cases s
      · cases hu : up a with
        | infinity s => rw [hu] at ha; exact absurd ha (by simp [UnpackedFloat.isFinite])
        | notANumber => rw [hu] at ha; exact absurd ha (by simp [UnpackedFloat.isFinite])
        | zero s => rw [hu] at h1; cases s <;> exact absurd h1 (by decide)
        | finite s m e hm => rw [hu] at h1; cases s <;> simp [UnpackedFloat.compare] at h1
      · cases hu : up b with
        | infinity s => rw [hu] at hb; exact absurd hb (by simp [UnpackedFloat.isFinite])
        | notANumber => rw [hu] at hb; exact absurd hb (by simp [UnpackedFloat.isFinite])
        | zero s => rw [hu] at h2; cases s <;> exact absurd h2 (by decide)
        | finite s m e hm => rw [hu] at h2; cases s <;> simp [UnpackedFloat.compare] at h2
  exact ⟨hx, (le_iff ha hx).mp h1, (le_iff hx hb).mp h2⟩

theorem isF_two_mul {x : ℝ} (h : IsF x) : IsF (2 * x) := by
  obtain ⟨m, e, h1, h2, rfl⟩ := h
  exact ⟨m, e + 1, h1, by omega, by rw [zpow_add₀ two_ne_zero, zpow_one]; ring⟩

theorem isF_one : IsF 1 := by simpa using isF_zpow (e := 0) (by norm_num)

theorem isF_two : IsF 2 := by simpa using isF_zpow (e := 1) (by norm_num)

theorem small_lt_huge {x : ℝ} (h : |x| ≤ 4) : |rnd x| < huge :=
  rnd_lt_huge (le_big (k := 2) (by norm_num) (by norm_num; exact h))

/-- One plus half a unit in the last place rounds to one (ties go to even). -/
theorem rnd_one_half_ulp : rnd (1 + 2 ^ (-53 : ℤ)) = 1 := by
  have hp : (0 : ℝ) < 2 ^ (-53 : ℤ) := two_zpow_pos _
  have hlt : (2 : ℝ) ^ (-53 : ℤ) < 1 := by norm_num
  have ht : tgt (1 + 2 ^ (-53 : ℤ)) = -52 := by
    unfold tgt
    rw [abs_of_pos (by linarith), Int.log_of_one_le_right _ (by linarith)]
    have : ⌊(1 + 2 ^ (-53 : ℤ) : ℝ)⌋₊ = 1 := by
      rw [Nat.floor_eq_iff (by linarith)]
      constructor <;> push_cast <;> linarith
    rw [this]
    norm_num
  unfold rnd
  rw [ht]
  have hy : ((1 : ℝ) + 2 ^ (-53 : ℤ)) / 2 ^ (-52 : ℤ) = 2 ^ 52 + 1 / 2 := by norm_num
  rw [hy]
  have : rne ((2 : ℝ) ^ 52 + 1 / 2) = 2 ^ 52 := by
    unfold rne
    have hf : ⌊(2 : ℝ) ^ 52 + 1 / 2⌋ = 2 ^ 52 := by
      rw [Int.floor_eq_iff]; constructor <;> norm_num
    simp only [hf, Int.fract]
    norm_num
    decide
  rw [this]
  norm_num

/-- The logistic step keeps `[0, 1]`, with rounding, for every `mu` up to 4. -/
theorem logistic_unit_ieee {mu x : Float} (hmu : Fin mu) (h0 : 0 ≤ val mu) (h4 : val mu ≤ 4) (hx : Fin x)
    (hx0 : 0 ≤ val x) (hx1 : val x ≤ 1) :
    Fin (logisticMap mu x) ∧ 0 ≤ val (logisticMap mu x) ∧ val (logisticMap mu x) ≤ 1 := by
  have hF4 : IsF (4 * val x) := by
    have := isF_two_mul (isF_two_mul (isF_val x)); rwa [← mul_assoc, show (2 : ℝ) * 2 = 4 by norm_num] at this
  have hp0 : 0 ≤ val mu * val x := mul_nonneg h0 hx0
  have hp4 : val mu * val x ≤ 4 * val x := mul_le_mul_of_nonneg_right h4 hx0
  obtain ⟨f1, v1⟩ := mul_val hmu hx (small_lt_huge (by rw [abs_of_nonneg hp0]; linarith))
  have a1 : 0 ≤ val (mu * x) := by rw [v1]; exact rnd_nonneg hp0
  have a2 : val (mu * x) ≤ 4 * val x := by rw [v1]; exact rnd_le_of_le hF4 hp4
  obtain ⟨f2, v2⟩ := sub_val fin_one hx (small_lt_huge (by rw [val_one, abs_of_nonneg (by linarith)]; linarith))
  rw [val_one] at v2
  have b1 : 0 ≤ val (1 - x) := by rw [v2]; exact rnd_nonneg (by linarith)
  have b2 : val (1 - x) ≤ 1 := by rw [v2]; exact rnd_le_of_le isF_one (by linarith)
  have hq : val (mu * x) * val (1 - x) ≤ 1 + 2 ^ (-53 : ℤ) := by
    have e := abs_rnd_sub_le_abs (1 - val x)
    rw [← v2, abs_of_nonneg (by linarith : 0 ≤ 1 - val x)] at e
    have e' := (_root_.abs_le.mp e).2
    have hu : (0 : ℝ) < 2 ^ (-53 : ℤ) := two_zpow_pos _
    have hprod : val (mu * x) * val (1 - x) ≤ 4 * val x * val (1 - x) := mul_le_mul_of_nonneg_right a2 b1
    rcases le_total ((1 - val x) * 2 ^ (-53 : ℤ)) (2 ^ (-1075 : ℤ)) with hle | hle
    · rw [max_eq_right hle] at e'
      have ht : (2 : ℝ) ^ (-1075 : ℤ) ≤ 1 / 2 ^ 60 := tiny_le (k := 60) (by norm_num)
      have hu' : (2 : ℝ) ^ (-53 : ℤ) = 1 / 2 ^ 53 := uu_eq
      have : 1 - val x ≤ 1 / 2 ^ 7 := by
        rw [hu'] at hle
        have := hle.trans ht
        norm_num at this ⊢
        linarith
      have : val (1 - x) ≤ 1 / 2 ^ 6 := by
        have ht' : (2 : ℝ) ^ (-1075 : ℤ) ≤ 1 / 2 ^ 7 := tiny_le (k := 7) (by norm_num)
        generalize (2 : ℝ) ^ (-1075 : ℤ) = t at e' ht'
        norm_num at this ht' ⊢; linarith
      nlinarith
    · rw [max_eq_left hle] at e'
      have h1 : val (1 - x) ≤ (1 - val x) * (1 + 2 ^ (-53 : ℤ)) := by linarith
      have h2 : 4 * val x * val (1 - x) ≤ 4 * val x * ((1 - val x) * (1 + 2 ^ (-53 : ℤ))) :=
        mul_le_mul_of_nonneg_left h1 (by linarith)
      have h3 : 4 * val x * (1 - val x) ≤ 1 := by nlinarith [sq_nonneg (2 * val x - 1)]
      have h4 : 4 * val x * (1 - val x) * (1 + 2 ^ (-53 : ℤ)) ≤ 1 * (1 + 2 ^ (-53 : ℤ)) :=
        mul_le_mul_of_nonneg_right h3 (by linarith)
      calc _ ≤ _ := hprod
        _ ≤ _ := h2
        _ = 4 * val x * (1 - val x) * (1 + 2 ^ (-53 : ℤ)) := by ring
        _ ≤ _ := h4
        _ = _ := one_mul _
  have hq0 : 0 ≤ val (mu * x) * val (1 - x) := mul_nonneg a1 b1
  obtain ⟨f3, v3⟩ := mul_val f1 f2 (small_lt_huge (by
    rw [abs_of_nonneg hq0]
    have : (2 : ℝ) ^ (-53 : ℤ) < 1 := by norm_num
    linarith))
  refine ⟨f3, ?_, ?_⟩
  · show 0 ≤ val (mu * x * (1 - x)); rw [v3]; exact rnd_nonneg hq0
  · show val (mu * x * (1 - x)) ≤ 1
    rw [v3, ← rnd_one_half_ulp]
    exact rnd_mono hq

theorem fin_lit39 : Fin (F64.lit 39 1) := by decide +kernel
theorem fin_lit1 : Fin (F64.lit 1 1) := by decide +kernel
theorem fin_lit15 : Fin (F64.lit 15 2) := by decide +kernel

theorem ap_lit {m e : ℕ} (hm : 0 < m) (he : 0 < e) (hm2 : m ≤ 2 ^ 53) (h : e ≤ 2048) (hb : (m : ℝ) / 10 ^ e ≤ 4) :
    Ap (F64.lit m e) (m / 10 ^ e) (1 / 2 ^ 50) := by
  obtain ⟨h1, h2⟩ := lit_val hm he hm2 h
  refine ⟨h1, ?_⟩
  rw [h2]
  refine (abs_rnd_sub_le_abs _).trans (max_le ?_ ?_)
  · rw [abs_of_nonneg (by positivity), show (2 : ℝ) ^ (-53 : ℤ) = 1 / 2 ^ 53 from uu_eq]
    norm_num at hb ⊢
    linarith
  · exact tiny_le (by norm_num)

/-- `3.9·x·(1 - x)` in IEEE arithmetic keeps `[0.09, 0.976]`. -/
theorem logistic_39_ieee {x : Float} (hx : Fin x) (h0 : 0.09 ≤ val x) (h1 : val x ≤ 0.976) :
    Fin (logisticMap (F64.lit 39 1) x) ∧ 0.09 ≤ val (logisticMap (F64.lit 39 1) x) ∧
      val (logisticMap (F64.lit 39 1) x) ≤ 0.976 := by
  have hu : uu = 1 / 2 ^ 53 := uu_eq
  have ht : tiny ≤ 1 / 2 ^ 60 := tiny_le (by norm_num)
  have htp := tiny_pos
  have amu : Ap (F64.lit 39 1) 3.9 (1 / 2 ^ 50) := by
    have := ap_lit (m := 39) (e := 1) (by norm_num) (by norm_num) (by norm_num) (by norm_num) (by norm_num)
    norm_num at this ⊢; exact this
  have h1' : (3.9 * 0.976 + (3.9 * 0 + 0.976 * (1 / 2 ^ 50) + 1 / 2 ^ 50 * 0) : ℝ) ≤ 2 ^ (1023 : ℤ) :=
    le_big (k := 3) (by norm_num) (by norm_num)
  have a1 : Ap (F64.lit 39 1 * x) (3.9 * val x) (1 / 2 ^ 40) := by
    refine (amu.mul (Ap.exact hx) (R := 3.9) (S := 0.976) (by rw [abs_of_pos] <;> norm_num)
      (by rw [abs_of_nonneg (by linarith)]; exact h1) h1').mono ?_
    rw [hu]; norm_num at ht ⊢; linarith
  have a2 : Ap (1 - x) (1 - val x) (1 / 2 ^ 40) := by
    have := Ap.sub (Ap.exact fin_one) (Ap.exact hx) (R := 1) (by rw [val_one, abs_of_nonneg (by linarith)]; linarith)
      (le_big (k := 1) (by norm_num) (by norm_num))
    rw [val_one] at this
    refine this.mono ?_
    rw [hu]; norm_num at ht ⊢; linarith
  have a3 : Ap (F64.lit 39 1 * x * (1 - x)) (3.9 * val x * (1 - val x)) (1 / 2 ^ 30) := by
    refine (a1.mul a2 (R := 4) (S := 1) (by rw [abs_of_nonneg (by linarith)]; linarith)
      (by rw [abs_of_nonneg (by linarith)]; linarith) (le_big (k := 4) (by norm_num) (by norm_num))).mono ?_
    rw [hu]; norm_num at ht ⊢; linarith
  obtain ⟨c1, c2⟩ := _root_.abs_le.mp a3.2
  have lo : 0.0913 ≤ 3.9 * val x * (1 - val x) := by nlinarith
  have hi : 3.9 * val x * (1 - val x) ≤ 0.975 := by nlinarith [sq_nonneg (2 * val x - 1)]
  refine ⟨a3.1, ?_, ?_⟩
  · show 0.09 ≤ val (F64.lit 39 1 * x * (1 - x)); norm_num at *; linarith
  · show val (F64.lit 39 1 * x * (1 - x)) ≤ 0.976; norm_num at *; linarith

theorem orbit_39_ieee {x : Float} (hx : Fin x) (h0 : 0.09 ≤ val x) (h1 : val x ≤ 0.976) (n : ℕ) :
    Fin (orbit (logisticMap (F64.lit 39 1)) x n) ∧ 0.09 ≤ val (orbit (logisticMap (F64.lit 39 1)) x n) ∧
      val (orbit (logisticMap (F64.lit 39 1)) x n) ≤ 0.976 :=
  orbit_inv (fun y => Fin y ∧ 0.09 ≤ val y ∧ val y ≤ 0.976) ⟨hx, h0, h1⟩ (fun _ ⟨a, b, c⟩ => logistic_39_ieee a b c) n

theorem val_lit1 : 0.09 ≤ val (F64.lit 1 1) ∧ val (F64.lit 1 1) ≤ 0.976 := by
  have := (ap_lit (m := 1) (e := 1) (by norm_num) (by norm_num) (by norm_num) (by norm_num) (by norm_num)).2
  have := _root_.abs_le.mp this
  norm_num at this ⊢
  constructor <;> linarith

theorem val_lit15 : 0.09 ≤ val (F64.lit 15 2) ∧ val (F64.lit 15 2) ≤ 0.976 := by
  have := (ap_lit (m := 15) (e := 2) (by norm_num) (by norm_num) (by norm_num) (by norm_num) (by norm_num)).2
  have := _root_.abs_le.mp this
  norm_num at this ⊢
  constructor <;> linarith

/-- The product of two doubles in that interval is positive. -/
theorem sq_pos_ieee {x : Float} (hx : Fin x) (h0 : 0.09 ≤ val x) (h1 : val x ≤ 0.976) :
    Float.lt 0 (x * x) = true ∧ Float.lt 0 (x * -x) = false := by
  have hs : (2 : ℝ) ^ (-7 : ℤ) ≤ val x * val x := by norm_num; nlinarith
  constructor
  · obtain ⟨f, v⟩ := mul_val hx hx (small_lt_huge (by rw [abs_of_nonneg (by nlinarith)]; nlinarith))
    rw [lt_iff fin_zero f, v, val_zero]
    exact lt_of_lt_of_le (two_zpow_pos _) (le_rnd_of_le (isF_zpow (e := -7) (by norm_num)) hs)
  · have hn := neg_fin.mpr hx
    have hv := neg_val x
    obtain ⟨f, v⟩ := mul_val hx hn (small_lt_huge (by rw [hv, mul_neg, abs_neg, abs_of_nonneg (by nlinarith)]; nlinarith))
    rw [← Bool.not_eq_true, lt_iff fin_zero f, v, val_zero, hv, mul_neg, rnd_neg, not_lt, neg_nonpos]
    exact rnd_nonneg (by nlinarith)

/-- The difference of two finite doubles is zero only when they are equal. -/
theorem rnd_sub_eq_zero {a b : ℝ} (ha : IsF a) (hb : IsF b) : rnd (a - b) = 0 ↔ a = b := by
  constructor
  · have key : ∀ {a b : ℝ}, IsF a → IsF b → b < a → rnd (a - b) ≠ 0 := by
      intro a b ha hb hlt
      obtain ⟨m, e, -, he, rfl⟩ := ha
      obtain ⟨n, f, -, hf, rfl⟩ := hb
      have h1 : (2 : ℝ) ^ (-1074 : ℤ) ≤ m * 2 ^ e - n * 2 ^ f := by
        obtain ⟨i, rfl⟩ : ∃ i : ℕ, e = -1074 + i := ⟨(e + 1074).toNat, by omega⟩
        obtain ⟨j, rfl⟩ : ∃ j : ℕ, f = -1074 + j := ⟨(f + 1074).toNat, by omega⟩
        rw [zpow_add₀ two_ne_zero, zpow_add₀ two_ne_zero, zpow_natCast, zpow_natCast] at hlt ⊢
        have hpos : (0 : ℝ) < 2 ^ (-1074 : ℤ) := two_zpow_pos _
        generalize (2 : ℝ) ^ (-1074 : ℤ) = t at *
        have h2 : (n * 2 ^ j : ℝ) < m * 2 ^ i := by
          have : t * (n * 2 ^ j : ℝ) < t * (m * 2 ^ i) := by linarith
          exact lt_of_mul_lt_mul_left this hpos.le
        have h3 : (n * 2 ^ j + 1 : ℝ) ≤ m * 2 ^ i := by
          have : (n * 2 ^ j : ℤ) < m * 2 ^ i := by exact_mod_cast h2
          exact_mod_cast this
        nlinarith
      have := le_rnd_of_le (isF_zpow (e := -1074) le_rfl) h1
      exact (lt_of_lt_of_le (two_zpow_pos _) this).ne'
    intro h
    by_contra hne
    rcases lt_or_gt_of_ne hne with hlt | hlt
    · apply key hb ha hlt
      rw [← neg_sub, rnd_neg, h, neg_zero]
    · exact key ha hb hlt h
  · rintro rfl; rw [sub_self, rnd_zero]

/-- The tent map keeps `[-1, 1]`. -/
theorem tent_ieee {mu x : Float} (hmu : Fin mu) (h0 : 0 ≤ val mu) (h1 : val mu ≤ 1) (hx : Fin x) (hl : -1 ≤ val x)
    (hr : val x ≤ 1) : Fin (tentMap mu x) ∧ -1 ≤ val (tentMap mu x) ∧ val (tentMap mu x) ≤ 1 := by
  have hab : |val x| ≤ 1 := _root_.abs_le.mpr ⟨hl, hr⟩
  have hab0 := abs_nonneg (val x)
  obtain ⟨f2, v2⟩ := ofNat_exact (n := 2) (by norm_num)
  obtain ⟨f3, v3⟩ := mul_val f2 hmu (small_lt_huge (by rw [v2]; push_cast; rw [abs_of_nonneg (by linarith)]; linarith))
  rw [v2] at v3
  push_cast at v3
  have c1 : 0 ≤ val (F64.ofNat 2 * mu) := by rw [v3]; exact rnd_nonneg (by linarith)
  have c2 : val (F64.ofNat 2 * mu) ≤ 2 := by rw [v3]; exact rnd_le_of_le isF_two (by linarith)
  have fa := abs_fin.mpr hx
  obtain ⟨f4, v4⟩ := sub_val fin_one fa (small_lt_huge (by rw [val_one, abs_val, abs_of_nonneg (by linarith)]; linarith))
  rw [val_one, abs_val] at v4
  have d1 : 0 ≤ val (1 - x.abs) := by rw [v4]; exact rnd_nonneg (by linarith)
  have d2 : val (1 - x.abs) ≤ 1 := by rw [v4]; exact rnd_le_of_le isF_one (by linarith)
  have p1 : 0 ≤ val (F64.ofNat 2 * mu) * val (1 - x.abs) := mul_nonneg c1 d1
  have p2 : val (F64.ofNat 2 * mu) * val (1 - x.abs) ≤ 2 := by nlinarith
  obtain ⟨f5, v5⟩ := mul_val f3 f4 (small_lt_huge (by rw [abs_of_nonneg p1]; linarith))
  have q1 : 0 ≤ val (F64.ofNat 2 * mu * (1 - x.abs)) := by rw [v5]; exact rnd_nonneg p1
  have q2 : val (F64.ofNat 2 * mu * (1 - x.abs)) ≤ 2 := by rw [v5]; exact rnd_le_of_le isF_two p2
  obtain ⟨f6, v6⟩ := sub_val f5 fin_one (small_lt_huge (by rw [val_one, _root_.abs_le]; constructor <;> linarith))
  rw [val_one] at v6
  refine ⟨f6, ?_, ?_⟩
  · show -1 ≤ val (F64.ofNat 2 * mu * (1 - x.abs) - 1)
    rw [v6]; exact le_rnd_of_le isF_one.neg (by linarith)
  · show val (F64.ofNat 2 * mu * (1 - x.abs) - 1) ≤ 1
    rw [v6]; exact rnd_le_of_le isF_one (by linarith)

/-- The Bernoulli map keeps `[-1, 1]`. -/
theorem bernoulli_ieee {mu x : Float} (hmu : Fin mu) (h0 : 0 ≤ val mu) (h2 : val mu ≤ 2) (hx : Fin x) (hl : -1 ≤ val x)
    (hr : val x ≤ 1) : Fin (bernoulliMap mu x) ∧ -1 ≤ val (bernoulliMap mu x) ∧ val (bernoulliMap mu x) ≤ 1 := by
  have hp : |val mu * val x| ≤ 2 := by
    rw [abs_mul, abs_of_nonneg h0]
    have : |val x| ≤ 1 := _root_.abs_le.mpr ⟨hl, hr⟩
    nlinarith [abs_nonneg (val x)]
  obtain ⟨p1, p2⟩ := _root_.abs_le.mp hp
  obtain ⟨f1, v1⟩ := mul_val hmu hx (small_lt_huge (by linarith))
  have r1 : -2 ≤ val (mu * x) := by rw [v1]; exact le_rnd_of_le isF_two.neg (by linarith)
  have r2 : val (mu * x) ≤ 2 := by rw [v1]; exact rnd_le_of_le isF_two (by linarith)
  unfold bernoulliMap
  by_cases hneg : Float.lt x 0 = true
  · rw [if_pos (by exact hneg)]
    have hv : val x < 0 := by rw [lt_iff hx fin_zero, val_zero] at hneg; exact hneg
    have r3 : val (mu * x) ≤ 0 := by rw [v1]; exact rnd_le_of_le isF_zero (by nlinarith)
    obtain ⟨f2, v2⟩ := add_val f1 fin_one (small_lt_huge (by rw [val_one, _root_.abs_le]; constructor <;> linarith))
    rw [val_one] at v2
    exact ⟨f2, v2.symm ▸ le_rnd_of_le isF_one.neg (by linarith), v2.symm ▸ rnd_le_of_le isF_one (by linarith)⟩
  · rw [if_neg (by exact hneg)]
    have hv : 0 ≤ val x := by rw [lt_iff hx fin_zero, val_zero] at hneg; exact not_lt.mp hneg
    have r3 : 0 ≤ val (mu * x) := by rw [v1]; exact rnd_nonneg (mul_nonneg h0 hv)
    obtain ⟨f2, v2⟩ := sub_val f1 fin_one (small_lt_huge (by rw [val_one, _root_.abs_le]; constructor <;> linarith))
    rw [val_one] at v2
    exact ⟨f2, v2.symm ▸ le_rnd_of_le isF_one.neg (by linarith), v2.symm ▸ rnd_le_of_le isF_one (by linarith)⟩

/-- Comparison of the distances to two finite doubles, from the first. -/
theorem closer_self {x y : Float} (hx : Fin x) (hy : Fin y) (h0 : 0 < val x) (hx1 : val x ≤ 1) (hy0 : 0 < val y)
    (hy1 : val y ≤ 1) :
    (Float.lt (x - x).abs (x - y).abs = true ↔ x ≠ y) ∧ Float.lt (y - x).abs (y - y).abs = false := by
  have sm : ∀ {a b : Float}, 0 < val a → val a ≤ 1 → 0 < val b → val b ≤ 1 → |rnd (val a - val b)| < huge := by
    intro a b a0 a1 b0 b1
    exact small_lt_huge (_root_.abs_le.mpr ⟨by linarith, by linarith⟩)
  have z : ∀ {a : Float}, Fin a → 0 < val a → val a ≤ 1 → Fin (a - a).abs ∧ val (a - a).abs = 0 := by
    intro a ha a0 a1
    obtain ⟨f, v⟩ := sub_val ha ha (sm a0 a1 a0 a1)
    exact ⟨abs_fin.mpr f, by rw [abs_val, v, sub_self, rnd_zero, abs_zero]⟩
  obtain ⟨f1, v1⟩ := z hx h0 hx1
  obtain ⟨f2, v2⟩ := z hy hy0 hy1
  obtain ⟨f3, v3⟩ := sub_val hx hy (sm h0 hx1 hy0 hy1)
  obtain ⟨f4, v4⟩ := sub_val hy hx (sm hy0 hy1 h0 hx1)
  constructor
  · rw [lt_iff f1 (abs_fin.mpr f3), v1, abs_val, v3, abs_pos, Ne, rnd_sub_eq_zero (isF_val x) (isF_val y), not_iff_not]
    exact ⟨fun h => eq_of_val hx hy h h0.ne', fun h => h ▸ rfl⟩
  · rw [← Bool.not_eq_true, lt_iff (abs_fin.mpr f4) f2, v2, abs_val, not_lt]
    exact abs_nonneg _

end Verif.F64

namespace Verif
variable {F : Type} [Add F] [Sub F] [Mul F] [Div F] [Neg F] [Zero F] [One F] [Flt F]

theorem logisticNew_ok {mu x0 : F} {it : LogisticMap F} (h : LogisticMap.new mu x0 = pure it) :
    Flt.le 0 x0 = true ∧ Flt.le x0 1 = true ∧ it = ⟨mu, x0⟩ := by
  unfold LogisticMap.new at h
  by_cases hc : (Flt.le 0 x0 && Flt.le x0 1) = true
  · rw [rassert_pos hc, pure_bind, RM.ok_inj] at h
    rw [Bool.and_eq_true] at hc
    exact ⟨hc.1, hc.2, h.symm⟩
  · simp [rassert, hc] at h

theorem logisticNew_panics (mu x0 : F) :
    (LogisticMap.new mu x0).Panics ↔ ¬ (Flt.le 0 x0 = true ∧ Flt.le x0 1 = true) := by
  unfold LogisticMap.new
  by_cases hc : (Flt.le 0 x0 && Flt.le x0 1) = true
  · rw [rassert_pos hc, pure_bind]
    rw [Bool.and_eq_true] at hc
    exact iff_of_false (RM.not_panics_ok _) (fun h => h hc)
  · refine iff_of_true ?_ (by rwa [Bool.and_eq_true] at hc)
    simp only [rassert, hc, Bool.false_eq_true, if_false, RM.panic_bind, RM.panics_panic]

end Verif
