import Verif.F64.Libm
import Verif.Model.Psk
import Verif.Lemmas.Psk
import Mathlib.Analysis.Real.Pi.Bounds

/-!
# Rounding error analysis

`Ap x r e`: the double `x` is finite and within `e` of the real number `r`.  `Rel x r η`: within relative error `η`.
-/
namespace Verif.F64
open Float.Model Float.Model.UnpackedFloat

/-- The unit roundoff. -/
noncomputable def uu : ℝ := 2 ^ (-53 : ℤ)

theorem uu_pos : 0 < uu := two_zpow_pos _

theorem uu_eq : uu = 1 / 2 ^ 53 := by unfold uu; rw [zpow_neg]; norm_num

/-- Half the smallest positive double. -/
noncomputable def tiny : ℝ := 2 ^ (-1075 : ℤ)

theorem tiny_pos : 0 < tiny := two_zpow_pos _

theorem tiny_le {k : ℕ} (h : k ≤ 1075) : tiny ≤ 1 / 2 ^ k := by
  unfold tiny
  rw [one_div, ← zpow_natCast, ← zpow_neg]
  exact zpow_le_zpow_right₀ (by norm_num) (by omega)

theorem le_big {x : ℝ} {k : ℕ} (hk : k ≤ 1023) (h : x ≤ 2 ^ k) : x ≤ 2 ^ (1023 : ℤ) := by
  refine h.trans ?_
  rw [← zpow_natCast]
  exact zpow_le_zpow_right₀ (by norm_num) (by omega)

/-- `x` is finite and within `e` of `r`. -/
def Ap (x : Float) (r e : ℝ) : Prop := Fin x ∧ |val x - r| ≤ e

theorem Ap.mono {x : Float} {r e e' : ℝ} (h : Ap x r e) (he : e ≤ e') : Ap x r e' := ⟨h.1, h.2.trans he⟩

theorem Ap.nonneg {x : Float} {r e : ℝ} (h : Ap x r e) : 0 ≤ e := (abs_nonneg _).trans h.2

theorem Ap.exact {x : Float} (h : Fin x) : Ap x (val x) 0 := ⟨h, by simp⟩

theorem Ap.abs_le {x : Float} {r e R : ℝ} (h : Ap x r e) (hr : |r| ≤ R) : |val x| ≤ R + e := by
  have := abs_sub_abs_le_abs_sub (val x) r
  have := h.2
  linarith

theorem Ap.of_good {u : UnpackedFloat} {y r e R : ℝ} (h : Good u (rnd y)) (hy : |y - r| ≤ e) (hr : |r| ≤ R)
    (hR : R + e ≤ 2 ^ (1023 : ℤ)) : Ap (mk u) r (e + (R + e) * uu + tiny) := by
  have hy' : |y| ≤ R + e := by
    have := abs_sub_abs_le_abs_sub y r
    linarith
  obtain ⟨h1, h2⟩ := mk_good h (rnd_lt_huge (hy'.trans hR))
  refine ⟨h1, ?_⟩
  rw [h2]
  have h3 := abs_rnd_sub_le_abs y
  have h4 : max (|y| * 2 ^ (-53 : ℤ)) (2 ^ (-1075 : ℤ)) ≤ (R + e) * uu + tiny := by
    have hu := uu_pos
    have ht := tiny_pos
    have h5 : |y| * uu ≤ (R + e) * uu := mul_le_mul_of_nonneg_right hy' hu.le
    have h6 : 0 ≤ |y| * uu := by positivity
    apply max_le
    · show |y| * uu ≤ _; linarith
    · show tiny ≤ _; linarith
  have : |rnd y - r| ≤ |rnd y - y| + |y - r| := abs_sub_le _ _ _
  linarith

theorem Ap.add {a b : Float} {r s ε δ R : ℝ} (ha : Ap a r ε) (hb : Ap b s δ) (hR : |r + s| ≤ R)
    (hM : R + (ε + δ) ≤ 2 ^ (1023 : ℤ)) : Ap (a + b) (r + s) (ε + δ + (R + (ε + δ)) * uu + tiny) := by
  refine .of_good (add_good ha.1 hb.1) ?_ hR hM
  rw [show val a + val b - (r + s) = (val a - r) + (val b - s) by ring]
  exact (abs_add_le _ _).trans (add_le_add ha.2 hb.2)

theorem Ap.sub {a b : Float} {r s ε δ R : ℝ} (ha : Ap a r ε) (hb : Ap b s δ) (hR : |r - s| ≤ R)
    (hM : R + (ε + δ) ≤ 2 ^ (1023 : ℤ)) : Ap (a - b) (r - s) (ε + δ + (R + (ε + δ)) * uu + tiny) := by
  refine .of_good (sub_good ha.1 hb.1) ?_ hR hM
  rw [show val a - val b - (r - s) = (val a - r) - (val b - s) by ring]
  exact (abs_sub _ _).trans (add_le_add ha.2 hb.2)

theorem abs_mul_sub_le {x y r s ε δ R S : ℝ} (h1 : |x - r| ≤ ε) (h2 : |y - s| ≤ δ) (hR : |r| ≤ R) (hS : |s| ≤ S) :
    |x * y - r * s| ≤ R * δ + S * ε + ε * δ := by
  rw [show x * y - r * s = r * (y - s) + s * (x - r) + (x - r) * (y - s) by ring]
  refine (abs_add_le _ _).trans (add_le_add ((abs_add_le _ _).trans (add_le_add ?_ ?_)) ?_) <;> rw [abs_mul]
  · exact mul_le_mul hR h2 (abs_nonneg _) ((abs_nonneg _).trans hR)
  · exact mul_le_mul hS h1 (abs_nonneg _) ((abs_nonneg _).trans hS)
  · exact mul_le_mul h1 h2 (abs_nonneg _) ((abs_nonneg _).trans h1)

theorem Ap.mul {a b : Float} {r s ε δ R S : ℝ} (ha : Ap a r ε) (hb : Ap b s δ) (hR : |r| ≤ R) (hS : |s| ≤ S)
    (hM : R * S + (R * δ + S * ε + ε * δ) ≤ 2 ^ (1023 : ℤ)) :
    Ap (a * b) (r * s) (R * δ + S * ε + ε * δ + (R * S + (R * δ + S * ε + ε * δ)) * uu + tiny) := by
  refine .of_good (mul_good ha.1 hb.1) (abs_mul_sub_le ha.2 hb.2 hR hS) ?_ hM
  rw [abs_mul]
  exact mul_le_mul hR hS (abs_nonneg _) ((abs_nonneg _).trans hR)

theorem Ap.neg {a : Float} {r ε : ℝ} (ha : Ap a r ε) : Ap (-a) (-r) ε := by
  refine ⟨neg_fin.mpr ha.1, ?_⟩
  rw [neg_val, ← abs_neg]
  simpa [add_comm, sub_eq_add_neg] using ha.2

theorem Ap.one_mul {a : Float} {r ε : ℝ} (ha : Ap a r ε) : Ap (1 * a) r ε := by
  obtain ⟨h1, h2⟩ := one_mul_val ha.1
  exact ⟨h1, h2 ▸ ha.2⟩

theorem Ap.neg_one_mul {a : Float} {r ε : ℝ} (ha : Ap a r ε) : Ap (-1 * a) (-r) ε := by
  obtain ⟨h1, h2⟩ := neg_one_mul_val ha.1
  refine ⟨h1, ?_⟩
  rw [h2, ← abs_neg]
  simpa [add_comm, sub_eq_add_neg] using ha.2

theorem Ap.pos {x : Float} {r e : ℝ} (h : Ap x r e) (hr : e < r) : Float.lt 0 x = true := by
  rw [lt_iff fin_zero h.1, val_zero]
  have := (_root_.abs_le.mp h.2).1
  linarith

theorem Ap.not_pos {x : Float} {r e : ℝ} (h : Ap x r e) (hr : r ≤ -e) : Float.lt 0 x = false := by
  rw [← Bool.not_eq_true, lt_iff fin_zero h.1, val_zero]
  have := (_root_.abs_le.mp h.2).2
  linarith

/-- Left-to-right summation. -/
theorem Ap.rsum {a : ℕ → Float} {r : ℕ → ℝ} {n : ℕ} {B e t : ℝ} (h : ∀ j < n, Ap (a j) (r j) e)
    (hB : ∀ j < n, |r j| ≤ B) (ht0 : 0 ≤ t) (hM : n * (B + (e + t)) ≤ 2 ^ (1023 : ℤ))
    (ht : n * (B + (e + t)) * uu + tiny ≤ t) :
    Ap (Verif.rsum ((List.range n).map a)) (∑ j ∈ Finset.range n, r j) (n * (e + t)) := by
  have main : ∀ k ≤ n, Ap (Verif.rsum ((List.range k).map a)) (∑ j ∈ Finset.range k, r j) (k * (e + t)) := by
    intro k
    induction k with
    | zero => intro _; exact ⟨fin_zero, by show |val 0 - _| ≤ _; rw [val_zero]; simp⟩
    | succ k ih =>
      intro hk
      have ihk := ih (by omega)
      have hak := h k (by omega)
      have he := hak.nonneg
      have hB0 : 0 ≤ B := (abs_nonneg _).trans (hB k (by omega))
      have e1 : Verif.rsum ((List.range (k + 1)).map a) = Verif.rsum ((List.range k).map a) + a k := by
        unfold Verif.rsum
        rw [List.range_succ, List.map_append, List.foldl_append]
        rfl
      rw [e1, Finset.sum_range_succ]
      have hkn : ((k + 1 : ℕ) : ℝ) ≤ n := by exact_mod_cast hk
      push_cast at hkn
      have hsum : |∑ j ∈ Finset.range k, r j + r k| ≤ (k + 1) * B := by
        rw [← Finset.sum_range_succ]
        refine (Finset.abs_sum_le_sum_abs _ _).trans ?_
        refine (Finset.sum_le_sum (fun j hj => hB j (by have := Finset.mem_range.mp hj; omega))).trans ?_
        rw [Finset.sum_const, Finset.card_range, nsmul_eq_mul]
        push_cast
        exact le_rfl
      have hkt : (0 : ℝ) ≤ k := by positivity
      have hbound : (k + 1) * B + (k * (e + t) + e) ≤ n * (B + (e + t)) := by
        have : ((k : ℝ) + 1) * (B + (e + t)) ≤ n * (B + (e + t)) := mul_le_mul_of_nonneg_right hkn (by linarith)
        nlinarith
      refine (ihk.add hak hsum (hbound.trans hM)).mono ?_
      have := mul_le_mul_of_nonneg_right hbound uu_pos.le
      push_cast
      linarith
  exact main n le_rfl

/-- Relative error. -/
def Rel (x : Float) (r η : ℝ) : Prop := Fin x ∧ |val x - r| ≤ η * |r|

theorem Rel.mono {x : Float} {r η η' : ℝ} (h : Rel x r η) (he : η ≤ η') : Rel x r η' :=
  ⟨h.1, h.2.trans (mul_le_mul_of_nonneg_right he (abs_nonneg _))⟩

theorem Rel.exact {x : Float} (h : Fin x) : Rel x (val x) 0 := ⟨h, by simp⟩

theorem Rel.of_good {u : UnpackedFloat} {y r α : ℝ} (h : Good u (rnd y)) (hy : |y - r| ≤ α * |r|) (hα : α ≤ 1 / 2)
    (hlo : r = 0 ∨ (2 : ℝ) ^ (-1000 : ℤ) ≤ |r|) (hhi : |r| ≤ 2 ^ (1000 : ℤ)) : Rel (mk u) r (α + (1 + α) * uu) := by
  rcases hlo with h0 | hlo
  · subst h0
    have hy0 : y = 0 := by simpa using hy
    subst hy0
    rw [rnd_zero] at h
    obtain ⟨h1, h2⟩ := mk_good h (by rw [abs_zero]; exact huge_pos)
    exact ⟨h1, by rw [h2]; simp⟩
  · have hp : 0 < |r| := (two_zpow_pos _).trans_le hlo
    have h1 : |y| ≤ (1 + α) * |r| := by
      have := abs_sub_abs_le_abs_sub y r
      linarith
    have h2 : |r| / 2 ≤ |y| := by
      have := abs_sub_abs_le_abs_sub r y
      rw [abs_sub_comm] at this
      nlinarith
    have h3 : (2 : ℝ) ^ (-1022 : ℤ) ≤ |y| := by
      refine le_trans ?_ h2
      have e : (2 : ℝ) ^ (-1001 : ℤ) = 2 ^ (-1000 : ℤ) / 2 := by
        rw [show (-1001 : ℤ) = -1000 - 1 by norm_num, zpow_sub₀ (by norm_num)]; norm_num
      have : (2 : ℝ) ^ (-1022 : ℤ) ≤ 2 ^ (-1001 : ℤ) := zpow_le_zpow_right₀ (by norm_num) (by norm_num)
      linarith
    have h4 : |y| ≤ 2 ^ (1023 : ℤ) := by
      have e : (2 : ℝ) ^ (1001 : ℤ) = 2 ^ (1000 : ℤ) * 2 := by
        rw [show (1001 : ℤ) = 1000 + 1 by norm_num, zpow_add₀ (by norm_num)]; norm_num
      have : (2 : ℝ) ^ (1001 : ℤ) ≤ 2 ^ (1023 : ℤ) := zpow_le_zpow_right₀ (by norm_num) (by norm_num)
      have h9 : (1 + α) * |r| ≤ 2 * |r| := mul_le_mul_of_nonneg_right (by linarith) hp.le
      refine (h1.trans h9).trans (le_trans ?_ this)
      rw [e, mul_comm]
      exact mul_le_mul_of_nonneg_right hhi (by norm_num)
    obtain ⟨h5, h6⟩ := mk_good h (rnd_lt_huge h4)
    refine ⟨h5, ?_⟩
    rw [h6]
    have h7 : |rnd y - y| ≤ |y| * uu := abs_rnd_sub_le_rel h3
    have h8 : |y| * uu ≤ (1 + α) * |r| * uu := mul_le_mul_of_nonneg_right h1 uu_pos.le
    have : |rnd y - r| ≤ |rnd y - y| + |y - r| := abs_sub_le _ _ _
    nlinarith

theorem Rel.mul {a b : Float} {r s α β : ℝ} (ha : Rel a r α) (hb : Rel b s β) (hαβ : α + β + α * β ≤ 1 / 2)
    (hlo : r * s = 0 ∨ (2 : ℝ) ^ (-1000 : ℤ) ≤ |r * s|) (hhi : |r * s| ≤ 2 ^ (1000 : ℤ)) :
    Rel (a * b) (r * s) (α + β + α * β + (1 + (α + β + α * β)) * uu) := by
  refine .of_good (mul_good ha.1 hb.1) ?_ hαβ hlo hhi
  have := abs_mul_sub_le ha.2 hb.2 le_rfl le_rfl
  rw [abs_mul]
  nlinarith

theorem ofNat_rel {n : ℕ} (h : n ≤ 2 ^ 53) : Rel (F64.ofNat n) n 0 := by
  obtain ⟨h1, h2⟩ := ofNat_exact h
  exact ⟨h1, by rw [h2]; simp⟩

theorem nat_div_rel {a b : ℕ} (ha : a ≤ 2 ^ 53) (hb : b ≤ 2 ^ 53) (hb0 : 0 < b) :
    Rel (F64.ofNat a / F64.ofNat b) ((a : ℝ) / b) uu := by
  obtain ⟨fa, va⟩ := ofNat_exact ha
  obtain ⟨fb, vb⟩ := ofNat_exact hb
  have hbp : (0 : ℝ) < b := by exact_mod_cast hb0
  have hb1 : (1 : ℝ) ≤ b := by exact_mod_cast hb0
  have ha53 : (a : ℝ) ≤ 2 ^ 53 := by exact_mod_cast ha
  have hb53 : (b : ℝ) ≤ 2 ^ 53 := by exact_mod_cast hb
  have hg := div_good fa fb (by rw [vb]; exact hbp.ne')
  rw [va, vb] at hg
  have hq : (0 : ℝ) ≤ (a : ℝ) / b := by positivity
  refine (Rel.of_good (α := 0) hg (by simp) (by norm_num) ?_ ?_).mono (by simp)
  · rcases Nat.eq_zero_or_pos a with h0 | hp
    · left; subst h0; simp
    · right
      have ha1 : (1 : ℝ) ≤ a := by exact_mod_cast hp
      rw [abs_of_nonneg hq, le_div_iff₀ hbp]
      refine le_trans ?_ ha1
      calc (2 : ℝ) ^ (-1000 : ℤ) * b ≤ 2 ^ (-53 : ℤ) * 2 ^ 53 :=
            mul_le_mul (zpow_le_zpow_right₀ (by norm_num) (by norm_num)) hb53 hbp.le (two_zpow_pos _).le
        _ = 1 := by norm_num
  · rw [abs_of_nonneg hq]
    have : (a : ℝ) / b ≤ 2 ^ 53 := by rw [div_le_iff₀ hbp]; nlinarith
    refine this.trans ?_
    rw [← zpow_natCast]
    exact zpow_le_zpow_right₀ (by norm_num) (by norm_num)

/-- The value of `std::f64::consts::PI`. -/
theorem val_pi : Fin (Flt.pi : Float) ∧ val (Flt.pi : Float) = 884279719003555 / 2 ^ 48 := by
  have h : (Flt.pi : Float) = F64.ofNat 884279719003555 / F64.ofNat (2 ^ 48) := by decide +kernel
  obtain ⟨fa, va⟩ := ofNat_exact (n := 884279719003555) (by norm_num)
  obtain ⟨fb, vb⟩ := ofNat_exact (n := 2 ^ 48) (by norm_num)
  have e : rnd (val (F64.ofNat 884279719003555) / val (F64.ofNat (2 ^ 48))) = 884279719003555 / 2 ^ 48 := by
    rw [va, vb]
    have : IsF (884279719003555 / 2 ^ 48 : ℝ) := ⟨884279719003555, -48, by norm_num, by norm_num, by
      rw [zpow_neg]; norm_num⟩
    rw [Nat.cast_pow]
    exact rnd_of_isF this
  rw [h]
  have := div_val fa fb (by rw [vb]; norm_num) (by
    rw [e]; unfold huge
    rw [abs_of_nonneg (by norm_num)]
    refine lt_of_lt_of_le (b := (2 : ℝ) ^ (2 : ℤ)) (by norm_num) (zpow_le_zpow_right₀ (by norm_num) (by norm_num)))
  rw [e] at this
  exact this

theorem pi_rel : Rel (Flt.pi : Float) Real.pi uu := by
  refine ⟨val_pi.1, ?_⟩
  rw [val_pi.2, abs_of_pos Real.pi_pos, uu_eq, abs_le]
  have h1 := Real.pi_gt_d20
  have h2 := Real.pi_lt_d20
  constructor <;> norm_num at h1 h2 ⊢ <;> linarith

end Verif.F64
