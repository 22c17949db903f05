import Verif.F64.Carrier
import Verif.F64.Sign
import Verif.Lemmas.Fh

/-! # The hop frequencies in IEEE arithmetic -/
namespace Verif.F64

/-- A double of at least `2^-100` is a multiple of `2^-152`. -/
theorem isF_grid {x : ℝ} (h : IsF x) (hx : 1 / 2 ^ 100 ≤ x) : ∃ k : ℤ, x = k / 2 ^ 152 := by
  obtain ⟨m, e, h1, -, rfl⟩ := h.strict
  have hm : (m : ℝ) < 2 ^ 53 := by
    have : m < 2 ^ 53 := lt_of_le_of_lt (le_abs_self m) h1
    exact_mod_cast this
  have hp : (0 : ℝ) < 2 ^ e := two_zpow_pos e
  have he : (2 : ℝ) ^ (-153 : ℤ) < 2 ^ e := by
    have h2 : (m : ℝ) * 2 ^ e < 2 ^ 53 * 2 ^ e := mul_lt_mul_of_pos_right hm hp
    rw [show (2 : ℝ) ^ (-153 : ℤ) = 1 / 2 ^ 100 / 2 ^ 53 by rw [zpow_neg]; norm_num, div_lt_iff₀ (by norm_num)]
    linarith
  have he' : -153 < e := (zpow_lt_zpow_iff_right₀ (by norm_num)).mp he
  obtain ⟨k, hk⟩ : ∃ k : ℕ, e = k - 152 := ⟨(e + 152).toNat, by omega⟩
  refine ⟨m * 2 ^ k, ?_⟩
  rw [hk, zpow_sub₀ (by norm_num), zpow_natCast]
  push_cast
  rw [show (2 : ℝ) ^ (152 : ℤ) = 2 ^ 152 by norm_num]
  ring

/-- Two different doubles of at least `2^-100` differ by at least `2^-152`. -/
theorem gap_ge {x y : ℝ} (hx : IsF x) (hy : IsF y) (h1 : 1 / 2 ^ 100 ≤ x) (hxy : x < y) : 1 / 2 ^ 152 ≤ y - x := by
  obtain ⟨a, rfl⟩ := isF_grid hx h1
  obtain ⟨b, rfl⟩ := isF_grid hy (h1.trans hxy.le)
  rw [div_lt_div_iff_of_pos_right (by norm_num)] at hxy
  have : a < b := by exact_mod_cast hxy
  have : (a : ℝ) + 1 ≤ b := by exact_mod_cast this
  rw [← sub_div, div_le_div_iff_of_pos_right (by norm_num)]
  linarith

theorem rnd_rel {x : ℝ} {k : ℕ} (hk : k ≤ 1022) (h : 1 / 2 ^ k ≤ x) : x * (1 - 1 / 2 ^ 53) ≤ rnd x ∧ rnd x ≤ x * (1 + 1 / 2 ^ 53) := by
  have h0 : 0 < x := lt_of_lt_of_le (by positivity) h
  have := abs_rnd_sub_le_rel (x := x) (by
    rw [abs_of_pos h0]
    refine le_trans ?_ h
    rw [one_div, ← zpow_natCast, ← zpow_neg]
    exact zpow_le_zpow_right₀ (by norm_num) (by omega))
  rw [abs_of_pos h0, show (2 : ℝ) ^ (-53 : ℤ) = 1 / 2 ^ 53 by rw [zpow_neg]; norm_num, abs_le] at this
  constructor <;> linarith [this.1, this.2]

/-- The increments `(high - low) / n * i`: between zero and `high - low` and within a relative `2^-51` of the exact one. -/
theorem incr_ieee {g : ℝ} {n i : ℕ} (hg : g = 0 ∨ 1 / 2 ^ 152 ≤ g) (hn : n ≤ 2 ^ 50) (hi : i < n) :
    0 ≤ rnd (rnd (rnd g / n) * i) ∧ rnd (rnd (rnd g / n) * i) ≤ g ∧
      |rnd (rnd (rnd g / n) * i) - g * i / n| ≤ g / 2 ^ 51 := by
  have hn0 : (0 : ℝ) < n := by exact_mod_cast (by omega : 0 < n)
  have hn1 : (1 : ℝ) ≤ n := by exact_mod_cast (by omega : 1 ≤ n)
  have hn50 : (n : ℝ) ≤ 2 ^ 50 := by exact_mod_cast hn
  rcases hg with rfl | hg
  · simp [rnd_zero]
  have hg0 : 0 < g := lt_of_lt_of_le (by positivity) hg
  rcases Nat.eq_zero_or_pos i with rfl | hi0
  · simp only [Nat.cast_zero, mul_zero, rnd_zero, zero_div, sub_zero, abs_zero, le_refl, true_and]
    exact ⟨hg0.le, by positivity⟩
  have hi1 : (1 : ℝ) ≤ i := by exact_mod_cast hi0
  have hin : (i : ℝ) ≤ n - 1 := by
    have : (i : ℝ) + 1 ≤ n := by exact_mod_cast hi
    linarith
  obtain ⟨a1, a2⟩ := rnd_rel (by norm_num) hg
  generalize rnd g = D at *
  have hD : 1 / 2 ^ 153 ≤ D := by
    refine le_trans ?_ a1
    have : (1 : ℝ) / 2 ^ 152 * (1 - 1 / 2 ^ 53) ≤ g * (1 - 1 / 2 ^ 53) := mul_le_mul_of_nonneg_right hg (by norm_num)
    refine le_trans ?_ this
    norm_num
  have hDn : 1 / 2 ^ 203 ≤ D / n := by
    rw [le_div_iff₀ hn0]
    calc (1 : ℝ) / 2 ^ 203 * n ≤ 1 / 2 ^ 203 * 2 ^ 50 := mul_le_mul_of_nonneg_left hn50 (by norm_num)
      _ = 1 / 2 ^ 153 := by norm_num
      _ ≤ D := hD
  obtain ⟨b1, b2⟩ := rnd_rel (by norm_num) hDn
  generalize rnd (D / n) = q at *
  have hq : 1 / 2 ^ 204 ≤ q := by
    refine le_trans ?_ b1
    have : (1 : ℝ) / 2 ^ 203 * (1 - 1 / 2 ^ 53) ≤ D / n * (1 - 1 / 2 ^ 53) := mul_le_mul_of_nonneg_right hDn (by norm_num)
    refine le_trans ?_ this
    norm_num
  have hq0 : 0 < q := lt_of_lt_of_le (by positivity) hq
  have hqi : 1 / 2 ^ 204 ≤ q * i := hq.trans (le_mul_of_one_le_right hq0.le hi1)
  obtain ⟨c1, c2⟩ := rnd_rel (by norm_num) hqi
  generalize rnd (q * i) = p at *
  have hD0 : 0 < D := lt_of_lt_of_le (by positivity) hD
  have hi0' : (0 : ℝ) < i := by linarith
  have X0 : 0 < g * i / n := by positivity
  have e : g / n * i = g * i / n := by ring
  -- upper and lower bounds
  have up : p ≤ g * i / n * (1 + 1 / 2 ^ 53) ^ 3 := by
    calc p ≤ q * i * (1 + 1 / 2 ^ 53) := c2
      _ ≤ D / n * (1 + 1 / 2 ^ 53) * i * (1 + 1 / 2 ^ 53) := by gcongr
      _ ≤ g * (1 + 1 / 2 ^ 53) / n * (1 + 1 / 2 ^ 53) * i * (1 + 1 / 2 ^ 53) := by gcongr
      _ = _ := by ring
  have lo : g * i / n * (1 - 1 / 2 ^ 53) ^ 3 ≤ p := by
    have h1 : (0 : ℝ) ≤ 1 - 1 / 2 ^ 53 := by norm_num
    calc g * i / n * (1 - 1 / 2 ^ 53) ^ 3 = g * (1 - 1 / 2 ^ 53) / n * (1 - 1 / 2 ^ 53) * i * (1 - 1 / 2 ^ 53) := by ring
      _ ≤ D / n * (1 - 1 / 2 ^ 53) * i * (1 - 1 / 2 ^ 53) := by gcongr
      _ ≤ q * i * (1 - 1 / 2 ^ 53) := by gcongr
      _ ≤ p := c1
  have hXg : g * i / n ≤ g := by
    rw [div_le_iff₀ hn0]
    exact mul_le_mul_of_nonneg_left (by linarith) hg0.le
  have u3 : ((1 : ℝ) + 1 / 2 ^ 53) ^ 3 ≤ 1 + 1 / 2 ^ 51 := by norm_num
  have l3 : 1 - 1 / 2 ^ 51 ≤ ((1 : ℝ) - 1 / 2 ^ 53) ^ 3 := by norm_num
  have up' : p ≤ g * i / n * (1 + 1 / 2 ^ 51) := up.trans (mul_le_mul_of_nonneg_left u3 X0.le)
  have lo' : g * i / n * (1 - 1 / 2 ^ 51) ≤ p := (mul_le_mul_of_nonneg_left l3 X0.le).trans lo
  refine ⟨?_, ?_, ?_⟩
  · refine le_trans ?_ lo'
    have : (0 : ℝ) ≤ 1 - 1 / 2 ^ 51 := by norm_num
    positivity
  · refine up'.trans ?_
    rw [div_mul_eq_mul_div, div_le_iff₀ hn0, mul_assoc]
    refine mul_le_mul_of_nonneg_left ?_ hg0.le
    have : (i : ℝ) * (1 + 1 / 2 ^ 51) ≤ (n - 1) * (1 + 1 / 2 ^ 51) := mul_le_mul_of_nonneg_right hin (by norm_num)
    refine this.trans ?_
    have : (n : ℝ) / 2 ^ 51 ≤ 1 := by rw [div_le_one (by norm_num)]; exact hn50.trans (by norm_num)
    linarith
  · rw [abs_le]
    constructor
    · have : g * i / n / 2 ^ 51 ≤ g / 2 ^ 51 := by gcongr
      linarith
    · have : g * i / n / 2 ^ 51 ≤ g / 2 ^ 51 := by gcongr
      linarith

/-- Every hop frequency lies in `[low, high]`, and close to the exact one. -/
theorem hop_ieee {low high : Float} (fl : Fin low) (fh : Fin high) (h1 : 1 / 2 ^ 100 ≤ val low)
    (h2 : val low ≤ val high) (h3 : val high ≤ 2 ^ 100) {n i : ℕ} (hn : n ≤ 2 ^ 50) (hi : i < n) :
    Fin (low + (high - low) / F64.ofNat n * F64.ofNat i) ∧
      val low ≤ val (low + (high - low) / F64.ofNat n * F64.ofNat i) ∧
      val (low + (high - low) / F64.ofNat n * F64.ofNat i) ≤ val high ∧
      |val (low + (high - low) / F64.ofNat n * F64.ofNat i) - (val low + (val high - val low) * i / n)| ≤ val high / 2 ^ 50 := by
  have hn0 : (0 : ℝ) < n := by exact_mod_cast (by omega : 0 < n)
  have hn1 : (1 : ℝ) ≤ n := by exact_mod_cast (by omega : 1 ≤ n)
  have hl0 : 0 < val low := lt_of_lt_of_le (by positivity) h1
  obtain ⟨fn, vn⟩ := ofNat_exact (n := n) (hn.trans (by norm_num))
  obtain ⟨fi, vi⟩ := ofNat_exact (n := i) (hi.le.trans (hn.trans (by norm_num)))
  have hg : val high - val low = 0 ∨ 1 / 2 ^ 152 ≤ val high - val low := by
    rcases eq_or_lt_of_le h2 with h | h
    · left; linarith
    · right; exact gap_ge (isF_val _) (isF_val _) h1 h
  obtain ⟨p0, p1, p2⟩ := incr_ieee hg hn hi
  have hsmall : ∀ x : ℝ, 0 ≤ x → x ≤ 2 ^ 101 → |rnd x| < huge := fun x h h' =>
    rnd_lt_huge (by rw [abs_of_nonneg h]; exact le_big (k := 101) (by norm_num) h')
  have hF101 : IsF ((2 : ℝ) ^ 101) := by have := isF_zpow (e := 101) (by norm_num); exact_mod_cast this
  obtain ⟨f1, v1⟩ := sub_val fh fl (hsmall _ (by linarith) (by
    calc val high - val low ≤ 2 ^ 100 := by linarith
      _ ≤ 2 ^ 101 := by norm_num))
  have d0 : 0 ≤ rnd (val high - val low) := rnd_nonneg (by linarith)
  have dle : rnd (val high - val low) ≤ val high := rnd_le_of_le (isF_val _) (by linarith)
  have q0 : 0 ≤ rnd (val high - val low) / n := by positivity
  have qle : rnd (val high - val low) / n ≤ val high := (div_le_self d0 hn1).trans dle
  obtain ⟨f2, v2⟩ := div_val f1 fn (by rw [vn]; exact hn0.ne') (by
    rw [v1, vn]
    refine hsmall _ q0 (qle.trans (h3.trans (by norm_num))))
  rw [v1, vn] at v2
  have hub : ∀ x : ℝ, 0 ≤ x → rnd x ≤ 2 ^ 101 → |rnd x| < huge := fun x h h' => by
    rw [← rnd_of_isF (isF_rnd x)]
    exact hsmall _ (rnd_nonneg h) h'
  obtain ⟨f3, v3⟩ := mul_val f2 fi (by
    rw [v2, vi]
    refine hub _ (mul_nonneg (rnd_nonneg q0) (by positivity)) (p1.trans ?_)
    calc val high - val low ≤ 2 ^ 100 := by linarith
      _ ≤ 2 ^ 101 := by norm_num)
  rw [v2, vi] at v3
  obtain ⟨f4, v4⟩ := add_val fl f3 (by
    rw [v3]
    refine hsmall _ (by linarith) ?_
    calc val low + _ ≤ val low + (val high - val low) := by linarith
      _ ≤ 2 ^ 101 := by rw [add_sub_cancel]; exact h3.trans (by norm_num))
  rw [v3] at v4
  refine ⟨f4, ?_, ?_, ?_⟩ <;> rw [v4]
  · exact le_rnd_of_le (isF_val _) (by linarith)
  · exact rnd_le_of_le (isF_val _) (by linarith)
  · generalize rnd (rnd (rnd (val high - val low) / n) * i) = p at *
    obtain ⟨r1, r2⟩ := rnd_rel (x := val low + p) (k := 100) (by norm_num) (by linarith)
    have hx : val low + p ≤ val high := by linarith
    have hx' : (val low + p) / 2 ^ 53 ≤ val high / 2 ^ 53 := by gcongr
    have hg' : (val high - val low) / 2 ^ 51 ≤ val high / 2 ^ 51 := by gcongr; linarith
    rw [abs_le] at p2 ⊢
    have hh : 0 < val high := by linarith
    constructor
    · have : -(val high / 2 ^ 50) ≤ -(val high / 2 ^ 53) - val high / 2 ^ 51 := by linarith
      linarith [p2.1]
    · have : (val high / 2 ^ 53) + val high / 2 ^ 51 ≤ val high / 2 ^ 50 := by linarith
      linarith [p2.2]

end Verif.F64

namespace Verif
open F64

theorem hopFreqs_ieee {L : Libm} {low high : FloatL L} (fl : Fin low) (fh : Fin high) (h1 : 1 / 2 ^ 100 ≤ val low)
    (h2 : val low ≤ val high) (h3 : val high ≤ 2 ^ 100) {n : ℕ} (hn : n ≤ 2 ^ 50) {x : FloatL L} (hx : x ∈ hopFreqs low high n) :
    Fin x ∧ val low ≤ val x ∧ val x ≤ val high := by
  obtain ⟨i, hi, rfl⟩ := List.mem_map.mp hx
  have h := hop_ieee fl fh h1 h2 h3 hn (by simpa using hi : i < n)
  exact ⟨h.1, h.2.1, h.2.2.1⟩

end Verif
