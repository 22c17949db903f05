import Verif.F64.Dft
import Verif.F64.Maps
import Verif.F64.Libm
import Verif.F64.Int
import Verif.Lemmas.SscaMap

/-!
The cell indices of `ssca_mapped` in IEEE arithmetic: always inside the array, and exact for powers of two.
-/

namespace Verif
open F64

/-- A finite double within given bounds. -/
def Bet (x : Float) (lo hi : ℝ) : Prop := F64.Fin x ∧ lo ≤ val x ∧ val x ≤ hi

theorem lt_huge60 {x : ℝ} (h : |x| ≤ 2 ^ 60) : |rnd x| < huge := rnd_lt_huge (le_big (k := 60) (by norm_num) h)

theorem bet_rnd {x : Float} {r lo hi : ℝ} (hx : F64.Fin x ∧ val x = rnd r) (h1 : IsF lo) (h2 : IsF hi) (h3 : lo ≤ r)
    (h4 : r ≤ hi) : Bet x lo hi :=
  ⟨hx.1, by rw [hx.2]; exact le_rnd_of_le h1 h3, by rw [hx.2]; exact rnd_le_of_le h2 h4⟩

theorem isF_half : IsF (1 / 2) := by
  have := isF_zpow (e := -1) (by norm_num)
  rwa [zpow_neg, zpow_one, ← one_div] at this

theorem lit_half : F64.Fin (F64.lit 5 1) ∧ val (F64.lit 5 1) = 1 / 2 := by
  obtain ⟨h1, h2⟩ := lit_val (m := 5) (e := 1) (by norm_num) (by norm_num) (by norm_num) (by norm_num)
  refine ⟨h1, ?_⟩
  rw [h2]
  have : ((5 : ℕ) : ℝ) / 10 ^ 1 = 1 / 2 := by norm_num
  rw [this, rnd_of_isF isF_half]

theorem two_ofNat {n : ℕ} (hn : 2 * n ≤ 2 ^ 53) :
    F64.Fin (F64.ofNat 2 * F64.ofNat n) ∧ val (F64.ofNat 2 * F64.ofNat n) = 2 * n := by
  obtain ⟨a1, a2⟩ := ofNat_exact (n := 2) (by norm_num)
  obtain ⟨b1, b2⟩ := ofNat_exact (n := n) (by omega)
  have e : val (F64.ofNat 2) * val (F64.ofNat n) = ((2 * n : ℕ) : ℝ) := by rw [a2, b2]; push_cast; ring
  have hF := rnd_of_isF (isF_nat hn)
  have hb : |((2 * n : ℕ) : ℝ)| ≤ 2 ^ 60 := by
    rw [abs_of_nonneg (by positivity)]
    have : ((2 * n : ℕ) : ℝ) ≤ 2 ^ 53 := by exact_mod_cast hn
    linarith [show (2 : ℝ) ^ 53 ≤ 2 ^ 60 by norm_num]
  have := mul_val a1 b1 (by rw [e]; exact lt_huge60 hb)
  rw [e, hF] at this
  exact ⟨this.1, by rw [this.2]; push_cast; ring⟩

theorem bet_div {k : ℕ} {x : Float} {d hi : ℝ} (hk : k ≤ 2 ^ 53) (hx : F64.Fin x ∧ val x = d) (hd : 0 < d) (hF : IsF hi)
    (hhi : hi ≤ 1) (h : k ≤ hi * d) : Bet (F64.ofNat k / x) 0 hi := by
  obtain ⟨a1, a2⟩ := ofNat_exact hk
  have h0 : 0 ≤ (k : ℝ) / d := by positivity
  have h1 : (k : ℝ) / d ≤ hi := by rw [div_le_iff₀ hd]; exact h
  refine bet_rnd (div_val a1 hx.1 (by rw [hx.2]; exact hd.ne') ?_) isF_zero hF ?_ ?_
  · rw [a2, hx.2]
    exact lt_huge60 (by rw [abs_of_nonneg h0]; linarith [show (1 : ℝ) ≤ 2 ^ 60 by norm_num])
  · rwa [a2, hx.2]
  · rwa [a2, hx.2]

theorem bet_mul {n : ℕ} {x : Float} {c : ℕ} (hn : c * n ≤ 2 ^ 53) (hc : 0 < c) (hx : Bet x 0 c) :
    Bet (F64.ofNat n * x) 0 (c * n : ℕ) := by
  have hn' : n ≤ 2 ^ 53 := (Nat.le_mul_of_pos_left n hc).trans hn
  obtain ⟨a1, a2⟩ := ofNat_exact hn'
  have h0 : 0 ≤ (n : ℝ) * val x := mul_nonneg (by positivity) hx.2.1
  have h1 : (n : ℝ) * val x ≤ (c * n : ℕ) := by
    push_cast
    rw [mul_comm (c : ℝ)]
    exact mul_le_mul_of_nonneg_left hx.2.2 (by positivity)
  have h2 : ((c * n : ℕ) : ℝ) ≤ 2 ^ 53 := by exact_mod_cast hn
  refine bet_rnd (mul_val a1 hx.1 ?_) isF_zero (isF_nat hn) ?_ ?_
  · rw [a2]
    exact lt_huge60 (by rw [abs_of_nonneg h0]; linarith [show (2 : ℝ) ^ 53 ≤ 2 ^ 60 by norm_num])
  · rwa [a2]
  · rwa [a2]

theorem toNat_le {x : Float} {m : ℕ} (h : Bet x 0 m) : (Flt.toNat x : ℕ) ≤ m := by
  show x.toUInt64.toNat ≤ m
  rw [toNat_val h.1]
  refine (min_le_left _ _).trans ?_
  exact Nat.floor_le_of_le h.2.2

/-- The cell of every entry lies inside the array, whatever the rounding. -/
theorem sscaPos_range_float {n np : ℕ} (hn : n ≤ 2 ^ 52) (hnp : np < n) (p : ℕ × ℕ) (h1 : p.1 < n) (h2 : p.2 < np) :
    (sscaPos Float n np p).1 < np + 1 ∧ (sscaPos Float n np p).2 < 2 * n + 1 := by
  obtain ⟨q, k⟩ := p
  simp only at h1 h2
  have q1 : (q : ℝ) ≤ n := by exact_mod_cast h1.le
  have k1 : (k : ℝ) ≤ np := by exact_mod_cast h2.le
  have n0 : (0 : ℝ) < n := by exact_mod_cast (by omega : 0 < n)
  have np0 : (0 : ℝ) < np := by exact_mod_cast (by omega : 0 < np)
  constructor
  · have a := bet_div (k := k) (by omega) (two_ofNat (n := np) (by omega)) (by positivity) isF_half (by norm_num) (by linarith)
    have b := bet_div (k := q) (by omega) (two_ofNat (n := n) (by omega)) (by positivity) isF_half (by norm_num) (by linarith)
    have c : Bet (F64.ofNat k / (F64.ofNat 2 * F64.ofNat np) - F64.ofNat q / (F64.ofNat 2 * F64.ofNat n)) (-(1 / 2)) (1 / 2) :=
      bet_rnd (sub_val a.1 b.1 (lt_huge60 (by
        rw [abs_le]; constructor <;> linarith [a.2.1, a.2.2, b.2.1, b.2.2, show (1 : ℝ) ≤ 2 ^ 60 by norm_num])))
        isF_half.neg isF_half (by linarith [a.2.1, b.2.2]) (by linarith [a.2.2, b.2.1])
    have d : Bet (F64.ofNat k / (F64.ofNat 2 * F64.ofNat np) - F64.ofNat q / (F64.ofNat 2 * F64.ofNat n) + F64.lit 5 1) 0 (1 : ℕ) :=
      bet_rnd (add_val c.1 lit_half.1 (lt_huge60 (by
        rw [abs_le, lit_half.2]; constructor <;> linarith [c.2.1, c.2.2, show (1 : ℝ) ≤ 2 ^ 60 by norm_num])))
        isF_zero (isF_nat (by norm_num)) (by rw [lit_half.2]; linarith [c.2.1]) (by rw [lit_half.2]; push_cast; linarith [c.2.2])
    have e := bet_mul (n := np) (by omega) one_pos d
    rw [one_mul] at e
    exact Nat.lt_succ_of_le (toNat_le e)
  · have a := bet_div (k := k) (by omega) (ofNat_exact (n := np) (by omega)) (by positivity) isF_one le_rfl (by linarith)
    have b := bet_div (k := q) (by omega) (ofNat_exact (n := n) (by omega)) (by positivity) isF_one le_rfl (by linarith)
    have d : Bet (F64.ofNat k / F64.ofNat np + F64.ofNat q / F64.ofNat n) 0 (2 : ℕ) :=
      bet_rnd (add_val a.1 b.1 (lt_huge60 (by
        rw [abs_le]; constructor <;> linarith [a.2.1, a.2.2, b.2.1, b.2.2, show (2 : ℝ) ≤ 2 ^ 60 by norm_num])))
        isF_zero (isF_nat (by norm_num)) (by linarith [a.2.1, b.2.1]) (by push_cast; linarith [a.2.2, b.2.2])
    have e := bet_mul (n := n) (by omega) two_pos d
    exact Nat.lt_succ_of_le (toNat_le e)

/-! ## Powers of two: nothing is rounded -/

theorem isF_dyadic {m : ℤ} {j : ℕ} (h : |m| ≤ 2 ^ 53) (hj : j ≤ 1074) : IsF (m / 2 ^ j) :=
  ⟨m, -j, h, by omega, by rw [zpow_neg, zpow_natCast]; rfl⟩

/-- A finite double of a given value. -/
def Ex (x : Float) (v : ℝ) : Prop := F64.Fin x ∧ val x = v

theorem Ex.mk' {x : Float} {r : ℝ} (hF : IsF r) (h : F64.Fin x ∧ val x = rnd r) : Ex x r :=
  ⟨h.1, by rw [h.2, rnd_of_isF hF]⟩

theorem Ex.add {x y : Float} {u v r : ℝ} (hx : Ex x u) (hy : Ex y v) (e : u + v = r) (hF : IsF r) (h : |r| ≤ 2 ^ 60) :
    Ex (x + y) r := by
  have e' : val x + val y = r := by rw [hx.2, hy.2, e]
  have := add_val hx.1 hy.1 (by rw [e']; exact lt_huge60 h)
  rw [e'] at this
  exact .mk' hF this

theorem Ex.sub {x y : Float} {u v r : ℝ} (hx : Ex x u) (hy : Ex y v) (e : u - v = r) (hF : IsF r) (h : |r| ≤ 2 ^ 60) :
    Ex (x - y) r := by
  have e' : val x - val y = r := by rw [hx.2, hy.2, e]
  have := sub_val hx.1 hy.1 (by rw [e']; exact lt_huge60 h)
  rw [e'] at this
  exact .mk' hF this

theorem Ex.mul {x y : Float} {u v r : ℝ} (hx : Ex x u) (hy : Ex y v) (e : u * v = r) (hF : IsF r) (h : |r| ≤ 2 ^ 60) :
    Ex (x * y) r := by
  have e' : val x * val y = r := by rw [hx.2, hy.2, e]
  have := mul_val hx.1 hy.1 (by rw [e']; exact lt_huge60 h)
  rw [e'] at this
  exact .mk' hF this

theorem Ex.div {x y : Float} {u v r : ℝ} (hx : Ex x u) (hy : Ex y v) (h0 : v ≠ 0) (e : u / v = r) (hF : IsF r)
    (h : |r| ≤ 2 ^ 60) : Ex (x / y) r := by
  have e' : val x / val y = r := by rw [hx.2, hy.2, e]
  have := div_val hx.1 hy.1 (by rw [hy.2]; exact h0) (by rw [e']; exact lt_huge60 h)
  rw [e'] at this
  exact .mk' hF this

theorem abs_dyadic {m : ℤ} {j : ℕ} (h : |m| ≤ 2 ^ 53) : |(m : ℝ) / 2 ^ j| ≤ 2 ^ 60 := by
  rw [abs_div, abs_of_pos (by positivity : (0 : ℝ) < 2 ^ j), div_le_iff₀ (by positivity)]
  have h1 : |(m : ℝ)| ≤ 2 ^ 53 := by exact_mod_cast h
  have h2 : (1 : ℝ) ≤ 2 ^ j := one_le_pow₀ (by norm_num)
  have h3 : (2 : ℝ) ^ 53 ≤ 2 ^ 60 := by norm_num
  have : (2 : ℝ) ^ 60 * 1 ≤ 2 ^ 60 * 2 ^ j := mul_le_mul_of_nonneg_left h2 (by positivity)
  linarith

theorem toNat_ex {x : Float} {r : ℝ} (h : Ex x r) : (Flt.toNat x : ℕ) = Flt.toNat r := by
  rw [Flt.toNat_real]
  show x.toUInt64.toNat = _
  rw [toNat_val h.1, h.2]

/-- For powers of two the cell computed in doubles is the exact one. -/
theorem sscaPos_pow2 {a b : ℕ} (hba : b < a) (ha : a ≤ 51) {q k : ℕ} (hq : q < 2 ^ a) (hk : k < 2 ^ b) :
    sscaPos Float (2 ^ a) (2 ^ b) (q, k) = sscaPos ℝ (2 ^ a) (2 ^ b) (q, k) := by
  obtain ⟨d, rfl⟩ : ∃ d, a = b + d := ⟨a - b, by omega⟩
  have ha53 : 2 ^ (b + d) ≤ 2 ^ 51 := Nat.pow_le_pow_right (by norm_num) ha
  have hb53 : 2 ^ b ≤ 2 ^ 51 := Nat.pow_le_pow_right (by norm_num) (by omega)
  have hkd : k * 2 ^ d < 2 ^ (b + d) := by rw [pow_add]; exact Nat.mul_lt_mul_of_pos_right hk (by positivity)
  have ek : Ex (F64.ofNat k) k := ofNat_exact (by omega)
  have eq : Ex (F64.ofNat q) q := ofNat_exact (by omega)
  have enp : Ex (F64.ofNat (2 ^ b)) (2 ^ b) := by
    have := ofNat_exact (n := 2 ^ b) (by omega); push_cast at this; exact this
  have en : Ex (F64.ofNat (2 ^ (b + d))) (2 ^ (b + d)) := by
    have := ofNat_exact (n := 2 ^ (b + d)) (by omega); push_cast at this; exact this
  have e2np : Ex (F64.ofNat 2 * F64.ofNat (2 ^ b)) (2 * 2 ^ b) := by
    have := two_ofNat (n := 2 ^ b) (by omega); push_cast at this; exact this
  have e2n : Ex (F64.ofNat 2 * F64.ofNat (2 ^ (b + d))) (2 * 2 ^ (b + d)) := by
    have := two_ofNat (n := 2 ^ (b + d)) (by omega); push_cast at this; exact this
  have hK : |((k : ℕ) : ℤ)| ≤ 2 ^ 53 := by rw [abs_of_nonneg (by positivity)]; exact_mod_cast (by omega : k ≤ 2 ^ 53)
  have hQ : |((q : ℕ) : ℤ)| ≤ 2 ^ 53 := by rw [abs_of_nonneg (by positivity)]; exact_mod_cast (by omega : q ≤ 2 ^ 53)
  have hM1 : |((k * 2 ^ d : ℕ) : ℤ) - (q : ℕ)| ≤ 2 ^ 53 := by rw [abs_le]; constructor <;> omega
  have hM2 : |((k * 2 ^ d : ℕ) : ℤ) - (q : ℕ) + (2 ^ (b + d) : ℕ)| ≤ 2 ^ 53 := by rw [abs_le]; constructor <;> omega
  have hM3 : |((k * 2 ^ d : ℕ) : ℤ) + (q : ℕ)| ≤ 2 ^ 53 := by rw [abs_le]; constructor <;> omega
  unfold sscaPos
  refine Prod.ext ?_ ?_
  · show (Flt.toNat (F64.ofNat (2 ^ b) * (F64.ofNat k / (F64.ofNat 2 * F64.ofNat (2 ^ b)) -
      F64.ofNat q / (F64.ofNat 2 * F64.ofNat (2 ^ (b + d))) + F64.lit 5 1)) : ℕ) = mappedRow ℝ _ _ _ _
    have h1 := ek.div e2np (by positivity) (r := ((k : ℤ) : ℝ) / 2 ^ (b + 1)) (by push_cast; rw [pow_succ']) (isF_dyadic hK (by omega))
      (abs_dyadic hK)
    have h2 := eq.div e2n (by positivity) (r := ((q : ℤ) : ℝ) / 2 ^ (b + d + 1)) (by push_cast; rw [pow_succ' _ (b + d)])
      (isF_dyadic hQ (by omega)) (abs_dyadic hQ)
    have h3 := h1.sub h2 (r := (((k * 2 ^ d : ℕ) : ℤ) - (q : ℕ) : ℤ) / 2 ^ (b + d + 1))
      (by push_cast; field_simp; ring) (isF_dyadic hM1 (by omega)) (abs_dyadic hM1)
    have h4 := h3.add (show Ex (F64.lit 5 1) (1 / 2) from lit_half)
      (r := (((k * 2 ^ d : ℕ) : ℤ) - (q : ℕ) + (2 ^ (b + d) : ℕ) : ℤ) / 2 ^ (b + d + 1))
      (by push_cast; field_simp; ring) (isF_dyadic hM2 (by omega)) (abs_dyadic hM2)
    have h5 := enp.mul h4 (r := (((k * 2 ^ d : ℕ) : ℤ) - (q : ℕ) + (2 ^ (b + d) : ℕ) : ℤ) / 2 ^ (d + 1))
      (by push_cast; field_simp; ring) (isF_dyadic hM2 (by omega)) (abs_dyadic hM2)
    rw [toNat_ex h5]
    unfold mappedRow
    simp only [Flt.ofNat_real, Flt.lit_real]
    congr 1
    push_cast
    field_simp
    ring
  · show (Flt.toNat (F64.ofNat (2 ^ (b + d)) * (F64.ofNat k / F64.ofNat (2 ^ b) + F64.ofNat q / F64.ofNat (2 ^ (b + d)))) : ℕ)
      = mappedCol ℝ _ _ _ _
    have h1 := ek.div enp (by positivity) (r := ((k : ℤ) : ℝ) / 2 ^ b) (by push_cast; rfl) (isF_dyadic hK (by omega))
      (abs_dyadic hK)
    have h2 := eq.div en (by positivity) (r := ((q : ℤ) : ℝ) / 2 ^ (b + d)) (by push_cast; rfl)
      (isF_dyadic hQ (by omega)) (abs_dyadic hQ)
    have h3 := h1.add h2 (r := (((k * 2 ^ d : ℕ) : ℤ) + (q : ℕ) : ℤ) / 2 ^ (b + d))
      (by push_cast; field_simp; ring) (isF_dyadic hM3 (by omega)) (abs_dyadic hM3)
    have h4 := en.mul h3 (r := (((k * 2 ^ d : ℕ) : ℤ) + (q : ℕ) : ℤ) / 2 ^ 0)
      (by push_cast; field_simp) (isF_dyadic hM3 (by omega)) (abs_dyadic hM3)
    rw [toNat_ex h4]
    unfold mappedCol
    simp only [Flt.ofNat_real]
    congr 1
    push_cast
    field_simp
    ring

end Verif
