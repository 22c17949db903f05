import Verif.F64.Sign

/-! # Correlating received samples with a carrier -/
namespace Verif.F64

/-- Samples within `τ` of `s j`, carrier within `η` of `w j`; `S` bounds the size of the samples. -/
theorem corr_bound {k : ℕ} (hk : k ≤ 2 ^ 32) {r c : ℕ → Float} {s w : ℕ → ℝ} {τ η S : ℝ} (hη : η ≤ 1 / 2)
    (hlo : 1 / 2 ^ 900 ≤ S) (hhi : S ≤ 2 ^ 900) (hS : ∀ j < k, |s j| + τ ≤ S)
    (hr : ∀ j < k, Ap (r j) (s j) τ) (hc : ∀ j < k, Ap (c j) (w j) η) (hw : ∀ j < k, |w j| ≤ 1) :
    Ap (rsum ((List.range k).map (fun j => r j * c j))) (∑ j ∈ Finset.range k, s j * w j)
      (k * (τ + S * (η + 1 / 2 ^ 18))) := by
  rcases Nat.eq_zero_or_pos k with rfl | hk0
  · simp only [List.range_zero, List.map_nil, Finset.range_zero, Finset.sum_empty, Nat.cast_zero, zero_mul]
    refine ⟨fin_zero, ?_⟩
    show |val 0 - 0| ≤ 0
    rw [val_zero]; simp
  have hτ : 0 ≤ τ := (hr 0 hk0).nonneg
  have hη0 : 0 ≤ η := (hc 0 hk0).nonneg
  have hS0 : 0 < S := lt_of_lt_of_le (by positivity) hlo
  have hk' : (k : ℝ) ≤ 2 ^ 32 := by exact_mod_cast hk
  have hkp : (0 : ℝ) ≤ k := by positivity
  have htiny : tiny ≤ S / 2 ^ 100 := by
    refine (tiny_le (k := 1000) (by norm_num)).trans ?_
    rw [le_div_iff₀ (by positivity)]
    refine le_trans (le_of_eq ?_) hlo
    rw [show (2 : ℝ) ^ 1000 = 2 ^ 900 * 2 ^ 100 by rw [← pow_add]]
    field_simp
  have hτS : τ ≤ S := by have := hS 0 hk0; have := abs_nonneg (s 0); linarith
  have hprod : ∀ j < k, Ap (r j * c j) (s j * w j) (τ + S * (η + 1 / 2 ^ 40)) := by
    intro j hj
    have hR : |s j| ≤ S - τ := by have := hS j hj; linarith
    have hS1 : τ * η ≤ S * η := mul_le_mul_of_nonneg_right hτS hη0
    have hS2 : S * η ≤ S / 2 := by nlinarith
    have he : (S - τ) * η + 1 * τ + τ * η = τ + S * η := by ring
    have h1023 : (S - τ) * 1 + ((S - τ) * η + 1 * τ + τ * η) ≤ 2 ^ (1023 : ℤ) := by
      refine le_big (k := 902) (by norm_num) ?_
      rw [he, show (2 : ℝ) ^ 902 = 2 ^ 900 * 4 by rw [show (4 : ℝ) = 2 ^ 2 by norm_num, ← pow_add]]
      generalize (2 : ℝ) ^ 900 = B at hhi ⊢
      nlinarith
    refine ((hr j hj).mul (hc j hj) hR (hw j hj) h1023).mono ?_
    rw [he, uu_eq]
    have : ((S - τ) * 1 + (τ + S * η)) * (1 / 2 ^ 53) ≤ S / 2 ^ 52 := by
      rw [show S / 2 ^ 52 = (2 * S) * (1 / 2 ^ 53) by ring]
      exact mul_le_mul_of_nonneg_right (by linarith) (by positivity)
    have e1 : S / 2 ^ 52 + S / 2 ^ 100 ≤ S * (1 / 2 ^ 40) := by
      rw [show S / 2 ^ 52 + S / 2 ^ 100 = S * (1 / 2 ^ 52 + 1 / 2 ^ 100) by ring]
      exact mul_le_mul_of_nonneg_left (by norm_num) hS0.le
    linarith
  have hB : ∀ j < k, |s j * w j| ≤ S - τ := by
    intro j hj
    rw [abs_mul]
    have h1 : |s j| ≤ S - τ := by have := hS j hj; linarith
    nlinarith [hw j hj, abs_nonneg (s j), abs_nonneg (w j)]
  have hsum : S - τ + (τ + S * (η + 1 / 2 ^ 40) + S / 2 ^ 19) ≤ 2 * S := by
    have : S * (1 + η + 1 / 2 ^ 40 + 1 / 2 ^ 19) ≤ S * 2 := mul_le_mul_of_nonneg_left (by linarith [show (1 : ℝ) / 2 ^ 40 + 1 / 2 ^ 19 ≤ 1 / 2 by norm_num]) hS0.le
    linarith
  refine (Ap.rsum (t := S / 2 ^ 19) hprod hB (by positivity) ?_ ?_).mono ?_
  · refine le_big (k := 940) (by norm_num) ?_
    calc k * (S - τ + (τ + S * (η + 1 / 2 ^ 40) + S / 2 ^ 19)) ≤ 2 ^ 32 * (2 * 2 ^ 900) := by
          exact mul_le_mul hk' (hsum.trans (by linarith)) (by nlinarith [mul_nonneg hS0.le hη0]) (by positivity)
      _ = 2 ^ 933 := by rw [← pow_succ', ← pow_add]
      _ ≤ 2 ^ 940 := pow_le_pow_right₀ (by norm_num) (by norm_num)
  · rw [uu_eq]
    have h1 : k * (S - τ + (τ + S * (η + 1 / 2 ^ 40) + S / 2 ^ 19)) ≤ 2 ^ 32 * (2 * S) :=
      mul_le_mul hk' hsum (by nlinarith [mul_nonneg hS0.le hη0]) (by positivity)
    have h2 : k * (S - τ + (τ + S * (η + 1 / 2 ^ 40) + S / 2 ^ 19)) * (1 / 2 ^ 53) ≤ 2 ^ 32 * (2 * S) * (1 / 2 ^ 53) :=
      mul_le_mul_of_nonneg_right h1 (by positivity)
    have h3 : 2 ^ 32 * (2 * S) * (1 / 2 ^ 53) = S / 2 ^ 20 := by ring
    have h4 : S / 2 ^ 20 + S / 2 ^ 100 ≤ S / 2 ^ 19 := by
      rw [show S / 2 ^ 20 + S / 2 ^ 100 = S * (1 / 2 ^ 20 + 1 / 2 ^ 100) by ring, show S / 2 ^ 19 = S * (1 / 2 ^ 19) by ring]
      exact mul_le_mul_of_nonneg_left (by norm_num) hS0.le
    linarith
  · apply mul_le_mul_of_nonneg_left _ hkp
    have : S * (η + 1 / 2 ^ 40) + S / 2 ^ 19 ≤ S * (η + 1 / 2 ^ 18) := by
      rw [show S * (η + 1 / 2 ^ 40) + S / 2 ^ 19 = S * (η + (1 / 2 ^ 40 + 1 / 2 ^ 19)) by ring]
      exact mul_le_mul_of_nonneg_left (by linarith [show (1 : ℝ) / 2 ^ 40 + 1 / 2 ^ 19 ≤ 1 / 2 ^ 18 by norm_num]) hS0.le
    linarith

end Verif.F64
