import Verif.Spec.Hadamard
import Mathlib.Analysis.SpecialFunctions.Trigonometric.Bounds
import Mathlib.Analysis.Real.Pi.Bounds
import Mathlib.Tactic

/-! # Sums of cosines of multiples of `π/16`, with signs -/
namespace Verif

/-- `cos (k π/16) = ∑ i < 8, cosCoef k i * cos (i π/16)`. -/
def cosCoef (k i : ℕ) : ℤ :=
  if k % 32 = i ∨ (i ≠ 0 ∧ k % 32 = 32 - i) then 1 else if k % 32 = 16 - i ∨ (i ≠ 0 ∧ k % 32 = 16 + i) then -1 else 0

theorem cos_sixteenth (k : ℕ) : Real.cos (k * (Real.pi / 16)) = ∑ i ∈ Finset.range 8, (cosCoef k i : ℝ) * Real.cos (i * (Real.pi / 16)) := by
  have h1 : Real.cos (k * (Real.pi / 16)) = Real.cos (((k % 32 : ℕ) : ℝ) * (Real.pi / 16)) := by
    conv_lhs => rw [← Nat.mod_add_div k 32]
    rw [← Real.cos_add_nat_mul_two_pi (((k % 32 : ℕ) : ℝ) * (Real.pi / 16)) (k / 32)]
    congr 1; push_cast; ring
  rw [h1]
  unfold cosCoef
  have h2 : k % 32 < 32 := Nat.mod_lt _ (by norm_num)
  generalize k % 32 = r at *
  have e1 : ∀ i : ℕ, i ≤ 16 → Real.cos (((16 - i : ℕ) : ℝ) * (Real.pi / 16)) = -Real.cos (i * (Real.pi / 16)) := by
    intro i hi
    rw [← Real.cos_pi_sub]; congr 1; push_cast [hi]; ring
  have e2 : ∀ i : ℕ, Real.cos (((16 + i : ℕ) : ℝ) * (Real.pi / 16)) = -Real.cos (i * (Real.pi / 16)) := by
    intro i
    rw [← Real.cos_add_pi]; congr 1; push_cast; ring
  have e8 : Real.cos (((8 : ℕ) : ℝ) * (Real.pi / 16)) = 0 := by
    rw [← Real.cos_pi_div_two]; congr 1; push_cast; ring
  have e3 : ∀ i : ℕ, i ≤ 8 → ∑ j ∈ Finset.range 8, (if i = j then Real.cos (j * (Real.pi / 16)) else 0) = Real.cos (i * (Real.pi / 16)) := by
    intro i hi
    rw [Finset.sum_ite_eq]
    by_cases h : i < 8
    · rw [if_pos (Finset.mem_range.mpr h)]
    · rw [if_neg (by simpa using h), show i = 8 by omega, e8]
  have go : ∀ i : ℕ, i ≤ 8 → (r = i ∨ (i ≠ 0 ∧ r = 32 - i) → Real.cos (r * (Real.pi / 16)) = Real.cos (i * (Real.pi / 16))) ∧
      (r = 16 - i ∨ (i ≠ 0 ∧ r = 16 + i) → Real.cos (r * (Real.pi / 16)) = -Real.cos (i * (Real.pi / 16))) := by
    intro i hi
    refine ⟨?_, ?_⟩
    · rintro (rfl | ⟨_, rfl⟩)
      · rfl
      · rw [show 32 - i = 16 + (16 - i) by omega, e2, e1 i (by omega), neg_neg]
    · rintro (rfl | ⟨_, rfl⟩)
      · exact e1 i (by omega)
      · exact e2 i
  have hi : ∃ i, i ≤ 8 ∧ (r = i ∨ (i ≠ 0 ∧ r = 32 - i) ∨ r = 16 - i ∨ (i ≠ 0 ∧ r = 16 + i)) := by
    rcases Nat.lt_or_ge r 9 with h | h
    · exact ⟨r, by omega, Or.inl rfl⟩
    rcases Nat.lt_or_ge r 17 with h | h
    · exact ⟨16 - r, by omega, by omega⟩
    rcases Nat.lt_or_ge r 25 with h | h
    · exact ⟨r - 16, by omega, by omega⟩
    · exact ⟨32 - r, by omega, by omega⟩
  obtain ⟨i, hi8, hr⟩ := hi
  have hsum : ∀ σ : ℤ, (∀ j < 8, (if r = j ∨ (j ≠ 0 ∧ r = 32 - j) then (1 : ℤ) else if r = 16 - j ∨ (j ≠ 0 ∧ r = 16 + j) then -1 else 0)
      = if i = j then σ else 0) →
      ∑ j ∈ Finset.range 8, ((if r = j ∨ (j ≠ 0 ∧ r = 32 - j) then (1 : ℤ) else if r = 16 - j ∨ (j ≠ 0 ∧ r = 16 + j) then -1 else 0 : ℤ) : ℝ)
        * Real.cos (j * (Real.pi / 16)) = σ * Real.cos (i * (Real.pi / 16)) := by
    intro σ hσ
    rw [← e3 i hi8, Finset.mul_sum]
    refine Finset.sum_congr rfl fun j hj => ?_
    rw [hσ j (Finset.mem_range.mp hj)]
    by_cases h : i = j
    · rw [if_pos h, if_pos h]
    · rw [if_neg h, if_neg h]; simp
  by_cases hA : r = i ∨ (i ≠ 0 ∧ r = 32 - i)
  · rw [(go i hi8).1 hA, hsum 1 ?_]
    · simp
    intro j hj
    by_cases h : i = j
    · subst h; rw [if_pos hA, if_pos rfl]
    · rw [if_neg h, if_neg (by omega), if_neg (by omega)]
  · have hB : r = 16 - i ∨ (i ≠ 0 ∧ r = 16 + i) := by tauto
    rw [(go i hi8).2 hB, hsum (-1) ?_]
    · simp
    intro j hj
    by_cases h : i = j
    · subst h; rw [if_neg hA, if_pos hB, if_pos rfl]
    · rw [if_neg h, if_neg (by omega), if_neg (by omega)]

/-- A signed sum of cosines of multiples of `π/16` from its integer coefficients. -/
theorem cos_signs (L : ℕ) (s : ℕ → ℤ) (k : ℕ → ℕ) {p : List ℤ}
    (h : ∀ i < 8, ∑ c ∈ Finset.range L, s c * cosCoef (k c) i = p.getD i 0) :
    ∑ c ∈ Finset.range L, (s c : ℝ) * Real.cos ((k c : ℝ) * (Real.pi / 16))
      = ∑ i ∈ Finset.range 8, (p.getD i 0 : ℝ) * Real.cos ((i : ℝ) * (Real.pi / 16)) := by
  have e : ∀ c ∈ Finset.range L, (s c : ℝ) * Real.cos ((k c : ℝ) * (Real.pi / 16))
      = ∑ i ∈ Finset.range 8, ((s c * cosCoef (k c) i : ℤ) : ℝ) * Real.cos ((i : ℝ) * (Real.pi / 16)) := by
    intro c _
    rw [cos_sixteenth (k c), Finset.mul_sum]
    refine Finset.sum_congr rfl fun i _ => ?_
    push_cast; ring
  rw [Finset.sum_congr rfl e, Finset.sum_comm]
  refine Finset.sum_congr rfl fun i hi => ?_
  rw [← Finset.sum_mul, ← Int.cast_sum, h i (Finset.mem_range.mp hi)]

/-- Agreement of two rows of the Walsh matrix at a chip. -/
def walshSign (r s c : ℕ) : ℤ := if Spec.walsh r c = Spec.walsh s c then 1 else -1

/-! ## The rows that the tests with 16 and with 32 keys set against row 1 -/

theorem walsh16_14 : ∀ i < 8, ∑ c ∈ Finset.range 16, walshSign 1 14 c * cosCoef (4 + 10 * c) i = [2, 0, 4, 0, 4, 0, 0, 0].getD i 0 := by
  decide +kernel

theorem walsh16_11 : ∀ i < 8, ∑ c ∈ Finset.range 16, walshSign 1 11 c * cosCoef (4 + 10 * c) i = [-2, 0, -4, 0, 0, 0, 0, 0].getD i 0 := by
  decide +kernel

theorem walsh16_8 : ∀ i < 8, ∑ c ∈ Finset.range 16, walshSign 1 8 c * cosCoef (4 + 10 * c) i = [2, 0, 0, 0, 0, 0, 4, 0].getD i 0 := by
  decide +kernel

theorem walsh16_13 : ∀ i < 8, ∑ c ∈ Finset.range 16, walshSign 1 13 c * cosCoef (4 + 10 * c) i = [-2, 0, 0, 0, 4, 0, 4, 0].getD i 0 := by
  decide +kernel

theorem walsh32_31 : ∀ i < 8, ∑ c ∈ Finset.range 32, walshSign 1 31 c * cosCoef (5 * c) i = [2, 4, 0, 4, 4, 4, 0, -4].getD i 0 := by
  decide +kernel

theorem walsh32_31' : ∀ i < 8, ∑ c ∈ Finset.range 32, walshSign 1 31 c * cosCoef (5 * c + 24) i = [-2, 0, -4, 0, 0, 0, -4, 0].getD i 0 := by
  decide +kernel

theorem walsh32_21 : ∀ i < 8, ∑ c ∈ Finset.range 32, walshSign 1 21 c * cosCoef (5 * c) i = [2, -4, -4, -4, 0, 4, -4, -4].getD i 0 := by
  decide +kernel

theorem walsh32_21' : ∀ i < 8, ∑ c ∈ Finset.range 32, walshSign 1 21 c * cosCoef (5 * c + 24) i = [2, 0, 0, 0, 4, 0, 0, 0].getD i 0 := by
  decide +kernel

theorem walsh32_22 : ∀ i < 8, ∑ c ∈ Finset.range 32, walshSign 1 22 c * cosCoef (5 * c) i = [2, 0, 4, 0, 0, 0, 4, 0].getD i 0 := by
  decide +kernel

theorem walsh32_22' : ∀ i < 8, ∑ c ∈ Finset.range 32, walshSign 1 22 c * cosCoef (5 * c + 24) i = [2, -4, 0, -4, 4, -4, 0, 4].getD i 0 := by
  decide +kernel

/-! ## Bounds -/

theorem cos1_lo : (98 / 100 : ℝ) ≤ Real.cos (1 * (Real.pi / 16)) := by
  have h1 := Real.pi_lt_d4
  have h2 := Real.pi_gt_d4
  have := Real.one_sub_sq_div_two_le_cos (x := 1 * (Real.pi / 16))
  nlinarith

theorem cos2_lo : (9228 / 10000 : ℝ) ≤ Real.cos (2 * (Real.pi / 16)) := by
  have h1 := Real.pi_lt_d4
  have h2 := Real.pi_gt_d4
  have := Real.one_sub_sq_div_two_le_cos (x := 2 * (Real.pi / 16))
  nlinarith

theorem cos3_lo : (8264 / 10000 : ℝ) ≤ Real.cos (3 * (Real.pi / 16)) := by
  have h1 := Real.pi_lt_d4
  have h2 := Real.pi_gt_d4
  have := Real.one_sub_sq_div_two_le_cos (x := 3 * (Real.pi / 16))
  nlinarith

theorem cos4_lo : (7071 / 10000 : ℝ) ≤ Real.cos (4 * (Real.pi / 16)) := by
  rw [show 4 * (Real.pi / 16) = Real.pi / 4 by ring, Real.cos_pi_div_four]
  have : (14142 / 10000 : ℝ) ≤ √2 := Real.le_sqrt_of_sq_le (by norm_num)
  linarith

theorem sin_lo {x a b : ℝ} (ha : 0 ≤ a) (h1 : a ≤ x) (h2 : x ≤ b) (hb : b ≤ 1) : a - b ^ 3 / 6 - b ^ 5 / 100 ≤ Real.sin x := by
  have hx : 0 ≤ x := ha.trans h1
  have := (abs_le.mp (Real.sin_bound (x := x) (by rw [abs_of_nonneg hx]; linarith))).1
  rw [abs_of_nonneg hx] at this
  have h3 : x ^ 3 ≤ b ^ 3 := pow_le_pow_left₀ hx h2 3
  have h5 : x ^ 5 ≤ b ^ 5 := pow_le_pow_left₀ hx h2 5
  linarith

theorem cos5_lo : (554 / 1000 : ℝ) ≤ Real.cos (5 * (Real.pi / 16)) := by
  have h1 := Real.pi_lt_d4
  have h2 := Real.pi_gt_d4
  rw [← Real.sin_pi_div_two_sub]
  have := sin_lo (x := Real.pi / 2 - 5 * (Real.pi / 16)) (a := 0.58903) (b := 0.58906) (by norm_num) (by linarith) (by linarith) (by norm_num)
  norm_num at this ⊢
  linarith

theorem cos6_lo : (3824 / 10000 : ℝ) ≤ Real.cos (6 * (Real.pi / 16)) := by
  have h1 := Real.pi_lt_d4
  have h2 := Real.pi_gt_d4
  rw [← Real.sin_pi_div_two_sub]
  have := sin_lo (x := Real.pi / 2 - 6 * (Real.pi / 16)) (a := 0.39268) (b := 0.39271) (by norm_num) (by linarith) (by linarith) (by norm_num)
  norm_num at this ⊢
  linarith

theorem cos7_hi : Real.cos (7 * (Real.pi / 16)) ≤ 1964 / 10000 := by
  have h1 := Real.pi_lt_d4
  rw [← Real.sin_pi_div_two_sub]
  have := Real.sin_le (x := Real.pi / 2 - 7 * (Real.pi / 16)) (by have := Real.pi_pos; linarith)
  linarith

theorem sin_sixteenth_hi : Real.sin (Real.pi / 16) ≤ 1964 / 10000 := by
  have h1 := Real.pi_lt_d4
  have := Real.sin_le (x := Real.pi / 16) (by have := Real.pi_pos; linarith)
  linarith

theorem sin_sixteenth_lo : (19 / 100 : ℝ) ≤ Real.sin (Real.pi / 16) := by
  have h1 := Real.pi_lt_d4
  have h2 := Real.pi_gt_d4
  have := sin_lo (x := Real.pi / 16) (a := 0.1963) (b := 0.1964) (by norm_num) (by linarith) (by linarith) (by norm_num)
  norm_num at this ⊢
  linarith

/-- The sum over the samples of a chip, 16 keys. -/
theorem ratio16 : (41 / 10 : ℝ) ≤ Real.sin (5 * (Real.pi / 16)) / Real.sin (Real.pi / 16) := by
  have h1 := Real.pi_lt_d4
  have h2 := Real.pi_gt_d4
  have h3 := sin_lo (x := 5 * (Real.pi / 16)) (a := 0.9817) (b := 0.9818) (by norm_num) (by linarith) (by linarith) (by norm_num)
  have h4 := sin_sixteenth_lo
  rw [le_div_iff₀ (by linarith)]
  have h5 := sin_sixteenth_hi
  norm_num only at h3
  linarith

/-- The sum over the samples of a chip, 32 keys. -/
theorem ratio32 : (767 / 100 : ℝ) ≤ Real.sin (8 * (5 * Real.pi / 256)) / Real.sin (5 * Real.pi / 256) := by
  have h1 := Real.pi_lt_d4
  have h2 := Real.pi_gt_d4
  have h3 := sin_lo (x := 8 * (5 * Real.pi / 256)) (a := 0.49085) (b := 0.49088) (by norm_num) (by linarith) (by linarith) (by norm_num)
  have h4 : 0 < Real.sin (5 * Real.pi / 256) := Real.sin_pos_of_pos_of_lt_pi (by linarith) (by linarith)
  have h5 := Real.sin_le (x := 5 * Real.pi / 256) (by linarith)
  rw [le_div_iff₀ h4]
  norm_num at h3 ⊢
  linarith

theorem cos35_lo : (9077 / 10000 : ℝ) ≤ Real.cos (35 * Real.pi / 256) := by
  have h1 := Real.pi_lt_d4
  have h2 := Real.pi_gt_d4
  have := Real.one_sub_sq_div_two_le_cos (x := 35 * Real.pi / 256)
  nlinarith

theorem sin35_lo : (416 / 1000 : ℝ) ≤ Real.sin (35 * Real.pi / 256) := by
  have h1 := Real.pi_lt_d4
  have h2 := Real.pi_gt_d4
  have := sin_lo (x := 35 * Real.pi / 256) (a := 0.42949) (b := 0.42952) (by norm_num) (by linarith) (by linarith) (by norm_num)
  norm_num at this ⊢
  linarith

end Verif
