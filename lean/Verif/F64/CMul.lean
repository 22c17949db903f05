import Verif.F64.Dft


namespace Verif.F64
open Spec

/-- A pair of doubles within `A·α` of a complex number of size at most `A`. -/
def CM (z : Cx Float) (w : ℂ) (A α : ℝ) : Prop := CAp z w (A * α) ∧ ‖w‖ ≤ A

theorem CM.mono {z : Cx Float} {w : ℂ} {A α β : ℝ} (h : CM z w A α) (hA : 0 ≤ A) (hb : α ≤ β) : CM z w A β :=
  ⟨h.1.mono (mul_le_mul_of_nonneg_left hb hA), h.2⟩

theorem CM.cb {z : Cx Float} {w : ℂ} {A α : ℝ} (h : CM z w A α) (hA : 0 ≤ A) (ha : α ≤ 1) : CB z (2 * A) := by
  have h1 := (Complex.abs_re_le_norm w).trans h.2
  have h2 := (Complex.abs_im_le_norm w).trans h.2
  have h3 : A * α ≤ A := mul_le_of_le_one_right hA ha
  have := (h.1.mono h3).cb h1 h2
  rwa [← two_mul] at this

/-- The error of one product, in units of the product of the sizes. -/
theorem mul_err {A B α β : ℝ} (hA : 0 < A) (hB : 0 < B) (hAB : 1 / 2 ^ 900 ≤ A * B) (ha0 : 0 ≤ α) (ha : α ≤ 1) (hb0 : 0 ≤ β)
    (hb : β ≤ 1) :
    A * (B * β) + B * (A * α) + A * α * (B * β) + (A * B + (A * (B * β) + B * (A * α) + A * α * (B * β))) * uu + tiny
      ≤ A * B * (3 / 2 * (α + β) + 5 * uu) := by
  have hP : 0 < A * B := mul_pos hA hB
  have hu := uu_pos
  have ht : tiny ≤ A * B * uu := by
    have h1 : tiny ≤ 1 / 2 ^ 953 := tiny_le (by norm_num)
    have h2 : (1 : ℝ) / 2 ^ 953 = 1 / 2 ^ 900 * uu := by
      rw [uu_eq, div_mul_div_comm, one_mul, ← pow_add]
    rw [h2] at h1
    exact h1.trans (mul_le_mul_of_nonneg_right hAB hu.le)
  have hab : α * β ≤ (α + β) / 2 := by nlinarith
  have e : A * (B * β) + B * (A * α) + A * α * (B * β) = A * B * (α + β + α * β) := by ring
  rw [e]
  have h1 : A * B * (α + β + α * β) ≤ A * B * (3 / 2 * (α + β)) := mul_le_mul_of_nonneg_left (by linarith) hP.le
  have h2 : A * B * (α + β + α * β) ≤ A * B * 3 := mul_le_mul_of_nonneg_left (by linarith) hP.le
  have h3 : (A * B + A * B * (α + β + α * β)) * uu ≤ (A * B + A * B * 3) * uu :=
    mul_le_mul_of_nonneg_right (by linarith) hu.le
  have h4 : (A * B + A * B * 3) * uu = 4 * (A * B * uu) := by ring
  have h5 : A * B * (3 / 2 * (α + β) + 5 * uu) = A * B * (3 / 2 * (α + β)) + 5 * (A * B * uu) := by ring
  linarith

/-- Rounding a sum or difference of two such products. -/
theorem sum_err {P t : ℝ} (hP0 : 1 / 2 ^ 900 ≤ P) (ht : t ≤ 4) :
    P * t + P * t + (P + (P * t + P * t)) * uu + tiny ≤ P * (2 * t + 10 * uu) := by
  have hu := uu_pos
  have hP : 0 < P := lt_of_lt_of_le (by positivity) hP0
  have ht' : tiny ≤ P * uu := by
    have h1 : tiny ≤ 1 / 2 ^ 953 := tiny_le (by norm_num)
    have h2 : (1 : ℝ) / 2 ^ 953 = 1 / 2 ^ 900 * uu := by
      rw [uu_eq, div_mul_div_comm, one_mul, ← pow_add]
    rw [h2] at h1
    exact h1.trans (mul_le_mul_of_nonneg_right hP0 hu.le)
  have h1 : P * t ≤ P * 4 := mul_le_mul_of_nonneg_left ht hP.le
  have h2 : (P + (P * t + P * t)) * uu ≤ (P + (P * 4 + P * 4)) * uu := mul_le_mul_of_nonneg_right (by linarith) hu.le
  have h3 : (P + (P * 4 + P * 4)) * uu = 9 * (P * uu) := by ring
  have h4 : P * (2 * t + 10 * uu) = P * t + P * t + 10 * (P * uu) := by ring
  linarith

theorem big_of {x P : ℝ} (hP' : P ≤ 2 ^ 800) (h : x ≤ 16 * P) : x ≤ 2 ^ (1023 : ℤ) := by
  refine le_big (k := 804) (by norm_num) ?_
  have e : (2 : ℝ) ^ 804 = 16 * 2 ^ 800 := by rw [show 804 = 4 + 800 by norm_num, pow_add]; norm_num
  rw [e]
  exact h.trans (mul_le_mul_of_nonneg_left hP' (by norm_num))

/-- Complex multiplication. -/
theorem CM.mul {z w : Cx Float} {a b : ℂ} {A B α β : ℝ} (h1 : CM z a A α) (h2 : CM w b B β) (hA : 1 / 2 ^ 400 ≤ A)
    (hA' : A ≤ 2 ^ 400) (hB : 1 / 2 ^ 400 ≤ B) (hB' : B ≤ 2 ^ 400) (ha0 : 0 ≤ α) (ha : α ≤ 1) (hb0 : 0 ≤ β) (hb : β ≤ 1) :
    CM (z * w) (a * b) (A * B) (3 * (α + β) + 1 / 2 ^ 48) := by
  have hu := uu_pos
  have hu' : 32 * uu = 1 / 2 ^ 48 := by rw [uu_eq]; norm_num
  have hA0 : 0 < A := lt_of_lt_of_le (by positivity) hA
  have hB0 : 0 < B := lt_of_lt_of_le (by positivity) hB
  have hP0 : 0 < A * B := mul_pos hA0 hB0
  have hP : 1 / 2 ^ 900 ≤ A * B := by
    have h3 : (1 : ℝ) / 2 ^ 400 * (1 / 2 ^ 400) ≤ A * B := mul_le_mul hA hB (by positivity) hA0.le
    refine le_trans ?_ h3
    rw [div_mul_div_comm, one_mul, ← pow_add]
    exact one_div_le_one_div_of_le (by positivity) (pow_le_pow_right₀ (by norm_num) (by norm_num))
  have hP' : A * B ≤ 2 ^ 800 := by
    have h3 : A * B ≤ 2 ^ 400 * 2 ^ 400 := mul_le_mul hA' hB' hB0.le (by positivity)
    rwa [← pow_add] at h3
  have a1 := (Complex.abs_re_le_norm a).trans h1.2
  have a2 := (Complex.abs_im_le_norm a).trans h1.2
  have b1 := (Complex.abs_re_le_norm b).trans h2.2
  have b2 := (Complex.abs_im_le_norm b).trans h2.2
  have hab : ‖a * b‖ ≤ A * B := by
    rw [norm_mul]; exact mul_le_mul h1.2 h2.2 (norm_nonneg _) hA0.le
  set t : ℝ := 3 / 2 * (α + β) + 5 * uu with ht
  have hu1 : 10 * uu ≤ 1 := by rw [uu_eq]; norm_num
  have ht0 : 0 ≤ t := by rw [ht]; positivity
  have ht4 : t ≤ 4 := by rw [ht]; linarith
  have he := mul_err hA0 hB0 hP ha0 ha hb0 hb
  have hbig : A * B + (A * (B * β) + B * (A * α) + A * α * (B * β)) ≤ 2 ^ (1023 : ℤ) := by
    have h5 : A * (B * β) + B * (A * α) + A * α * (B * β) ≤ A * B * 3 := by
      have e : A * (B * β) + B * (A * α) + A * α * (B * β) = A * B * (α + β + α * β) := by ring
      rw [e]
      exact mul_le_mul_of_nonneg_left (by nlinarith) hP0.le
    exact big_of hP' (by linarith)
  have hbig2 : A * B + (A * B * t + A * B * t) ≤ 2 ^ (1023 : ℤ) := by
    have h5 : A * B * t ≤ A * B * 4 := mul_le_mul_of_nonneg_left ht4 hP0.le
    exact big_of hP' (by linarith)
  have hs := sum_err hP ht4
  have hfin : A * B * (2 * t + 10 * uu) ≤ A * B * (3 * (α + β) + 1 / 2 ^ 48) := by
    refine mul_le_mul_of_nonneg_left ?_ hP0.le
    rw [ht]; linarith
  have m1 := (h1.1.1.mul h2.1.1 a1 b1 hbig).mono he
  have m2 := (h1.1.2.mul h2.1.2 a2 b2 hbig).mono he
  have m3 := (h1.1.1.mul h2.1.2 a1 b2 hbig).mono he
  have m4 := (h1.1.2.mul h2.1.1 a2 b1 hbig).mono he
  refine ⟨⟨?_, ?_⟩, hab⟩
  · refine (m1.sub m2 (R := A * B) ?_ hbig2).mono (hs.trans hfin)
    rw [← Complex.mul_re]; exact (Complex.abs_re_le_norm _).trans hab
  · refine (m3.add m4 (R := A * B) ?_ hbig2).mono (hs.trans hfin)
    rw [← Complex.mul_im]; exact (Complex.abs_im_le_norm _).trans hab

/-- The transform of approximations. -/
theorem CM.dft {D : Bool → List (Cx Float) → List (Cx Float)} {δ : ℝ} (hD : AccurateDft D δ) {x : List (Cx Float)}
    {y : List ℂ} {A α : ℝ} {n : ℕ} (hxn : x.length = n) (hyn : y.length = n) (hn : n ≤ 2 ^ 40) (hA : 1 / 2 ^ 100 ≤ A) (hA' : A ≤ 2 ^ 99)
    (ha : α ≤ 1) (h : ∀ (i : ℕ) (z : Cx Float) (w : ℂ), x[i]? = some z → y[i]? = some w → CM z w A α) {k : ℕ}
    {z : Cx Float} (hz : (D false x)[k]? = some z) : CM z (dftAt (-1) y k) (n * A) (2 * δ + 2 * α) := by
  have hx : x.length ≤ 2 ^ 40 := hxn.symm ▸ hn
  have hl : x.length = y.length := hxn.trans hyn.symm
  subst hxn
  have hA0 : 0 < A := lt_of_lt_of_le (by positivity) hA
  have hy : ∀ (i : ℕ) (w : ℂ), y[i]? = some w → ∃ z, x[i]? = some z ∧ CM z w A α := by
    intro i w hw
    have hi : i < x.length := by
      rw [hl]; exact (List.getElem?_eq_some_iff.mp hw).1
    exact ⟨x[i], List.getElem?_eq_getElem hi, h i _ _ (List.getElem?_eq_getElem hi) hw⟩
  have h1 := hD false x (2 * A) hx (by linarith) (by
    have e : (2 : ℝ) ^ 100 = 2 * 2 ^ 99 := by rw [show 100 = 1 + 99 by norm_num, pow_add]; norm_num
    rw [e]; linarith) (by
    intro z hz
    obtain ⟨i, hi, rfl⟩ := List.getElem_of_mem hz
    exact (h i _ _ (List.getElem?_eq_getElem hi) (List.getElem?_eq_getElem (hl ▸ hi))).cb hA0.le ha) k z hz
  simp only [Bool.false_eq_true, if_false] at h1
  have h2 : ‖dftAt (-1) (x.map valC) k - dftAt (-1) y k‖ ≤ (x.map valC).length * (2 * (A * α)) := by
    refine dftAt_sub_norm_le (-1) (by rw [List.length_map, hl]) ?_ k
    intro i hi
    rw [List.length_map] at hi
    have hi' : i < y.length := hl ▸ hi
    rw [List.getD, List.getD, List.getElem?_map, List.getElem?_eq_getElem hi, List.getElem?_eq_getElem hi']
    exact (h i _ _ (List.getElem?_eq_getElem hi) (List.getElem?_eq_getElem hi')).1.norm
  rw [List.length_map] at h2
  refine ⟨(h1.shift h2).mono (le_of_eq (by ring)), ?_⟩
  rw [hl]
  refine dftAt_norm_le (-1) ?_ k
  intro w hw
  obtain ⟨i, hi, rfl⟩ := List.getElem_of_mem hw
  obtain ⟨z, -, hz⟩ := hy i _ (List.getElem?_eq_getElem hi)
  exact hz.2

end Verif.F64
