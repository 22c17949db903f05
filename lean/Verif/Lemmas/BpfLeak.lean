import Verif.Lemmas.Bpf
import Verif.Lemmas.OfdmLin
import Mathlib.Analysis.SpecialFunctions.Trigonometric.Bounds
import Mathlib.Analysis.InnerProductSpace.PiL2

/-! The band-pass filter and tones between its bins: what leaks. -/
namespace Verif
open Spec

theorem geom_bound {n : ℕ} (x : ℝ) :
    ‖∑ j ∈ Finset.range n, Complex.exp (Complex.I * ((2 * Real.pi * x / n : ℝ) : ℂ)) ^ j‖ * |Real.sin (Real.pi * x / n)| ≤ 1 := by
  have h := mul_geom_sum (Complex.exp (Complex.I * ((2 * Real.pi * x / n : ℝ) : ℂ))) n
  have h1 : ‖Complex.exp (Complex.I * ((2 * Real.pi * x / n : ℝ) : ℂ)) - 1‖ = 2 * |Real.sin (Real.pi * x / n)| := by
    rw [Complex.norm_exp_I_mul_ofReal_sub_one, norm_mul, Real.norm_eq_abs, Real.norm_eq_abs, abs_two]
    congr 3; ring
  have h2 : ‖Complex.exp (Complex.I * ((2 * Real.pi * x / n : ℝ) : ℂ)) ^ n - 1‖ ≤ 2 := by
    refine (norm_sub_le _ _).trans ?_
    rw [norm_pow, mul_comm Complex.I, Complex.norm_exp_ofReal_mul_I, one_pow, norm_one]; norm_num
  rw [← h, norm_mul, h1] at h2
  linarith

/-- `sin` of the sum against `sin` of the difference, both angles in the first quadrant. -/
theorem sin_add_ge {A B : ℝ} (hA : 0 ≤ A) (hA' : A ≤ Real.pi / 2) (hB : 0 ≤ B) (hB' : B ≤ Real.pi / 2) :
    |Real.sin (A - B)| ≤ Real.sin (A + B) := by
  have h1 := Real.sin_nonneg_of_nonneg_of_le_pi hA (by linarith [Real.pi_pos])
  have h2 := Real.sin_nonneg_of_nonneg_of_le_pi hB (by linarith [Real.pi_pos])
  have h3 := Real.cos_nonneg_of_neg_pi_div_two_le_of_le (by linarith [Real.pi_pos]) hA'
  have h4 := Real.cos_nonneg_of_neg_pi_div_two_le_of_le (by linarith [Real.pi_pos]) hB'
  rw [Real.sin_sub, Real.sin_add, abs_le]
  constructor <;> nlinarith [mul_nonneg h1 h4, mul_nonneg h3 h2]

theorem sin_diff_ge {A B : ℝ} (hA : 0 ≤ A) (hA' : A ≤ Real.pi / 2) (hB : 0 ≤ B) (hB' : B ≤ Real.pi / 2) :
    2 / Real.pi * |A - B| ≤ |Real.sin (A - B)| := by
  have h := Real.mul_le_sin (abs_nonneg (A - B)) (abs_le.mpr ⟨by linarith, by linarith⟩)
  refine h.trans ?_
  rcases abs_cases (A - B) with ⟨h1, _⟩ | ⟨h1, _⟩
  · rw [h1]; exact le_abs_self _
  · rw [h1, Real.sin_neg]; exact neg_le_abs _

/-- The samples of a tone of `φ` cycles per block. -/
noncomputable def toneL (n : ℕ) (φ a θ : ℝ) : List ℝ :=
  (List.range n).map (fun j : ℕ => a * Real.cos (2 * Real.pi * φ / n * j + θ))

theorem toneL_length (n : ℕ) (φ a θ : ℝ) : (toneL n φ a θ).length = n := by simp [toneL]

theorem toneL_getD {n : ℕ} (φ a θ : ℝ) {j : ℕ} (hj : j < n) :
    (toneL n φ a θ).getD j 0 = a * Real.cos (2 * Real.pi * φ / n * j + θ) := by
  simp [toneL, List.getD, hj]

theorem tone_bin {n : ℕ} (φ a θ : ℝ) (k : ℕ) :
    dftAt (-1) (toCs (toneL n φ a θ)) k
      = a / 2 * Complex.exp (θ * Complex.I) * ∑ j ∈ Finset.range n, Complex.exp (Complex.I * ((2 * Real.pi * (φ - k) / n : ℝ) : ℂ)) ^ j
      + a / 2 * Complex.exp (-θ * Complex.I) * ∑ j ∈ Finset.range n, Complex.exp (Complex.I * ((2 * Real.pi * (-(φ + k)) / n : ℝ) : ℂ)) ^ j := by
  unfold dftAt
  rw [toCs_length, toneL_length, Finset.mul_sum, Finset.mul_sum, ← Finset.sum_add_distrib]
  refine Finset.sum_congr rfl fun j hj => ?_
  rw [toCs_getD, toneL_getD φ a θ (Finset.mem_range.mp hj)]
  push_cast
  rw [Complex.cos, ← Complex.exp_nat_mul, ← Complex.exp_nat_mul]
  have e : ∀ w : ℂ, a * ((Complex.exp ((2 * Real.pi * φ / n * j + θ) * Complex.I) + Complex.exp (-(2 * Real.pi * φ / n * j + θ) * Complex.I)) / 2) * w
      = a / 2 * (Complex.exp ((2 * Real.pi * φ / n * j + θ) * Complex.I) * w) + a / 2 * (Complex.exp (-(2 * Real.pi * φ / n * j + θ) * Complex.I) * w) := by
    intro w; ring
  rw [e, mul_assoc (a / 2 : ℂ) (Complex.exp (θ * Complex.I)), mul_assoc (a / 2 : ℂ) (Complex.exp (-θ * Complex.I)),
    ← Complex.exp_add, ← Complex.exp_add, ← Complex.exp_add, ← Complex.exp_add]
  congr 3
  · ring
  · ring

/-- A bin `d` away from the tone is at most `a·n/(2d)`. -/
theorem tone_bin_le {n : ℕ} (hn : 0 < n) {φ : ℝ} (hφ : 0 ≤ φ) (hφ' : φ ≤ n / 2) (a θ : ℝ) {k : ℕ} (hk : k ≤ n / 2)
    (hne : φ ≠ k) : ‖dftAt (-1) (toCs (toneL n φ a θ)) k‖ ≤ |a| * n / (2 * |φ - k|) := by
  have hnR : (0 : ℝ) < n := by exact_mod_cast hn
  have hkR : (k : ℝ) ≤ n / 2 := by
    have : (2 : ℝ) * k ≤ n := by exact_mod_cast (by omega : 2 * k ≤ n)
    linarith
  have hpi := Real.pi_pos
  set A := Real.pi * φ / n with hA
  set B := Real.pi * k / n with hB
  have hA0 : 0 ≤ A := by positivity
  have hB0 : 0 ≤ B := by positivity
  have hA1 : A ≤ Real.pi / 2 := by rw [hA, div_le_iff₀ hnR]; nlinarith
  have hB1 : B ≤ Real.pi / 2 := by rw [hB, div_le_iff₀ hnR]; nlinarith
  have hAB : A - B = Real.pi * (φ - k) / n := by rw [hA, hB]; ring
  have hd : 0 < |φ - k| := abs_pos.mpr (sub_ne_zero.mpr hne)
  have hs : 2 * |φ - k| / n ≤ |Real.sin (A - B)| := by
    refine le_trans (le_of_eq ?_) (sin_diff_ge hA0 hA1 hB0 hB1)
    rw [hAB, abs_div, abs_mul, abs_of_pos hpi, abs_of_pos hnR]
    field_simp
  have hs' : 2 * |φ - k| / n ≤ |Real.sin (Real.pi * (-(φ + k)) / n)| := by
    refine hs.trans ((sin_add_ge hA0 hA1 hB0 hB1).trans ((le_abs_self _).trans (le_of_eq ?_)))
    rw [← abs_neg, ← Real.sin_neg]
    congr 2
    rw [hA, hB]; ring
  rw [hAB] at hs
  have hsp : 0 < 2 * |φ - k| / n := by positivity
  have g1 := geom_bound (n := n) (φ - k)
  have g2 := geom_bound (n := n) (-(φ + k))
  have g1' : ‖∑ j ∈ Finset.range n, Complex.exp (Complex.I * ((2 * Real.pi * (φ - k) / n : ℝ) : ℂ)) ^ j‖ ≤ n / (2 * |φ - k|) := by
    rw [le_div_iff₀ (by positivity)]
    have := mul_le_mul_of_nonneg_left hs (norm_nonneg (∑ j ∈ Finset.range n, Complex.exp (Complex.I * ((2 * Real.pi * (φ - k) / n : ℝ) : ℂ)) ^ j))
    rw [mul_div_assoc'] at this
    have h2 := (div_le_iff₀ hnR).mp (this.trans g1)
    linarith
  have g2' : ‖∑ j ∈ Finset.range n, Complex.exp (Complex.I * ((2 * Real.pi * (-(φ + k)) / n : ℝ) : ℂ)) ^ j‖ ≤ n / (2 * |φ - k|) := by
    rw [le_div_iff₀ (by positivity)]
    have := mul_le_mul_of_nonneg_left hs' (norm_nonneg (∑ j ∈ Finset.range n, Complex.exp (Complex.I * ((2 * Real.pi * (-(φ + k)) / n : ℝ) : ℂ)) ^ j))
    rw [mul_div_assoc'] at this
    have h2 := (div_le_iff₀ hnR).mp (this.trans g2)
    linarith
  rw [tone_bin]
  refine (norm_add_le _ _).trans ?_
  rw [norm_mul, norm_mul, norm_mul, norm_mul, Complex.norm_exp_ofReal_mul_I,
    show (-θ : ℂ) * Complex.I = ((-θ : ℝ) : ℂ) * Complex.I by push_cast; ring, Complex.norm_exp_ofReal_mul_I, mul_one]
  have ha : ‖(a : ℂ) / 2‖ = |a| / 2 := by rw [norm_div, Complex.norm_real, Real.norm_eq_abs, Complex.norm_ofNat]
  rw [ha]
  have h0 : 0 ≤ |a| / 2 := by positivity
  calc _ ≤ |a| / 2 * (n / (2 * |φ - k|)) + |a| / 2 * (n / (2 * |φ - k|)) :=
        add_le_add (mul_le_mul_of_nonneg_left g1' h0) (mul_le_mul_of_nonneg_left g2' h0)
    _ = _ := by ring

/-! ## Sums of inverse squares -/

theorem inv_sq_le {x : ℝ} (hx : 1 / 2 < x) : 1 / x ^ 2 ≤ 1 / (x - 1 / 2) - 1 / (x + 1 / 2) := by
  have h1 : 0 < x - 1 / 2 := by linarith
  have h2 : 0 < x + 1 / 2 := by linarith
  rw [div_sub_div _ _ h1.ne' h2.ne', div_le_div_iff₀ (by positivity) (by positivity)]
  nlinarith

theorem sum_above (φ : ℝ) {D : ℝ} (hD : 1 / 2 < D) (N : ℕ) :
    ∑ k ∈ (Finset.range N).filter (fun k : ℕ => φ + D ≤ k), 1 / (φ - k) ^ 2 ≤ 1 / (D - 1 / 2) := by
  have hp : 0 < D - 1 / 2 := by linarith
  suffices h : ∑ k ∈ (Finset.range N).filter (fun k : ℕ => φ + D ≤ k), 1 / (φ - k) ^ 2
      ≤ if φ + D ≤ N then 1 / (D - 1 / 2) - 1 / (N - φ - 1 / 2) else 0 by
    refine h.trans ?_
    split
    · next hN =>
      have : 0 < 1 / ((N : ℝ) - φ - 1 / 2) := by
        apply div_pos one_pos; linarith
      linarith
    · positivity
  induction N with
  | zero =>
    rw [Finset.range_zero, Finset.filter_empty, Finset.sum_empty]
    split
    · next hN =>
      simp only [Nat.cast_zero] at hN
      have h1 : 1 / (((0 : ℕ) : ℝ) - φ - 1 / 2) ≤ 1 / (D - 1 / 2) := one_div_le_one_div_of_le hp (by rw [Nat.cast_zero]; linarith)
      linarith
    · exact le_rfl
  | succ N ih =>
    rw [Finset.range_add_one, Finset.filter_insert]
    by_cases hN : φ + D ≤ N
    · rw [if_pos hN, Finset.sum_insert (by simp), if_pos (by push_cast; linarith)]
      rw [if_pos hN] at ih
      have := inv_sq_le (x := N - φ) (by linarith)
      rw [show (φ - (N : ℝ)) ^ 2 = (N - φ) ^ 2 by ring, show (((N + 1 : ℕ) : ℝ) - φ - 1 / 2) = N - φ + 1 / 2 by push_cast; ring]
      linarith
    · rw [if_neg hN]
      rw [if_neg hN] at ih
      refine ih.trans ?_
      split
      · next h1 =>
        have h1 : 1 / (((N + 1 : ℕ) : ℝ) - φ - 1 / 2) ≤ 1 / (D - 1 / 2) := one_div_le_one_div_of_le hp (by linarith)
        linarith
      · exact le_rfl

theorem sum_below (φ : ℝ) {D : ℝ} (hD : 1 / 2 < D) (N : ℕ) :
    ∑ k ∈ (Finset.range N).filter (fun k : ℕ => (k : ℝ) ≤ φ - D), 1 / (φ - k) ^ 2 ≤ 1 / (D - 1 / 2) := by
  have hp : 0 < D - 1 / 2 := by linarith
  suffices h : ∑ k ∈ (Finset.range N).filter (fun k : ℕ => (k : ℝ) ≤ φ - D), 1 / (φ - k) ^ 2
      ≤ if (N : ℝ) - 1 ≤ φ - D then 1 / (φ - N + 1 / 2) else 1 / (D - 1 / 2) by
    refine h.trans ?_
    split
    · next hN => exact one_div_le_one_div_of_le hp (by linarith)
    · exact le_rfl
  induction N with
  | zero =>
    rw [Finset.range_zero, Finset.filter_empty, Finset.sum_empty]
    split
    · next hN =>
      rw [Nat.cast_zero] at hN ⊢
      exact div_nonneg zero_le_one (by linarith)
    · positivity
  | succ N ih =>
    rw [Finset.range_add_one, Finset.filter_insert]
    by_cases hN : (N : ℝ) ≤ φ - D
    · rw [if_pos hN, Finset.sum_insert (by simp), if_pos (by push_cast; linarith)]
      rw [if_pos (by linarith)] at ih
      have := inv_sq_le (x := φ - N) (by linarith)
      rw [show φ - ((N + 1 : ℕ) : ℝ) + 1 / 2 = φ - N - 1 / 2 by push_cast; ring]
      linarith
    · rw [if_neg hN]
      rw [if_neg (show ¬ ((N + 1 : ℕ) : ℝ) - 1 ≤ φ - D by push_cast; linarith)]
      refine ih.trans ?_
      split
      · next h1 => exact one_div_le_one_div_of_le hp (by linarith)
      · exact le_rfl

theorem sum_far (φ : ℝ) {D : ℝ} (hD : 1 / 2 < D) (N : ℕ) :
    ∑ k ∈ (Finset.range N).filter (fun k : ℕ => D ≤ |φ - k|), 1 / (φ - k) ^ 2 ≤ 2 / (D - 1 / 2) := by
  have h1 := sum_above φ hD N
  have h2 := sum_below φ hD N
  have hsub : (Finset.range N).filter (fun k : ℕ => D ≤ |φ - k|)
      ⊆ (Finset.range N).filter (fun k : ℕ => φ + D ≤ k) ∪ (Finset.range N).filter (fun k : ℕ => (k : ℝ) ≤ φ - D) := by
    intro k hk
    rw [Finset.mem_filter] at hk
    rw [Finset.mem_union, Finset.mem_filter, Finset.mem_filter]
    rcases le_abs.mp hk.2 with h | h
    · right; exact ⟨hk.1, by linarith⟩
    · left; exact ⟨hk.1, by linarith⟩
  refine (Finset.sum_le_sum_of_subset_of_nonneg hsub fun _ _ _ => by positivity).trans ?_
  have hu := Finset.sum_union_inter (s₁ := (Finset.range N).filter (fun k : ℕ => φ + D ≤ k))
    (s₂ := (Finset.range N).filter (fun k : ℕ => (k : ℝ) ≤ φ - D)) (f := fun k : ℕ => 1 / (φ - k) ^ 2)
  have h0 : 0 ≤ ∑ k ∈ (Finset.range N).filter (fun k : ℕ => φ + D ≤ k) ∩ (Finset.range N).filter (fun k : ℕ => (k : ℝ) ≤ φ - D),
      1 / (φ - k) ^ 2 := Finset.sum_nonneg fun _ _ => by positivity
  have : 2 / (D - 1 / 2) = 1 / (D - 1 / 2) + 1 / (D - 1 / 2) := by ring
  linarith

/-! ## Energy -/

theorem real_parseval (x : List ℝ) :
    ∑ k ∈ Finset.range x.length, ‖dftAt (-1) (toCs x) k‖ ^ 2 = x.length * ∑ j ∈ Finset.range x.length, x.getD j 0 ^ 2 := by
  have h := parseval (toCs x)
  rw [toCs_length] at h
  simp only [toCs_getD, Complex.normSq_eq_norm_sq, Complex.norm_real, Real.norm_eq_abs, sq_abs] at h
  exact h

/-- The energy of a real signal from the bins up to half the sample rate. -/
theorem energy_le_half {x : List ℝ} {n : ℕ} (hn : 0 < n) (hx : x.length = n) :
    ∑ j ∈ Finset.range n, x.getD j 0 ^ 2 ≤ 2 / n * ∑ k ∈ Finset.range (n / 2 + 1), ‖dftAt (-1) (toCs x) k‖ ^ 2 := by
  have hnR : (0 : ℝ) < n := by exact_mod_cast hn
  have hp := real_parseval x
  rw [hx] at hp
  have hm : ∀ k, k ≤ n → ‖dftAt (-1) (toCs x) (n - k)‖ = ‖dftAt (-1) (toCs x) k‖ := by
    intro k hk
    rw [← Complex.norm_conj, ← hx, dftAt_real (by rw [hx]; exact hk)]
  have h1 : ∑ k ∈ Finset.Ico (n / 2 + 1) n, ‖dftAt (-1) (toCs x) k‖ ^ 2
      ≤ ∑ k ∈ Finset.range (n / 2 + 1), ‖dftAt (-1) (toCs x) k‖ ^ 2 := by
    rw [← Finset.sum_congr rfl (fun k hk => by
      rw [hm k (Finset.mem_Ico.mp hk).2.le] : ∀ k ∈ Finset.Ico (n / 2 + 1) n,
        ‖dftAt (-1) (toCs x) (n - k)‖ ^ 2 = ‖dftAt (-1) (toCs x) k‖ ^ 2),
      ← Finset.sum_image (f := fun k => ‖dftAt (-1) (toCs x) k‖ ^ 2) (g := fun k => n - k)]
    · refine Finset.sum_le_sum_of_subset_of_nonneg (fun k hk => ?_) fun _ _ _ => by positivity
      obtain ⟨i, hi, rfl⟩ := Finset.mem_image.mp hk
      have := Finset.mem_Ico.mp hi
      exact Finset.mem_range.mpr (by omega)
    · intro i hi j hj hij
      have h2 := Finset.mem_Ico.mp hi
      have h3 := Finset.mem_Ico.mp hj
      simp only at hij
      omega
  have h2 : ∑ k ∈ Finset.range n, ‖dftAt (-1) (toCs x) k‖ ^ 2
      ≤ ∑ k ∈ Finset.range (n / 2 + 1), ‖dftAt (-1) (toCs x) k‖ ^ 2 + ∑ k ∈ Finset.Ico (n / 2 + 1) n, ‖dftAt (-1) (toCs x) k‖ ^ 2 := by
    rcases Nat.lt_or_ge n (n / 2 + 1) with h | h
    · have : n = n / 2 + 1 ∨ n < n / 2 + 1 := by omega
      have h3 : Finset.range n ⊆ Finset.range (n / 2 + 1) := Finset.range_subset_range.mpr h.le
      refine (Finset.sum_le_sum_of_subset_of_nonneg h3 fun _ _ _ => by positivity).trans ?_
      exact le_add_of_nonneg_right (Finset.sum_nonneg fun _ _ => by positivity)
    · rw [Finset.sum_range_add_sum_Ico _ h]
  rw [div_mul_eq_mul_div, le_div_iff₀ hnR]
  linarith

theorem dftAt_sub_real {x y : List ℝ} (h : x.length = y.length) (k : ℕ) :
    dftAt (-1) (toCs (List.zipWith (· - ·) x y)) k = dftAt (-1) (toCs x) k - dftAt (-1) (toCs y) k := by
  have e : List.zipWith (· - ·) x y = List.zipWith (· + ·) x (y.map (fun r => -1 * r)) := by
    rw [List.zipWith_map_right]
    congr 1
    funext a b; ring
  rw [e, dftAt_add_real (by simpa using h), dftAt_smul_real]
  push_cast; ring

/-- A signal whose bins are those of a tone, away from it, and zero near it. -/
theorem leak_energy {n : ℕ} (hn : 0 < n) {φ : ℝ} (hφ : 0 ≤ φ) (hφ' : φ ≤ n / 2) (a θ : ℝ) {D : ℝ} (hD : 1 / 2 < D)
    {e : List ℝ} (he : e.length = n) (h0 : ∀ k : ℕ, k ≤ n / 2 → |φ - k| < D → dftAt (-1) (toCs e) k = 0)
    (h1 : ∀ k : ℕ, k ≤ n / 2 → ‖dftAt (-1) (toCs e) k‖ ≤ ‖dftAt (-1) (toCs (toneL n φ a θ)) k‖) :
    ∑ j ∈ Finset.range n, e.getD j 0 ^ 2 ≤ n * (a ^ 2 / (D - 1 / 2)) := by
  have hnR : (0 : ℝ) < n := by exact_mod_cast hn
  refine (energy_le_half hn he).trans ?_
  have h2 : ∑ k ∈ Finset.range (n / 2 + 1), ‖dftAt (-1) (toCs e) k‖ ^ 2
      ≤ ∑ k ∈ (Finset.range (n / 2 + 1)).filter (fun k : ℕ => D ≤ |φ - k|), a ^ 2 * n ^ 2 / 4 * (1 / (φ - k) ^ 2) := by
    rw [← Finset.sum_filter_add_sum_filter_not (Finset.range (n / 2 + 1)) (fun k : ℕ => D ≤ |φ - k|)]
    have hz : ∑ k ∈ (Finset.range (n / 2 + 1)).filter (fun k : ℕ => ¬ D ≤ |φ - k|), ‖dftAt (-1) (toCs e) k‖ ^ 2 = 0 := by
      refine Finset.sum_eq_zero fun k hk => ?_
      rw [Finset.mem_filter, Finset.mem_range] at hk
      rw [h0 k (by omega) (not_le.mp hk.2), norm_zero]; norm_num
    rw [hz, add_zero]
    refine Finset.sum_le_sum fun k hk => ?_
    rw [Finset.mem_filter, Finset.mem_range] at hk
    have hd : 0 < |φ - k| := by linarith [hk.2]
    have hb := (h1 k (by omega)).trans (tone_bin_le hn hφ hφ' a θ (by omega : k ≤ n / 2) (sub_ne_zero.mp (abs_pos.mp hd)))
    refine (pow_le_pow_left₀ (norm_nonneg _) hb 2).trans_eq ?_
    rw [div_pow, mul_pow, mul_pow, sq_abs, sq_abs]
    have : (φ - k) ^ 2 ≠ 0 := by rw [← sq_abs]; positivity
    field_simp
    norm_num
  rw [← Finset.mul_sum] at h2
  have h3 := sum_far φ hD (n / 2 + 1)
  have h4 : a ^ 2 * (n : ℝ) ^ 2 / 4 * ∑ k ∈ (Finset.range (n / 2 + 1)).filter (fun k : ℕ => D ≤ |φ - k|), 1 / (φ - k) ^ 2
      ≤ a ^ 2 * (n : ℝ) ^ 2 / 4 * (2 / (D - 1 / 2)) := mul_le_mul_of_nonneg_left h3 (by positivity)
  calc _ ≤ 2 / n * (a ^ 2 * (n : ℝ) ^ 2 / 4 * (2 / (D - 1 / 2))) := mul_le_mul_of_nonneg_left (h2.trans h4) (by positivity)
    _ = _ := by
      have : D - 1 / 2 ≠ 0 := by linarith
      field_simp
      ring

/-- The tone well inside the band. -/
theorem bpOut_inside (lo hi : ℝ) {fs n : ℕ} (hn : 0 < n) {φ : ℝ} (hφ : 0 ≤ φ) (hφ' : φ ≤ n / 2) (a θ : ℝ) {D : ℝ}
    (hD : 1 / 2 < D) (hb : ∀ k : ℕ, k ≤ n / 2 → |φ - k| < D → inBand lo hi fs n k) :
    ∑ j ∈ Finset.range n, ((bpOut lo hi fs n (toneL n φ a θ)).getD j 0 - (toneL n φ a θ).getD j 0) ^ 2
      ≤ n * (a ^ 2 / (D - 1 / 2)) := by
  classical
  have hl := toneL_length n φ a θ
  have hlen : (bpOut lo hi fs n (toneL n φ a θ)).length = (toneL n φ a θ).length := by rw [bpOut_length, hl]
  have h := leak_energy hn hφ hφ' a θ hD (e := List.zipWith (· - ·) (bpOut lo hi fs n (toneL n φ a θ)) (toneL n φ a θ))
    (by rw [List.length_zipWith, bpOut_length, hl, min_self]) (fun k hk hkD => by
      rw [dftAt_sub_real hlen, bpOut_spectrum lo hi fs hn hl hk, if_pos (hb k hk hkD), sub_self]) (fun k hk => by
      rw [dftAt_sub_real hlen, bpOut_spectrum lo hi fs hn hl hk]
      by_cases hi' : inBand lo hi fs n k
      · rw [if_pos hi', sub_self, norm_zero]; exact norm_nonneg _
      · rw [if_neg hi', zero_sub, norm_neg])
  refine le_trans (le_of_eq (Finset.sum_congr rfl fun j hj => ?_)) h
  have hj := Finset.mem_range.mp hj
  congr 1
  rw [List.getD, List.getD, List.getD, List.getElem?_zipWith, List.getElem?_eq_getElem (by rw [bpOut_length]; exact hj),
    List.getElem?_eq_getElem (by rw [hl]; exact hj)]
  rfl

/-- The tone well outside the band. -/
theorem bpOut_outside (lo hi : ℝ) {fs n : ℕ} (hn : 0 < n) {φ : ℝ} (hφ : 0 ≤ φ) (hφ' : φ ≤ n / 2) (a θ : ℝ) {D : ℝ}
    (hD : 1 / 2 < D) (hb : ∀ k : ℕ, k ≤ n / 2 → |φ - k| < D → ¬ inBand lo hi fs n k) :
    ∑ j ∈ Finset.range n, (bpOut lo hi fs n (toneL n φ a θ)).getD j 0 ^ 2 ≤ n * (a ^ 2 / (D - 1 / 2)) := by
  classical
  have hl := toneL_length n φ a θ
  refine leak_energy hn hφ hφ' a θ hD (bpOut_length _ _ _ _ _) (fun k hk hkD => ?_) (fun k hk => ?_)
  · rw [bpOut_spectrum lo hi fs hn hl hk, if_neg (hb k hk hkD)]
  · rw [bpOut_spectrum lo hi fs hn hl hk]
    by_cases hi' : inBand lo hi fs n k
    · rw [if_pos hi']
    · rw [if_neg hi', norm_zero]; exact norm_nonneg _

/-- The squares of a filtered block and of what was removed add up to those of the block. -/
theorem bpOut_pythagoras (lo hi : ℝ) {fs n : ℕ} (hn : 0 < n) {c : List ℝ} (hc : c.length = n) :
    ∑ j ∈ Finset.range n, (bpOut lo hi fs n c).getD j 0 ^ 2
      + ∑ j ∈ Finset.range n, ((bpOut lo hi fs n c).getD j 0 - c.getD j 0) ^ 2 = ∑ j ∈ Finset.range n, c.getD j 0 ^ 2 := by
  classical
  have hnR : (0 : ℝ) < n := by exact_mod_cast hn
  have hol := bpOut_length lo hi fs n c
  set o := bpOut lo hi fs n c with ho
  have hdl : (List.zipWith (· - ·) o c).length = n := by rw [List.length_zipWith, hol, hc, min_self]
  have hg : ∀ j ∈ Finset.range n, (o.getD j 0 - c.getD j 0) ^ 2 = (List.zipWith (· - ·) o c).getD j 0 ^ 2 := by
    intro j hj
    have hj := Finset.mem_range.mp hj
    congr 1
    rw [List.getD, List.getD, List.getD, List.getElem?_zipWith, List.getElem?_eq_getElem (by rw [hol]; exact hj),
      List.getElem?_eq_getElem (by rw [hc]; exact hj)]
    rfl
  rw [Finset.sum_congr rfl hg]
  have p1 := real_parseval o
  have p2 := real_parseval (List.zipWith (· - ·) o c)
  have p3 := real_parseval c
  rw [hol] at p1
  rw [hdl] at p2
  rw [hc] at p3
  refine mul_left_cancel₀ hnR.ne' ?_
  rw [mul_add, ← p1, ← p2, ← p3, ← Finset.sum_add_distrib]
  refine Finset.sum_congr rfl fun k hk => ?_
  have hk := Finset.mem_range.mp hk
  have key : ∀ i, i ≤ n / 2 → ‖dftAt (-1) (toCs o) i‖ ^ 2 + ‖dftAt (-1) (toCs (List.zipWith (· - ·) o c)) i‖ ^ 2
      = ‖dftAt (-1) (toCs c) i‖ ^ 2 := by
    intro i hi'
    rw [dftAt_sub_real (hol.trans hc.symm), ho, bpOut_spectrum lo hi fs hn hc hi']
    by_cases hb : inBand lo hi fs n i
    · rw [if_pos hb, sub_self, norm_zero]; ring
    · rw [if_neg hb, norm_zero, zero_sub, norm_neg]; ring
  by_cases hk2 : k ≤ n / 2
  · exact key k hk2
  · have hm : ∀ x : List ℝ, x.length = n → ‖dftAt (-1) (toCs x) k‖ = ‖dftAt (-1) (toCs x) (n - k)‖ := by
      intro x hx
      rw [← Complex.norm_conj (dftAt (-1) (toCs x) (n - k)), ← hx, dftAt_real (by rw [hx]; exact hk.le)]
    rw [hm o hol, hm _ hdl, hm c hc]
    exact key (n - k) (by omega)

/-- Root of a sum of squares: the triangle inequality. -/
theorem rms_add (n : ℕ) (f g : ℕ → ℝ) :
    √(∑ j ∈ Finset.range n, (f j + g j) ^ 2) ≤ √(∑ j ∈ Finset.range n, f j ^ 2) + √(∑ j ∈ Finset.range n, g j ^ 2) := by
  have h := norm_add_le (WithLp.toLp 2 (fun j : Fin n => f j)) (WithLp.toLp 2 (fun j : Fin n => g j))
  simp only [EuclideanSpace.norm_eq, PiLp.add_apply, Real.norm_eq_abs, sq_abs] at h
  rw [Finset.sum_range, Finset.sum_range, Finset.sum_range]
  exact h

end Verif
