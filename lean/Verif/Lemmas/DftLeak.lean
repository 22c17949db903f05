import Verif.Lemmas.Dft
import Mathlib.Analysis.Complex.Norm
import Mathlib.Tactic.Linarith

/-! What happens to a DFT when the time signal leaks into the next sample. -/
namespace Verif
open Spec

/-- The `n`-th roots of unity. -/
noncomputable def unit (n : ℕ) (t : ℤ) : ℂ := Complex.exp (2 * Real.pi * Complex.I * (t / n))

theorem unit_zero (n : ℕ) : unit n 0 = 1 := by simp [unit]

theorem unit_add (n : ℕ) (s t : ℤ) : unit n (s + t) = unit n s * unit n t := by
  unfold unit; rw [← Complex.exp_add]; congr 1; push_cast; ring

theorem unit_mul_self {n : ℕ} (hn : 0 < n) (t : ℤ) : unit n (t * n) = 1 := by
  have hn' : (n : ℂ) ≠ 0 := by exact_mod_cast hn.ne'
  unfold unit
  rw [Complex.exp_eq_one_iff]
  exact ⟨t, by push_cast; field_simp⟩

theorem norm_unit (n : ℕ) (t : ℤ) : ‖unit n t‖ = 1 := by
  unfold unit
  rw [show 2 * (Real.pi : ℂ) * Complex.I * (t / n) = ((2 * Real.pi * (t / n) : ℝ) : ℂ) * Complex.I by push_cast; ring]
  exact Complex.norm_exp_ofReal_mul_I _

theorem conj_unit (n : ℕ) (t : ℤ) : (starRingEnd ℂ) (unit n t) = unit n (-t) := by
  unfold unit
  rw [← Complex.exp_conj]
  congr 1
  simp only [map_mul, map_div₀, Complex.conj_I, Complex.conj_ofReal, Complex.conj_natCast, map_intCast, Complex.conj_ofNat]
  push_cast; ring

theorem dftAt_unit (σ : ℤ) (x : List ℂ) (k : ℕ) :
    dftAt σ x k = ∑ j ∈ Finset.range x.length, x.getD j 0 * unit x.length (σ * (j * k)) := by
  unfold dftAt unit
  refine Finset.sum_congr rfl fun j _ => ?_
  congr 2; push_cast; ring

/-- The normalised inverse transform as a function of the time. -/
noncomputable def idft (x : List ℂ) (j : ℕ) : ℂ := (x.length : ℂ)⁻¹ * dftAt 1 x j

theorem idft_period (x : List ℂ) : idft x x.length = idft x 0 := by
  rcases Nat.eq_zero_or_pos x.length with h0 | hn
  · rw [h0]
  unfold idft
  rw [dftAt_unit, dftAt_unit]
  congr 1
  refine Finset.sum_congr rfl fun j _ => ?_
  rw [one_mul, unit_mul_self hn]
  simp [unit_zero]

theorem norm_idft_le (x : List ℂ) {M : ℝ} (hM : 0 ≤ M) (hx : ∀ z ∈ x, ‖z‖ ≤ M) (j : ℕ) : ‖idft x j‖ ≤ M := by
  rcases Nat.eq_zero_or_pos x.length with h0 | hn
  · rw [idft, h0]; simpa using hM
  have hn' : (0 : ℝ) < x.length := by exact_mod_cast hn
  rw [idft, norm_mul, norm_inv, Complex.norm_natCast, inv_mul_le_iff₀ hn', dftAt_unit]
  refine (norm_sum_le _ _).trans ?_
  have : ∀ i ∈ Finset.range x.length, ‖x.getD i 0 * unit x.length (1 * (i * j))‖ ≤ M := by
    intro i hi
    have hi := Finset.mem_range.mp hi
    rw [norm_mul, norm_unit, mul_one]
    exact hx _ (by simp [List.getD, hi])
  refine (Finset.sum_le_sum this).trans ?_
  simp

/-- The forward transform recovers the coefficients. -/
theorem sum_idft (x : List ℂ) {c : ℕ} (hc : c < x.length) :
    ∑ j ∈ Finset.range x.length, idft x j * unit x.length (-(j * c)) = x.getD c 0 := by
  have hn : (x.length : ℂ) ≠ 0 := by
    have : x.length ≠ 0 := by omega
    exact_mod_cast this
  have h := congrArg (fun l => l.getD c 0) (dft_dft 1 (.inl rfl) x)
  rw [dft_getD _ _ (by rw [dft_length]; exact hc), dftAt_unit, dft_length] at h
  have e : ∀ j ∈ Finset.range x.length, (dft 1 x).getD j 0 * unit x.length (-1 * (j * c))
      = x.length * (idft x j * unit x.length (-(j * c))) := by
    intro j hj
    rw [dft_getD _ _ (Finset.mem_range.mp hj), idft, neg_one_mul]
    field_simp
  rw [Finset.sum_congr rfl e, ← Finset.mul_sum] at h
  have h2 : (x.map (fun z : ℂ => (x.length : ℂ) * z)).getD c 0 = x.length * x.getD c 0 := by
    simp [List.getD, hc]
  rw [h2] at h
  exact mul_left_cancel₀ hn h

/-- The mirrored coefficient. -/
theorem sum_idft_mirror (x : List ℂ) {c : ℕ} (hc : c < x.length) :
    ∑ j ∈ Finset.range x.length, idft x j * unit x.length (j * c)
      = x.getD ((x.length - c) % x.length) 0 := by
  rw [← sum_idft x (Nat.mod_lt _ (by omega))]
  refine Finset.sum_congr rfl fun j _ => ?_
  congr 1
  rcases Nat.eq_zero_or_pos c with rfl | h0
  · simp
  · rw [Nat.mod_eq_of_lt (by omega)]
    have e : (-(j * ((x.length - c : ℕ) : ℤ)) : ℤ) = j * c + (-j) * x.length := by
      rw [Nat.cast_sub hc.le]; ring
    rw [e, unit_add, unit_mul_self (by omega), mul_one]

/-- The spectrum of the real part is bounded like the spectrum itself. -/
theorem norm_sum_re_le (x : List ℂ) {M : ℝ} (hx : ∀ z ∈ x, ‖z‖ ≤ M) {c : ℕ} (hc : c < x.length) :
    ‖∑ j ∈ Finset.range x.length, ((idft x j).re : ℂ) * unit x.length (-(j * c))‖ ≤ M := by
  have hget : ∀ c < x.length, ‖x.getD c 0‖ ≤ M := fun c hc => hx _ (by simp [List.getD, hc])
  have e : ∑ j ∈ Finset.range x.length, ((idft x j).re : ℂ) * unit x.length (-(j * c))
      = (x.getD c 0 + (starRingEnd ℂ) (x.getD ((x.length - c) % x.length) 0)) / 2 := by
    rw [← sum_idft x hc, ← sum_idft_mirror x hc, map_sum, ← Finset.sum_add_distrib, Finset.sum_div]
    refine Finset.sum_congr rfl fun j _ => ?_
    rw [map_mul, conj_unit, ← add_mul, Complex.add_conj]
    push_cast; ring
  rw [e, norm_div, Complex.norm_ofNat, div_le_iff₀ (by norm_num)]
  refine (norm_add_le _ _).trans ?_
  rw [RCLike.norm_conj]
  have h1 := hget c hc
  have h2 := hget ((x.length - c) % x.length) (Nat.mod_lt _ (by omega))
  linarith

/-- A time signal `g·b` that leaks `re b(j+1) - re b(j)` into sample `j`, where the sample after the last one is `w`. -/
noncomputable def leaky (g : ℝ) (x : List ℂ) (w : ℝ) (j : ℕ) : ℂ :=
  g * idft x j + (((if j + 1 < x.length then (idft x (j + 1)).re else w) - (idft x j).re : ℝ) : ℂ)

theorem leaky_bin (g : ℝ) (x : List ℂ) (w : ℝ) {M : ℝ} (hx : ∀ z ∈ x, ‖z‖ ≤ M) (hw : |w| ≤ M) {c : ℕ}
    (hc : c < x.length) :
    ‖∑ j ∈ Finset.range x.length, leaky g x w j * unit x.length (-(j * c)) - g * x.getD c 0‖ ≤ 4 * M := by
  have hn : 0 < x.length := by omega
  have hM : 0 ≤ M := (abs_nonneg w).trans hw
  set n := x.length with hnn
  set R := ∑ j ∈ Finset.range n, ((idft x j).re : ℂ) * unit n (-(j * c)) with hR
  have hRle : ‖R‖ ≤ M := norm_sum_re_le x hx hc
  obtain ⟨m, hm⟩ : ∃ m, n = m + 1 := ⟨n - 1, by omega⟩
  -- the shifted sum
  have hshift : ∑ j ∈ Finset.range n, ((idft x (j + 1)).re : ℂ) * unit n (-(j * c)) = unit n c * R := by
    have h1 : ∀ j : ℕ, ((idft x (j + 1)).re : ℂ) * unit n (-(j * c))
        = unit n c * (((idft x (j + 1)).re : ℂ) * unit n (-((j + 1 : ℕ) * c))) := by
      intro j
      rw [show (-(j * c) : ℤ) = c + -((j + 1 : ℕ) * c) by push_cast; ring, unit_add]; ring
    rw [Finset.sum_congr rfl (fun j _ => h1 j), ← Finset.mul_sum]
    congr 1
    have h2 := Finset.sum_range_succ' (fun j : ℕ => ((idft x j).re : ℂ) * unit n (-(j * c))) n
    have h3 := Finset.sum_range_succ (fun j : ℕ => ((idft x j).re : ℂ) * unit n (-(j * c))) n
    have h4 : ((idft x n).re : ℂ) * unit n (-(n * c)) = ((idft x (0 : ℕ)).re : ℂ) * unit n (-((0 : ℕ) * c)) := by
      rw [hnn, idft_period, ← hnn]
      congr 1
      rw [show (-(n * c) : ℤ) = (-c) * n by ring, unit_mul_self hn]; simp [unit_zero]
    rw [h3, h4] at h2
    exact (add_right_cancel h2).symm
  have hsum : ∑ j ∈ Finset.range n, leaky g x w j * unit n (-(j * c)) - g * x.getD c 0
      = unit n c * R - R + ((w - (idft x 0).re : ℝ) : ℂ) * unit n (-(m * c)) := by
    have h1 : ∀ j ∈ Finset.range n, leaky g x w j * unit n (-(j * c))
        = g * (idft x j * unit n (-(j * c))) + ((idft x (j + 1)).re : ℂ) * unit n (-(j * c))
          - ((idft x j).re : ℂ) * unit n (-(j * c))
          + if j = m then ((w - (idft x 0).re : ℝ) : ℂ) * unit n (-(m * c)) else 0 := by
      intro j hj
      have hj := Finset.mem_range.mp hj
      unfold leaky
      rw [← hnn]
      by_cases h : j = m
      · subst h
        rw [if_neg (by omega), if_pos rfl, ← hm, hnn, idft_period, ← hnn]
        push_cast; ring
      · rw [if_pos (by omega), if_neg h]
        push_cast; ring
    rw [Finset.sum_congr rfl h1, Finset.sum_add_distrib, Finset.sum_sub_distrib, Finset.sum_add_distrib,
      ← Finset.mul_sum, sum_idft x hc, hshift, Finset.sum_ite_eq', if_pos (Finset.mem_range.mpr (by omega)), ← hR]
    ring
  rw [hsum]
  have h0 : |(idft x 0).re| ≤ M := (Complex.abs_re_le_norm _).trans (norm_idft_le x hM hx 0)
  calc ‖unit n c * R - R + ((w - (idft x 0).re : ℝ) : ℂ) * unit n (-(m * c))‖
      ≤ ‖unit n c * R - R‖ + ‖((w - (idft x 0).re : ℝ) : ℂ) * unit n (-(m * c))‖ := norm_add_le _ _
    _ ≤ (‖unit n c * R‖ + ‖R‖) + ‖((w - (idft x 0).re : ℝ) : ℂ) * unit n (-(m * c))‖ := by
        gcongr; exact norm_sub_le _ _
    _ = (‖R‖ + ‖R‖) + |w - (idft x 0).re| := by
        rw [norm_mul, norm_mul, norm_unit, norm_unit, one_mul, mul_one, Complex.norm_real, Real.norm_eq_abs]
    _ ≤ (M + M) + (|w| + |(idft x 0).re|) := by gcongr; exact abs_sub _ _
    _ ≤ 4 * M := by linarith

end Verif
