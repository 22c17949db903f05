import Verif.Model.Fft
import Mathlib.Algebra.Field.GeomSum
import Mathlib.Tactic.LinearCombination
import Mathlib.Tactic.FieldSimp
import Mathlib.Tactic.Ring

/-! The DFT of lists over `ℂ` and `Cx ℝ`: inversion. -/
namespace Verif
open Spec

/-- Orthogonality of the complex exponentials. -/
theorem sum_exp_eq_zero {n : ℕ} (hn : 0 < n) {d : ℤ} (hd : ¬ (n : ℤ) ∣ d) :
    ∑ k ∈ Finset.range n, Complex.exp (2 * Real.pi * Complex.I * (d * k / n)) = 0 := by
  have hn' : (n : ℂ) ≠ 0 := by exact_mod_cast hn.ne'
  have hz : ∀ k : ℕ, Complex.exp (2 * Real.pi * Complex.I * (d * k / n))
      = Complex.exp (2 * Real.pi * Complex.I * (d / n)) ^ k := by
    intro k; rw [← Complex.exp_nat_mul]; congr 1; ring
  simp only [hz]
  have h1 : Complex.exp (2 * Real.pi * Complex.I * (d / n)) ≠ 1 := by
    intro h
    obtain ⟨m, hm⟩ := Complex.exp_eq_one_iff.mp h
    apply hd
    refine ⟨m, ?_⟩
    have h2 : (2 * Real.pi * Complex.I : ℂ) ≠ 0 := Complex.two_pi_I_ne_zero
    have h3 : (d : ℂ) / n = m := by
      apply mul_left_cancel₀ h2; rw [hm]; ring
    rw [div_eq_iff hn'] at h3
    have : (d : ℤ) = m * n := by exact_mod_cast h3
    rw [this]; ring
  rw [geom_sum_eq h1, ← hz]
  have : Complex.exp (2 * Real.pi * Complex.I * (d * (n : ℕ) / n)) = 1 := by
    rw [Complex.exp_eq_one_iff]; exact ⟨d, by field_simp⟩
  rw [this]; simp

theorem sum_exp_pair {n : ℕ} (hn : 0 < n) {i j : ℕ} (hi : i < n) (hj : j < n) :
    ∑ k ∈ Finset.range n, Complex.exp (2 * Real.pi * Complex.I * (((j : ℤ) - i : ℤ) * k / n))
      = if i = j then (n : ℂ) else 0 := by
  split
  · next h => subst h; simp
  · next h =>
    apply sum_exp_eq_zero hn
    rintro ⟨c, hc⟩
    apply h
    have h1 : (n : ℤ) * c < n := by omega
    have h2 : -(n : ℤ) < n * c := by omega
    have hn' : (0 : ℤ) < n := by omega
    have h3 : c < 1 := by nlinarith
    have h4 : -1 < c := by nlinarith
    have : c = 0 := by omega
    subst this; omega

theorem dft_length (σ : ℤ) (x : List ℂ) : (dft σ x).length = x.length := by simp [dft]

theorem dft_getD (σ : ℤ) (x : List ℂ) {k : ℕ} (hk : k < x.length) : (dft σ x).getD k 0 = dftAt σ x k := by
  simp [dft, List.getD, hk]

/-- Transforming forth and back multiplies by the length. -/
theorem dft_dft (σ : ℤ) (hσ : σ = 1 ∨ σ = -1) (x : List ℂ) :
    dft (-σ) (dft σ x) = x.map (fun z : ℂ => (x.length : ℂ) * z) := by
  apply List.ext_getElem
  · simp [dft_length]
  intro k hk _
  have hk' : k < x.length := by simpa [dft_length] using hk
  have hn : 0 < x.length := by omega
  have hget : ∀ (τ : ℤ) (y : List ℂ) (h : k < (dft τ y).length), (dft τ y)[k] = dftAt τ y k := by
    intro τ y h; simp [dft]
  rw [hget, List.getElem_map, dftAt, dft_length]
  have : ∀ j ∈ Finset.range x.length, (dft σ x).getD j 0
      * Complex.exp ((-σ : ℤ) * (2 * Real.pi * Complex.I * (j * k / x.length)))
      = ∑ i ∈ Finset.range x.length, x.getD i 0 *
        Complex.exp (2 * Real.pi * Complex.I * ((σ * ((i : ℤ) - k) : ℤ) * j / x.length)) := by
    intro j hj
    rw [dft_getD σ x (Finset.mem_range.mp hj)]
    unfold dftAt
    rw [Finset.sum_mul]
    refine Finset.sum_congr rfl fun i _ => ?_
    rw [mul_assoc, ← Complex.exp_add]
    congr 2
    push_cast; ring
  rw [Finset.sum_congr rfl this, Finset.sum_comm]
  simp only [← Finset.mul_sum]
  have key : ∀ i ∈ Finset.range x.length, x.getD i 0 * ∑ j ∈ Finset.range x.length,
      Complex.exp (2 * Real.pi * Complex.I * ((σ * ((i : ℤ) - k) : ℤ) * j / x.length))
      = if i = k then x.length * x.getD k 0 else 0 := by
    intro i hi
    have hi' := Finset.mem_range.mp hi
    rcases hσ with rfl | rfl
    · have := sum_exp_pair hn hk' hi'
      simp only [one_mul]
      rw [this]
      by_cases h : k = i
      · subst h; simp [mul_comm]
      · rw [if_neg h, if_neg (Ne.symm h), mul_zero]
    · have := sum_exp_pair hn hi' hk'
      rw [show ((-1 : ℤ) * ((i : ℤ) - k)) = (k : ℤ) - i by ring, this]
      by_cases h : i = k
      · subst h; simp [mul_comm]
      · rw [if_neg h, if_neg h, mul_zero]
  rw [Finset.sum_congr rfl key, Finset.sum_ite_eq' , if_pos (Finset.mem_range.mpr hk')]
  simp [List.getD, hk']

@[simp] theorem Cx.toC_ofC (z : ℂ) : Cx.toC (Cx.ofC z) = z := rfl
@[simp] theorem Cx.ofC_toC (z : Cx ℝ) : Cx.ofC (Cx.toC z) = z := rfl
theorem Cx.toC_inj {a b : Cx ℝ} (h : a.toC = b.toC) : a = b := by
  rw [← Cx.ofC_toC a, h, Cx.ofC_toC]

theorem fft_map_toC (inv : Bool) (x : List (Cx ℝ)) :
    (Fft.dft inv x).map Cx.toC = Spec.dft (if inv then 1 else -1) (x.map Cx.toC) := by
  simp [Fft.dft, Function.comp_def]

theorem dftAt_smul (σ : ℤ) (c : ℂ) (x : List ℂ) (k : ℕ) : dftAt σ (x.map (c * ·)) k = c * dftAt σ x k := by
  unfold dftAt
  rw [Finset.mul_sum, List.length_map]
  refine Finset.sum_congr rfl fun j hj => ?_
  have hj := Finset.mem_range.mp hj
  simp [List.getD, hj, mul_assoc]

theorem dft_smul (σ : ℤ) (c : ℂ) (x : List ℂ) : dft σ (x.map (c * ·)) = (dft σ x).map (c * ·) := by
  simp only [dft, List.map_map, List.length_map]
  exact List.map_congr_left (fun k _ => dftAt_smul σ c x k)

theorem toC_divR (z : Cx ℝ) (r : ℝ) : (Cx.divR z r).toC = (r : ℂ)⁻¹ * z.toC := by
  apply Complex.ext
  · simp [Cx.toC, Cx.divR, ← Complex.ofReal_inv, Complex.mul_re, div_eq_inv_mul]
  · simp [Cx.toC, Cx.divR, ← Complex.ofReal_inv, Complex.mul_im, div_eq_inv_mul]

/-- In exact arithmetic the forward transform undoes the normalised inverse one. -/
theorem fft_roundtrip (x : List (Cx ℝ)) :
    Fft.dft false ((Fft.dft true x).map (fun z => Cx.divR z (x.length : ℝ))) = x := by
  rcases Nat.eq_zero_or_pos x.length with h0 | hn
  · have : x = [] := List.length_eq_zero_iff.mp h0
    subst this; simp [Fft.dft, Spec.dft]
  have hinj : Function.Injective (List.map Cx.toC) := List.map_injective_iff.mpr (fun a b => Cx.toC_inj)
  apply hinj
  rw [fft_map_toC, List.map_map]
  have : (Cx.toC ∘ fun z => Cx.divR z (x.length : ℝ)) = (fun z => ((x.length : ℝ) : ℂ)⁻¹ * z) ∘ Cx.toC := by
    funext z; simp [toC_divR]
  rw [this, ← List.map_map, fft_map_toC, dft_smul]
  simp only [if_true, Bool.false_eq_true, if_false]
  rw [dft_dft 1 (.inl rfl), List.map_map]
  simp only [List.length_map]
  conv_rhs => rw [← List.map_id (x.map Cx.toC)]
  refine List.map_congr_left fun z _ => ?_
  simp only [Function.comp, id]
  rw [← mul_assoc]
  push_cast
  rw [inv_mul_cancel₀ (by exact_mod_cast hn.ne'), one_mul]

theorem fftProcess_one {F : Type} [Fft F] (inv : Bool) {n : ℕ} {buf : List (Cx F)} (h : buf.length = n) :
    fftProcess inv n buf = pure (Fft.dft inv buf) := by
  unfold fftProcess
  split
  · next h0 =>
    have : buf = [] := List.length_eq_zero_iff.mp (by omega)
    have h2 := Fft.length_dft inv buf
    rw [this] at h2 ⊢
    rw [List.length_eq_zero_iff.mp h2]
  · next h0 =>
    rw [if_neg (by simp [h])]
    have : blocks n buf = [buf] := by
      unfold blocks
      rw [dif_neg (by rintro (h1 | h1); exacts [h0 h1, h0 (by rw [← h, h1]; rfl)]), List.take_of_length_le h.le,
        List.drop_of_length_le h.le]
      unfold blocks; simp
    rw [this]; simp

theorem slice_ok {T : Type} {v : List T} {a b : ℕ} (h1 : a ≤ b) (h2 : b ≤ v.length) :
    slice v a b = pure ((v.drop a).take (b - a)) := by
  unfold slice; rw [if_neg (by omega)]

theorem sliceFrom_ok {T : Type} {v : List T} {a : ℕ} (h : a ≤ v.length) : sliceFrom v a = pure (v.drop a) := by
  unfold sliceFrom; rw [slice_ok h le_rfl, List.take_of_length_le (by simp)]

end Verif
