import Verif.Spec.Band
import Verif.Lemmas.BpfLeak
import Verif.Lemmas.EnergyClt
import Verif.Lemmas.FskNoise

/-! The energy of noise behind the band-pass filter. -/
namespace Verif
open Spec MeasureTheory ProbabilityTheory Filter

variable {Ω : Type} [MeasurableSpace Ω] {P : Measure Ω} {σ : ℝ} {w : ℕ → Ω → ℝ}

/-- Bin `k` of `n` lies in the band (positive or negative frequency). -/
def passBin (lo hi : ℝ) (fs n k : ℕ) : Prop := inBand lo hi fs n (min k (n - k))

open Classical in
theorem out_energy (lo hi : ℝ) {fs n : ℕ} (hn : 0 < n) {c : List ℝ} (hc : c.length = n) :
    ∑ j ∈ Finset.range n, (bpOut lo hi fs n c).getD j 0 ^ 2
      = (∑ k ∈ (Finset.range n).filter (passBin lo hi fs n), ‖dftAt (-1) (toCs c) k‖ ^ 2) / n := by
  have hnR : (n : ℝ) ≠ 0 := by exact_mod_cast hn.ne'
  have hol := bpOut_length lo hi fs n c
  have hp := real_parseval (bpOut lo hi fs n c)
  rw [hol] at hp
  rw [eq_div_iff hnR, mul_comm, ← hp, Finset.sum_filter]
  refine Finset.sum_congr rfl fun k hk => ?_
  have hk := Finset.mem_range.mp hk
  have key : ‖dftAt (-1) (toCs (bpOut lo hi fs n c)) k‖ = if passBin lo hi fs n k then ‖dftAt (-1) (toCs c) k‖ else 0 := by
    unfold passBin
    by_cases h : k ≤ n / 2
    · rw [bpOut_spectrum lo hi fs hn hc h, min_eq_left (by omega)]
      split <;> simp
    · have e1 : ‖dftAt (-1) (toCs (bpOut lo hi fs n c)) k‖ = ‖dftAt (-1) (toCs (bpOut lo hi fs n c)) (n - k)‖ := by
        have := dftAt_real (x := bpOut lo hi fs n c) (k := k) (by rw [hol]; omega)
        rw [← this, Complex.norm_conj, hol]
      have e2 : ‖dftAt (-1) (toCs c) k‖ = ‖dftAt (-1) (toCs c) (n - k)‖ := by
        have := dftAt_real (x := c) (k := k) (by rw [hc]; omega)
        rw [← this, Complex.norm_conj, hc]
      rw [e1, e2, bpOut_spectrum lo hi fs hn hc (by omega), min_eq_right (by omega)]
      split <;> simp
  rw [key]
  split <;> simp

theorem dft_sq {n : ℕ} {c : List ℝ} (hc : c.length = n) (k : ℕ) :
    ‖dftAt (-1) (toCs c) k‖ ^ 2 = (∑ j ∈ Finset.range n, Real.cos (2 * Real.pi * (j * k / n)) * c.getD j 0) ^ 2
      + (∑ j ∈ Finset.range n, Real.sin (2 * Real.pi * (j * k / n)) * c.getD j 0) ^ 2 := by
  have h : dftAt (-1) (toCs c) k = ((∑ j ∈ Finset.range n, Real.cos (2 * Real.pi * (j * k / n)) * c.getD j 0 : ℝ) : ℂ)
      + ((-∑ j ∈ Finset.range n, Real.sin (2 * Real.pi * (j * k / n)) * c.getD j 0 : ℝ) : ℂ) * Complex.I := by
    rw [dftAt, toCs_length, hc]
    push_cast
    rw [neg_mul, Finset.sum_mul, ← sub_eq_add_neg, ← Finset.sum_sub_distrib]
    refine Finset.sum_congr rfl fun j _ => ?_
    rw [toCs_getD, show (-1 : ℂ) * (2 * Real.pi * Complex.I * (j * k / n)) = (-(2 * Real.pi * (j * k / n))) * Complex.I by ring,
      Complex.exp_mul_I, Complex.cos_neg, Complex.sin_neg]
    ring
  rw [h, ← Complex.normSq_eq_norm_sq, Complex.normSq_add_mul_I]
  ring

/-- The mean square of an offset plus a linear form of the noise. -/
theorem Spec.White.proj_sq (h : White P σ w) (M : ℕ) (a : ℕ → ℝ) (x : ℝ) :
    Integrable (fun ω => (x + proj M a w ω) ^ 2) P ∧
      ∫ ω, (x + proj M a w ω) ^ 2 ∂P = x ^ 2 + σ ^ 2 * ∑ i ∈ Finset.range M, a i ^ 2 := by
  have hP := h.prob
  have hg := h.proj_hasGauss M a
  have i1 : Integrable (fun ω => 2 * x * proj M a w ω) P := hg.integrable.const_mul _
  have i2 : Integrable (fun ω => proj M a w ω ^ 2) P := hg.memLp_two.integrable_sq
  have a1 : Integrable (fun ω => x ^ 2 + 2 * x * proj M a w ω) P := (integrable_const _).add i1
  have e : (fun ω => (x + proj M a w ω) ^ 2) = fun ω => (x ^ 2 + 2 * x * proj M a w ω) + proj M a w ω ^ 2 := by funext ω; ring
  refine ⟨by rw [e]; exact a1.add i2, ?_⟩
  have hv : ∫ ω, proj M a w ω ^ 2 ∂P = σ ^ 2 * ∑ i ∈ Finset.range M, a i ^ 2 := by
    have := h.proj_cov M a a
    rw [covariance_self hg.aemeasurable, variance_of_integral_eq_zero hg.aemeasurable (h.proj_mean M a)] at this
    simp only [← pow_two] at this
    exact this
  rw [e, integral_add a1 i2, integral_add (integrable_const _) i1, integral_const_mul, h.proj_mean, hv]
  simp

open Classical in
/-- The energy of a block behind the filter, as a function of the noise of the block. -/
noncomputable def passedEnergy (lo hi : ℝ) (fs n : ℕ) (s : ℕ → ℝ) (z : Fin n → ℝ) : ℝ :=
  (∑ k ∈ (Finset.range n).filter (passBin lo hi fs n),
    ((∑ j : Fin n, Real.cos (2 * Real.pi * (j * k / n)) * (s j + z j)) ^ 2
      + (∑ j : Fin n, Real.sin (2 * Real.pi * (j * k / n)) * (s j + z j)) ^ 2)) / n

theorem passedEnergy_meas (lo hi : ℝ) (fs n : ℕ) (s : ℕ → ℝ) : Measurable (passedEnergy lo hi fs n s) := by
  unfold passedEnergy
  fun_prop

theorem passedEnergy_eq (lo hi : ℝ) {fs n : ℕ} (hn : 0 < n) (s z : ℕ → ℝ) :
    ∑ j ∈ Finset.range n, (bpOut lo hi fs n ((List.range n).map (fun j => s j + z j))).getD j 0 ^ 2
      = passedEnergy lo hi fs n s (fun j => z j) := by
  classical
  rw [out_energy lo hi hn (by simp)]
  unfold passedEnergy
  congr 1
  refine Finset.sum_congr rfl fun k _ => ?_
  rw [dft_sq (n := n) (by simp), Finset.sum_range, Finset.sum_range]
  simp [List.getD]

open Classical in
theorem Spec.White.passed_mean (h : White P σ w) (lo hi : ℝ) {fs n : ℕ} (hn : 0 < n) (b : ℕ) (s : ℕ → ℝ) :
    Integrable (fun ω => passedEnergy lo hi fs n s (noiseBlock n w b ω)) P ∧
    ∫ ω, passedEnergy lo hi fs n s (noiseBlock n w b ω) ∂P
      = ∑ j ∈ Finset.range n, (bpOut lo hi fs n ((List.range n).map s)).getD j 0 ^ 2 + σ ^ 2 * bandBins lo hi fs n := by
  have hnR : (n : ℝ) ≠ 0 := by exact_mod_cast hn.ne'
  have hsh := h.shift (b * n)
  have e : ∀ (g : ℝ → ℝ) (k : ℕ) ω, ∑ j : Fin n, g (2 * Real.pi * (j * k / n)) * (s j + noiseBlock n w b ω j)
      = (∑ j ∈ Finset.range n, g (2 * Real.pi * (j * k / n)) * s j) + proj n (fun j => g (2 * Real.pi * (j * k / n))) (fun j => w (b * n + j)) ω := by
    intro g k ω
    unfold proj noiseBlock
    rw [Finset.sum_range, Finset.sum_range, ← Finset.sum_add_distrib]
    exact Finset.sum_congr rfl fun j _ => by ring
  have ef : (fun ω => passedEnergy lo hi fs n s (noiseBlock n w b ω)) = fun ω =>
      (∑ k ∈ (Finset.range n).filter (passBin lo hi fs n),
        (((∑ j ∈ Finset.range n, Real.cos (2 * Real.pi * (j * k / n)) * s j)
            + proj n (fun j => Real.cos (2 * Real.pi * (j * k / n))) (fun j => w (b * n + j)) ω) ^ 2
          + ((∑ j ∈ Finset.range n, Real.sin (2 * Real.pi * (j * k / n)) * s j)
            + proj n (fun j => Real.sin (2 * Real.pi * (j * k / n))) (fun j => w (b * n + j)) ω) ^ 2)) / n := by
    funext ω
    unfold passedEnergy
    simp only [e Real.cos, e Real.sin]
  have hi1 : ∀ k ∈ (Finset.range n).filter (passBin lo hi fs n), Integrable (fun ω =>
        ((∑ j ∈ Finset.range n, Real.cos (2 * Real.pi * (j * k / n)) * s j)
            + proj n (fun j => Real.cos (2 * Real.pi * (j * k / n))) (fun j => w (b * n + j)) ω) ^ 2
          + ((∑ j ∈ Finset.range n, Real.sin (2 * Real.pi * (j * k / n)) * s j)
            + proj n (fun j => Real.sin (2 * Real.pi * (j * k / n))) (fun j => w (b * n + j)) ω) ^ 2) P :=
    fun k _ => (hsh.proj_sq n _ _).1.add (hsh.proj_sq n _ _).1
  refine ⟨by rw [ef]; exact (integrable_finsetSum _ hi1).div_const _, ?_⟩
  rw [ef, integral_div, integral_finsetSum _ hi1, out_energy lo hi hn (by simp)]
  have hm : ∀ k ∈ (Finset.range n).filter (passBin lo hi fs n), ∫ ω,
        (((∑ j ∈ Finset.range n, Real.cos (2 * Real.pi * (j * k / n)) * s j)
            + proj n (fun j => Real.cos (2 * Real.pi * (j * k / n))) (fun j => w (b * n + j)) ω) ^ 2
          + ((∑ j ∈ Finset.range n, Real.sin (2 * Real.pi * (j * k / n)) * s j)
            + proj n (fun j => Real.sin (2 * Real.pi * (j * k / n))) (fun j => w (b * n + j)) ω) ^ 2) ∂P
      = ‖dftAt (-1) (toCs ((List.range n).map s)) k‖ ^ 2 + σ ^ 2 * n := by
    intro k _
    rw [integral_add (hsh.proj_sq n _ _).1 (hsh.proj_sq n _ _).1, (hsh.proj_sq n _ _).2, (hsh.proj_sq n _ _).2, dft_sq (n := n) (by simp)]
    have hg : ∀ j ∈ Finset.range n, ((List.range n).map s).getD j 0 = s j := by
      intro j hj
      simp [List.getD, Finset.mem_range.mp hj]
    rw [Finset.sum_congr rfl (fun j hj => by rw [hg j hj] :
        ∀ j ∈ Finset.range n, Real.cos (2 * Real.pi * (j * k / n)) * ((List.range n).map s).getD j 0
          = Real.cos (2 * Real.pi * (j * k / n)) * s j),
      Finset.sum_congr rfl (fun j hj => by rw [hg j hj] :
        ∀ j ∈ Finset.range n, Real.sin (2 * Real.pi * (j * k / n)) * ((List.range n).map s).getD j 0
          = Real.sin (2 * Real.pi * (j * k / n)) * s j)]
    have hone : ∑ j ∈ Finset.range n, Real.cos (2 * Real.pi * (j * k / n)) ^ 2 + ∑ j ∈ Finset.range n, Real.sin (2 * Real.pi * (j * k / n)) ^ 2 = n := by
      rw [← Finset.sum_add_distrib]
      simp
    linear_combination σ ^ 2 * hone
  rw [Finset.sum_congr rfl hm, Finset.sum_add_distrib, Finset.sum_const, nsmul_eq_mul, add_div]
  congr 1
  have hc : ((Finset.range n).filter (passBin lo hi fs n)).card = bandBins lo hi fs n := by
    unfold bandBins
    congr
  rw [hc]
  field_simp

/-- Many blocks: the energy per block converges. -/
theorem Spec.White.passed_limit (h : White P σ w) (lo hi : ℝ) {fs n : ℕ} (hn : 0 < n) (s : ℕ → ℝ) :
    ∀ᵐ ω ∂P, Tendsto (fun q : ℕ => (∑ b ∈ Finset.range q, passedEnergy lo hi fs n s (noiseBlock n w b ω)) / q) atTop
      (nhds (∑ j ∈ Finset.range n, (bpOut lo hi fs n ((List.range n).map s)).getD j 0 ^ 2 + σ ^ 2 * bandBins lo hi fs n)) := by
  have hP := h.prob
  obtain ⟨hi0, hm⟩ := h.passed_mean lo hi (fs := fs) hn 0 s
  have hmeas := passedEnergy_meas lo hi fs n s
  have hind := blocks_indep h.indep (fun i => (h.law i).aemeasurable) n
  have := strong_law_ae_real (μ := P) (fun b ω => passedEnergy lo hi fs n s (noiseBlock n w b ω)) hi0
    (fun i j hij => (hind.indepFun hij).comp hmeas hmeas) (fun i => (h.blocks_ident n i).comp hmeas)
  rw [hm] at this
  exact this

end Verif
