import Verif.Model.Billiam
import Verif.Lemmas.Radiometer
import Verif.Lemmas.EnergyClt
import Verif.Props.Radiometer
import Verif.Lemmas.Ssca

/-! # Lemmas for the radiometer experiments -/
namespace Verif.Billiam
open Verif Spec MeasureTheory ProbabilityTheory Props
variable {ν Ω : Type} [MeasurableSpace Ω] {P : Measure Ω} {σ : ℝ} {z w : ℕ → Ω → ℝ} [RIter ν ℝ]

/-- The energy of a recording. -/
theorem avg_real (l : List ℝ) : avgEnergy l = (l.map (· ^ 2)).sum / l.length := by
  unfold avgEnergy
  rw [rsum_eq_sum, Flt.ofNat_real]
  simp

theorem avg_noisy (l : List ℝ) (x : ℕ → ℝ) :
    avgEnergy (l.mapIdx (fun i s => s + (0 + x i))) = (∑ i ∈ Finset.range l.length, (l.getD i 0 + x i) ^ 2) / l.length := by
  rw [mapIdx_range, avgEnergy_range]
  simp only [zero_add]

theorem sum_getD (l : List ℝ) : ∑ i ∈ Finset.range l.length, l.getD i 0 ^ 2 = (l.map (· ^ 2)).sum := by
  have e : l.map (· ^ 2) = (List.range l.length).map (fun i => l.getD i 0 ^ 2) := by
    rw [← mapIdx_range l (fun _ x => x ^ 2)]
    apply List.ext_getElem?
    intro i
    rw [List.getElem?_mapIdx, List.getElem?_map]
  rw [e, ← rsum_eq_sum, rsum_range]

theorem energy_var (h : White P σ w) (s : ℕ → ℝ) (N : ℕ) :
    Var[fun ω => ∑ i ∈ Finset.range N, (s i + w i ω) ^ 2; P] = 2 * N * σ ^ 4 + 4 * σ ^ 2 * ∑ i ∈ Finset.range N, s i ^ 2 := by
  have := h.block_var N 0 s
  rw [← this]
  congr 1
  funext ω
  unfold blockEnergy noiseBlock
  rw [Finset.sum_range]
  simp

theorem energy_memLp (h : White P σ w) (s : ℕ → ℝ) (N : ℕ) : MemLp (fun ω => ∑ i ∈ Finset.range N, (s i + w i ω) ^ 2) 2 P :=
  memLp_finsetSum (p := 2) (μ := P) (Finset.range N) (f := fun i ω => (s i + w i ω) ^ 2) (fun _ _ => h.sq_memLp _ _)

/-- The energy of a recording with white noise: square integrable, with this mean and this variance. -/
theorem avg_moments (hz : White P 1 z) (σ : ℝ) {l : List ℝ} (hl : l ≠ []) :
    MemLp (fun ω => avgEnergy (l.mapIdx (fun i s => s + (0 + σ * z i ω)))) 2 P ∧
    ∫ ω, avgEnergy (l.mapIdx (fun i s => s + (0 + σ * z i ω))) ∂P = avgEnergy l + σ ^ 2 ∧
    Var[fun ω => avgEnergy (l.mapIdx (fun i s => s + (0 + σ * z i ω))); P] = (2 * σ ^ 4 + 4 * σ ^ 2 * avgEnergy l) / l.length := by
  have hN : (l.length : ℝ) ≠ 0 := by simpa using hl
  have hw := hz.scale σ
  simp only [avg_noisy]
  have e : (fun ω => (∑ i ∈ Finset.range l.length, (l.getD i 0 + σ * z i ω) ^ 2) / (l.length : ℝ)) =
      fun ω => (l.length : ℝ)⁻¹ * ∑ i ∈ Finset.range l.length, (l.getD i 0 + σ * z i ω) ^ 2 := by
    funext ω; rw [div_eq_inv_mul]
  refine ⟨?_, ?_, ?_⟩
  · rw [e]; exact (energy_memLp hw _ _).const_mul _
  · rw [integral_div, hw.energy_mean, sum_getD, avg_real]; field_simp
  · rw [e, variance_const_mul, energy_var hw, sum_getD, avg_real]; field_simp

/-- Chebyshev's bound. -/
theorem avg_far (hz : White P 1 z) (σ : ℝ) {l : List ℝ} (hl : l ≠ []) {d : ℝ} (hd : 0 < d) :
    P.real {ω | d ≤ |avgEnergy (l.mapIdx (fun i s => s + (0 + σ * z i ω))) - (avgEnergy l + σ ^ 2)|} ≤
      (2 * σ ^ 4 + 4 * σ ^ 2 * avgEnergy l) / (l.length * d ^ 2) := by
  have hP := hz.prob
  obtain ⟨h1, h2, h3⟩ := avg_moments hz σ hl
  have := meas_ge_le_variance_div_sq h1 hd
  rw [h2, h3] at this
  have h4 := ENNReal.toReal_mono ENNReal.ofReal_ne_top this
  rw [ENNReal.toReal_ofReal] at h4
  · rw [← div_div]; exact h4
  · rw [← h3]; exact div_nonneg (variance_nonneg _ _) (sq_nonneg d)

theorem low_of_mean (hz : White P 1 z) (σ : ℝ) {l : List ℝ} (hl : l ≠ []) {t d : ℝ} (hd : 0 < d) (ht : avgEnergy l + σ ^ 2 + d ≤ t) :
    1 - (2 * σ ^ 4 + 4 * σ ^ 2 * avgEnergy l) / (l.length * d ^ 2) ≤
      P.real {ω | avgEnergy (l.mapIdx (fun i s => s + (0 + σ * z i ω))) ≤ t} := by
  have hP := hz.prob
  have hm := (avg_moments hz σ hl).1.aemeasurable
  have hc : P.real {ω | avgEnergy (l.mapIdx (fun i s => s + (0 + σ * z i ω))) ≤ t} = 1 -
      P.real {ω | t < avgEnergy (l.mapIdx (fun i s => s + (0 + σ * z i ω)))} := by
    have hs : NullMeasurableSet {ω | t < avgEnergy (l.mapIdx (fun i s => s + (0 + σ * z i ω)))} P := nullMeasurableSet_lt (by fun_prop) hm
    have := prob_compl_eq_one_sub₀ hs
    rw [← probReal_compl_eq_one_sub₀ hs]
    congr 1
    ext ω
    simp
  rw [hc]
  refine sub_le_sub_left (le_trans (measureReal_mono fun ω hω => ?_) (avg_far hz σ hl hd)) 1
  have hω' : t < avgEnergy (l.mapIdx (fun i s => s + (0 + σ * z i ω))) := hω
  show d ≤ |_|
  rw [le_abs]; left; linarith

theorem high_of_mean (hz : White P 1 z) (σ : ℝ) {l : List ℝ} (hl : l ≠ []) {t d : ℝ} (hd : 0 < d) (ht : t ≤ avgEnergy l + σ ^ 2 - d) :
    P.real {ω | avgEnergy (l.mapIdx (fun i s => s + (0 + σ * z i ω))) ≤ t} ≤ (2 * σ ^ 4 + 4 * σ ^ 2 * avgEnergy l) / (l.length * d ^ 2) := by
  have hP := hz.prob
  refine le_trans (measureReal_mono fun ω hω => ?_) (avg_far hz σ hl hd)
  have hω' : avgEnergy (l.mapIdx (fun i s => s + (0 + σ * z i ω))) ≤ t := hω
  show d ≤ |_|
  rw [le_abs]; right; linarith

/-- Counting. -/
theorem low_count {A : Type} (l : List A) (f : A → ℝ) (t : ℝ) :
    ((l.map f).map (fun nrg => if Flt.lt t nrg then 0 else 1)).sum = l.countP (fun a => decide (f a ≤ t)) := by
  induction l with
  | nil => rfl
  | cons a l ih =>
    rw [List.map_cons, List.map_cons, List.sum_cons, ih, List.countP_cons, Flt.lt_real]
    by_cases h : t < f a
    · simp [h, not_le.mpr h]
    · simp [h, not_lt.mp h, add_comm]

theorem high_count {A : Type} (l : List A) (f : A → ℝ) (t : ℝ) :
    ((l.map f).map (fun nrg => if Flt.lt t nrg then 1 else 0)).sum = l.countP (fun a => decide (t < f a)) := by
  induction l with
  | nil => rfl
  | cons a l ih =>
    rw [List.map_cons, List.map_cons, List.sum_cons, ih, List.countP_cons, Flt.lt_real]
    by_cases h : t < f a
    · simp [h, add_comm]
    · simp [h]

theorem zipIdx_mapM {A B : Type} {l : List A} {f : A × ℕ → RM B} {g : ℕ → A → B} (h : ∀ i a, l[i]? = some a → f (a, i) = pure (g i a)) :
    l.zipIdx.mapM f = pure (l.mapIdx g) := by
  rw [mapM_ok (g := fun p => g p.2 p.1) (fun p hp => ?_)]
  · congr 1
    apply List.ext_getElem?
    intro i
    rw [List.getElem?_map, List.getElem?_zipIdx, List.getElem?_mapIdx]
    cases l[i]? <;> simp
  · obtain ⟨a, i⟩ := p
    exact h i a (by simpa [List.mem_zipIdx_iff_getElem?] using hp)

theorem attempts_ok {n : ℕ} {tx : ℕ → RM (List ℝ)} {sig : ℕ → List ℝ} (htx : ∀ j, tx j = pure (sig j)) {std : ℕ → ν} {z : ℕ → ℕ → ℝ}
    (hz : ∀ j, Gives (std j) (z j)) (σ : ℝ) :
    (List.range n).mapM (fun j => do
      let s ← tx j
      let ch ← awgn (ofList s) σ (std j)
      let chan_sig ← collect ch
      pure (avgEnergy chan_sig)) =
    pure ((List.range n).map (fun j => avgEnergy ((sig j).mapIdx (fun i x => x + (0 + σ * z j i))))) := by
  refine mapM_ok fun j _ => ?_
  obtain ⟨it, h1, h2⟩ := C56_awgn (yields_ofList (sig j)) (hz j) σ rfl
  rw [htx, pure_bind, h1, pure_bind, collect_of_yields h2, pure_bind]

/-- The mean of a count. -/
theorem mean_count [IsProbabilityMeasure P] {n : ℕ} {S : ℕ → Set Ω} (hS : ∀ j, NullMeasurableSet (S j) P) [∀ j ω, Decidable (ω ∈ S j)] :
    ∫ ω, ((List.range n).countP (fun j => decide (ω ∈ S j)) : ℝ) ∂P = ∑ j ∈ Finset.range n, P.real (S j) := by
  have e : ∀ ω, ((List.range n).countP (fun j => decide (ω ∈ S j)) : ℝ) = ∑ j ∈ Finset.range n, (S j).indicator (fun _ => (1 : ℝ)) ω := by
    intro ω
    induction n with
    | zero => simp
    | succ n ih =>
      rw [List.range_succ, List.countP_append, Nat.cast_add, ih, Finset.sum_range_succ]
      congr 1
      by_cases h : ω ∈ S n <;> simp [h]
  simp only [e]
  rw [integral_finsetSum _ fun j _ => (integrable_const (1 : ℝ)).indicator₀ (hS j)]
  refine Finset.sum_congr rfl fun j _ => ?_
  rw [integral_indicator₀ (hS j)]
  simp

end Verif.Billiam
