import Verif.Lemmas.Memoryless
import Verif.Lemmas.GaussEnergy
import Mathlib.Probability.CentralLimitTheorem
import Mathlib.Probability.IdentDistribIndep

/-! # The central limit theorem for the energy of a recording -/
namespace Verif
open Spec MeasureTheory ProbabilityTheory Filter
variable {Ω : Type} [MeasurableSpace Ω] {P : Measure Ω} {σ : ℝ} {w : ℕ → Ω → ℝ}

theorem blocks_indep (hi : iIndepFun w P) (hm : ∀ i, AEMeasurable (w i) P) (k : ℕ) : iIndepFun (fun n => noiseBlock k w n) P := by
  have := hi.isProbabilityMeasure
  rw [iIndepFun_iff_measure_inter_preimage_eq_mul]
  intro S sets hsets
  classical
  obtain ⟨N, hN⟩ : ∃ N, ∀ n ∈ S, n < N := ⟨S.sup id + 1, fun n hn => Nat.lt_succ_of_le (Finset.le_sup (f := id) hn)⟩
  have h := block_prod hi hm (k := k) (fun n => if n ∈ S then sets n else Set.univ) (fun n => by
    by_cases hn : n ∈ S
    · rw [if_pos hn]; exact hsets n hn
    · rw [if_neg hn]; exact MeasurableSet.univ) N
  have e1 : {ω | ∀ n < N, noiseBlock k w n ω ∈ if n ∈ S then sets n else Set.univ} = ⋂ n ∈ S, noiseBlock k w n ⁻¹' sets n := by
    ext ω
    simp only [Set.mem_iInter, Set.mem_preimage, Set.mem_ofPred_eq]
    refine ⟨fun h n hn => ?_, fun h n _ => ?_⟩
    · have := h n (hN n hn); rwa [if_pos hn] at this
    · by_cases hn : n ∈ S
      · rw [if_pos hn]; exact h n hn
      · rw [if_neg hn]; trivial
  rw [e1] at h
  rw [h]
  symm
  calc ∏ n ∈ S, P (noiseBlock k w n ⁻¹' sets n)
      = ∏ n ∈ S, P {ω | noiseBlock k w n ω ∈ if n ∈ S then sets n else Set.univ} := by
        refine Finset.prod_congr rfl fun n hn => ?_
        rw [if_pos hn]; rfl
    _ = _ := by
        refine Finset.prod_subset (fun n hn => Finset.mem_range.mpr (hN n hn)) fun n _ hn => ?_
        rw [if_neg hn]
        simp

theorem Spec.White.blocks_ident (h : White P σ w) (k n : ℕ) : IdentDistrib (noiseBlock k w n) (noiseBlock k w 0) P P := by
  have := h.prob
  refine IdentDistrib.pi (X := fun (j : Fin k) ω => w (n * k + j) ω) (Y := fun (j : Fin k) ω => w (0 * k + j) ω)
    (fun j => (h.law _).identDistrib (h.law _)) ?_ ?_
  · exact h.indep.precomp (g := fun j : Fin k => n * k + (j : ℕ)) (fun a b hab => Fin.ext (by simpa using hab))
  · exact h.indep.precomp (g := fun j : Fin k => 0 * k + (j : ℕ)) (fun a b hab => Fin.ext (by simpa using hab))

/-- Changing signs leaves white noise white. -/
theorem Spec.White.signs (h : White P σ w) {ε : ℕ → ℝ} (hε : ∀ i, ε i = 1 ∨ ε i = -1) : White P σ (fun i ω => ε i * w i ω) where
  indep := h.indep.comp (fun i x => ε i * x) (fun i => measurable_const.mul measurable_id)
  law i := by
    have := gaussianReal_const_mul (h.law i) (ε i)
    have e : ε i ^ 2 = 1 := by rcases hε i with e | e <;> rw [e] <;> norm_num
    convert this using 2
    · simp
    · ext; simp [e]

/-! ## Moments -/

theorem gauss_moments (v : NNReal) : ∫ x, x ^ 3 ∂gaussianReal 0 v = 0 ∧ ∫ x, x ^ 4 ∂gaussianReal 0 v = 3 * (v : ℝ) ^ 2 := by
  have d : ∀ p p' : ℝ → ℝ, (∀ t, HasDerivAt p (p' t) t) → deriv (fun t => p t * Real.exp (v * t ^ 2 / 2))
      = fun t => (p' t + p t * (v * t)) * Real.exp (v * t ^ 2 / 2) := by
    intro p p' hp
    funext t
    have h2 : HasDerivAt (fun t : ℝ => (v : ℝ) * t ^ 2 / 2) (v * t) t := by
      refine (((hasDerivAt_pow 2 t).const_mul (v : ℝ)).div_const 2).congr_deriv ?_
      norm_num; ring
    have := ((hp t).mul h2.exp).deriv
    rw [show (fun t => p t * Real.exp (v * t ^ 2 / 2)) = p * fun t => Real.exp (v * t ^ 2 / 2) from rfl, this]
    ring
  have d1 := d (fun _ => 1) (fun _ => 0) (fun t => hasDerivAt_const t 1)
  have d2 := d (fun t => v * t) (fun _ => v) (fun t => by simpa using (hasDerivAt_id t).const_mul (v : ℝ))
  have d3 := d (fun t => v + v ^ 2 * t ^ 2) (fun t => 2 * v ^ 2 * t) (fun t => by
    refine (((hasDerivAt_pow 2 t).const_mul ((v : ℝ) ^ 2)).const_add (v : ℝ)).congr_deriv ?_
    norm_num; ring)
  have d4 := d (fun t => 3 * v ^ 2 * t + v ^ 3 * t ^ 3) (fun t => 3 * v ^ 2 + 3 * v ^ 3 * t ^ 2) (fun t => by
    refine (((hasDerivAt_id t).const_mul (3 * (v : ℝ) ^ 2)).add ((hasDerivAt_pow 3 t).const_mul ((v : ℝ) ^ 3))).congr_deriv ?_
    norm_num; ring)
  have e0 : mgf (fun x => x) (gaussianReal 0 v) = fun t => 1 * Real.exp (v * t ^ 2 / 2) := by
    rw [mgf_fun_id_gaussianReal]; funext t; simp
  have e1 : iteratedDeriv 1 (mgf (fun x => x) (gaussianReal 0 v)) = fun t => v * t * Real.exp (v * t ^ 2 / 2) := by
    rw [iteratedDeriv_one, e0, d1]; funext t; ring
  have e2 : iteratedDeriv 2 (mgf (fun x => x) (gaussianReal 0 v)) = fun t => (v + v ^ 2 * t ^ 2) * Real.exp (v * t ^ 2 / 2) := by
    rw [iteratedDeriv_succ, e1, d2]; funext t; ring
  have e3 : iteratedDeriv 3 (mgf (fun x => x) (gaussianReal 0 v)) = fun t => (3 * v ^ 2 * t + v ^ 3 * t ^ 3) * Real.exp (v * t ^ 2 / 2) := by
    rw [iteratedDeriv_succ, e2, d3]; funext t; ring
  have e4 : iteratedDeriv 4 (mgf (fun x => x) (gaussianReal 0 v)) 0 = 3 * (v : ℝ) ^ 2 := by
    rw [iteratedDeriv_succ, e3, d4]; simp
  constructor
  · have := iteratedDeriv_mgf_zero (X := fun x : ℝ => x) (μ := gaussianReal 0 v) (by simp) 3
    rw [e3] at this
    simpa using this.symm
  · have := iteratedDeriv_mgf_zero (X := fun x : ℝ => x) (μ := gaussianReal 0 v) (by simp) 4
    rw [e4] at this
    exact this.symm

theorem Spec.White.pow_integrable (h : White P σ w) (i n : ℕ) : Integrable (fun ω => w i ω ^ n) P := by
  have hP := h.prob
  rcases Nat.eq_zero_or_pos n with rfl | hn
  · simp
  have h1 : MemLp (fun x : ℝ => x) n (gaussianReal 0 (σ ^ 2).toNNReal) := memLp_id_gaussianReal' _ (by simp)
  have h2 : Integrable (fun x : ℝ => x ^ n) (gaussianReal 0 (σ ^ 2).toNNReal) := by
    have := h1.integrable_norm_pow (by omega)
    refine this.mono' (by fun_prop) (Eventually.of_forall fun x => ?_)
    rw [norm_pow]
  rw [← (h.law i).map_eq] at h2
  exact h2.comp_aemeasurable (h.law i).aemeasurable

theorem Spec.White.moments (h : White P σ w) (i : ℕ) : ∫ ω, w i ω ^ 3 ∂P = 0 ∧ ∫ ω, w i ω ^ 4 ∂P = 3 * σ ^ 4 := by
  have g := gauss_moments (σ ^ 2).toNNReal
  rw [← (h.law i).map_eq, integral_map (h.law i).aemeasurable (by fun_prop), integral_map (h.law i).aemeasurable (by fun_prop),
    Real.coe_toNNReal _ (sq_nonneg σ)] at g
  exact ⟨g.1, g.2.trans (by ring)⟩

theorem Spec.White.sq_memLp (h : White P σ w) (i : ℕ) (s : ℝ) : MemLp (fun ω => (s + w i ω) ^ 2) 2 P := by
  have hP := h.prob
  have hm := (h.law i).aemeasurable
  rw [memLp_two_iff_integrable_sq (by fun_prop)]
  have : (fun ω => ((s + w i ω) ^ 2) ^ 2) = fun ω => s ^ 4 + 4 * s ^ 3 * w i ω ^ 1 + 6 * s ^ 2 * w i ω ^ 2 + 4 * s * w i ω ^ 3 + w i ω ^ 4 := by
    funext ω; ring
  rw [this]
  exact ((((integrable_const _).add ((h.pow_integrable i 1).const_mul _)).add ((h.pow_integrable i 2).const_mul _)).add
    ((h.pow_integrable i 3).const_mul _)).add (h.pow_integrable i 4)

theorem Spec.White.sq_shift_mean (h : White P σ w) (i : ℕ) (s : ℝ) : ∫ ω, (s + w i ω) ^ 2 ∂P = s ^ 2 + σ ^ 2 := by
  have hP := h.prob
  have : (fun ω => (s + w i ω) ^ 2) = fun ω => s ^ 2 + 2 * s * w i ω ^ 1 + w i ω ^ 2 := by funext ω; ring
  have i1 := (h.pow_integrable i 1).const_mul (2 * s)
  have a1 : Integrable (fun ω => s ^ 2 + 2 * s * w i ω ^ 1) P := (integrable_const _).add i1
  rw [this, integral_add a1 (h.pow_integrable i 2), integral_add (integrable_const _) i1, integral_const_mul, h.sq_mean]
  simp [h.mean i]

theorem Spec.White.sq_shift_var (h : White P σ w) (i : ℕ) (s : ℝ) : Var[fun ω => (s + w i ω) ^ 2; P] = 2 * σ ^ 4 + 4 * s ^ 2 * σ ^ 2 := by
  have hP := h.prob
  rw [variance_eq_sub (h.sq_memLp i s), h.sq_shift_mean]
  have : (fun ω => (s + w i ω) ^ 2) ^ 2 = fun ω => s ^ 4 + 4 * s ^ 3 * w i ω ^ 1 + 6 * s ^ 2 * w i ω ^ 2 + 4 * s * w i ω ^ 3 + w i ω ^ 4 := by
    funext ω; simp only [Pi.pow_apply]; ring
  have i0 := integrable_const (μ := P) (s ^ 4)
  have i1 := (h.pow_integrable i 1).const_mul (4 * s ^ 3)
  have i2 := (h.pow_integrable i 2).const_mul (6 * s ^ 2)
  have i3 := (h.pow_integrable i 3).const_mul (4 * s)
  have a1 : Integrable (fun ω => s ^ 4 + 4 * s ^ 3 * w i ω ^ 1) P := i0.add i1
  have a2 : Integrable (fun ω => s ^ 4 + 4 * s ^ 3 * w i ω ^ 1 + 6 * s ^ 2 * w i ω ^ 2) P := a1.add i2
  have a3 : Integrable (fun ω => s ^ 4 + 4 * s ^ 3 * w i ω ^ 1 + 6 * s ^ 2 * w i ω ^ 2 + 4 * s * w i ω ^ 3) P := a2.add i3
  rw [this]
  rw [integral_add a3 (h.pow_integrable i 4), integral_add a2 i3, integral_add a1 i2, integral_add i0 i1, integral_const_mul, integral_const_mul, integral_const_mul, h.sq_mean, (h.moments i).1,
    (h.moments i).2]
  simp [h.mean i]
  ring

/-! ## Symbols -/

/-- The energy of a symbol `s` in the noise of block `n`. -/
noncomputable def blockEnergy (k : ℕ) (s : ℕ → ℝ) (z : Fin k → ℝ) : ℝ := ∑ j : Fin k, (s j + z j) ^ 2

theorem blockEnergy_meas (k : ℕ) (s : ℕ → ℝ) : Measurable (blockEnergy k s) := by
  unfold blockEnergy
  fun_prop

theorem Spec.White.block_memLp (h : White P σ w) (k n : ℕ) (s : ℕ → ℝ) : MemLp (fun ω => blockEnergy k s (noiseBlock k w n ω)) 2 P :=
  memLp_finsetSum (p := 2) (μ := P) Finset.univ (f := fun (j : Fin k) ω => (s j + w (n * k + j) ω) ^ 2) (fun _ _ => h.sq_memLp _ _)

theorem Spec.White.block_mean (h : White P σ w) (k n : ℕ) (s : ℕ → ℝ) :
    ∫ ω, blockEnergy k s (noiseBlock k w n ω) ∂P = ∑ j ∈ Finset.range k, s j ^ 2 + k * σ ^ 2 := by
  have hP := h.prob
  unfold blockEnergy noiseBlock
  rw [integral_finsetSum _ fun j _ => (h.sq_memLp _ _).integrable (by norm_num)]
  simp only [h.sq_shift_mean, Finset.sum_add_distrib, Finset.sum_const, Finset.card_univ, Fintype.card_fin, nsmul_eq_mul]
  rw [Finset.sum_range]

theorem Spec.White.block_var (h : White P σ w) (k n : ℕ) (s : ℕ → ℝ) :
    Var[fun ω => blockEnergy k s (noiseBlock k w n ω); P] = 2 * k * σ ^ 4 + 4 * σ ^ 2 * ∑ j ∈ Finset.range k, s j ^ 2 := by
  have hP := h.prob
  have e : (fun ω => blockEnergy k s (noiseBlock k w n ω)) = ∑ j : Fin k, fun ω => (s j + w (n * k + j) ω) ^ 2 := by
    funext ω; rw [Finset.sum_apply]; rfl
  rw [e, IndepFun.variance_sum (X := fun (j : Fin k) ω => (s j + w (n * k + j) ω) ^ 2) (fun j _ => h.sq_memLp _ _) (fun a _ b _ hab =>
    (h.indep.indepFun (by simpa using fun h : (a : ℕ) = b => hab (Fin.ext h))).comp (φ := fun x => (s a + x) ^ 2) (ψ := fun x => (s b + x) ^ 2)
      (by fun_prop) (by fun_prop))]
  simp only [h.sq_shift_var, Finset.sum_add_distrib, Finset.sum_const, Finset.card_univ, Fintype.card_fin, nsmul_eq_mul]
  rw [Finset.sum_range, Finset.mul_sum]
  congr 1
  · ring
  · exact Finset.sum_congr rfl fun j _ => by ring

theorem sum_blocks (k N : ℕ) (f : ℕ → ℝ) : ∑ n ∈ Finset.range N, ∑ j : Fin k, f (n * k + j) = ∑ i ∈ Finset.range (N * k), f i := by
  induction N with
  | zero => simp
  | succ N ih =>
    rw [Finset.sum_range_succ, ih, Nat.succ_mul, Finset.sum_range_add, Finset.sum_range (fun j => f (N * k + j))]

theorem clt_tail {X : ℕ → Ω → ℝ} [IsProbabilityMeasure P] {v : ℝ} (hv : 0 < v) (hX : MemLp (X 0) 2 P) (hvar : Var[X 0; P] = v) (hi : iIndepFun X P)
    (hd : ∀ i, IdentDistrib (X i) (X 0) P P) (y : ℝ) :
    Tendsto (fun n : ℕ => P.real {ω | y < (√n)⁻¹ * (∑ i ∈ Finset.range n, X i ω - n * ∫ ω, X 0 ω ∂P)}) atTop (nhds (Erfc (y / √(2 * v)) / 2)) := by
  have hY : HasLaw (fun x : ℝ => x) (gaussianReal 0 Var[X 0; P].toNNReal) (gaussianReal 0 Var[X 0; P].toNNReal) := ⟨aemeasurable_id, Measure.map_id⟩
  have h := tendstoInDistribution_inv_sqrt_mul_sum_sub hY hX hi hd
  have h2 := ProbabilityMeasure.tendsto_measure_of_null_frontier_of_tendsto' h.tendsto (E := Set.Ioi y) (by
    rw [frontier_Ioi]
    show (gaussianReal 0 Var[X 0; P].toNNReal).map (fun x => x) {y} = 0
    rw [show (fun x : ℝ => x) = id from rfl, Measure.map_id, hvar]
    have := nullSingletonClass_gaussianReal (μ := 0) (v := v.toNNReal) (by simpa using hv)
    exact measure_singleton y)
  have h3 := (ENNReal.tendsto_toReal (measure_ne_top (gaussianReal 0 Var[X 0; P].toNNReal |>.map (fun x => x)) _)).comp h2
  have e : ((gaussianReal 0 Var[X 0; P].toNNReal).map (fun x : ℝ => x) (Set.Ioi y)).toReal = Erfc (y / √(2 * v)) / 2 := by
    rw [show (fun x : ℝ => x) = id from rfl, Measure.map_id, hvar, ← gauss_tail hv]; rfl
  rw [← e]
  refine h3.congr fun n => ?_
  show (P.map _ (Set.Ioi y)).toReal = _
  rw [Measure.map_apply_of_aemeasurable (h.forall_aemeasurable n) measurableSet_Ioi]
  rfl

theorem Spec.White.reindex (h : White P σ w) {τ : ℕ → ℕ} (hτ : Function.Injective τ) : White P σ (fun i => w (τ i)) where
  indep := h.indep.precomp hτ
  law i := h.law (τ i)

/-- A signal whose pieces of `k` samples are all the same one, up to the order and the signs of the samples: the chance that the
measured energy of `N` pieces exceeds its mean by `x` standard deviations. -/
theorem Spec.White.energy_clt (h : White P σ w) (hσ : 0 < σ) {k : ℕ} (hk : 0 < k) {s t : ℕ → ℝ} {p : ℝ}
    (hs : ∀ n, ∃ e : Equiv.Perm (Fin k), ∀ j : Fin k, s (n * k + e j) = t j ∨ s (n * k + e j) = -t j)
    (hp : ∑ j ∈ Finset.range k, t j ^ 2 = k * p) (x : ℝ) :
    Tendsto (fun N : ℕ => P.real {ω | p + σ ^ 2 + x * √((2 * σ ^ 4 + 4 * p * σ ^ 2) / (N * k : ℕ))
      < (∑ i ∈ Finset.range (N * k), (s i + w i ω) ^ 2) / (N * k : ℕ)}) atTop (nhds (Erfc (x / √2) / 2)) := by
  have hP := h.prob
  classical
  have hk' : (0 : ℝ) < k := by exact_mod_cast hk
  have hp0 : 0 ≤ p := by
    have : 0 ≤ (k : ℝ) * p := by rw [← hp]; exact Finset.sum_nonneg fun j _ => sq_nonneg _
    exact nonneg_of_mul_nonneg_right this hk'
  choose e he using hs
  set τ : ℕ → ℕ := fun i => i / k * k + e (i / k) ⟨i % k, Nat.mod_lt _ hk⟩ with hτ
  have hτ' : ∀ n (j : Fin k), τ (n * k + j) = n * k + e n j := fun n j => by
    have h1 : (n * k + j) / k = n := by rw [Nat.mul_comm, Nat.mul_add_div hk, Nat.div_eq_of_lt j.2, Nat.add_zero]
    have h2 : (n * k + j) % k = j := by rw [Nat.mul_comm, Nat.mul_add_mod, Nat.mod_eq_of_lt j.2]
    simp only [hτ, h1, h2]
  have hsplit : ∀ i, i = i / k * k + ((⟨i % k, Nat.mod_lt _ hk⟩ : Fin k) : ℕ) := fun i => (Nat.div_add_mod' i k).symm
  have hinj : Function.Injective τ := by
    intro a b hab
    rw [hsplit a, hsplit b, hτ', hτ'] at hab
    have hd : ∀ n (j : Fin k), (n * k + (j : ℕ)) / k = n := fun n j => by
      rw [Nat.mul_comm, Nat.mul_add_div hk, Nat.div_eq_of_lt j.2, Nat.add_zero]
    have h1 : a / k = b / k := by rw [← hd (a / k), hab, hd]
    rw [h1] at hab
    have h2 := (e (b / k)).injective (Fin.ext (Nat.add_left_cancel hab))
    rw [hsplit a, hsplit b, h1, h2]
  set ε : ℕ → ℝ := fun i => if s (τ i) = t (i % k) then 1 else -1 with hε
  have hε1 : ∀ i, ε i = 1 ∨ ε i = -1 := fun i => by simp only [hε]; split_ifs <;> simp
  have h' := (h.reindex hinj).signs hε1
  have hsq : ∀ n (j : Fin k) ω, (s (n * k + e n j) + w (n * k + e n j) ω) ^ 2 = (t j + ε (n * k + j) * w (τ (n * k + j)) ω) ^ 2 := fun n j ω => by
    have h2 : (n * k + j) % k = j := by rw [Nat.mul_comm, Nat.mul_add_mod, Nat.mod_eq_of_lt j.2]
    simp only [hε, hτ', h2]
    split_ifs with h0
    · rw [h0, one_mul]
    · rcases he n j with h1 | h1
      · exact absurd h1 h0
      · rw [h1]; ring
  set c : ℝ := 2 * σ ^ 4 + 4 * p * σ ^ 2 with hc
  have hc0 : 0 < c := by positivity
  have key := clt_tail (P := P) (X := fun n ω => blockEnergy k t (noiseBlock k (fun i ω => ε i * w (τ i) ω) n ω)) (v := k * c) (by positivity)
    (h'.block_memLp k 0 t) (by rw [h'.block_var, hp, hc]; ring)
    ((blocks_indep h'.indep (fun i => (h'.law i).aemeasurable) k).comp (fun _ => blockEnergy k t) (fun _ => blockEnergy_meas k t))
    (fun i => (h'.blocks_ident k i).comp (blockEnergy_meas k t)) (x * √(k * c))
  have e1 : x * √(k * c) / √(2 * (k * c)) = x / √2 := by
    rw [Real.sqrt_mul (by norm_num : (0 : ℝ) ≤ 2)]
    have : √(k * c) ≠ 0 := (Real.sqrt_pos.mpr (by positivity)).ne'
    have : √(2 : ℝ) ≠ 0 := by positivity
    field_simp
  rw [e1] at key
  refine key.congr' ?_
  filter_upwards [eventually_gt_atTop 0] with N hN
  have hN' : (0 : ℝ) < N := by exact_mod_cast hN
  congr 1
  ext ω
  have e2 : ∑ i ∈ Finset.range N, blockEnergy k t (noiseBlock k (fun i ω => ε i * w (τ i) ω) i ω) = ∑ i ∈ Finset.range (N * k), (s i + w i ω) ^ 2 := by
    rw [← sum_blocks]
    refine Finset.sum_congr rfl fun n _ => ?_
    rw [← Equiv.sum_comp (e n)]
    exact Finset.sum_congr rfl fun j _ => (hsq n j ω).symm
  simp only [Set.mem_ofPred_eq]
  rw [e2, h'.block_mean, hp]
  push_cast
  have hsN : √(N : ℝ) * √N = N := Real.mul_self_sqrt hN'.le
  have hsq0 : 0 < √(N : ℝ) := Real.sqrt_pos.mpr hN'
  have e3 : √(c / (N * k)) = √(k * c) / (k * √N) := by
    rw [Real.sqrt_eq_iff_mul_self_eq (by positivity) (by positivity)]
    have h5 : √(k * c) * √(k * c) = k * c := Real.mul_self_sqrt (by positivity)
    rw [div_mul_div_comm, h5, show (k : ℝ) * √N * (k * √N) = k * k * (√N * √N) by ring, hsN]
    field_simp
  rw [e3, lt_div_iff₀ (by positivity), lt_inv_mul_iff₀ hsq0]
  have e4 : (p + σ ^ 2 + x * (√(k * c) / (k * √N))) * (N * k) = N * (k * p + k * σ ^ 2) + √N * (x * √(k * c)) := by
    have : x * (√(k * c) / (k * √N)) * (N * k) = √N * (x * √(k * c)) := by
      rw [mul_comm (N : ℝ), ← mul_div_assoc, div_mul_eq_mul_div, div_eq_iff (by positivity)]
      linear_combination (-(x * √(k * c) * k)) * hsN
    rw [add_mul, this]
    ring
  rw [e4]
  constructor <;> intro h <;> linarith

end Verif
