import Verif.Lemmas.Flips
import Mathlib.Probability.Moments.SubGaussian

/-! # Concentration of the number of wrong bits -/
set_option linter.unusedSectionVars false
namespace Verif
open Spec MeasureTheory ProbabilityTheory
variable {Ω : Type} [MeasurableSpace Ω] {P : Measure Ω} [IsProbabilityMeasure P] {msg : List Bool} {bits : Ω → List Bool} {p : ℕ → ℝ}

theorem wrongAt_Icc (msg : List Bool) (n : ℕ) (l : List Bool) : wrongAt msg n l ∈ Set.Icc (0 : ℝ) 1 := by
  unfold wrongAt; split_ifs <;> simp

/-- The exponential moment of one position. -/
theorem Spec.Flips.mgf_one (h : Flips P msg bits p) {n : ℕ} (hn : n < msg.length) (t : ℝ) :
    ∑ b : Bool, Real.exp (t * ((if some b = msg[n]? then 0 else 1) - p n)) * factor msg p n b ≤ Real.exp (t ^ 2 / 8) := by
  classical
  have hi := (h.integral (wrongAt msg n)).1
  have hs := (hasSubgaussianMGF_of_mem_Icc (a := 0) (b := 1) hi.aemeasurable
    (Filter.Eventually.of_forall fun ω => wrongAt_Icc msg n (bits ω))).mgf_le t
  rw [h.wrongAt_mean hn] at hs
  have he : ((((‖(1 : ℝ) - 0‖₊ / 2) ^ 2 : NNReal) : ℝ) * t ^ 2 / 2) = t ^ 2 / 8 := by
    push_cast
    rw [sub_zero, norm_one]
    ring
  rw [he] at hs
  refine le_trans (le_of_eq ?_) hs
  show _ = ∫ ω, Real.exp (t * (wrongAt msg n (bits ω) - p n)) ∂P
  rw [(h.integral (fun l => Real.exp (t * (wrongAt msg n l - p n)))).2]
  -- the mean over all received messages factors
  let G : (i : Fin msg.length) → Bool → ℝ := fun i b =>
    (if (i : ℕ) = n then Real.exp (t * ((if some b = msg[n]? then 0 else 1) - p n)) else 1) * factor msg p i b
  have hG : ∀ f : Fin msg.length → Bool, Real.exp (t * (wrongAt msg n (List.ofFn f) - p n)) * ∏ i : Fin msg.length, factor msg p i (f i)
      = ∏ i : Fin msg.length, G i (f i) := by
    intro f
    simp only [G]
    rw [Finset.prod_mul_distrib]
    congr 1
    rw [Finset.prod_eq_single (⟨n, hn⟩ : Fin msg.length) (fun i _ hne => if_neg fun e => hne (Fin.ext e))
      (fun hne => absurd (Finset.mem_univ _) hne), if_pos rfl]
    unfold wrongAt
    rw [List.getElem?_eq_getElem (by simpa using hn), List.getElem_ofFn]
  simp only [hG]
  rw [← Fintype.piFinset_univ, ← Finset.prod_univ_sum,
    Finset.prod_eq_single (⟨n, hn⟩ : Fin msg.length) _ (fun hne => absurd (Finset.mem_univ _) hne)]
  · simp [G]
  · intro i _ hne
    simp only [G, if_neg (fun e => hne (Fin.ext e) : ¬ (i : ℕ) = n), one_mul]
    exact factor_sum i i.2

/-- The exponential moment of the number of wrong bits. -/
theorem Spec.Flips.mgf (h : Flips P msg bits p) (t : ℝ) :
    ∫ ω, Real.exp (t * ∑ n ∈ Finset.range msg.length, (wrongAt msg n (bits ω) - p n)) ∂P ≤ Real.exp (msg.length * (t ^ 2 / 8)) := by
  rw [(h.integral (fun l => Real.exp (t * ∑ n ∈ Finset.range msg.length, (wrongAt msg n l - p n)))).2]
  have hG : ∀ f : Fin msg.length → Bool, Real.exp (t * ∑ n ∈ Finset.range msg.length, (wrongAt msg n (List.ofFn f) - p n))
        * ∏ i : Fin msg.length, factor msg p i (f i)
      = ∏ i : Fin msg.length, Real.exp (t * ((if some (f i) = msg[(i : ℕ)]? then 0 else 1) - p i)) * factor msg p i (f i) := by
    intro f
    rw [Finset.prod_mul_distrib, Finset.mul_sum, Real.exp_sum, Finset.prod_range]
    congr 1
    refine Finset.prod_congr rfl fun i _ => ?_
    unfold wrongAt
    rw [List.getElem?_eq_getElem (by simp), List.getElem_ofFn]
  simp only [hG]
  rw [← Fintype.piFinset_univ, ← Finset.prod_univ_sum (fun _ => (Finset.univ : Finset Bool))
    (fun (i : Fin msg.length) b => Real.exp (t * ((if some b = msg[(i : ℕ)]? then 0 else 1) - p i)) * factor msg p i b)]
  calc _ ≤ ∏ i : Fin msg.length, Real.exp (t ^ 2 / 8) := by
        refine Finset.prod_le_prod (fun i _ => ?_) fun i _ => h.mgf_one i.2 t
        have hp := h.wrong i.2
        have h0 : 0 ≤ p i := by rw [← hp]; exact measureReal_nonneg
        have h1 : p i ≤ 1 := by rw [← hp]; exact measureReal_le_one
        refine Finset.sum_nonneg fun b _ => mul_nonneg (Real.exp_pos _).le ?_
        unfold factor
        split_ifs <;> linarith
    _ = _ := by rw [Finset.prod_const, Finset.card_univ, Fintype.card_fin, ← Real.exp_nat_mul]

/-- One-sided bound. -/
theorem Spec.Flips.chernoff (h : Flips P msg bits p) {ε : ℝ} (hε : 0 ≤ ε) {s : ℝ} (hs : s ^ 2 = 1) :
    P.real {ω | msg.length * ε ≤ s * ∑ n ∈ Finset.range msg.length, (wrongAt msg n (bits ω) - p n)}
      ≤ Real.exp (-2 * msg.length * ε ^ 2) := by
  have hm := h.mgf (4 * ε * s)
  have hi := (h.integral (fun l => Real.exp (4 * ε * s * ∑ n ∈ Finset.range msg.length, (wrongAt msg n l - p n)))).1
  have hk := mul_meas_ge_le_integral_of_nonneg (Filter.Eventually.of_forall fun ω => (Real.exp_pos _).le) hi (Real.exp (4 * ε * (msg.length * ε)))
  have hsub : P.real {ω | msg.length * ε ≤ s * ∑ n ∈ Finset.range msg.length, (wrongAt msg n (bits ω) - p n)}
      ≤ P.real {ω | Real.exp (4 * ε * (msg.length * ε)) ≤ Real.exp (4 * ε * s * ∑ n ∈ Finset.range msg.length, (wrongAt msg n (bits ω) - p n))} := by
    refine measureReal_mono fun ω hω => ?_
    have hω : msg.length * ε ≤ s * ∑ n ∈ Finset.range msg.length, (wrongAt msg n (bits ω) - p n) := hω
    show Real.exp _ ≤ Real.exp _
    rw [Real.exp_le_exp]
    have := mul_le_mul_of_nonneg_left hω (by positivity : 0 ≤ 4 * ε)
    linarith
  have h3 : Real.exp (4 * ε * (msg.length * ε)) * P.real {ω | msg.length * ε ≤ s * ∑ n ∈ Finset.range msg.length, (wrongAt msg n (bits ω) - p n)}
      ≤ Real.exp (msg.length * ((4 * ε * s) ^ 2 / 8)) :=
    (mul_le_mul_of_nonneg_left hsub (Real.exp_pos _).le).trans (hk.trans hm)
  have h4 : msg.length * ((4 * ε * s) ^ 2 / 8) = 4 * ε * (msg.length * ε) + -2 * msg.length * ε ^ 2 := by
    linear_combination (2 * msg.length * ε ^ 2) * hs
  rw [h4, Real.exp_add] at h3
  exact le_of_mul_le_mul_left h3 (Real.exp_pos _)

/-- Hoeffding's inequality for the share of wrong bits. -/
theorem Spec.Flips.hoeffding (h : Flips P msg bits p) (hne : msg ≠ []) {ε : ℝ} (hε : 0 ≤ ε) :
    P.real {ω | ε ≤ |(∑ n ∈ Finset.range msg.length, wrongAt msg n (bits ω)) / msg.length - (∑ n ∈ Finset.range msg.length, p n) / msg.length|}
      ≤ 2 * Real.exp (-2 * msg.length * ε ^ 2) := by
  have hl : (0 : ℝ) < msg.length := by exact_mod_cast List.length_pos_iff.mpr hne
  have h1 := h.chernoff hε (s := 1) (by norm_num)
  have h2 := h.chernoff hε (s := -1) (by norm_num)
  refine le_trans (measureReal_mono (s₂ := {ω | msg.length * ε ≤ 1 * ∑ n ∈ Finset.range msg.length, (wrongAt msg n (bits ω) - p n)} ∪
    {ω | msg.length * ε ≤ -1 * ∑ n ∈ Finset.range msg.length, (wrongAt msg n (bits ω) - p n)}) fun ω hω => ?_)
    ((measureReal_union_le _ _).trans (by linarith))
  have hω : ε ≤ |(∑ n ∈ Finset.range msg.length, wrongAt msg n (bits ω)) / msg.length - (∑ n ∈ Finset.range msg.length, p n) / msg.length| := hω
  rw [← sub_div, ← Finset.sum_sub_distrib, abs_div, abs_of_pos hl, le_div_iff₀ hl] at hω
  rcases le_abs.mp hω with hc | hc
  · left
    show (msg.length : ℝ) * ε ≤ 1 * _
    linarith
  · right
    show (msg.length : ℝ) * ε ≤ -1 * _
    linarith

/-- Messages of growing length: the share of wrong bits and its mean come together, whatever the noises have to do with each
other. -/
theorem Spec.Flips.growing {m : ℕ → List Bool} {b : ℕ → Ω → List Bool} {q : ℕ → ℕ → ℝ} (h : ∀ N, Flips P (m N) (b N) (q N))
    (hm : ∀ N, N ≤ (m N).length) :
    ∀ᵐ ω ∂P, Filter.Tendsto (fun N : ℕ => (∑ n ∈ Finset.range (m N).length, wrongAt (m N) n (b N ω)) / (m N).length
      - (∑ n ∈ Finset.range (m N).length, q N n) / (m N).length) Filter.atTop (nhds 0) := by
  have key : ∀ j : ℕ, ∀ᵐ ω ∂P, ∀ᶠ N in Filter.atTop, ω ∉ {ω | (1 / (j + 1 : ℝ)) ≤
      |(∑ n ∈ Finset.range (m N).length, wrongAt (m N) n (b N ω)) / (m N).length - (∑ n ∈ Finset.range (m N).length, q N n) / (m N).length|} := by
    intro j
    set ε : ℝ := 1 / (j + 1 : ℝ) with hε
    have hε0 : 0 < ε := by positivity
    apply ae_eventually_notMem
    have hr1 : Real.exp (-2 * ε ^ 2) < 1 := by rw [Real.exp_lt_one_iff]; nlinarith [sq_pos_of_pos hε0]
    have hsum : Summable (fun N : ℕ => 2 * Real.exp (-2 * ε ^ 2) ^ N) := (summable_geometric_of_lt_one (Real.exp_pos _).le hr1).mul_left 2
    have hb : ∀ N, P {ω | ε ≤ |(∑ n ∈ Finset.range (m N).length, wrongAt (m N) n (b N ω)) / (m N).length
        - (∑ n ∈ Finset.range (m N).length, q N n) / (m N).length|} ≤ ENNReal.ofReal (2 * Real.exp (-2 * ε ^ 2) ^ N) := by
      intro N
      rw [← ofReal_measureReal]
      refine ENNReal.ofReal_le_ofReal ?_
      by_cases hN : m N = []
      · have : N = 0 := by have := hm N; rw [hN] at this; simpa using this
        rw [this, pow_zero]
        exact measureReal_le_one.trans (by norm_num)
      · refine ((h N).hoeffding hN hε0.le).trans ?_
        rw [← Real.exp_nat_mul]
        have : (N : ℝ) ≤ (m N).length := by exact_mod_cast hm N
        have : Real.exp (-2 * (m N).length * ε ^ 2) ≤ Real.exp (N * (-2 * ε ^ 2)) := by
          rw [Real.exp_le_exp]; nlinarith [sq_nonneg ε, mul_le_mul_of_nonneg_right this (sq_nonneg ε)]
        linarith
    refine ne_top_of_le_ne_top ?_ (ENNReal.tsum_le_tsum hb)
    rw [← ENNReal.ofReal_tsum_of_nonneg (fun N => by positivity) hsum]
    exact ENNReal.ofReal_ne_top
  filter_upwards [ae_all_iff.mpr key] with ω hω
  rw [Metric.tendsto_atTop]
  intro ε hε
  obtain ⟨j, hj⟩ := exists_nat_one_div_lt hε
  obtain ⟨N0, hN⟩ := Filter.eventually_atTop.mp (hω j)
  refine ⟨N0, fun N h' => ?_⟩
  have := hN N h'
  rw [Real.dist_eq, sub_zero]
  have this := not_le.mp this
  exact this.trans hj

end Verif
