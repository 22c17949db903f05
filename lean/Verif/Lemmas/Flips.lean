import Verif.Spec.Gauss
import Mathlib.MeasureTheory.Integral.Bochner.Set
import Mathlib.Algebra.BigOperators.Ring.Finset
import Mathlib.Data.Fintype.BigOperators
import Mathlib.Probability.StrongLaw

/-! # Consequences of the memoryless channel law `Spec.Flips` -/
set_option linter.unusedSectionVars false
namespace Verif
open Spec MeasureTheory ProbabilityTheory
variable {Ω : Type} [MeasurableSpace Ω] {P : Measure Ω} [IsProbabilityMeasure P] {msg : List Bool} {bits : Ω → List Bool} {p : ℕ → ℝ}

/-- The factor of position `i`. -/
def factor (msg : List Bool) (p : ℕ → ℝ) (i : ℕ) (b : Bool) : ℝ := if some b = msg[i]? then 1 - p i else p i

theorem factor_sum (i : ℕ) (hi : i < msg.length) : ∑ b : Bool, factor msg p i b = 1 := by
  rw [Fintype.sum_bool]
  unfold factor
  rw [List.getElem?_eq_getElem hi]
  cases msg[i] <;> simp

theorem Spec.Flips.prob (h : Flips P msg bits p) (f : Fin msg.length → Bool) :
    P.real {ω | bits ω = List.ofFn f} = ∏ i : Fin msg.length, factor msg p i (f i) := by
  rw [h.pattern _ (List.length_ofFn), Finset.prod_range]
  refine Finset.prod_congr rfl fun i _ => ?_
  unfold factor
  rw [List.getElem?_eq_getElem (by simp), List.getElem_ofFn]

theorem Spec.Flips.exists_fn (h : Flips P msg bits p) (ω : Ω) : ∃ f : Fin msg.length → Bool, bits ω = List.ofFn f :=
  ⟨fun i => (bits ω)[i]'(by rw [h.length]; exact i.2), by
    apply List.ext_getElem
    · simp [h.length]
    · intro i h1 h2; simp⟩

theorem Spec.Flips.expand (h : Flips P msg bits p) (g : List Bool → ℝ) (ω : Ω) :
    g (bits ω) = ∑ f : Fin msg.length → Bool, g (List.ofFn f) * Set.indicator {ω | bits ω = List.ofFn f} 1 ω := by
  classical
  obtain ⟨f, hf⟩ := h.exists_fn ω
  rw [Finset.sum_eq_single f]
  · rw [Set.indicator_of_mem (by exact hf), hf]; simp
  · intro f' _ hne
    rw [Set.indicator_of_notMem, mul_zero]
    intro hm
    exact hne (List.ofFn_injective (by rw [← hf]; exact hm)).symm
  · intro hn; exact absurd (Finset.mem_univ _) hn

/-- The mean of anything computed from the received message. -/
theorem Spec.Flips.integral (h : Flips P msg bits p) (g : List Bool → ℝ) :
    Integrable (fun ω => g (bits ω)) P ∧
    ∫ ω, g (bits ω) ∂P = ∑ f : Fin msg.length → Bool, g (List.ofFn f) * ∏ i : Fin msg.length, factor msg p i (f i) := by
  have hint : ∀ f : Fin msg.length → Bool, Integrable (fun ω => g (List.ofFn f) * Set.indicator {ω | bits ω = List.ofFn f} 1 ω) P := by
    intro f
    exact ((integrable_const (1 : ℝ)).indicator₀ (h.event _)).const_mul _
  simp only [h.expand g]
  refine ⟨integrable_finsetSum _ fun f _ => hint f, ?_⟩
  rw [integral_finsetSum _ fun f _ => hint f]
  refine Finset.sum_congr rfl fun f _ => ?_
  rw [integral_const_mul, integral_indicator₀ (h.event _), ← h.prob]
  simp [measureReal_def]

theorem Spec.Flips.nullMeas (h : Flips P msg bits p) (Q : List Bool → Prop) : NullMeasurableSet {ω | Q (bits ω)} P := by
  classical
  have : {ω | Q (bits ω)} = ⋃ f : {f : Fin msg.length → Bool // Q (List.ofFn f)}, {ω | bits ω = List.ofFn f.1} := by
    ext ω
    simp only [Set.mem_ofPred_eq, Set.mem_iUnion, Subtype.exists]
    obtain ⟨f, hf⟩ := h.exists_fn ω
    constructor
    · intro hq; exact ⟨f, by rwa [← hf], hf⟩
    · rintro ⟨f', hq, e⟩; rwa [e]
  rw [this]
  exact NullMeasurableSet.iUnion fun f => h.event _

/-- The probability of anything about the received message. -/
theorem Spec.Flips.real (h : Flips P msg bits p) (Q : List Bool → Prop) [DecidablePred Q] :
    P.real {ω | Q (bits ω)} = ∑ f : Fin msg.length → Bool, if Q (List.ofFn f) then ∏ i : Fin msg.length, factor msg p i (f i) else 0 := by
  have := (h.integral (fun l => if Q l then 1 else 0)).2
  simp only [ite_mul, one_mul, zero_mul] at this
  rw [← this]
  have e : (fun ω => if Q (bits ω) then (1 : ℝ) else 0) = Set.indicator {ω | Q (bits ω)} (fun _ => 1) := by
    funext ω; simp [Set.indicator]
  rw [e, integral_indicator₀ (h.nullMeas Q)]
  simp [measureReal_def]

/-- Fixing some of the bits. -/
theorem Spec.Flips.real_subset (h : Flips P msg bits p) (S : Finset ℕ) (hS : ∀ n ∈ S, n < msg.length) (e : ℕ → Bool) :
    P.real {ω | ∀ n ∈ S, (bits ω)[n]? = some (e n)} = ∏ n ∈ S, factor msg p n (e n) := by
  classical
  rw [h.real (fun l => ∀ n ∈ S, l[n]? = some (e n)), ← Finset.sum_filter]
  have hset : Finset.filter (fun f : Fin msg.length → Bool => ∀ n ∈ S, (List.ofFn f)[n]? = some (e n)) Finset.univ
      = Fintype.piFinset (fun i : Fin msg.length => if (i : ℕ) ∈ S then {e i} else Finset.univ) := by
    ext f
    simp only [Finset.mem_filter, Finset.mem_univ, true_and, Fintype.mem_piFinset]
    constructor
    · intro hf i
      split_ifs with hi
      · have := hf i hi
        rw [List.getElem?_eq_getElem (by simp), List.getElem_ofFn, Option.some.injEq] at this
        simpa using this
      · simp
    · intro hf n hn
      have := hf ⟨n, hS n hn⟩
      rw [if_pos hn] at this
      rw [List.getElem?_eq_getElem (by simpa using hS n hn), List.getElem_ofFn]
      simpa using this
  rw [hset, ← Finset.prod_univ_sum]
  have : ∀ i : Fin msg.length, ∑ b ∈ (if (i : ℕ) ∈ S then {e i} else Finset.univ), factor msg p i b
      = if (i : ℕ) ∈ S then factor msg p i (e i) else 1 := by
    intro i
    split_ifs with hi
    · simp
    · exact factor_sum i i.2
  simp only [this]
  rw [← Finset.prod_range (fun i => if i ∈ S then factor msg p i (e i) else 1), Finset.prod_ite_mem]
  congr 1
  ext n
  simp only [Finset.mem_inter, Finset.mem_range]
  exact ⟨fun h => h.2, fun h => ⟨hS n h, h⟩⟩

/-- A wrong bit. -/
theorem Spec.Flips.wrong (h : Flips P msg bits p) {n : ℕ} (hn : n < msg.length) :
    P.real {ω | (bits ω)[n]? ≠ msg[n]?} = p n := by
  have := h.real_subset {n} (by simpa using hn) (fun _ => !msg[n])
  simp only [Finset.mem_singleton, forall_eq, Finset.prod_singleton, factor] at this
  rw [List.getElem?_eq_getElem hn, if_neg (by simp)] at this
  rw [← this]
  congr 1
  ext ω
  have hl := h.length ω
  simp only [Set.mem_ofPred_eq]
  rw [List.getElem?_eq_getElem hn, List.getElem?_eq_getElem (by omega)]
  cases (bits ω)[n]'(by omega) <;> cases msg[n] <;> simp

/-- Two wrong bits. -/
theorem Spec.Flips.wrong2 (h : Flips P msg bits p) {n m : ℕ} (hn : n < msg.length) (hm : m < msg.length) (hnm : n ≠ m) :
    P.real {ω | (bits ω)[n]? ≠ msg[n]? ∧ (bits ω)[m]? ≠ msg[m]?} = p n * p m := by
  have := h.real_subset {n, m} (by simp [hn, hm]) (fun i => !(msg.getD i false))
  rw [Finset.prod_pair hnm] at this
  simp only [Finset.mem_insert, Finset.mem_singleton, forall_eq_or_imp, forall_eq, factor, List.getD_eq_getElem?_getD] at this
  rw [List.getElem?_eq_getElem hn, List.getElem?_eq_getElem hm, if_neg (by simp), if_neg (by simp)] at this
  rw [← this]
  congr 1
  ext ω
  have hl := h.length ω
  simp only [Set.mem_ofPred_eq, Option.getD_some]
  rw [List.getElem?_eq_getElem hn, List.getElem?_eq_getElem (l := bits ω) (i := n) (by omega), List.getElem?_eq_getElem hm,
    List.getElem?_eq_getElem (l := bits ω) (i := m) (by omega)]
  cases (bits ω)[n]'(by omega) <;> cases msg[n] <;> cases (bits ω)[m]'(by omega) <;> cases msg[m] <;> simp

/-- The indicator of a wrong bit. -/
noncomputable def wrongAt (msg : List Bool) (n : ℕ) (l : List Bool) : ℝ := if l[n]? = msg[n]? then 0 else 1

theorem Spec.Flips.wrongAt_mean (h : Flips P msg bits p) {n : ℕ} (hn : n < msg.length) : ∫ ω, wrongAt msg n (bits ω) ∂P = p n := by
  rw [← h.wrong hn]
  have e : (fun ω => wrongAt msg n (bits ω)) = Set.indicator {ω | (bits ω)[n]? ≠ msg[n]?} (fun _ => 1) := by
    funext ω
    by_cases hc : (bits ω)[n]? = msg[n]? <;> simp [Set.indicator, wrongAt, hc]
  rw [e, integral_indicator₀ (h.nullMeas (fun l => l[n]? ≠ msg[n]?))]
  simp [measureReal_def]

/-- The number of wrong bits is binomial. -/
theorem Spec.Flips.binomial {q : ℝ} (h : Flips P msg bits (fun _ => q)) (j : ℕ) :
    P.real {ω | ((List.range msg.length).filter (fun n => (bits ω)[n]? ≠ msg[n]?)).length = j}
      = msg.length.choose j * q ^ j * (1 - q) ^ (msg.length - j) := by
  classical
  rw [h.real (fun l => ((List.range msg.length).filter (fun n => l[n]? ≠ msg[n]?)).length = j), ← Finset.sum_filter]
  set N := msg.length
  let err : (Fin N → Bool) → Finset (Fin N) := fun f => Finset.univ.filter (fun i => f i ≠ msg[i])
  have hcard : ∀ f : Fin N → Bool, ((List.range N).filter (fun n => (List.ofFn f)[n]? ≠ msg[n]?)).length = (err f).card := by
    intro f
    rw [← List.countP_eq_length_filter]
    have : (err f).card = ((List.finRange N).filter (fun i => decide (f i ≠ msg[i]))).length := by
      rw [← List.toFinset_card_of_nodup ((List.nodup_finRange N).filter _)]
      congr 1
      ext i
      simp [err]
    rw [this, ← List.countP_eq_length_filter, ← List.map_coe_finRange_eq_range, List.countP_map]
    apply List.countP_congr
    intro i _
    simp only [Function.comp_apply, decide_eq_true_eq]
    rw [List.getElem?_eq_getElem (by simp), List.getElem_ofFn, List.getElem?_eq_getElem (by exact i.2)]
    simp
  have hprod : ∀ f : Fin N → Bool, ∏ i : Fin N, factor msg (fun _ => q) i (f i) = q ^ (err f).card * (1 - q) ^ (N - (err f).card) := by
    intro f
    have : ∀ i : Fin N, factor msg (fun _ => q) i (f i) = if f i ≠ msg[i] then q else 1 - q := by
      intro i
      unfold factor
      rw [List.getElem?_eq_getElem (by exact i.2)]
      by_cases hc : f i = msg[i]
      · rw [if_pos (by rw [hc]; rfl), if_neg (by simpa using hc)]
      · rw [if_neg (by simpa using hc), if_pos hc]
    simp only [this]
    rw [Finset.prod_ite, Finset.prod_const, Finset.prod_const]
    congr 2
    have := Finset.card_filter_add_card_filter_not (s := (Finset.univ : Finset (Fin N))) (fun i => f i ≠ msg[i])
    rw [Finset.card_univ, Fintype.card_fin] at this
    change (err f).card + _ = N at this
    exact (Nat.sub_eq_of_eq_add (by rw [Nat.add_comm]; exact this.symm)).symm
  simp only [hcard, hprod]
  have hc : ∀ f ∈ Finset.univ.filter (fun f : Fin N → Bool => (err f).card = j), q ^ (err f).card * (1 - q) ^ (N - (err f).card)
      = q ^ j * (1 - q) ^ (N - j) := by
    intro f hf
    rw [(Finset.mem_filter.mp hf).2]
  rw [Finset.sum_congr rfl hc, Finset.sum_const, nsmul_eq_mul, mul_assoc]
  congr 2
  have : (Finset.univ.filter (fun f : Fin N → Bool => (err f).card = j)).card = (Finset.powersetCard j (Finset.univ : Finset (Fin N))).card := by
    refine Finset.card_bij (fun f _ => err f) ?_ ?_ ?_
    · intro f hf
      rw [Finset.mem_powersetCard]
      exact ⟨Finset.subset_univ _, (Finset.mem_filter.mp hf).2⟩
    · intro f _ g _ e
      funext i
      have : i ∈ err f ↔ i ∈ err g := by rw [e]
      simp only [err, Finset.mem_filter, Finset.mem_univ, true_and] at this
      cases h1 : f i <;> cases h2 : g i <;> cases h3 : msg[i] <;> simp [h1, h2, h3] at this ⊢
    · intro S hS
      have he : err (fun i => if i ∈ S then !msg[i] else msg[i]) = S := by
        ext i
        simp only [err, Finset.mem_filter, Finset.mem_univ, true_and]
        by_cases hi : i ∈ S <;> simp [hi]
      refine ⟨fun i => if i ∈ S then !msg[i] else msg[i], ?_, he⟩
      rw [Finset.mem_filter]
      exact ⟨Finset.mem_univ _, by rw [he]; exact (Finset.mem_powersetCard.mp hS).2⟩
  rw [this, Finset.card_powersetCard, Finset.card_univ, Fintype.card_fin]

/-- The strong law: if messages `g 0, …, g (N-1)` of every length go through the same channel with the same noise, the share
of wrong bits tends to `q` with probability one. -/
theorem Spec.Flips.strong_law {g : ℕ → Bool} {rec : ℕ → Ω → List Bool} {q : ℝ}
    (h : ∀ N, Flips P ((List.range N).map g) (rec N) (fun _ => q))
    (hpre : ∀ N n ω, n < N → (rec N ω)[n]? = (rec (n + 1) ω)[n]?) :
    ∀ᵐ ω ∂P, Filter.Tendsto (fun N : ℕ => (∑ n ∈ Finset.range N, wrongAt ((List.range N).map g) n (rec N ω)) / N) Filter.atTop (nhds q) := by
  classical
  let S : ℕ → Set Ω := fun n => {ω | (rec (n + 1) ω)[n]? ≠ some (g n)}
  let X : ℕ → Ω → ℝ := fun n => (S n).indicator (fun _ => 1)
  have hmsg : ∀ N n, n < N → ((List.range N).map g)[n]? = some (g n) := by
    intro N n hn
    rw [List.getElem?_map, List.getElem?_range hn]; rfl
  have hS : ∀ n, NullMeasurableSet (S n) P := fun n => (h (n + 1)).nullMeas (fun l => l[n]? ≠ some (g n))
  have hp : ∀ n, P.real (S n) = q := by
    intro n
    have := (h (n + 1)).wrong (n := n) (by simp)
    rwa [hmsg _ _ (Nat.lt_succ_self n)] at this
  have hp2 : ∀ n m, n ≠ m → P.real (S n ∩ S m) = q * q := by
    intro n m hnm
    have := (h (max n m + 1)).wrong2 (n := n) (m := m) (by simp) (by simp) hnm
    rw [hmsg _ n (by omega), hmsg _ m (by omega)] at this
    rw [← this]
    congr 1
    ext ω
    simp only [S, Set.mem_inter_iff, Set.mem_ofPred_eq]
    rw [hpre _ n ω (by omega : n < max n m + 1), hpre _ m ω (by omega : m < max n m + 1)]
  let T : ℕ → Set Ω := fun n => toMeasurable P (S n)
  have hT : ∀ n, MeasurableSet (T n) := fun n => measurableSet_toMeasurable _ _
  have hTS : ∀ n, T n =ᵐ[P] S n := fun n => (hS n).toMeasurable_ae_eq
  have hTp : ∀ n, P (T n) = ENNReal.ofReal q := fun n => by
    rw [measure_congr (hTS n), ← hp n, ofReal_measureReal]
  have hTp2 : ∀ n m, n ≠ m → P (T n ∩ T m) = P (T n) * P (T m) := fun n m hnm => by
    have hq : 0 ≤ q := by rw [← hp 0]; exact measureReal_nonneg
    rw [measure_congr ((hTS n).inter (hTS m)), hTp, hTp, ← ENNReal.ofReal_mul hq, ← hp2 n m hnm, ofReal_measureReal]
  let X : ℕ → Ω → ℝ := fun n => (T n).indicator (fun _ => 1)
  have hXm : ∀ n, Measurable (X n) := fun n => measurable_const.indicator (hT n)
  have hlaw := strong_law_ae_real (μ := P) X ((integrable_const (μ := P) (1 : ℝ)).indicator (hT 0)) ?_ ?_
  · have hmean : P[X 0] = q := by
      show ∫ ω, (T 0).indicator (fun _ => (1 : ℝ)) ω ∂P = _
      rw [integral_indicator_const _ (hT 0), smul_eq_mul, mul_one, measureReal_congr (hTS 0), hp 0]
    rw [hmean] at hlaw
    have hall : ∀ᵐ ω ∂P, ∀ n, ω ∈ T n ↔ ω ∈ S n := by
      rw [ae_all_iff]
      intro n
      filter_upwards [hTS n] with ω hω
      exact iff_of_eq hω
    filter_upwards [hlaw, hall] with ω hω hω2
    refine hω.congr fun N => ?_
    congr 1
    refine Finset.sum_congr rfl fun n hn => ?_
    have hn := Finset.mem_range.mp hn
    simp only [X, Set.indicator, hω2 n]
    simp only [wrongAt, hmsg N n hn, hpre N n ω hn, S, Set.mem_ofPred_eq]
    by_cases hc : (rec (n + 1) ω)[n]? = some (g n) <;> simp [hc]
  · intro n m hnm
    have hi : IndepSet (T n) (T m) P := (indepSet_iff_measure_inter_eq_mul (hT n) (hT m) P).mpr (hTp2 n m hnm)
    have hle : ∀ k, MeasurableSpace.comap (X k) inferInstance ≤ MeasurableSpace.generateFrom {T k} := by
      intro k
      refine Measurable.comap_le ?_
      exact measurable_const.indicator (MeasurableSpace.measurableSet_generateFrom rfl)
    exact indep_of_indep_of_le_left (indep_of_indep_of_le_right hi (hle m)) (hle n)
  · intro n
    refine ⟨(hXm n).aemeasurable, (hXm 0).aemeasurable, ?_⟩
    ext A hA
    rw [Measure.map_apply (hXm n) hA, Measure.map_apply (hXm 0) hA]
    show P ((T n).indicator (fun _ => (1 : ℝ)) ⁻¹' A) = P ((T 0).indicator (fun _ => (1 : ℝ)) ⁻¹' A)
    rw [Set.indicator_const_preimage_eq_union, Set.indicator_const_preimage_eq_union]
    have hc : P (T n)ᶜ = P (T 0)ᶜ := by rw [prob_compl_eq_one_sub (hT n), prob_compl_eq_one_sub (hT 0), hTp, hTp]
    by_cases h1 : (1 : ℝ) ∈ A <;> by_cases h0 : (0 : ℝ) ∈ A <;> simp [h1, h0, hc, hTp]

omit [IsProbabilityMeasure P] in
theorem Spec.Flips.congr {q : ℕ → ℝ} (h : Flips P msg bits p) (he : ∀ n < msg.length, p n = q n) :
    Flips P msg bits q := by
  refine ⟨h.length, h.event, fun e hl => ?_⟩
  rw [h.pattern e hl]
  exact Finset.prod_congr rfl fun n hn => by rw [he n (Finset.mem_range.mp hn)]

end Verif
