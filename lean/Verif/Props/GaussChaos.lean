import Verif.Lemmas.ChaosNoise
import Verif.Props.GaussRate
import Verif.Props.Chaos

/-!
# Properties C108, C109: bit errors of the chaotic links in white Gaussian noise

Exact arithmetic; the noise is as in C101–C103.
-/
namespace Verif.Props
open Verif Spec MeasureTheory ProbabilityTheory
set_option linter.unusedSectionVars false
variable {ι ν : Type} {Ω : Type} [MeasurableSpace Ω] {P : Measure Ω} {σ : ℝ} {z w : ℕ → Ω → ℝ} [RIter ν ℝ] {noise : Ω → ν}

/-- Value `n` of the chaotic sequence `x ↦ 3.9 x (1 - x)` started from `x`. -/
noncomputable def chaosValue (x : ℝ) (n : ℕ) : ℝ := (fun t : ℝ => 3.9 * t * (1 - t))^[n + 1] x

theorem chaosValue_bounds (n : ℕ) : 0.0950625 ≤ chaosValue 0.1 n ∧ chaosValue 0.1 n ≤ 0.975 := by
  rw [chaosValue, ← orbit_iterate]
  exact orbit_inv (f := logisticMap (3.9 : ℝ)) (x := 0.1) (fun x => 0.0950625 ≤ x ∧ x ≤ 0.975) (by norm_num) (fun a ha => logistic_39 ha) n

theorem chaosValue_ne (n : ℕ) : chaosValue 0.1 n ≠ chaosValue 0.15 n := by
  rw [chaosValue, chaosValue, ← orbit_iterate, ← orbit_iterate]
  exact csk_orbits_ne n

/-! ## C108 DCSK -/

/-- What the chain answers, pair by pair. -/
theorem dcsk_chain (hn : ∀ ω, Drives σ (noise ω) (fun i => w i ω)) [RIter ι Bool] {m : ι} {msg : List Bool} (h : Yields m msg) (ω : Ω) :
    (do
        let s ← txDcsk ℝ m
        let ch ← awgn s σ (noise ω)
        collect (rxDcsk (F := ℝ) ch)) = pure (msg.mapIdx (fun n b => (fun l : List ℝ => decide (0 < l.getD 0 0 * l.getD 1 0))
          ((List.range 2).map (fun j => (if j = 0 then chaosValue 0.1 n else if b then chaosValue 0.1 n else -chaosValue 0.1 n)
            + w (n * 2 + j) ω)))) := by
  have href : LogisticMap.new (Flt.lit 39 1 : ℝ) (Flt.lit 1 1) = pure ⟨3.9, 0.1⟩ := by
    rw [lit39, lit1]; unfold LogisticMap.new; rw [rassert_pos (by simp; norm_num), pure_bind]
  obtain ⟨tx, e1, e2, -⟩ := C45_decision h href (gives_logistic (3.9 : ℝ) 0.1)
  have e3 : Yields tx (wave 2 (fun n b j => if j = 0 then chaosValue 0.1 n else if b then chaosValue 0.1 n else -chaosValue 0.1 n) msg) := by
    refine e2.of_eq ?_
    unfold wave
    congr 1
    apply mapIdx_congr'
    intro n b _
    rw [orbit_iterate, bitToNrz_real]
    cases b <;> simp [List.range_succ, chaosValue]
  obtain ⟨ch, c1, c2⟩ := awgn_driven e3 (hn ω)
  rw [mapIdx_wave] at c2
  have c3 : Yields ch ((msg.mapIdx (fun n b => [chaosValue 0.1 n + w (n * 2) ω,
      (if b then chaosValue 0.1 n else -chaosValue 0.1 n) + w (n * 2 + 1) ω])).flatten) := by
    refine c2.of_eq ?_
    unfold wave
    congr 1
  rw [e1, pure_bind, c1, pure_bind, collect_of_yields (rxDcsk_ok c3), pairs_mapIdx_flatten, map_mapIdx']
  congr 1

/-- DCSK through `awgn`: a memoryless channel; bit `n` is wrong when exactly one of the two samples of its pair changes sign. -/
theorem C108_dcsk (hz : White P 1 z) (hσ : 0 < σ) (hg : ∀ ω, Gives (noise ω) (fun i => z i ω)) [RIter ι Bool] {m : ι}
    {msg : List Bool} (h : Yields m msg) :
    ∃ bits : Ω → List Bool, (∀ ω, (do
        let s ← txDcsk ℝ m
        let ch ← awgn s σ (noise ω)
        collect (rxDcsk (F := ℝ) ch)) = pure (bits ω)) ∧
      Flips P msg bits (fun n => 2 * bitError (chaosValue 0.1 n ^ 2) σ * (1 - bitError (chaosValue 0.1 n ^ 2) σ)) := by
  obtain ⟨w, hw, hn⟩ := hz.driven hg σ
  have hP := hw.prob
  refine ⟨_, dcsk_chain hn h, (wave_memoryless hw.indep (fun i => (hw.law i).aemeasurable) _ (fun _ l => decide (0 < l.getD 0 0 * l.getD 1 0))
    (fun n b => ?_) msg).congr fun n _ => ?_⟩
  · refine measurable_to_bool ?_
    have : (fun z : Fin 2 → ℝ => decide (0 < (List.ofFn (fun j : Fin 2 => (if (j : ℕ) = 0 then chaosValue 0.1 n else if b then chaosValue 0.1 n
          else -chaosValue 0.1 n) + z j)).getD 0 0 * (List.ofFn (fun j : Fin 2 => (if (j : ℕ) = 0 then chaosValue 0.1 n else if b then chaosValue 0.1 n
          else -chaosValue 0.1 n) + z j)).getD 1 0)) ⁻¹' {true}
        = {z | 0 < (chaosValue 0.1 n + z 0) * ((if b then chaosValue 0.1 n else -chaosValue 0.1 n) + z 1)} := by
      ext z
      simp [List.ofFn_succ]
    rw [this]
    exact measurableSet_lt (by fun_prop) (by fun_prop)
  · have hx : 0 < chaosValue 0.1 n := by have := (chaosValue_bounds n).1; linarith
    have hs := hw.same_sign hσ (i := n * 2) (j := n * 2 + 1) (by omega) (chaosValue 0.1 n)
    have n1 : ∀ y : ℝ, NullMeasurableSet {ω | 0 < (chaosValue 0.1 n + w (n * 2) ω) * (y + w (n * 2 + 1) ω)} P := fun y =>
      nullMeasurableSet_lt aemeasurable_const
        ((((hw.law _).aemeasurable).const_add _).mul (((hw.law _).aemeasurable).const_add _))
    generalize msg.getD n false = b
    simp only [List.range_succ, List.range_zero, List.nil_append, List.cons_append, List.map_cons, List.map_nil, List.getD_cons_zero,
      List.getD_cons_succ, if_true, Nat.add_zero, Nat.one_ne_zero, if_false]
    cases b
    · simp only [Bool.false_eq_true, if_false, ne_eq, Bool.not_eq_false, decide_eq_true_eq]
      rw [hs, hw.stay hσ _ hx, hw.turn hσ _ hx]
      ring
    · simp only [if_true, ne_eq, Bool.not_eq_true, decide_eq_false_iff_not]
      have : {ω | ¬ 0 < (chaosValue 0.1 n + w (n * 2) ω) * (chaosValue 0.1 n + w (n * 2 + 1) ω)}
          = {ω | 0 < (chaosValue 0.1 n + w (n * 2) ω) * (chaosValue 0.1 n + w (n * 2 + 1) ω)}ᶜ := rfl
      rw [this, probReal_compl_eq_one_sub₀ (n1 _), hs, hw.stay hσ _ hx, hw.stay hσ _ hx]
      ring

theorem dcsk_mono {q r : ℝ} (h : q ≤ r) (hr : r ≤ 1 / 2) : 2 * q * (1 - q) ≤ 2 * r * (1 - r) := by nlinarith

theorem bitError_anti {E E' σ : ℝ} (hE : 0 < E) (hσ : 0 < σ) (h : E ≤ E') : bitError E' σ ≤ bitError E σ := by
  rcases h.lt_or_eq with h | rfl
  · exact (bitError_lt hE hσ (by rw [div_lt_div_iff_of_pos_right (by positivity)]; exact h)).le
  · exact le_rfl

/-- The chaotic amplitude stays between 0.0950625 and 0.975, so no bit of any message is safer than with the largest amplitude or less
safe than with the smallest, and even that is better than guessing. -/
theorem C108_range (hσ : 0 < σ) (n : ℕ) :
    2 * bitError (0.975 ^ 2) σ * (1 - bitError (0.975 ^ 2) σ) ≤ 2 * bitError (chaosValue 0.1 n ^ 2) σ * (1 - bitError (chaosValue 0.1 n ^ 2) σ) ∧
    2 * bitError (chaosValue 0.1 n ^ 2) σ * (1 - bitError (chaosValue 0.1 n ^ 2) σ)
      ≤ 2 * bitError (0.0950625 ^ 2) σ * (1 - bitError (0.0950625 ^ 2) σ) ∧
    2 * bitError (0.0950625 ^ 2) σ * (1 - bitError (0.0950625 ^ 2) σ) < 1 / 2 := by
  obtain ⟨h1, h2⟩ := chaosValue_bounds n
  have hx : 0 < chaosValue 0.1 n := by linarith
  have hb := bitError_bounds (E := chaosValue 0.1 n ^ 2) (by positivity) hσ
  have hb' := bitError_bounds (E := 0.0950625 ^ 2) (by norm_num) hσ
  refine ⟨dcsk_mono (bitError_anti (by positivity) hσ (by nlinarith)) hb.2.le, dcsk_mono (bitError_anti (by norm_num) hσ (by nlinarith)) hb'.2.le, ?_⟩
  nlinarith [sq_pos_of_pos (by linarith [hb'.2] : 0 < 1 / 2 - bitError (0.0950625 ^ 2) σ)]

/-- Longer and longer messages: the measured rate follows the mean of the error probabilities along the chaotic sequence. -/
theorem C108_limit (hz : White P 1 z) (hσ : 0 < σ) (hg : ∀ ω, Gives (noise ω) (fun i => z i ω)) (g : ℕ → Bool) :
    ∃ bits : ℕ → Ω → List Bool, (∀ N ω, (do
        let s ← txDcsk ℝ (ofList ((List.range N).map g))
        let ch ← awgn s σ (noise ω)
        collect (rxDcsk (F := ℝ) ch)) = pure (bits N ω)) ∧
      ∀ᵐ ω ∂P, Filter.Tendsto (fun N : ℕ => (ber ((List.range N).map g) (bits N ω) : ℝ)
        - (∑ n ∈ Finset.range N, 2 * bitError (chaosValue 0.1 n ^ 2) σ * (1 - bitError (chaosValue 0.1 n ^ 2) σ)) / N) Filter.atTop (nhds 0) := by
  obtain ⟨w, hw, hn⟩ := hz.driven hg σ
  have hP := hw.prob
  have key := fun N => C108_dcsk hz hσ hg (yields_ofList ((List.range N).map g))
  choose bits b1 b2 using key
  refine ⟨bits, b1, ?_⟩
  have := C107_growing b2 (fun N => by simp)
  simpa only [List.length_map, List.length_range] using this

/-! ## C109 CSK -/

/-- What the chain answers, sample by sample. -/
theorem csk_chain (hn : ∀ ω, Drives σ (noise ω) (fun i => w i ω)) [RIter ι Bool] {m : ι} {msg : List Bool} (h : Yields m msg) (ω : Ω) :
    (do
        let s ← txCsk ℝ m
        let ch ← awgn s σ (noise ω)
        let rx ← rxCsk (F := ℝ) ch
        collect rx) = pure (msg.mapIdx (fun n b => (fun n (l : List ℝ) => decide (|l.getD 0 0 - chaosValue 0.1 n| < |l.getD 0 0 - chaosValue 0.15 n|)) n
          ((List.range 1).map (fun j => (fun n (b : Bool) (_ : ℕ) => if b then chaosValue 0.1 n else chaosValue 0.15 n) n b j + w (n * 1 + j) ω)))) := by
  have k0 : Flt.le (0 : ℝ) (Flt.lit 1 1) = true := by rw [lit1]; simp; norm_num
  have k1 : Flt.le (Flt.lit 1 1 : ℝ) 1 = true := by rw [lit1]; simp; norm_num
  have k2 : Flt.le (0 : ℝ) (Flt.lit 15 2) = true := by rw [lit15]; simp; norm_num
  have k3 : Flt.le (Flt.lit 15 2 : ℝ) 1 = true := by rw [lit15]; simp; norm_num
  obtain ⟨tx, e1, e2⟩ := txCsk_ok h k0 k1 k2 k3
  obtain ⟨ch, c1, c2⟩ := awgn_driven e2 (hn ω)
  obtain ⟨rx, r1, r2⟩ := rxCsk_ok c2 k0 k1 k2 k3
  rw [e1, pure_bind, c1, pure_bind, r1, pure_bind, collect_of_yields r2, mapIdx_mapIdx', mapIdx_mapIdx']
  congr 1
  apply mapIdx_congr'
  intro n b _
  rw [lit39, lit1, lit15, orbit_iterate, orbit_iterate, Flt.lt_real, Flt.abs_real, Flt.abs_real]
  simp only [chaosValue, List.range_succ, List.range_zero, List.nil_append, List.map_cons, List.map_nil, List.getD_cons_zero,
    Nat.add_zero, Nat.mul_one]

/-- CSK through `awgn`: a memoryless channel; bit `n` is wrong when the noise passes the middle between the two chaotic values. -/
theorem C109_csk (hz : White P 1 z) (hσ : 0 < σ) (hg : ∀ ω, Gives (noise ω) (fun i => z i ω)) [RIter ι Bool] {m : ι}
    {msg : List Bool} (h : Yields m msg) :
    ∃ bits : Ω → List Bool, (∀ ω, (do
        let s ← txCsk ℝ m
        let ch ← awgn s σ (noise ω)
        let rx ← rxCsk (F := ℝ) ch
        collect rx) = pure (bits ω)) ∧
      Flips P msg bits (fun n => bitError (((chaosValue 0.1 n - chaosValue 0.15 n) / 2) ^ 2) σ) := by
  obtain ⟨w, hw, hn⟩ := hz.driven hg σ
  refine ⟨_, csk_chain hn h, (wave_memoryless (k := 1) hw.indep (fun i => (hw.law i).aemeasurable)
    (fun n b _ => if b then chaosValue 0.1 n else chaosValue 0.15 n)
    (fun n l => decide (|l.getD 0 0 - chaosValue 0.1 n| < |l.getD 0 0 - chaosValue 0.15 n|)) (fun n b => ?_) msg).congr fun n _ => ?_⟩
  · refine measurable_to_bool ?_
    have : (fun z : Fin 1 → ℝ => decide (|(List.ofFn (fun j : Fin 1 => (fun n (b : Bool) (_ : ℕ) => if b then chaosValue 0.1 n else chaosValue 0.15 n) n b j + z j)).getD 0 0 - chaosValue 0.1 n|
        < |(List.ofFn (fun j : Fin 1 => (fun n (b : Bool) (_ : ℕ) => if b then chaosValue 0.1 n else chaosValue 0.15 n) n b j + z j)).getD 0 0 - chaosValue 0.15 n|)) ⁻¹' {true}
        = {z | |(if b then chaosValue 0.1 n else chaosValue 0.15 n) + z 0 - chaosValue 0.1 n|
          < |(if b then chaosValue 0.1 n else chaosValue 0.15 n) + z 0 - chaosValue 0.15 n|} := by
      ext z
      simp
    rw [this]
    exact measurableSet_lt (by fun_prop) (by fun_prop)
  · have hs := hw.nearer hσ n (sub_ne_zero.mpr (chaosValue_ne n))
    generalize msg.getD n false = b
    simp only [List.range_succ, List.range_zero, List.nil_append, List.map_cons, List.map_nil, List.getD_cons_zero,
      Nat.add_zero, Nat.mul_one]
    cases b
    · simp only [Bool.false_eq_true, if_false, ne_eq, Bool.not_eq_false, decide_eq_true_eq]
      rw [← hs.2]
      congr 1
      ext ω
      show |(_ : ℝ)| < |(_ : ℝ)| ↔ |(_ : ℝ)| < |(_ : ℝ)|
      rw [show chaosValue 0.15 n + w n ω - chaosValue 0.1 n = w n ω - (chaosValue 0.1 n - chaosValue 0.15 n) by ring, add_sub_cancel_left]
    · simp only [if_true, ne_eq, Bool.not_eq_true, decide_eq_false_iff_not]
      rw [← hs.1]
      congr 1
      ext ω
      show ¬ |(_ : ℝ)| < |(_ : ℝ)| ↔ ¬ |(_ : ℝ)| < |(_ : ℝ)|
      rw [show chaosValue 0.1 n + w n ω - chaosValue 0.15 n = chaosValue 0.1 n - chaosValue 0.15 n + w n ω by ring, add_sub_cancel_left]

/-- Every bit of every message has an error probability strictly between zero and one half. -/
theorem C109_range (hσ : 0 < σ) (n : ℕ) : 0 < bitError (((chaosValue 0.1 n - chaosValue 0.15 n) / 2) ^ 2) σ ∧
    bitError (((chaosValue 0.1 n - chaosValue 0.15 n) / 2) ^ 2) σ < 1 / 2 :=
  bitError_bounds (sq_pos_of_ne_zero (div_ne_zero (sub_ne_zero.mpr (chaosValue_ne n)) two_ne_zero)) hσ

/-- Longer and longer messages. -/
theorem C109_limit (hz : White P 1 z) (hσ : 0 < σ) (hg : ∀ ω, Gives (noise ω) (fun i => z i ω)) (g : ℕ → Bool) :
    ∃ bits : ℕ → Ω → List Bool, (∀ N ω, (do
        let s ← txCsk ℝ (ofList ((List.range N).map g))
        let ch ← awgn s σ (noise ω)
        let rx ← rxCsk (F := ℝ) ch
        collect rx) = pure (bits N ω)) ∧
      ∀ᵐ ω ∂P, Filter.Tendsto (fun N : ℕ => (ber ((List.range N).map g) (bits N ω) : ℝ)
        - (∑ n ∈ Finset.range N, bitError (((chaosValue 0.1 n - chaosValue 0.15 n) / 2) ^ 2) σ) / N) Filter.atTop (nhds 0) := by
  obtain ⟨w, hw, hn⟩ := hz.driven hg σ
  have hP := hw.prob
  have key := fun N => C109_csk hz hσ hg (yields_ofList ((List.range N).map g))
  choose bits b1 b2 using key
  refine ⟨bits, b1, ?_⟩
  have := C107_growing b2 (fun N => by simp)
  simpa only [List.length_map, List.length_range] using this

/-! ### Cases -/

/-- The first chaotic values are 0.351 and 0.49725. -/
example : chaosValue 0.1 0 = 0.351 ∧ chaosValue 0.15 0 = 0.49725 := by
  constructor <;> norm_num [chaosValue]

example : ∃ bits : (ℕ → ℝ) → List Bool, (∀ ω, (do
        let s ← txDcsk ℝ (ofList [true, false])
        let ch ← awgn s (1 : ℝ) (path ω)
        collect (rxDcsk (F := ℝ) ch)) = pure (bits ω)) ∧
      (gaussPath 1).real {ω | (bits ω)[0]? ≠ some true} = 2 * bitError (0.351 ^ 2) 1 * (1 - bitError (0.351 ^ 2) 1) := by
  have hP := (white_path 1).prob
  obtain ⟨bits, b1, b2⟩ := C108_dcsk (white_path 1) one_pos path_gives (yields_ofList [true, false])
  refine ⟨bits, b1, ?_⟩
  rw [show some true = [true, false][0]? from rfl, C101_bit b2 (by simp), show chaosValue 0.1 0 = 0.351 by norm_num [chaosValue]]

example : ∃ bits : (ℕ → ℝ) → List Bool, (∀ ω, (do
        let s ← txCsk ℝ (ofList [false, true])
        let ch ← awgn s (1 : ℝ) (path ω)
        let rx ← rxCsk (F := ℝ) ch
        collect rx) = pure (bits ω)) ∧
      (gaussPath 1).real {ω | (bits ω)[0]? ≠ some false} = bitError (0.073125 ^ 2) 1 := by
  have hP := (white_path 1).prob
  obtain ⟨bits, b1, b2⟩ := C109_csk (white_path 1) one_pos path_gives (yields_ofList [false, true])
  refine ⟨bits, b1, ?_⟩
  rw [show some false = [false, true][0]? from rfl, C101_bit b2 (by simp)]
  congr 1
  norm_num [chaosValue]

example : ∃ bits : ℕ → (ℕ → ℝ) → List Bool, ∀ᵐ ω ∂(gaussPath 1), Filter.Tendsto (fun N : ℕ => (ber ((List.range N).map (fun i => decide (i % 3 = 0))) (bits N ω) : ℝ)
        - (∑ n ∈ Finset.range N, bitError (((chaosValue 0.1 n - chaosValue 0.15 n) / 2) ^ 2) 1) / N) Filter.atTop (nhds 0) := by
  obtain ⟨bits, -, b2⟩ := C109_limit (white_path 1) one_pos path_gives (fun i => decide (i % 3 = 0))
  exact ⟨bits, b2⟩

end Verif.Props
