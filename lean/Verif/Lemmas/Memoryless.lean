import Mathlib.Probability.Independence.Basic
import Verif.Spec.Gauss

/-! # A receiver that decides symbol by symbol makes independent errors in independent noise -/
namespace Verif
open Spec MeasureTheory ProbabilityTheory

variable {Ω : Type} [MeasurableSpace Ω] {P : Measure Ω} {w : ℕ → Ω → ℝ}

/-- The noise of symbol `n`. -/
def noiseBlock (k : ℕ) (w : ℕ → Ω → ℝ) (n : ℕ) (ω : Ω) : Fin k → ℝ := fun j => w (n * k + j) ω

/-- A tuple indexed by a finite set, continued by zeros. -/
noncomputable def extendZero (S : Finset ℕ) (x : S → ℝ) (i : ℕ) : ℝ := if h : i ∈ S then x ⟨i, h⟩ else 0

theorem extendZero_meas (S : Finset ℕ) (i : ℕ) : Measurable (fun x : S → ℝ => extendZero S x i) := by
  unfold extendZero
  split_ifs
  · exact measurable_pi_apply _
  · exact measurable_const

theorem extendZero_mem {S : Finset ℕ} {i : ℕ} (h : i ∈ S) (f : ℕ → ℝ) : extendZero S (fun i => f i) i = f i := dif_pos h

theorem block_prod (hi : iIndepFun w P) (hm : ∀ i, AEMeasurable (w i) P) {k : ℕ} (S : ℕ → Set (Fin k → ℝ))
    (hS : ∀ n, MeasurableSet (S n)) (N : ℕ) :
    P {ω | ∀ n < N, noiseBlock k w n ω ∈ S n} = ∏ n ∈ Finset.range N, P {ω | noiseBlock k w n ω ∈ S n} := by
  have := hi.isProbabilityMeasure
  induction N with
  | zero => simp
  | succ N ih =>
    rw [Finset.prod_range_succ, ← ih]
    let A : Finset ℕ := Finset.range (N * k)
    let B : Finset ℕ := Finset.Ico (N * k) (N * k + k)
    have hAB : Disjoint A B := by
      rw [Finset.disjoint_left]
      intro i h1 h2
      have := Finset.mem_range.mp h1
      have := (Finset.mem_Ico.mp h2).1
      omega
    have hind := hi.indepFun_finset₀ A B hAB hm
    let SA : Set (A → ℝ) := {x | ∀ n < N, (fun j : Fin k => extendZero A x (n * k + j)) ∈ S n}
    let SB : Set (B → ℝ) := {x | (fun j : Fin k => extendZero B x (N * k + j)) ∈ S N}
    have mA : MeasurableSet SA := by
      have : SA = ⋂ n : Fin N, (fun (x : A → ℝ) (j : Fin k) => extendZero A x (n * k + j)) ⁻¹' S n := by
        ext x
        simp only [SA, Set.mem_iInter, Set.mem_preimage, Set.mem_ofPred_eq]
        exact ⟨fun h n => h n n.2, fun h n hn => h ⟨n, hn⟩⟩
      rw [this]
      exact MeasurableSet.iInter fun n => (measurable_pi_lambda _ fun j => extendZero_meas A _) (hS n)
    have mB : MeasurableSet SB := (measurable_pi_lambda _ fun j => extendZero_meas B _) (hS N)
    have eA : ∀ n < N, ∀ ω, (fun j : Fin k => extendZero A (fun i => w i ω) (n * k + j)) = noiseBlock k w n ω := by
      intro n hn ω
      funext j
      refine extendZero_mem (f := fun i => w i ω) (Finset.mem_range.mpr ?_)
      have : (n + 1) * k ≤ N * k := Nat.mul_le_mul_right _ hn
      rw [Nat.add_mul] at this
      omega
    have eB : ∀ ω, (fun j : Fin k => extendZero B (fun i => w i ω) (N * k + j)) = noiseBlock k w N ω := by
      intro ω
      funext j
      exact extendZero_mem (f := fun i => w i ω) (Finset.mem_Ico.mpr ⟨by omega, by omega⟩)
    have h1 : {ω | ∀ n < N, noiseBlock k w n ω ∈ S n} = (fun ω (i : A) => w i ω) ⁻¹' SA := by
      ext ω
      simp only [SA, Set.mem_preimage, Set.mem_ofPred_eq]
      exact forall₂_congr fun n hn => by rw [eA n hn]
    have h2 : {ω | noiseBlock k w N ω ∈ S N} = (fun ω (i : B) => w i ω) ⁻¹' SB := by
      ext ω
      simp only [SB, Set.mem_preimage, Set.mem_ofPred_eq]
      rw [eB]
    have h3 : {ω | ∀ n < N + 1, noiseBlock k w n ω ∈ S n} = {ω | ∀ n < N, noiseBlock k w n ω ∈ S n} ∩ {ω | noiseBlock k w N ω ∈ S N} := by
      ext ω
      simp only [Set.mem_inter_iff, Set.mem_ofPred_eq]
      refine ⟨fun h => ⟨fun n hn => h n (by omega), h N (by omega)⟩, fun h n hn => ?_⟩
      rcases Nat.lt_succ_iff_lt_or_eq.mp hn with h4 | rfl
      · exact h.1 n h4
      · exact h.2
    rw [h3, h1, h2]
    exact hind.measure_inter_preimage_eq_mul _ _ mA mB

theorem noiseBlock_meas (hm : ∀ i, AEMeasurable (w i) P) (k n : ℕ) : AEMeasurable (noiseBlock k w n) P :=
  aemeasurable_pi_lambda _ fun _ => hm _

/-- The channel: bit `n` is decided by the noise of symbol `n` alone. -/
theorem memoryless (hi : iIndepFun w P) (hm : ∀ i, AEMeasurable (w i) P) {k : ℕ} {msg : List Bool} {bits : Ω → List Bool}
    (D : ℕ → (Fin k → ℝ) → Bool) (hD : ∀ n, Measurable (D n)) (hlen : ∀ ω, (bits ω).length = msg.length)
    (hbits : ∀ ω n, n < msg.length → (bits ω)[n]? = some (D n (noiseBlock k w n ω))) :
    Flips P msg bits (fun n => P.real {ω | D n (noiseBlock k w n ω) ≠ msg.getD n false}) := by
  have := hi.isProbabilityMeasure
  have hev : ∀ e : List Bool, e.length = msg.length →
      {ω | bits ω = e} = {ω | ∀ n < msg.length, noiseBlock k w n ω ∈ D n ⁻¹' {e.getD n false}} := by
    intro e he
    ext ω
    simp only [Set.mem_ofPred_eq, Set.mem_preimage, Set.mem_singleton_iff]
    have hd : ∀ n < msg.length, e[n]? = some (e.getD n false) := fun n hn => by
      rw [List.getD_eq_getElem?_getD, List.getElem?_eq_getElem (by omega)]; rfl
    constructor
    · rintro rfl n hn
      have := hbits ω n hn
      rw [hd n hn, Option.some.injEq] at this
      exact this.symm
    · intro h
      apply List.ext_getElem?
      intro n
      by_cases hn : n < msg.length
      · rw [hbits ω n hn, hd n hn, h n hn]
      · rw [List.getElem?_eq_none (by rw [hlen]; omega), List.getElem?_eq_none (by omega)]
  have hms : ∀ n b, MeasurableSet (D n ⁻¹' {b}) := fun n b => hD n (measurableSet_singleton b)
  refine ⟨hlen, fun e => ?_, fun e he => ?_⟩
  · by_cases he : e.length = msg.length
    · rw [hev e he]
      have : {ω | ∀ n < msg.length, noiseBlock k w n ω ∈ D n ⁻¹' {e.getD n false}}
          = ⋂ n : Fin msg.length, noiseBlock k w n ⁻¹' (D n ⁻¹' {e.getD n false}) := by
        ext ω
        simp only [Set.mem_iInter, Set.mem_preimage, Set.mem_ofPred_eq]
        exact ⟨fun h n => h n n.2, fun h n hn => h ⟨n, hn⟩⟩
      rw [this]
      exact NullMeasurableSet.iInter fun n => (noiseBlock_meas hm k n).nullMeasurable (hms _ _)
    · have : {ω | bits ω = e} = ∅ := by
        ext ω
        simp only [Set.mem_ofPred_eq, Set.mem_empty_iff_false, iff_false]
        intro h; exact he (by rw [← h, hlen])
      rw [this]; exact MeasurableSet.empty.nullMeasurableSet
  · rw [hev e he, measureReal_def, block_prod hi hm (fun n => D n ⁻¹' {e.getD n false}) (fun n => hms _ _), ENNReal.toReal_prod]
    refine Finset.prod_congr rfl fun n hn => ?_
    have hn := Finset.mem_range.mp hn
    have hd : e[n]? = some (e.getD n false) := by
      rw [List.getD_eq_getElem?_getD, List.getElem?_eq_getElem (by omega)]; rfl
    have hd' : msg[n]? = some (msg.getD n false) := by
      rw [List.getD_eq_getElem?_getD, List.getElem?_eq_getElem hn]; rfl
    rw [hd, hd', ← measureReal_def]
    have hset : ∀ b, {ω | noiseBlock k w n ω ∈ D n ⁻¹' {b}} = {ω | D n (noiseBlock k w n ω) = b} := fun b => rfl
    rw [hset]
    by_cases hb : e.getD n false = msg.getD n false
    · rw [if_pos (by rw [hb]), hb]
      have hc : {ω | D n (noiseBlock k w n ω) ≠ msg.getD n false} = {ω | D n (noiseBlock k w n ω) = msg.getD n false}ᶜ := rfl
      have hnm : NullMeasurableSet {ω | D n (noiseBlock k w n ω) = msg.getD n false} P :=
        (noiseBlock_meas hm k n).nullMeasurable (hms n (msg.getD n false))
      rw [hc, probReal_compl_eq_one_sub₀ hnm]
      ring
    · rw [if_neg (by simpa using hb)]
      congr 1
      ext ω
      simp only [Set.mem_ofPred_eq]
      revert hb
      cases e.getD n false <;> cases msg.getD n false <;> cases D n (noiseBlock k w n ω) <;> simp

end Verif
