import Verif.Lemmas.Hoeffding
import Verif.Props.GaussFsk

/-!
# Property C107: how far a measured bit error rate can be from the true one

For every chain shown to be a memoryless channel (C101–C103, C106, C108, C109), whatever its error probabilities.
-/
namespace Verif.Props
open Verif Spec MeasureTheory ProbabilityTheory
set_option linter.unusedSectionVars false
variable {Ω : Type} [MeasurableSpace Ω] {P : Measure Ω} [IsProbabilityMeasure P]

/-- The chance that the measured rate is off by `ε` or more is at most `2 exp(-2 N ε²)` for a message of `N` bits. -/
theorem C107_deviation {msg : List Bool} {bits : Ω → List Bool} {p : ℕ → ℝ} (h : Flips P msg bits p) (hne : msg ≠ []) {ε : ℝ} (hε : 0 ≤ ε) :
    P.real {ω | ε ≤ |(ber msg (bits ω) : ℝ) - (∑ n ∈ Finset.range msg.length, p n) / msg.length|}
      ≤ 2 * Real.exp (-2 * msg.length * ε ^ 2) := by
  simp only [fun ω => ber_wrongAt (h.length ω)]
  exact h.hoeffding hne hε

/-- So `ln(2/δ)/(2ε²)` bits are enough for the measured rate to be within `ε` except with probability `δ`. -/
theorem C107_enough {msg : List Bool} {bits : Ω → List Bool} {p : ℕ → ℝ} (h : Flips P msg bits p) (hne : msg ≠ []) {ε δ : ℝ} (hε : 0 < ε)
    (hδ : 0 < δ) (hN : Real.log (2 / δ) / (2 * ε ^ 2) ≤ msg.length) :
    P.real {ω | ε ≤ |(ber msg (bits ω) : ℝ) - (∑ n ∈ Finset.range msg.length, p n) / msg.length|} ≤ δ := by
  refine (C107_deviation h hne hε.le).trans ?_
  rw [div_le_iff₀ (by positivity)] at hN
  have : Real.exp (-2 * msg.length * ε ^ 2) ≤ Real.exp (-Real.log (2 / δ)) := Real.exp_le_exp.mpr (by linarith)
  rw [Real.exp_neg, Real.exp_log (by positivity)] at this
  calc _ ≤ 2 * (2 / δ)⁻¹ := by linarith
    _ = δ := by field_simp

/-- Messages of growing length through any noises on one space: measured rate and mean rate come together almost surely. -/
theorem C107_growing {m : ℕ → List Bool} {b : ℕ → Ω → List Bool} {q : ℕ → ℕ → ℝ} (h : ∀ N, Flips P (m N) (b N) (q N))
    (hm : ∀ N, N ≤ (m N).length) :
    ∀ᵐ ω ∂P, Filter.Tendsto (fun N : ℕ => (ber (m N) (b N ω) : ℝ) - (∑ n ∈ Finset.range (m N).length, q N n) / (m N).length)
      Filter.atTop (nhds 0) := by
  filter_upwards [Flips.growing h hm] with ω hω
  refine hω.congr fun N => ?_
  rw [ber_wrongAt ((h N).length ω)]

/-- Two hundred bits of frequency shift keying in noise of standard deviation 4: the measured rate is within 0.2 of
`exp(-5/4)/2` except with probability `2 exp(-16)`. -/
example : ∃ bits : (ℕ → ℝ) → List Bool, (∀ ω, (do
        let s ← txFsk (ofList (List.replicate 200 true)) 160000 1000 (20000 : ℝ)
        let ch ← awgn s (4 : ℝ) (path ω)
        let rx ← rxFsk ch 160000 1000 (20000 : ℝ)
        collect rx) = pure (bits ω)) ∧
      (gaussPath 1).real {ω | 1 / 5 ≤ |(ber (List.replicate 200 true) (bits ω) : ℝ) - Real.exp (-(5 / 4)) / 2|} ≤ 2 * Real.exp (-16) := by
  have hP := (white_path 1).prob
  obtain ⟨bits, b1, b2⟩ := C106_fsk (σ := 4) (white_path 1) (by norm_num) path_gives (yields_ofList (List.replicate 200 true)) (fs := 160000)
    (sym := 1000) (c := 1) (by norm_num) one_pos (by norm_num) (by norm_num)
  refine ⟨bits, by simpa using b1, ?_⟩
  have := C107_deviation b2 (by simp) (ε := 1 / 5) (by norm_num)
  have e : (∑ n ∈ Finset.range (List.replicate 200 true).length, envelopeError ((160000 / 1000 : ℕ) / 2) 4) / (List.replicate 200 true).length
      = Real.exp (-(5 / 4)) / 2 := by
    rw [Finset.sum_const, Finset.card_range, nsmul_eq_mul, List.length_replicate, mul_div_cancel_left₀ _ (by norm_num), envelopeError]
    norm_num
  rw [e] at this
  refine this.trans (le_of_eq ?_)
  rw [List.length_replicate]
  norm_num

/-- A thousand bits settle the rate to within 0.05 with probability 98 in a hundred (`ln 100 < 5`). -/
example {msg : List Bool} (hl : msg.length = 1000) {bits : Ω → List Bool} {p : ℕ → ℝ} (h : Flips P msg bits p) :
    P.real {ω | 1 / 20 ≤ |(ber msg (bits ω) : ℝ) - (∑ n ∈ Finset.range msg.length, p n) / msg.length|} ≤ 2 / 100 := by
  refine C107_enough h (by rintro rfl; simp at hl) (by norm_num) (by norm_num) ?_
  rw [hl, div_le_iff₀ (by norm_num), Real.log_le_iff_le_exp (by norm_num)]
  have h1 : (2.7 : ℝ) ^ 5 ≤ Real.exp 1 ^ 5 := pow_le_pow_left₀ (by norm_num) (by have := Real.exp_one_gt_d9; linarith) 5
  rw [← Real.exp_nat_mul] at h1
  norm_num at h1 ⊢
  linarith

end Verif.Props
