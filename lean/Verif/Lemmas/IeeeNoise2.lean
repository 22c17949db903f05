import Verif.Props.IeeeNoise
import Verif.Props.IeeeRx2
/-! White noise through a link in double precision, on a carrier of any energy. -/
namespace Verif
open Spec F64 MeasureTheory ProbabilityTheory
variable {Ω : Type} [MeasurableSpace Ω] {P : Measure Ω} {z : ℕ → Ω → ℝ}

theorem bitError_margin {E q σ : ℝ} (hE : 0 < E) (hq : 0 ≤ q) (hσ : 0 < σ) :
    bitError (q ^ 2 / E) σ = Erfc (q / σ / √(2 * (1 ^ 2 * E))) / 2 := by
  unfold bitError
  congr 2
  rw [Real.sqrt_eq_iff_mul_self_eq (by positivity) (by positivity), ← pow_two, div_pow, Real.sq_sqrt (by positivity)]
  field_simp

omit [MeasurableSpace Ω] in
theorem sided {E σ p : ℝ} {b : Bool} {M : ℕ} {c : ℕ → ℝ} (ω : Ω) (hp : p = proj M c z ω) :
    Props.pm b * (E * Props.pm b + σ * p) = E - σ * proj M (fun i => -Props.pm b * c i) z ω := by
  have e : proj M (fun i => -Props.pm b * c i) z ω = -Props.pm b * proj M c z ω := by
    simp only [proj, Finset.mul_sum]
    exact Finset.sum_congr rfl fun i _ => by ring
  rw [e, hp]
  have := Props.pm_sq b
  linear_combination E * this

theorem sided_energy {M : ℕ} {c : ℕ → ℝ} (b : Bool) :
    ∑ i ∈ Finset.range M, (-Props.pm b * c i) ^ 2 = ∑ i ∈ Finset.range M, c i ^ 2 := by
  refine Finset.sum_congr rfl fun i _ => ?_
  have := Props.pm_sq b
  linear_combination c i ^ 2 * this

/-- The statistic fails to clear the margin `D` on the right side. -/
theorem below_prob (hz : White P 1 z) {σ : ℝ} (hσ : 0 < σ) {M : ℕ} {c : ℕ → ℝ} {E D : ℝ} (hE : 0 < E)
    (hc : ∑ i ∈ Finset.range M, c i ^ 2 = E) (hD : D ≤ E) (b : Bool) :
    P.real {ω | Props.pm b * (E * Props.pm b + σ * proj M c z ω) ≤ D} = bitError ((E - D) ^ 2 / E) σ := by
  have := hz.prob
  have hs := (sided_energy (M := M) (c := c) b).trans hc
  have hsp : 0 < ∑ i ∈ Finset.range M, (-Props.pm b * c i) ^ 2 := by rw [hs]; exact hE
  have hgt := hz.proj_gt one_pos hsp ((E - D) / σ)
  rw [hs] at hgt
  rw [bitError_margin hE (by linarith) hσ, ← hgt]
  apply measureReal_congr
  filter_upwards [hz.proj_ne one_pos hsp ((E - D) / σ)] with ω hω
  refine propext ⟨fun h => ?_, fun h => ?_⟩
  · have h : Props.pm b * (E * Props.pm b + σ * proj M c z ω) ≤ D := h
    rw [sided ω rfl] at h
    refine show _ < _ from lt_of_le_of_ne ?_ (Ne.symm hω)
    rw [div_le_iff₀ hσ]; linarith
  · have h : (E - D) / σ < _ := h
    rw [div_lt_iff₀ hσ] at h
    refine show _ ≤ _ from ?_
    rw [sided ω rfl]; linarith

/-- The statistic clears it on the wrong side. -/
theorem beyond_prob (hz : White P 1 z) {σ : ℝ} (hσ : 0 < σ) {M : ℕ} {c : ℕ → ℝ} {E D : ℝ} (hE : 0 < E)
    (hc : ∑ i ∈ Finset.range M, c i ^ 2 = E) (hD : 0 ≤ D) (b : Bool) :
    P.real {ω | Props.pm b * (E * Props.pm b + σ * proj M c z ω) < -D} = bitError ((E + D) ^ 2 / E) σ := by
  have hs := (sided_energy (M := M) (c := c) b).trans hc
  have hsp : 0 < ∑ i ∈ Finset.range M, (-Props.pm b * c i) ^ 2 := by rw [hs]; exact hE
  have hgt := hz.proj_gt one_pos hsp ((E + D) / σ)
  rw [hs] at hgt
  rw [bitError_margin hE (by linarith) hσ, ← hgt]
  congr 1
  ext ω
  rw [Set.mem_ofPred_eq, Set.mem_ofPred_eq, sided ω rfl, div_lt_iff₀ hσ]
  constructor <;> intro h <;> linarith

namespace Props

/-- From the margins of the decisions to the error rate of every bit and of the message. -/
theorem margins_core (hz : White P 1 z) {Z σ : ℝ} (hZ : 0 ≤ Z) (hσ : 0 < σ) {T : ℕ} {M : ℕ → ℕ} {link : Ω → RM (List Bool)} {msg : List Bool}
    {c : ℕ → ℕ → ℝ} {E : ℕ → ℝ} {D : ℝ} (hD : 0 ≤ D) (hE : ∀ n < msg.length, 0 < E n ∧ D ≤ E n)
    (hc : ∀ n < msg.length, ∑ i ∈ Finset.range (M n), c n i ^ 2 = E n)
    (h : ∀ ω, (∀ j < T, |z j ω| ≤ Z) → ∃ x : ℕ → Bool, link ω = pure ((List.range msg.length).map x) ∧ ∀ n < msg.length,
      (D < |E n * pm (msg.getD n false) + σ * proj (M n) (c n) z ω| →
        x n = decide (0 < E n * pm (msg.getD n false) + σ * proj (M n) (c n) z ω))) :
    (∀ n < msg.length,
      P.real {ω | ¬ Right (link ω) msg n} ≤ bitError ((E n - D) ^ 2 / E n) σ + T * Real.exp (-Z ^ 2 / 2) ∧
      bitError ((E n + D) ^ 2 / E n) σ ≤ P.real {ω | Wrong (link ω) msg n} + T * Real.exp (-Z ^ 2 / 2)) ∧
    P.real {ω | link ω ≠ pure msg} ≤ ∑ n ∈ Finset.range msg.length, bitError ((E n - D) ^ 2 / E n) σ + T * Real.exp (-Z ^ 2 / 2) := by
  have := hz.prob
  have hfar := white_far hz hZ T
  have hb : ∀ n < msg.length, msg[n]? = some (msg.getD n false) := by
    intro n hn
    rw [List.getD_eq_getElem?_getD, List.getElem?_eq_getElem hn, Option.getD_some]
  have hright : ∀ (b x : Bool) (X : ℝ), D < pm b * X → (D < |X| → x = decide (0 < X)) → x = b := by
    intro b x X hm hx
    cases b
    · simp only [pm, Bool.false_eq_true, if_false] at hm
      rw [hx (lt_abs.mpr (.inr (by linarith)))]
      exact decide_eq_false (by linarith)
    · simp only [pm, if_true] at hm
      rw [hx (lt_abs.mpr (.inl (by linarith)))]
      exact decide_eq_true (by linarith)
  have hwrong : ∀ (b x : Bool) (X : ℝ), pm b * X < -D → (D < |X| → x = decide (0 < X)) → x ≠ b := by
    intro b x X hm hx
    cases b
    · simp only [pm, Bool.false_eq_true, if_false] at hm
      rw [hx (lt_abs.mpr (.inl (by linarith))), decide_eq_true (by linarith : 0 < X)]
      decide
    · simp only [pm, if_true] at hm
      rw [hx (lt_abs.mpr (.inr (by linarith))), decide_eq_false (by linarith : ¬ 0 < X)]
      decide
  refine ⟨fun n hn => ⟨?_, ?_⟩, ?_⟩
  · rw [← below_prob hz hσ (hE n hn).1 (hc n hn) (hE n hn).2 (msg.getD n false)]
    refine le_trans ((measureReal_mono ?_ (measure_ne_top _ _)).trans (measureReal_union_le _ {ω | ∀ j < T, |z j ω| ≤ Z}ᶜ))
      (add_le_add_right hfar _)
    intro ω hω
    by_cases hG : ∀ j < T, |z j ω| ≤ Z
    · left
      by_contra hlt
      obtain ⟨x, l1, l2⟩ := h ω hG
      refine hω ⟨_, l1, by simp, ?_⟩
      rw [hb n hn, List.getElem?_map, List.getElem?_range hn]
      exact congrArg some (hright _ _ _ (not_le.mp hlt) (l2 n hn))
    · exact .inr hG
  · rw [← beyond_prob hz hσ (hE n hn).1 (hc n hn) hD (msg.getD n false)]
    refine le_trans ((measureReal_mono ?_ (measure_ne_top _ _)).trans (measureReal_union_le {ω | Wrong (link ω) msg n} {ω | ∀ j < T, |z j ω| ≤ Z}ᶜ))
      (add_le_add_right hfar _)
    intro ω hω
    by_cases hG : ∀ j < T, |z j ω| ≤ Z
    · left
      obtain ⟨x, l1, l2⟩ := h ω hG
      refine ⟨_, l1, by simp, ?_⟩
      rw [hb n hn, List.getElem?_map, List.getElem?_range hn]
      exact fun he => hwrong _ _ _ hω (l2 n hn) (Option.some.inj he)
    · exact .inr hG
  · have hsum : ∑ n ∈ Finset.range msg.length, bitError ((E n - D) ^ 2 / E n) σ
        = ∑ n ∈ Finset.range msg.length,
          P.real {ω | pm (msg.getD n false) * (E n * pm (msg.getD n false) + σ * proj (M n) (c n) z ω) ≤ D} := by
      refine Finset.sum_congr rfl fun n hn => ?_
      have hn := Finset.mem_range.mp hn
      rw [below_prob hz hσ (hE n hn).1 (hc n hn) (hE n hn).2]
    rw [hsum]
    refine le_trans ((measureReal_mono ?_ (measure_ne_top _ _)).trans (measureReal_union_le
      (⋃ n ∈ Finset.range msg.length, {ω | pm (msg.getD n false) * (E n * pm (msg.getD n false) + σ * proj (M n) (c n) z ω) ≤ D})
      {ω | ∀ j < T, |z j ω| ≤ Z}ᶜ)) (add_le_add (measureReal_biUnion_finset_le _ _) hfar)
    intro ω hω
    by_cases hG : ∀ j < T, |z j ω| ≤ Z
    · left
      by_contra hlt
      obtain ⟨x, l1, l2⟩ := h ω hG
      apply hω
      rw [l1]
      congr 1
      refine List.ext_getElem (by simp) fun n hn1 hn2 => ?_
      rw [List.getElem_map, List.getElem_range]
      have e := hb n hn2
      rw [List.getElem?_eq_getElem hn2, Option.some.injEq] at e
      rw [e]
      refine hright _ _ _ (not_le.mp fun hle => hlt ?_) (l2 n hn2)
      exact Set.mem_biUnion (Finset.mem_coe.mpr (Finset.mem_range.mpr hn2)) hle
    · exact .inr hG
end Props
end Verif
