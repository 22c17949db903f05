import Verif.Lemmas.ChaosNoise
import Verif.Lemmas.IeeeNoise2
import Verif.Props.ChaosRx

/-! # Helpers for the chaotic links in noise, in double precision -/
namespace Verif
open Spec MeasureTheory ProbabilityTheory F64 Props

variable {Ω : Type} [MeasurableSpace Ω] {P : Measure Ω} {σ : ℝ} {w : ℕ → Ω → ℝ}

/-- An amplitude in noise stays above a level. -/
theorem up_pm (h : White P σ w) (hσ : 0 < σ) (i : ℕ) {c D : ℝ} (hD : D < c) (b : Bool) :
    P.real {ω | D < c + pm b * w i ω} = 1 - bitError ((c - D) ^ 2) σ := by
  cases b
  · have e : {ω | D < c + pm false * w i ω} = {ω | w i ω < c - D} := by
      ext ω; show D < c + pm false * w i ω ↔ w i ω < c - D
      simp only [pm, Bool.false_eq_true, if_false]; constructor <;> intro h <;> linarith
    rw [e, h.lt hσ, neg_div, Erfc_neg, bitError_sq, abs_of_pos (by linarith)]; ring
  · have e : {ω | D < c + pm true * w i ω} = {ω | 0 < (c - D) + w i ω} := by
      ext ω; show D < c + pm true * w i ω ↔ 0 < (c - D) + w i ω
      simp only [pm, if_true]; constructor <;> intro h <;> linarith
    rw [e, h.stay hσ i (by linarith)]

/-- An amplitude in noise falls below a negative level. -/
theorem down_pm (h : White P σ w) (hσ : 0 < σ) (i : ℕ) {c D : ℝ} (hD : 0 < c + D) (b : Bool) :
    P.real {ω | c + pm b * w i ω < -D} = bitError ((c + D) ^ 2) σ := by
  cases b
  · have e : {ω | c + pm false * w i ω < -D} = {ω | 0 < -(c + D) + w i ω} := by
      ext ω; show c + pm false * w i ω < -D ↔ 0 < -(c + D) + w i ω
      simp only [pm, Bool.false_eq_true, if_false]; constructor <;> intro h <;> linarith
    rw [e, h.turn hσ i hD]
  · have e : {ω | c + pm true * w i ω < -D} = {ω | w i ω < -(c + D)} := by
      ext ω; show c + pm true * w i ω < -D ↔ w i ω < -(c + D)
      simp only [pm, if_true]; constructor <;> intro h <;> linarith
    rw [e, h.lt hσ, neg_neg, bitError_sq, abs_of_pos hD]

/-- Two amplitudes in independent noise, read by the sign of their product with a margin. -/
theorem pair_core (h : White P σ w) (hσ : 0 < σ) {i j : ℕ} (hij : i ≠ j) {c D : ℝ} (hD0 : 0 ≤ D) (hD : D < c) (b : Bool) {G W V : Set Ω}
    (hW : ∀ ω ∈ G, (D < c + pm true * w i ω ∧ D < c + pm b * w j ω) ∨ (c + pm true * w i ω < -D ∧ c + pm b * w j ω < -D) → ω ∉ W)
    (hV : ∀ ω ∈ G, (D < c + pm true * w i ω ∧ c + pm b * w j ω < -D) ∨ (c + pm true * w i ω < -D ∧ D < c + pm b * w j ω) → ω ∈ V) :
    P.real W ≤ 1 - ((1 - bitError ((c - D) ^ 2) σ) ^ 2 + bitError ((c + D) ^ 2) σ ^ 2) + P.real Gᶜ ∧
    2 * bitError ((c + D) ^ 2) σ * (1 - bitError ((c - D) ^ 2) σ) ≤ P.real V + P.real Gᶜ := by
  have hP := h.prob
  have hae : ∀ i, AEMeasurable (w i) P := fun i => (h.law i).aemeasurable
  have hi := h.indep.indepFun hij
  have m1 : ∀ b, MeasurableSet {t : ℝ | D < c + pm b * t} := fun b => measurableSet_lt (by fun_prop) (by fun_prop)
  have m2 : ∀ b, MeasurableSet {t : ℝ | c + pm b * t < -D} := fun b => measurableSet_lt (by fun_prop) (by fun_prop)
  have n1 : ∀ i b, NullMeasurableSet {ω | D < c + pm b * w i ω} P := fun i b => (hae i).nullMeasurableSet_preimage (m1 b)
  have n2 : ∀ i b, NullMeasurableSet {ω | c + pm b * w i ω < -D} P := fun i b => (hae i).nullMeasurableSet_preimage (m2 b)
  have e : ∀ A B : Set ℝ, MeasurableSet A → MeasurableSet B → P.real (w i ⁻¹' A ∩ w j ⁻¹' B) = P.real (w i ⁻¹' A) * P.real (w j ⁻¹' B) := by
    intro A B hA hB
    have := hi.measure_inter_preimage_eq_mul _ _ hA hB
    rw [measureReal_def, measureReal_def, measureReal_def, ← ENNReal.toReal_mul]
    exact congrArg ENNReal.toReal this
  have u := fun i b => up_pm h hσ i hD b
  have d := fun i b => down_pm h hσ i (by linarith : 0 < c + D) b
  have e11 := (e _ _ (m1 true) (m1 b)).trans (congrArg₂ (· * ·) (u i true) (u j b))
  have e22 := (e _ _ (m2 true) (m2 b)).trans (congrArg₂ (· * ·) (d i true) (d j b))
  have e12 := (e _ _ (m1 true) (m2 b)).trans (congrArg₂ (· * ·) (u i true) (d j b))
  have e21 := (e _ _ (m2 true) (m1 b)).trans (congrArg₂ (· * ·) (d i true) (u j b))
  have hdis : ∀ X Y : Set Ω, Disjoint ({ω | D < c + pm true * w i ω} ∩ X) ({ω | c + pm true * w i ω < -D} ∩ Y) := fun X Y =>
    Set.disjoint_left.mpr fun ω h1 h2 => by
      have a1 : D < c + pm true * w i ω := h1.1
      have a2 : c + pm true * w i ω < -D := h2.1
      linarith
  have q1 := measureReal_union₀ (μ := P) ((n2 i true).inter (n2 j b)) (hdis {ω | D < c + pm b * w j ω} {ω | c + pm b * w j ω < -D}).aedisjoint
  have q2 := measureReal_union₀ (μ := P) ((n2 i true).inter (n1 j b)) (hdis {ω | c + pm b * w j ω < -D} {ω | D < c + pm b * w j ω}).aedisjoint
  constructor
  · have hsub : W ⊆ (({ω | D < c + pm true * w i ω} ∩ {ω | D < c + pm b * w j ω}) ∪
        ({ω | c + pm true * w i ω < -D} ∩ {ω | c + pm b * w j ω < -D}))ᶜ ∪ Gᶜ := by
      intro ω hw
      by_cases hg : ω ∈ G
      · left
        intro hq
        exact hW ω hg hq hw
      · exact Or.inr hg
    refine (measureReal_mono hsub).trans ((measureReal_union_le _ _).trans ?_)
    refine add_le_add_left (le_of_eq ?_) _
    rw [probReal_compl_eq_one_sub₀ (((n1 i true).inter (n1 j b)).union ((n2 i true).inter (n2 j b))), q1]
    refine congrArg (1 - ·) ((congrArg₂ (· + ·) e11 e22).trans ?_)
    ring
  · have hsub : (({ω | D < c + pm true * w i ω} ∩ {ω | c + pm b * w j ω < -D}) ∪
        ({ω | c + pm true * w i ω < -D} ∩ {ω | D < c + pm b * w j ω})) ⊆ V ∪ Gᶜ := by
      intro ω hq
      by_cases hg : ω ∈ G
      · exact Or.inl (hV ω hg hq)
      · exact Or.inr hg
    have hle := (measureReal_mono (μ := P) hsub).trans (measureReal_union_le _ _)
    rw [q2] at hle
    refine le_trans (le_of_eq ?_) hle
    refine Eq.symm ((congrArg₂ (· + ·) e12 e21).trans ?_)
    ring

/-- One amplitude, read with a margin. -/
theorem single_core (h : White P σ w) (hσ : 0 < σ) (i : ℕ) {c D : ℝ} (hD0 : 0 ≤ D) (hD : D < c) (b : Bool) {G W V : Set Ω}
    (hW : ∀ ω ∈ G, D < c + pm b * w i ω → ω ∉ W) (hV : ∀ ω ∈ G, c + pm b * w i ω < -D → ω ∈ V) :
    P.real W ≤ bitError ((c - D) ^ 2) σ + P.real Gᶜ ∧ bitError ((c + D) ^ 2) σ ≤ P.real V + P.real Gᶜ := by
  have hP := h.prob
  have hae : ∀ i, AEMeasurable (w i) P := fun i => (h.law i).aemeasurable
  have n1 : NullMeasurableSet {ω | D < c + pm b * w i ω} P :=
    (hae i).nullMeasurableSet_preimage (measurableSet_lt (by fun_prop) (by fun_prop) : MeasurableSet {t : ℝ | D < c + pm b * t})
  constructor
  · have hsub : W ⊆ {ω | D < c + pm b * w i ω}ᶜ ∪ Gᶜ := by
      intro ω hw
      by_cases hg : ω ∈ G
      · exact Or.inl fun hq => hW ω hg hq hw
      · exact Or.inr hg
    refine (measureReal_mono hsub).trans ((measureReal_union_le _ _).trans ?_)
    rw [probReal_compl_eq_one_sub₀ n1, up_pm h hσ i hD b]
    linarith
  · have hsub : {ω | c + pm b * w i ω < -D} ⊆ V ∪ Gᶜ := by
      intro ω hq
      by_cases hg : ω ∈ G
      · exact Or.inl (hV ω hg hq)
      · exact Or.inr hg
    have hle := (measureReal_mono (μ := P) hsub).trans (measureReal_union_le _ _)
    rwa [down_pm h hσ i (by linarith) b] at hle

/-- The sign of a product of two doubles that are not too close to zero. -/
theorem product_sign {x y : Float} {r s e D : ℝ} (hx : Ap x r e) (hy : Ap y s e) (he : e + 1 / 2 ^ 48 ≤ D) (h1 : D < |r|) (h2 : D < |s|)
    (hr : |r| + e ≤ 2 ^ 400) (hs : |s| + e ≤ 2 ^ 400) : Flt.lt 0 (x * y) = decide (0 < r * s) := by
  have key : ∀ {t : Float} {u : ℝ}, Ap t u e → D < |u| → |u| + e ≤ 2 ^ 400 →
      (0 < u ∧ 1 / 2 ^ 48 ≤ val t ∧ val t ≤ 2 ^ 400) ∨ (u < 0 ∧ val t ≤ -(1 / 2 ^ 48) ∧ -2 ^ 400 ≤ val t) := by
    intro t u ht hu hu'
    obtain ⟨a, b⟩ := abs_le.mp ht.2
    have he0 : 0 ≤ e := (abs_nonneg _).trans ht.2
    rcases lt_abs.mp hu with hp | hp
    · left
      have h0 : 0 < u := lt_of_le_of_lt (by linarith [show (0 : ℝ) ≤ 1 / 2 ^ 48 by positivity]) hp
      rw [abs_of_pos h0] at hu'
      exact ⟨h0, by linarith, by linarith⟩
    · right
      have h0 : u < 0 := by
        have : 0 < -u := lt_of_le_of_lt (by linarith [show (0 : ℝ) ≤ 1 / 2 ^ 48 by positivity]) hp
        linarith
      rw [abs_of_neg h0] at hu'
      exact ⟨h0, by linarith, by linarith⟩
  have hbig : |val x * val y| ≤ 2 ^ (1023 : ℤ) := by
    have b1 : |val x| ≤ 2 ^ 400 := by
      have := abs_le.mp hx.2
      have := le_abs_self r
      have := neg_abs_le r
      exact abs_le.mpr ⟨by linarith, by linarith⟩
    have b2 : |val y| ≤ 2 ^ 400 := by
      have := abs_le.mp hy.2
      have := le_abs_self s
      have := neg_abs_le s
      exact abs_le.mpr ⟨by linarith, by linarith⟩
    rw [abs_mul]
    refine le_big (k := 800) (by norm_num) ((mul_le_mul b1 b2 (abs_nonneg _) (by positivity)).trans ?_)
    rw [← pow_add]
  obtain ⟨g1, g2⟩ := mul_val hx.1 hy.1 (rnd_lt_huge hbig)
  have hone : ∀ p : ℝ, 1 / 2 ^ 96 ≤ p → 0 < rnd p := by
    intro p hp
    have h3 := abs_rnd_sub_le_abs p
    have h4 : (0 : ℝ) < p := lt_of_lt_of_le (by positivity) hp
    have h5 : max (|p| * uu) tiny ≤ p / 2 := by
      refine max_le ?_ ?_
      · rw [abs_of_pos h4, uu_eq]; norm_num; linarith
      · have := tiny_le (k := 97) (by norm_num)
        norm_num at this hp ⊢; linarith
    have h6 := abs_le.mp (h3.trans h5)
    linarith
  show Float.lt 0 (x * y) = decide (0 < r * s)
  have hlt := lt_iff (a := (0 : Float)) (b := x * y) fin_zero g1
  rw [val_zero, g2] at hlt
  have e48 : (1 : ℝ) / 2 ^ 96 = 1 / 2 ^ 48 * (1 / 2 ^ 48) := by norm_num
  have p48 : (0 : ℝ) < 1 / 2 ^ 48 := by positivity
  have pos : 1 / 2 ^ 96 ≤ val x * val y → Float.lt 0 (x * y) = true := fun h => hlt.mpr (hone _ h)
  have neg : val x * val y ≤ 0 → Float.lt 0 (x * y) = false := fun h => by
    rw [Bool.eq_false_iff, Ne, hlt, not_lt]
    exact (rnd_mono h).trans rnd_zero.le
  generalize (1 : ℝ) / 2 ^ 48 = q at *
  rcases key hx h1 hr with ⟨a1, a2, -⟩ | ⟨a1, a2, -⟩ <;> rcases key hy h2 hs with ⟨b1, b2, -⟩ | ⟨b1, b2, -⟩
  · rw [decide_eq_true (mul_pos a1 b1)]
    exact pos (by rw [e48]; exact mul_le_mul a2 b2 p48.le (by linarith))
  · rw [decide_eq_false (not_lt.mpr (mul_nonpos_of_nonneg_of_nonpos a1.le b1.le))]
    exact neg (mul_nonpos_of_nonneg_of_nonpos (by linarith) (by linarith))
  · rw [decide_eq_false (not_lt.mpr (mul_nonpos_of_nonpos_of_nonneg a1.le b1.le))]
    exact neg (mul_nonpos_of_nonpos_of_nonneg (by linarith) (by linarith))
  · rw [decide_eq_true (mul_pos_of_neg_of_neg a1 b1)]
    exact pos (by
      rw [e48, ← neg_mul_neg (val x)]
      exact mul_le_mul (by linarith) (by linarith) p48.le (by linarith))

end Verif
