import Verif.Lemmas.Gauss
import Verif.Props.Helpers

/-! # The noise made of standard normal variates -/
namespace Verif
open MeasureTheory ProbabilityTheory
variable {ι ν Ω : Type} [MeasurableSpace Ω] {P : Measure Ω}

/-- Driven by `std`, the noise of standard deviation `σ` is `w`. -/
def Drives [RIter ν ℝ] (σ : ℝ) (std : ν) (w : ℕ → ℝ) : Prop := Gives (rmap std (fun z => 0 + σ * z)) w

theorem awgn_driven [RIter ι ℝ] [RIter ν ℝ] {src : ι} {l : List ℝ} (h : Yields src l) {std : ν} {w : ℕ → ℝ} {σ : ℝ}
    (hn : Drives σ std w) : ∃ it, awgn src σ std = pure it ∧ Yields it (l.mapIdx (fun i x => x + w i)) := by
  unfold awgn normalIter
  have hs : Flt.isFinite σ = true := rfl
  rw [if_pos hs, pure_bind]
  refine ⟨_, rfl, ?_⟩
  have := (h.rzip_gives hn).rmap (fun p : ℝ × ℝ => p.1 + p.2)
  rwa [map_mapIdx'] at this

theorem awgnComplex_driven [RIter ι (Cx ℝ)] [RIter ν ℝ] {src : ι} {l : List (Cx ℝ)} (h : Yields src l) {std : ν} {w : ℕ → ℝ} {σ : ℝ}
    (hn : Drives σ std w) : ∃ it, awgnComplex src σ std = pure it ∧ Yields it (l.mapIdx (fun i c => ⟨c.re + w i, c.im⟩)) := by
  unfold awgnComplex normalIter
  have hs : Flt.isFinite σ = true := rfl
  rw [if_pos hs, pure_bind]
  refine ⟨_, rfl, ?_⟩
  have := (h.rzip_gives hn).rmap (fun p : Cx ℝ × ℝ => p.1.addR p.2)
  rwa [map_mapIdx'] at this

theorem Drives.of_gives [RIter ν ℝ] {std : ν} {z : ℕ → ℝ} (h : Gives std z) (σ : ℝ) : Drives σ std (fun i => σ * z i) := by
  have := h.rmap (fun z => 0 + σ * z)
  simp only [zero_add] at this ⊢
  unfold Drives
  simpa only [zero_add] using this

/-- Scaled white noise. -/
theorem Spec.White.scale {z : ℕ → Ω → ℝ} (h : Spec.White P 1 z) (σ : ℝ) : Spec.White P σ (fun i ω => σ * z i ω) where
  indep := h.indep.comp (fun _ x => σ * x) (fun _ => measurable_const_mul σ)
  law i := by
    have := (h.law i)
    refine ⟨this.aemeasurable.const_mul σ, ?_⟩
    have e : (fun ω => σ * z i ω) = (fun x => σ * x) ∘ z i := rfl
    rw [e, ← AEMeasurable.map_map_of_aemeasurable (measurable_const_mul σ).aemeasurable this.aemeasurable, this.map_eq,
      gaussianReal_map_const_mul]
    congr 1
    · simp
    · apply NNReal.eq
      simp [Real.coe_toNNReal _ (sq_nonneg σ)]

/-- A generator of standard normal variates drives white noise of every standard deviation. -/
theorem Spec.White.driven [RIter ν ℝ] {noise : Ω → ν} {z : ℕ → Ω → ℝ} (h : Spec.White P 1 z) (hg : ∀ ω, Gives (noise ω) (fun i => z i ω)) (σ : ℝ) :
    ∃ w : ℕ → Ω → ℝ, Spec.White P σ w ∧ ∀ ω, Drives σ (noise ω) (fun i => w i ω) :=
  ⟨_, h.scale σ, fun ω => Drives.of_gives (hg ω) σ⟩

end Verif
