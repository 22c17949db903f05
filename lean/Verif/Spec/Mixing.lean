import Verif.Spec.Fading

/-! A mixer. -/
namespace Verif.Spec

/-- The recording multiplied, sample by sample, with a local oscillator of frequency `f` and phase `φ`. -/
noncomputable def mixed (fs : ℕ) (f φ : ℝ) (r : List ℝ) : List ℝ := r.mapIdx (fun i x => x * Real.cos (angle fs f i + φ))

end Verif.Spec
