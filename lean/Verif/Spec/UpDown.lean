import Verif.Rust.Flt
import Verif.Spec.Fading

/-!
# A carrier, as the textbook describes it

Nothing from the model of the library but its type of complex numbers.
-/
namespace Verif.Spec

/-- The complex symbols `b`, each held for `k` samples, on a carrier: the real part of symbol times `exp (i·angle)`. -/
noncomputable def upconvert (fs k : ℕ) (fc : ℝ) (b : List (Cx ℝ)) : List ℝ :=
  (List.range (b.length * k)).map fun i =>
    (b.getD (i / k) ⟨0, 0⟩).re * Real.cos (angle fs fc i) - (b.getD (i / k) ⟨0, 0⟩).im * Real.sin (angle fs fc i)

/-- The recording times `exp (-i·angle)`, summed over every whole stretch of `k` samples. -/
noncomputable def downconvert (fs k : ℕ) (fc : ℝ) (r : List ℝ) : List (Cx ℝ) :=
  (List.range (r.length / k)).map fun n =>
    ⟨∑ j ∈ Finset.range k, r.getD (n * k + j) 0 * Real.cos (angle fs fc (n * k + j)),
      -∑ j ∈ Finset.range k, r.getD (n * k + j) 0 * Real.sin (angle fs fc (n * k + j))⟩

end Verif.Spec
