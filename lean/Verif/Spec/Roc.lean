import Mathlib.Data.Real.Basic
import Mathlib.Algebra.BigOperators.Group.List.Basic

/-! What the operating curve of a detector is, for readings taken without and with a signal. -/
namespace Verif.Spec

/-- The readings of one kind. -/
def readings (l : List (ℝ × Bool)) (y : Bool) : List ℝ := (l.filter (fun p => p.2 == y)).map (·.1)

/-- The fraction of the readings at or above a threshold. -/
noncomputable def reach (h : List ℝ) (t : ℝ) : ℝ := (h.countP (fun x => decide (t ≤ x)) : ℝ) / h.length

/-- The chance that a reading picked from `h1` exceeds one picked from `h0`, a tie counting half. -/
noncomputable def beats (h0 h1 : List ℝ) : ℝ :=
  (h0.map (fun a => (h1.map (fun b => if a < b then (1 : ℝ) else if a = b then 1 / 2 else 0)).sum)).sum / (h0.length * h1.length)

end Verif.Spec
