import Mathlib.Data.Real.Basic
import Mathlib.Data.Finset.Card
import Mathlib.Order.Interval.Finset.Nat

/-! How much of the spectrum a band covers. -/
namespace Verif.Spec

/-- How many of the `n` bins of a block transform, of positive and of negative frequency, have a frequency between `lo` and
`hi` in absolute value: bin `k` has the frequency `k·fs/n`, or `-(n-k)·fs/n` from the middle on. -/
noncomputable def bandBins (lo hi : ℝ) (fs n : ℕ) : ℕ :=
  open Classical in ((Finset.range n).filter (fun k : ℕ =>
    lo ≤ ((min k (n - k) : ℕ) : ℝ) * fs / n ∧ ((min k (n - k) : ℕ) : ℝ) * fs / n ≤ hi)).card

end Verif.Spec
