import Mathlib.Probability.Distributions.Gaussian.Real
import Mathlib.Probability.HasLaw
import Mathlib.Probability.Independence.Basic

/-!
# White Gaussian noise

What the textbook means by "white Gaussian noise of standard deviation `σ`" and by the complementary error function.  Both
are stated on their own, with nothing from the library.
-/
namespace Verif.Spec
open MeasureTheory ProbabilityTheory

/-- The complementary error function `erfc x = 2/√π ∫ₓ^∞ exp(-t²) dt` (the exact one, not the library's formula). -/
noncomputable def Erfc (x : ℝ) : ℝ := 2 / √Real.pi * ∫ t in Set.Ioi x, Real.exp (-t ^ 2)

/-- The textbook error probability `½ erfc √(E/N₀)` of an antipodal signal of energy `E` in white Gaussian noise of standard
deviation `σ`, that is, with `N₀ = 2σ²`. -/
noncomputable def bitError (E σ : ℝ) : ℝ := Erfc (√(E / (2 * σ ^ 2))) / 2

/-- The textbook error probability `½ exp(-E/(2 N₀))` of two orthogonal tones of energy `E` told apart by their envelopes, in
white Gaussian noise of standard deviation `σ`, that is, with `N₀ = 2σ²`. -/
noncomputable def envelopeError (E σ : ℝ) : ℝ := Real.exp (-(E / (2 * σ ^ 2)) / 2) / 2

/-- `w 0, w 1, …` is white Gaussian noise of standard deviation `σ`: the samples are independent, and each has the normal
distribution with mean `0` and variance `σ²`. -/
structure White {Ω : Type} [MeasurableSpace Ω] (P : Measure Ω) (σ : ℝ) (w : ℕ → Ω → ℝ) : Prop where
  indep : iIndepFun w P
  law : ∀ i, HasLaw (w i) (gaussianReal 0 (σ ^ 2).toNNReal) P

/-- The received message `bits` is the sent message `msg` through a memoryless channel that flips bit `n` with probability
`p n`: the received message is as long as the sent one, and the chance of receiving exactly `e` is the product over the
positions of `p n` where `e` differs from the message and `1 - p n` where it agrees. -/
structure Flips {Ω : Type} [MeasurableSpace Ω] (P : Measure Ω) (msg : List Bool) (bits : Ω → List Bool) (p : ℕ → ℝ) : Prop where
  length : ∀ ω, (bits ω).length = msg.length
  event : ∀ e, NullMeasurableSet {ω | bits ω = e} P
  pattern : ∀ e : List Bool, e.length = msg.length →
    P.real {ω | bits ω = e} = ∏ n ∈ Finset.range msg.length, if e[n]? = msg[n]? then 1 - p n else p n

end Verif.Spec
