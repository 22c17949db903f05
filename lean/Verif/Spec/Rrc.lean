import Mathlib.Analysis.SpecialFunctions.Trigonometric.Basic

/-! The root-raised-cosine impulse response (textbook definition). -/
namespace Verif.Spec
open Real Classical

/-- Impulse response of the root-raised-cosine filter with roll-off `β` and symbol length `T` at time `t`. -/
noncomputable def rrc (β T t : ℝ) : ℝ :=
  if t = 0 then 1 / T * (1 + β * (4 / π - 1))
  else if 4 * β * t = T ∨ 4 * β * t = -T then
    β / (T * √2) * ((1 + 2 / π) * sin (π / (4 * β)) + (1 - 2 / π) * cos (π / (4 * β)))
  else
    1 / T * ((sin (π * t / T * (1 - β)) + 4 * β * t / T * cos (π * t / T * (1 + β)))
      / (π * t / T * (1 - (4 * β * t / T) ^ 2)))

end Verif.Spec
