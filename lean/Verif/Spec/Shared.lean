import Mathlib.Data.Real.Basic
/-! Several stations on one channel, without keys. -/
namespace Verif.Spec

/-- A station: how strongly it is received, and its message. -/
structure Speaker where
  gain : ℝ
  msg : List Bool

/-- The channel adds the signals, each multiplied by the strength at which its station is received. -/
def OnChannel (us : List Speaker) (signals : List (List ℝ)) (channel : List ℝ) : Prop :=
  (∀ s ∈ signals, s.length = channel.length) ∧
    ∀ i < channel.length, channel[i]? = some ((us.zip signals).map (fun p => p.1.gain * p.2.getD i 0)).sum

/-- The strengths of the stations whose bit `n` is true minus the strengths of the others. -/
noncomputable def ballot (us : List Speaker) (n : ℕ) : ℝ :=
  (us.map (fun u => if u.msg.getD n false then u.gain else -u.gain)).sum

end Verif.Spec
