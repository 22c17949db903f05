import Verif.F64.Phase

/-! Recordings in double precision. -/
namespace Verif.Spec
open F64

/-- `r` holds `n` symbols of `k` finite doubles; sample `i` is within `τ` of the real number `s (i / k) i`. Noise, interference and
the rounding done by a converter are all part of `τ`. -/
def NearRecording {L : Libm} (τ : ℝ) (r : List (FloatL L)) (n k : ℕ) (s : ℕ → ℕ → ℝ) : Prop :=
  r.length = n * k ∧ ∀ i < n * k, ∃ x, r[i]? = some x ∧ Fin x ∧ |val x - s (i / k) i| ≤ τ

/-- The setting of a receiver in double precision: the library's sine and cosine are accurate to `ε` (for arguments up to `2^40`),
the sample rate is below `2^53`, a symbol has `k` samples, there are `N` symbols with at most `2^32` samples altogether, the carrier
lies between `2^-100` and half the sample rate, and `S`, a bound for the samples, is neither astronomically large nor small. -/
structure Radio (L : Libm) (ε : ℝ) (fs k N : ℕ) (fc : FloatL L) (S : ℝ) : Prop where
  small : ε ≤ 1 / 2 ^ 10
  acc : Accurate L ε (2 ^ 40)
  fs_lt : fs < 2 ^ 53
  k_pos : 0 < k
  len : N * k ≤ 2 ^ 32
  fin : Fin fc
  lo : 1 / 2 ^ 100 ≤ val fc
  hi : val fc ≤ fs / 2
  size_lo : 1 / 2 ^ 900 ≤ S
  size_hi : S ≤ 2 ^ 900

end Verif.Spec
