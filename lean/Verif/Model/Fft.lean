import Verif.Rust.Flt
import Verif.Rust.Res
import Verif.Spec.Streams
import Verif.Spec.Dft

/-!
# rustfft

`rustfft` is third-party code.  `Fft F` stands for its transform at the number type `F`: any length-preserving function.
The theorems about frame layout, lengths and panics hold for every such function, in particular for what `rustfft` computes
in floating point.  In exact arithmetic (`ℝ`) it is the discrete Fourier transform.
-/
namespace Verif

/-- The transforms that the FFT planner returns: `dft false` forward, `dft true` inverse (neither is normalised). -/
class Fft (F : Type) where
  dft : Bool → List (Cx F) → List (Cx F)
  length_dft : ∀ inv x, (dft inv x).length = x.length

/-- `Complex<f64>` at exact arithmetic is `ℂ`. -/
def Cx.toC (z : Cx ℝ) : ℂ := ⟨z.re, z.im⟩
/-- Back from `ℂ`. -/
def Cx.ofC (z : ℂ) : Cx ℝ := ⟨z.re, z.im⟩

/-- Exact arithmetic: the textbook transform. -/
noncomputable instance : Fft ℝ where
  dft inv x := (Spec.dft (if inv then 1 else -1) (x.map Cx.toC)).map Cx.ofC
  length_dft inv x := by simp [Spec.dft]

/-- `fft.process_with_scratch(buffer, scratch)` of a transform planned for `n` points — rustfft 6.2.  The buffer is
processed in blocks of `n`; a buffer that is shorter than `n` or not a multiple of `n` long is a panic. -/
def fftProcess {F : Type} [Fft F] (inv : Bool) (n : ℕ) (buf : List (Cx F)) : RM (List (Cx F)) :=
  if n = 0 then pure buf
  else if buf.length < n ∨ buf.length % n ≠ 0 then RM.panic .other
  else pure ((Spec.blocks n buf).flatMap (Fft.dft inv))

/-- `&v[a..b]`: panics when `a > b` or `b > v.len()`. -/
def slice {T : Type} (v : List T) (a b : ℕ) : RM (List T) :=
  if b < a ∨ v.length < b then RM.panic .index else pure ((v.drop a).take (b - a))

/-- `&v[a..]`. -/
def sliceFrom {T : Type} (v : List T) (a : ℕ) : RM (List T) := slice v a v.length

end Verif
