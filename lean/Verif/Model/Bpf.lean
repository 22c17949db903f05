import Verif.Model.Fft
import Verif.Model.Iter

/-!
# src/bpf.rs: the FFT band-pass filter

`realfft` is third-party code.  `RealFft F` stands for its two transforms at the number type `F`; what is assumed is what
its documentation promises about lengths, and that the first bin (and, for an even length, the last one) of a forward
transform has a zero imaginary part, which the inverse transform checks.  In exact arithmetic (`ℝ`) they are the first half
of the discrete Fourier transform and its (unnormalised) inverse.  `butterpass` (src/bpf.rs:47-66) is a single call of
`sci_rs` and is not modelled.
-/
namespace Verif

/-- The transforms that `RealFftPlanner` plans. -/
class RealFft (F : Type) [Zero F] [Flt F] where
  /-- forward: `n` reals to `n/2 + 1` bins -/
  rfft : List F → List (Cx F)
  /-- inverse, not normalised: `n/2 + 1` bins to `n` reals -/
  irfft : ℕ → List (Cx F) → List F
  length_rfft : ∀ x, (rfft x).length = x.length / 2 + 1
  length_irfft : ∀ n X, (irfft n X).length = n
  rfft_first : ∀ x z, (rfft x)[0]? = some z → Flt.eq z.im 0 = true
  rfft_last : ∀ x z, x.length % 2 = 0 → (rfft x)[x.length / 2]? = some z → Flt.eq z.im 0 = true
  zero_eq : Flt.eq (0 : F) 0 = true

set_option linter.unusedSectionVars false
variable {ι F : Type} [Add F] [Sub F] [Mul F] [Div F] [Neg F] [Zero F] [One F] [Flt F] [RealFft F]

/-- `fft.process(&mut chunk, &mut spectrum).unwrap()` of a forward transform planned for `n` points, with `spectrum` from
`make_output_vec`: an input of the wrong length is an error, and `unwrap` panics. -/
def rfftProcess (n : ℕ) (x : List F) : RM (List (Cx F)) :=
  if x.length ≠ n then RM.panic .unwrap else pure (RealFft.rfft x)

/-- `ifft.process(&mut spectrum, &mut real_sig).unwrap()` of an inverse transform planned for `n` points: wrong lengths and
non-zero imaginary parts in the first bin, or for even `n` in the last one, are errors. -/
def irfftProcess (n : ℕ) (X : List (Cx F)) : RM (List F) :=
  if X.length ≠ n / 2 + 1 then RM.panic .unwrap
  else if (X[0]?.any (fun z => !Flt.eq z.im 0)) || (n % 2 == 0 && X[n / 2]?.any (fun z => !Flt.eq z.im 0)) then
    RM.panic .unwrap
  else pure (RealFft.irfft n X)

/-- `frequencies` — src/bpf.rs:20-22. -/
def bpFrequencies (sample_rate fft_len : ℕ) : List F :=
  (List.range fft_len).map (fun i => Flt.ofNat (i * sample_rate) / Flt.ofNat fft_len)

/-- The masking of the spectrum — src/bpf.rs:31-38 (`iter_mut().zip(frequencies)`: bins without a frequency are left alone). -/
def bpMask (low high : F) (frequencies : List F) (spectrum : List (Cx F)) : List (Cx F) :=
  spectrum.mapIdx (fun i s => match frequencies[i]? with
    | some f => if Flt.lt f low || Flt.lt high f then 0 else s
    | none => s)

/-- The closure of `bandpass` — src/bpf.rs:24-45. -/
def bpChunk (low high : F) (sample_rate fft_len : ℕ) (chunk : List F) : RM (Map (VecIter F) F F) := do
  rassert (decide (chunk.length = fft_len))
  let spectrum ← rfftProcess fft_len chunk
  let real_sig ← irfftProcess fft_len (bpMask low high (bpFrequencies sample_rate fft_len) spectrum)
  pure (rmap (ofList real_sig) (fun s_i => s_i / Flt.ofNat fft_len))

/-- Type of the stream returned by `bandpass`. -/
abbrev Bandpass (ι F : Type) := FlatMap (Chunks ι) Unit (List F) (Map (VecIter F) F F)

/-- `bandpass` — src/bpf.rs:9-46. -/
def bandpass [RIter ι F] (low high : F) (stream : ι) (sample_rate fft_len : ℕ) : Bandpass ι F :=
  rflatMap (chunks stream fft_len) (bpChunk low high sample_rate fft_len)

end Verif
