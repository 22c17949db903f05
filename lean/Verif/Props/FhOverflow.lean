import Verif.Lemmas.FhOverflow
import Verif.Props.PyOfdm
import Verif.Lemmas.Noise

/-!
# C119 — the FH-OFDM-DCSK transmitters in double precision

The chaotic sequence that multiplies the symbols leaves the range of a double before the end of the first frame.  The
transform of a frame mixes all its entries, so nothing finite is ever sent.  The only thing asked of the transform is that it
does not hide an infinity or NaN (`Spreads`).
-/
namespace Verif.Props
open F64
variable {ι ρ : Type} [Rng ρ] {L : Libm} [Fft (FloatL L)]

/-- Every complex sample of the baseband transmission has an infinite or undefined part. -/
theorem C119_baseband (hD : Spreads 8 (Fft.dft (F := FloatL L))) [RIter ι Bool] {m : ι} {msg : List Bool} (h : Yields m msg) :
    ∃ bs : List (Cx (FloatL L)), (do let tx ← txBasebandFhOfdm ρ (FloatL L) m; collect tx) = pure bs ∧
      bs.length = 10 * (msg.length / 7 + 1) ∧
      ∀ z ∈ bs, Flt.isFinite z.re = false ∨ Flt.isFinite z.im = false := by
  obtain ⟨it, e, hy⟩ := txBasebandFhOfdm_ok (ρ := ρ) (F := FloatL L) h half_ok
  refine ⟨_, by rw [e, pure_bind, collect_of_yields hy], ?_, fun z hz => ?_⟩
  · rw [flatten_length_const (k := 10), stMap_length, fhInput_length]
    intro f hf
    obtain ⟨r, p, -, rfl⟩ := mem_stMap hf
    exact fhFrame_length r p
  · obtain ⟨f, hf, hz⟩ := List.mem_flatten.mp hz
    obtain ⟨r, p, hp, rfl⟩ := mem_stMap hf
    have hb := fhFrame_bad hD r (mem_fhInput hp).1 (mem_fhInput hp).2 (mem_fhInput_bad hp) z hz
    unfold CFin at hb
    rw [not_and_or] at hb
    exact hb.imp not_finite.mpr not_finite.mpr

/-- Every sample of the carrier transmission is infinite or NaN, for every message, sample rate, symbol rate and carrier the
transmitter accepts. -/
theorem C119_passband (hD : Spreads 8 (Fft.dft (F := FloatL L))) [RIter ι Bool] {m : ι} {msg : List Bool} (h : Yields m msg)
    {fs sym : ℕ} {fc : FloatL L} (hny : Flt.toNat fc ≤ fs / 2)
    (hint : isInt (Flt.ofNat fs / Flt.ofNat sym : FloatL L) = true) (hsps : 0 < fs / sym) :
    ∃ l : List (FloatL L), (do let tx ← txFhOfdm2 ρ m fs sym fc; collect tx) = pure l ∧
      l.length = 10 * (msg.length / 7 + 1) * (fs / sym) ∧ ∀ x ∈ l, Flt.isFinite x = false := by
  obtain ⟨it, base, bs, e1, e2, hb, hy, hl⟩ := C67_passband (ρ := ρ) h (fc := fc) half_ok hny hint hsps
  obtain ⟨bs', e3, -, hbad⟩ := C119_baseband (ρ := ρ) hD h
  rw [e2, pure_bind, collect_of_yields hb, RM.ok_inj] at e3
  subst e3
  refine ⟨_, by rw [e1, pure_bind, collect_of_yields hy], by rw [wave_length, hl], fun x hx => ?_⟩
  obtain ⟨n, z, j, hz, rfl⟩ := mem_wave hx
  refine not_finite.mpr (fun hf => ?_)
  obtain ⟨h1, h2⟩ := (CFin.of_re_mul hf).1
  rcases hbad z hz with h' | h'
  · exact not_finite.mp h' h1
  · exact not_finite.mp h' h2

/-- The same for the hopping transmitter, whatever its band and number of channels. -/
theorem C119_hopping (hD : Spreads 8 (Fft.dft (F := FloatL L))) [RIter ι Bool] {m : ι} {msg : List Bool} (h : Yields m msg)
    {fs sym nf : ℕ} {lo hi : FloatL L} (hny : Flt.toNat hi ≤ fs / 2)
    (hint : isInt (Flt.ofNat fs / Flt.ofNat sym : FloatL L) = true) (hsps : 0 < fs / sym) (hnf : 2 ≤ nf) :
    ∃ l : List (FloatL L), (do let tx ← txFhOfdm ρ m lo hi nf fs sym; collect tx) = pure l ∧
      l.length = 10 * (msg.length / 7 + 1) * (fs / sym) ∧ ∀ x ∈ l, Flt.isFinite x = false := by
  obtain ⟨it, base, hops, bs, hop, e1, e2, hb, -, -, -, hy, hl⟩ :=
    C67_hopping (ρ := ρ) h (lo := lo) (hi := hi) half_ok hny hint hsps hnf
  obtain ⟨bs', e3, -, hbad⟩ := C119_baseband (ρ := ρ) hD h
  rw [e2, pure_bind, collect_of_yields hb, RM.ok_inj] at e3
  subst e3
  refine ⟨_, by rw [e1, pure_bind, collect_of_yields hy], by rw [wave_length, hl], fun x hx => ?_⟩
  obtain ⟨n, z, j, hz, rfl⟩ := mem_wave hx
  refine not_finite.mpr (fun hf => ?_)
  obtain ⟨h1, h2⟩ := (CFin.of_re_mul hf).1
  rcases hbad z hz with h' | h'
  · exact not_finite.mp h' h1
  · exact not_finite.mp h' h2

/-- Asking for noise at a given signal-to-noise ratio of such a transmission stops the program: the measured energy is not
finite, and neither is the standard deviation computed from it. -/
theorem C119_noise {ν : Type} [RIter ν (FloatL L)] (hD : Spreads 8 (Fft.dft (F := FloatL L))) (msg msg' : List Bool)
    {fs sym : ℕ} {fc : FloatL L} (hny : Flt.toNat fc ≤ fs / 2)
    (hint : isInt (Flt.ofNat fs / Flt.ofNat sym : FloatL L) = true) (hsps : 0 < fs / sym) (snr : FloatL L) (noise : ν) :
    (do let s ← pyTxFhOfdmDcsk ρ msg fs sym fc
        let s' ← pyTxFhOfdmDcsk ρ msg' fs sym fc
        awgnPy s' (avgEnergy s / snr) noise).Panics := by
  obtain ⟨l, e, hl, hb⟩ := C119_passband (ρ := ρ) hD (yields_ofList msg) hny hint hsps
  obtain ⟨l', e', -, -⟩ := C119_passband (ρ := ρ) hD (yields_ofList msg') hny hint hsps
  have e1 : pyTxFhOfdmDcsk ρ msg fs sym fc = pure l := e
  have e2 : pyTxFhOfdmDcsk ρ msg' fs sym fc = pure l' := e'
  have hσ : Flt.isFinite (avgEnergy l / snr) = false := energy_bad (by rw [hl]; positivity) hb snr
  rw [e1, pure_bind, e2, pure_bind]
  unfold awgnPy normalIter
  rw [if_neg (by rw [hσ]; decide)]
  exact ⟨_, rfl⟩

/-! ## Examples: the transform by definition -/

/-- Sums of products, with any factors. -/
@[instance_reducible]
def fftSum (L : Libm) (w : Bool → ℕ → ℕ → Cx Float) : Fft (FloatL L) where
  dft := sumDft w
  length_dft := sumDft_length w

example (w : Bool → ℕ → ℕ → Cx Float) :
    letI := fftSum L w
    ∃ bs : List (Cx (FloatL L)), (do let tx ← txBasebandFhOfdm ρ (FloatL L) (ofList [true]); collect tx) = pure bs ∧
      bs.length = 10 ∧ ∀ z ∈ bs, Flt.isFinite z.re = false ∨ Flt.isFinite z.im = false :=
  letI := fftSum L w
  C119_baseband (spreads_sumDft w 8) (yields_ofList [true])

example (w : Bool → ℕ → ℕ → Cx Float) (msg : List Bool) (hm : msg.length = 120) :
    letI := fftSum L w
    ∃ l : List (FloatL L), (do let tx ← txFhOfdm2 (F := FloatL L) ρ (ofList msg) 65536 256 (2000 : Float); collect tx) = pure l ∧
      l.length = 46080 ∧ ∀ x ∈ l, Flt.isFinite x = false := by
  let _ := fftSum L w
  obtain ⟨l, h1, h2, h3⟩ := C119_passband (ρ := ρ) (L := L) (spreads_sumDft w 8) (yields_ofList msg) (fs := 65536) (sym := 256)
    (fc := (2000 : Float)) (show Flt.toNat (2000 : Float) ≤ 32768 by decide +kernel)
    (show isInt (Flt.ofNat 65536 / Flt.ofNat 256 : Float) = true by decide +kernel) (by decide)
  exact ⟨l, h1, by rw [h2, hm], h3⟩

example (w : Bool → ℕ → ℕ → Cx Float) :
    letI := fftSum L w
    ∃ l : List (FloatL L), (do let tx ← txFhOfdm (F := FloatL L) ρ (ofList [true]) (1000 : Float) (2000 : Float) 8 44100 900; collect tx) = pure l ∧
      l.length = 490 ∧ ∀ x ∈ l, Flt.isFinite x = false :=
  letI := fftSum L w
  C119_hopping (L := L) (lo := (1000 : Float)) (hi := (2000 : Float)) (nf := 8) (spreads_sumDft w 8) (yields_ofList [true]) (show Flt.toNat (2000 : Float) ≤ 22050 by decide +kernel)
    (show isInt (Flt.ofNat 44100 / Flt.ofNat 900 : Float) = true by decide +kernel) (by decide) (by decide)

example {ν : Type} [RIter ν (FloatL L)] (w : Bool → ℕ → ℕ → Cx Float) (msg msg' : List Bool) (noise : ν) :
    letI := fftSum L w
    (do let s ← pyTxFhOfdmDcsk (F := FloatL L) ρ msg 65536 256 (2000 : Float)
        let s' ← pyTxFhOfdmDcsk (F := FloatL L) ρ msg' 65536 256 (2000 : Float)
        awgnPy s' (avgEnergy s / Flt.ofNat 10) noise).Panics :=
  letI := fftSum L w
  C119_noise (L := L) (spreads_sumDft w 8) msg msg' (show Flt.toNat (2000 : Float) ≤ 32768 by decide +kernel)
    (show isInt (Flt.ofNat 65536 / Flt.ofNat 256 : Float) = true by decide +kernel) (by decide) (Flt.ofNat 10) noise

end Verif.Props
