import Verif.Model.PyOfdm
import Verif.Props.Ofdm
import Verif.Props.FhOfdm

/-!
# C69: the OFDM entry points of the Python module
-/
namespace Verif.Props
open Verif Spec
set_option linter.unusedSectionVars false
variable {F : Type} [Add F] [Sub F] [Mul F] [Div F] [Neg F] [Zero F] [One F] [Flt F] [Fft F]

/-- Whatever the arithmetic and the transform: with at least two samples per symbol, `tx_ofdm` returns
`sample_rate/symbol_rate` samples for each of the `ceil(symbols/data carriers)` frames' `n + n/4` baseband samples, and
`rx_ofdm` returns on that list `2·(n - p)` bits per frame, without panicking. -/
theorem C69_ofdm_lengths (msg : List Bool) {n p fs sym : ℕ} {fc : F} (h1 : 1 ≤ p) (h2 : p < n) (hk : 2 ≤ fs / sym)
    (hint : isInt (Flt.ofNat fs / Flt.ofNat sym : F) = true) :
    ∃ sig bits, pyTxOfdm msg n p fs sym fc = pure sig ∧ pyRxOfdm sig n p fs sym fc = pure bits ∧
      sig.length = (msg.length / 2 + (n - p) - 1) / (n - p) * (n + n / 4) * (fs / sym) ∧
      bits.length = 2 * (n - p) * ((msg.length / 2 + (n - p) - 1) / (n - p)) := by
  obtain ⟨it, e, hy⟩ := txOfdmQpsk_ok (yields_ofList msg) (fc := fc) h1 h2.le (by omega) hint
  obtain ⟨it1, e1, hy1⟩ := rxOfdmQpsk_ok hy (fc := fc) (S := (ofdmSamples (F := F) n p msg).length) h1 h2.le hk hint
    (wave_length ..) (by rw [ofdmSamples_length]; exact ⟨_, Nat.mul_comm _ _⟩)
  obtain ⟨it2, e2, hy2⟩ := rxOfdmQpsk_ok (yields_ofList _) (fc := fc) (S := (ofdmSamples (F := F) n p msg).length) h1 h2.le
    hk hint (wave_length ..) (by rw [ofdmSamples_length]; exact ⟨_, Nat.mul_comm _ _⟩)
  obtain ⟨bits, hb, hlen⟩ := C35_count_partial (yields_ofList msg) (fc := fc) h1 h2 hk hint
  rw [e, pure_bind, e1, pure_bind, collect_of_yields hy1, RM.ok_inj] at hb
  refine ⟨_, _, by unfold pyTxOfdm; rw [e, pure_bind, collect_of_yields hy],
    by unfold pyRxOfdm; rw [e2, pure_bind, collect_of_yields hy2], ?_, by rw [hb]; exact hlen⟩
  rw [wave_length, ofdmSamples_length, blocks_length _ (by omega), pairs_length]

/-- In exact arithmetic `rx_ofdm(tx_ofdm(m)) = m` for messages that fill their frames, under the conditions of C66. -/
theorem C69_ofdm_roundtrip (msg : List Bool) {n p fs sym : ℕ} {fc : ℝ}
    (h1 : 1 ≤ p) (h2 : p < n) (he : n % 2 = 0) (hfs : fs < 2 ^ 64) (hdvd : sym ∣ fs) (hk : 12 ≤ fs / sym)
    {q : ℤ} (hq : (fs / sym : ℕ) * fc = q * fs) (hne : ∀ r : ℤ, 2 * fc ≠ r * fs) (hm : 2 * (n - p) ∣ msg.length) :
    (do let sig ← pyTxOfdm msg n p fs sym fc
        pyRxOfdm sig n p fs sym fc) = pure msg := by
  have hsym : 0 < sym := by
    rcases Nat.eq_zero_or_pos sym with rfl | h
    · simp at hk
    · exact h
  have hint : isInt (Flt.ofNat fs / Flt.ofNat sym : ℝ) = true := (isInt_real hfs hsym).mpr hdvd
  have hrt := C66_roundtrip_full (yields_ofList msg) h1 h2 he hfs hdvd hk hq hne hm
  obtain ⟨it, e, hy⟩ := txOfdmQpsk_ok (yields_ofList msg) (fc := fc) h1 h2.le (by omega) hint
  obtain ⟨it1, e1, hy1⟩ := rxOfdmQpsk_ok hy (fc := fc) (S := (ofdmSamples (F := ℝ) n p msg).length) h1 h2.le (by omega) hint
    (wave_length ..) (by rw [ofdmSamples_length]; exact ⟨_, Nat.mul_comm _ _⟩)
  obtain ⟨it2, e2, hy2⟩ := rxOfdmQpsk_ok (yields_ofList _) (fc := fc) (S := (ofdmSamples (F := ℝ) n p msg).length) h1 h2.le
    (by omega) hint (wave_length ..) (by rw [ofdmSamples_length]; exact ⟨_, Nat.mul_comm _ _⟩)
  rw [e, pure_bind, e1, pure_bind, collect_of_yields hy1] at hrt
  unfold pyTxOfdm pyRxOfdm
  rw [e, pure_bind, collect_of_yields hy, pure_bind, e2, pure_bind, collect_of_yields hy2]
  exact hrt

/-- The configuration of the crate's tests. -/
example (msg : List Bool) (hm : msg.length = 208) :
    (do let sig ← pyTxOfdm msg 64 12 44100 900 (1800 : ℝ)
        pyRxOfdm sig 64 12 44100 900 (1800 : ℝ)) = pure msg := by
  refine C69_ofdm_roundtrip msg (by decide) (by decide) (by decide) (by norm_num) (by decide) (by decide)
    (q := 2) (by norm_num) ?_ (by rw [hm]; decide)
  intro r hr
  have : (3600 : ℤ) = r * 44100 := by
    have h : (3600 : ℝ) = r * 44100 := by norm_num at hr ⊢; linarith
    exact_mod_cast h
  omega

example (msg : List Bool) (hm : msg.length = 100) :
    ∃ sig bits, pyTxOfdm msg 64 12 44100 900 (1800 : ℝ) = pure sig ∧ pyRxOfdm sig 64 12 44100 900 (1800 : ℝ) = pure bits ∧
      sig.length = 3920 ∧ bits.length = 104 := by
  have := C69_ofdm_lengths msg (n := 64) (p := 12) (fs := 44100) (sym := 900) (fc := (1800 : ℝ)) (by decide) (by decide)
    (by decide) ((isInt_real (by norm_num) (by norm_num)).mpr (by decide))
  simpa [hm] using this

/-- `tx_fh_ofdm_dcsk` returns `sample_rate/symbol_rate` samples for each of the ten baseband samples of the
`floor(len/7) + 1` frames. -/
theorem C69_fh_ofdm_length {ρ : Type} [Rng ρ] (msg : List Bool) {fs sym : ℕ} {fc : F}
    (h05 : (Flt.le (-1) (Flt.lit 5 1 : F) && Flt.le (Flt.lit 5 1 : F) 1) = true)
    (hny : Flt.toNat fc ≤ fs / 2) (hint : isInt (Flt.ofNat fs / Flt.ofNat sym : F) = true) (hsps : 0 < fs / sym) :
    ∃ sig, pyTxFhOfdmDcsk ρ msg fs sym fc = pure sig ∧ sig.length = 10 * (msg.length / 7 + 1) * (fs / sym) := by
  obtain ⟨it, base, bs, e, -, -, hy, hl⟩ := C67_passband (ρ := ρ) (yields_ofList msg) h05 hny hint hsps
  refine ⟨_, by unfold pyTxFhOfdmDcsk; rw [e, pure_bind, collect_of_yields hy], ?_⟩
  rw [wave_length, hl]

/-- In IEEE arithmetic, with any transform: 15 bits at 40 samples per symbol. -/
example {ρ : Type} [Rng ρ] [Fft Float] (msg : List Bool) (hm : msg.length = 15) :
    ∃ sig, pyTxFhOfdmDcsk ρ msg 40000 1000 (2000 : Float) = pure sig ∧ sig.length = 1200 := by
  have := C69_fh_ofdm_length (ρ := ρ) msg (fs := 40000) (sym := 1000) (fc := (2000 : Float)) (by decide +kernel)
    (by decide +kernel) (by decide +kernel) (by decide)
  simpa [hm] using this

end Verif.Props
