import Verif.Model.Ofdm
import Verif.Model.Fh
import Verif.Model.Chaos

/-! # Model of `src/fh_ofdm_dcsk.rs` -/
namespace Verif
set_option linter.unusedSectionVars false
variable {ι ρ : Type} {F : Type} [Add F] [Sub F] [Mul F] [Div F] [Neg F] [Zero F] [One F] [Flt F] [Fft F] [Rng ρ]

/-- `const NUM_SUBCARRIERS: usize = 8` — src/fh_ofdm_dcsk.rs:11. -/
def NUM_SUBCARRIERS : ℕ := 8
/-- `const CP_LEN: usize = NUM_SUBCARRIERS / 4` — src/fh_ofdm_dcsk.rs:12. -/
def CP_LEN : ℕ := NUM_SUBCARRIERS / 4

/-- `Complex::<f64>::default()` is zero. -/
instance : RDefault (Cx F) := ⟨0⟩

/-- `pre_hop_symbols` — src/fh_ofdm_dcsk.rs:30-39. -/
def preHopSymbols (bpsk_symbols : List (Cx F)) (chaotic_sequence : List F) : RM (List (Cx F)) := do
  let c0 ← index chaotic_sequence 0
  let rest ← sliceFrom chaotic_sequence 1
  pure ([Cx.ofR c0] ++ (rest.zip bpsk_symbols).map (fun p => p.2 * (⟨p.1, 0⟩ : Cx F)))

/-- `freq_hopped_symbols` — src/fh_ofdm_dcsk.rs:41-49; also returns the state of the generator. -/
def freqHop (pre_hop_symbols : List (Cx F)) (rng : ρ) : RM (List (Cx F) × ρ) := do
  let (idx, rng) ← shuffle (List.range NUM_SUBCARRIERS) rng
  let symbols ← idx.mapM (fun i => index pre_hop_symbols i)
  pure (symbols, rng)

/-- The closure of `tx_baseband_fh_ofdm_dcsk_signal` — src/fh_ofdm_dcsk.rs:29-65. -/
def fhOfdmFrame (rng : ρ) (bpsk_symbols : List (Cx F)) (chaotic_sequence : List F) : RM (List (Cx F) × ρ) := do
  let pre_hop_symbols ← preHopSymbols bpsk_symbols chaotic_sequence
  let (freq_hopped_symbols, rng) ← freqHop pre_hop_symbols rng
  let ifft_symbols := fftshift freq_hopped_symbols
  rassert (decide (ifft_symbols.length = NUM_SUBCARRIERS))
  let ifft_symbols ← fftProcess true NUM_SUBCARRIERS ifft_symbols
  let a ← usub NUM_SUBCARRIERS CP_LEN
  let cp ← slice ifft_symbols a NUM_SUBCARRIERS
  pure ((cp ++ ifft_symbols).map (fun s_i => Cx.divR s_i (Flt.ofNat NUM_SUBCARRIERS)), rng)

/-- Type of the stream returned by `tx_baseband_fh_ofdm_dcsk_signal`. -/
abbrev TxBasebandFhOfdm (ι ρ F : Type) :=
  FlatMap (Zip (WholeChunks (Map ι Bool (Cx F))) (Chunks (Chebyshev F))) ρ (List (Cx F) × List F) (VecIter (Cx F))

/-- `tx_baseband_fh_ofdm_dcsk_signal` — src/fh_ofdm_dcsk.rs:16-66. -/
def txBasebandFhOfdm (ρ F : Type) [Add F] [Sub F] [Mul F] [Div F] [Neg F] [Zero F] [One F] [Flt F] [Fft F] [Rng ρ]
    [RIter ι Bool] (message : ι) : RM (TxBasebandFhOfdm ι ρ F) := do
  let width ← usub NUM_SUBCARRIERS 1
  let chaos ← Chebyshev.new (Flt.lit 5 1 : F)
  pure (rflatMapSt (rzip (wchunks (txBasebandBpsk message) width) (chunks chaos NUM_SUBCARRIERS)) (Rng.seed SEED : ρ)
    (fun rng (p : List (Cx F) × List F) => do
      let (cp_symbol, rng) ← fhOfdmFrame rng p.1 p.2
      pure (ofList cp_symbol, rng)))

/-- `dehopped_symbols` — src/fh_ofdm_dcsk.rs:85-93; also returns the state of the generator. -/
def dehop (demoded : List (Cx F)) (rng : ρ) : RM (List (Cx F) × ρ) := do
  let (idx, rng) ← shuffle (List.range NUM_SUBCARRIERS) rng
  let symbols ← (demoded.zip idx).foldlM (fun v p => assignIdx v p.2 p.1) (List.replicate NUM_SUBCARRIERS (0 : Cx F))
  pure (symbols, rng)

/-- The closure of `rx_baseband_fh_ofdm_dcsk_signal` — src/fh_ofdm_dcsk.rs:79-103. -/
def fhOfdmDeframe (rng : ρ) (chunk : List (Cx F)) : RM (Map (VecIter ℕ) ℕ Bool × ρ) := do
  let buffer ← sliceFrom chunk CP_LEN
  let buffer ← fftProcess false NUM_SUBCARRIERS buffer
  let demoded := fftshift buffer
  let (dehopped_symbols, rng) ← dehop demoded rng
  let a ← index dehopped_symbols 0
  let b ← sliceFrom dehopped_symbols 1
  let last ← usub dehopped_symbols.length 1
  pure (rmapM (ofList (List.range last)) (fun idx => do
    let b_i ← index b idx
    pure (Flt.signPos (Cx.conj a * b_i).re)), rng)

/-- Type of the stream returned by `rx_baseband_fh_ofdm_dcsk_signal`. -/
abbrev RxBasebandFhOfdm (ι ρ F : Type) := FlatMap (Chunks ι) ρ (List (Cx F)) (Map (VecIter ℕ) ℕ Bool)

/-- `rx_baseband_fh_ofdm_dcsk_signal` — src/fh_ofdm_dcsk.rs:68-105. -/
def rxBasebandFhOfdm (ρ F : Type) [Add F] [Sub F] [Mul F] [Div F] [Neg F] [Zero F] [One F] [Flt F] [Fft F] [Rng ρ]
    (signal : ι) : RxBasebandFhOfdm ι ρ F :=
  rflatMapSt (chunks signal (NUM_SUBCARRIERS + CP_LEN)) (Rng.seed SEED : ρ) fhOfdmDeframe

/-- Type of the stream returned by `tx_fh_ofdm_dcsk_signal`. -/
abbrev TxFhOfdm (ι ρ F : Type) :=
  Map (Enumerate (Inflate (Zip (TxBasebandFhOfdm ι ρ F) (HopTable ρ F)) (Cx F × F))) (ℕ × (Cx F × F)) F

/-- `tx_fh_ofdm_dcsk_signal` — src/fh_ofdm_dcsk.rs:107-128. -/
def txFhOfdm (ρ : Type) [Rng ρ] [RIter ι Bool] (message : ι) (low_freq high_freq : F)
    (num_freqs sample_rate symbol_rate : ℕ) : RM (TxFhOfdm ι ρ F) := do
  rassert (decide (sample_rate / 2 ≥ Flt.toNat high_freq))
  rassert (isInt (Flt.ofNat sample_rate / Flt.ofNat symbol_rate : F))
  let samples_per_symbol ← udiv sample_rate symbol_rate
  let base ← txBasebandFhOfdm ρ F message
  let hops ← hopTable ρ low_freq high_freq num_freqs SEED
  pure (rmap (renumerate (inflate (rzip base hops) samples_per_symbol)) (fun p : ℕ × (Cx F × F) =>
    let time : F := Flt.ofNat p.1 / Flt.ofNat sample_rate
    (p.2.1 * Cx.exp ⟨0, -(Flt.ofNat 2) * Flt.pi * p.2.2 * time⟩).re))

/-- Type of the stream returned by `tx_fh_ofdm_dcsk_signal_2`. -/
abbrev TxFhOfdm2 (ι ρ F : Type) := Map (Enumerate (Inflate (TxBasebandFhOfdm ι ρ F) (Cx F))) (ℕ × Cx F) F

/-- `tx_fh_ofdm_dcsk_signal_2` — src/fh_ofdm_dcsk.rs:130-148. -/
def txFhOfdm2 (ρ : Type) [Rng ρ] [RIter ι Bool] (message : ι) (sample_rate symbol_rate : ℕ) (carrier_freq : F) :
    RM (TxFhOfdm2 ι ρ F) := do
  rassert (decide (sample_rate / 2 ≥ Flt.toNat carrier_freq))
  rassert (isInt (Flt.ofNat sample_rate / Flt.ofNat symbol_rate : F))
  let samples_per_symbol ← udiv sample_rate symbol_rate
  let base ← txBasebandFhOfdm ρ F message
  pure (rmap (renumerate (inflate base samples_per_symbol)) (fun p : ℕ × Cx F =>
    let time : F := Flt.ofNat p.1 / Flt.ofNat sample_rate
    (p.2 * Cx.exp ⟨0, -(Flt.ofNat 2) * Flt.pi * carrier_freq * time⟩).re))

end Verif
