import Verif.Model.Psk

/-!
# Model of `src/fsk.rs` and `src/fm.rs`
-/
namespace Verif
set_option linter.unusedSectionVars false
variable {ι : Type} {F : Type} [Add F] [Sub F] [Mul F] [Div F] [Neg F] [Zero F] [One F] [Flt F]

/-- Type of the FSK transmit streams. -/
abbrev TxFsk (ι F : Type) := Map (Enumerate (Inflate (Map ι Bool F) F)) (ℕ × F) F

/-- `tx_bfsk_signal` — src/fsk.rs:4-23. -/
def txBfsk [RIter ι Bool] (message : ι) (sample_rate symbol_rate : ℕ) (freq_low freq_high : F) : RM (TxFsk ι F) := do
  let samples_per_symbol ← udiv sample_rate symbol_rate
  rassert (decide (sample_rate / 2 ≥ Flt.toNat freq_high))
  rassert (isInt (Flt.ofNat sample_rate / Flt.ofNat symbol_rate : F))
  pure (rmap (renumerate (inflate (rmap message (fun bit => if bit then freq_high else freq_low)) samples_per_symbol))
    (fun p : ℕ × F => Flt.cos (phase sample_rate p.2 p.1)))

/-- `tx_mfsk_signal` — src/fsk.rs:25-46. -/
def txMfsk [RIter ι Bool] (message : ι) (sample_rate symbol_rate : ℕ) (freq_low freq_high : F) (_num_freqs : ℕ) :
    RM (TxFsk ι F) := do
  let samples_per_symbol ← udiv sample_rate symbol_rate
  rassert (decide (sample_rate / 2 ≥ Flt.toNat freq_high))
  rassert (isInt (Flt.ofNat sample_rate / Flt.ofNat symbol_rate : F))
  pure (rmap (renumerate (inflate (rmap message (fun bit => if bit then freq_high else freq_low)) samples_per_symbol))
    (fun p : ℕ × F => Flt.cos (phase sample_rate p.2 p.1)))

/-- `tx_fsk_signal` — src/fsk.rs:48-68. -/
def txFskSignal [RIter ι Bool] (message : ι) (sample_rate symbol_rate : ℕ) (freqs : List F) : RM (TxFsk ι F) := do
  let samples_per_symbol ← udiv sample_rate symbol_rate
  let freq_high ← index freqs 0
  let freq_low ← index freqs 1
  rassert (decide (sample_rate / 2 ≥ Flt.toNat freq_high))
  rassert (isInt (Flt.ofNat sample_rate / Flt.ofNat symbol_rate : F))
  pure (rmap (renumerate (inflate (rmap message (fun bit => if bit then freq_high else freq_low)) samples_per_symbol))
    (fun p : ℕ × F => Flt.cos (phase sample_rate p.2 p.1)))

/-- `rx_bfsk_signal` — src/fsk.rs:69-77: a stub that ignores its input. -/
def rxBfsk (_signal : ι) (_sample_rate _symbol_rate : ℕ) (_freq_low _freq_high : F) : VecIter Bool := ofList [true]

/-! ## fm.rs -/

/-- `0.05 * carrier_freq` — src/fm.rs:12, 32. -/
def fskSep (carrier_freq : F) : F := Flt.lit 5 2 * carrier_freq

/-- `tx_fsk` — src/fm.rs:4-22. -/
def txFsk [RIter ι Bool] (message : ι) (sample_rate symbol_rate : ℕ) (carrier_freq : F) : RM (TxFsk ι F) := do
  let samples_per_symbol ← udiv sample_rate symbol_rate
  let sep := fskSep carrier_freq
  pure (rmap (renumerate (inflate (rmap message bitToNrz) samples_per_symbol))
    (fun p : ℕ × F => Flt.cos (phase sample_rate (carrier_freq + p.2 * (sep / Flt.ofNat 2)) p.1)))

/-- The closure of `rx_fsk` applied to chunk number `idx` — src/fm.rs:36-56. -/
def rxFskChunk (sample_rate : ℕ) (carrier_freq : F) (idx : ℕ) (chunk : List F) : Bool :=
  let sep := fskSep carrier_freq
  let time : F := Flt.ofNat idx / Flt.ofNat sample_rate
  let s := (chunk.mapIdx (fun jdx s_i =>
      let t_i := time + Flt.ofNat jdx / Flt.ofNat sample_rate
      (s_i * Flt.cos (Flt.ofNat 2 * Flt.pi * (carrier_freq + sep / Flt.ofNat 2) * t_i),
       s_i * Flt.sin (Flt.ofNat 2 * Flt.pi * (carrier_freq + sep / Flt.ofNat 2) * t_i),
       s_i * Flt.cos (Flt.ofNat 2 * Flt.pi * (carrier_freq - sep / Flt.ofNat 2) * t_i),
       s_i * Flt.sin (Flt.ofNat 2 * Flt.pi * (carrier_freq - sep / Flt.ofNat 2) * t_i)))).foldl
    (fun (a : F × F × F × F) v => (a.1 + v.1, a.2.1 + v.2.1, a.2.2.1 + v.2.2.1, a.2.2.2 + v.2.2.2)) (0, 0, 0, 0)
  Flt.le 0 ((powi s.1 2 + powi s.2.1 2) - (powi s.2.2.1 2 + powi s.2.2.2 2))

/-- Type of the stream returned by `rx_fsk`. -/
abbrev RxFsk (ι F : Type) := Map (Enumerate (Chunks ι)) (ℕ × List F) Bool

/-- `rx_fsk` — src/fm.rs:24-58. -/
def rxFsk [RIter ι F] (signal : ι) (sample_rate symbol_rate : ℕ) (carrier_freq : F) : RM (RxFsk ι F) := do
  let samples_per_symbol ← udiv sample_rate symbol_rate
  pure (rmap (renumerate (chunks signal samples_per_symbol))
    (fun p : ℕ × List F => rxFskChunk sample_rate carrier_freq p.1 p.2))

/-- Type of the stream returned by `tx_fm`. -/
abbrev TxFm (ι F : Type) := Map (Enumerate (Integrate (Inflate ι F) F)) (ℕ × F) F

/-- `tx_fm` — src/fm.rs:60-77. -/
def txFm [RIter ι F] (signal : ι) (sample_rate symbol_rate : ℕ) (carrier_freq : F) : RM (TxFm ι F) := do
  let k : F := Flt.lit 5 2
  let samples_per_symbol ← udiv sample_rate symbol_rate
  pure (rmap (renumerate (integrate (inflate signal samples_per_symbol)))
    (fun p : ℕ × F => Flt.cos (Flt.ofNat 2 * Flt.pi * carrier_freq * (Flt.ofNat p.1 / Flt.ofNat sample_rate) + k * p.2)))

end Verif
