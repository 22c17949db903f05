import Verif.Model.Lib

/-!
# Model of `src/bpsk.rs` and `src/qpsk.rs`
-/
namespace Verif
set_option linter.unusedSectionVars false

variable {ι : Type} {F : Type} [Add F] [Sub F] [Mul F] [Div F] [Neg F] [Zero F] [One F] [Flt F]

/-- The phase `2_f64 * PI * carrier_freq * time` with `time = idx as f64 / sample_rate as f64`, as computed in every
modulator (e.g. src/bpsk.rs:38-39). -/
def phase (sample_rate : ℕ) (carrier_freq : F) (idx : ℕ) : F :=
  Flt.ofNat 2 * Flt.pi * carrier_freq * (Flt.ofNat idx / Flt.ofNat sample_rate)

/-- `tx_baseband_bpsk_signal` — src/bpsk.rs:5-15. -/
def txBasebandBpsk (message : ι) : Map ι Bool (Cx F) :=
  rmap message (fun bit => if bit then ⟨1, 0⟩ else ⟨-1, 0⟩)

/-- `rx_baseband_bpsk_signal` — src/bpsk.rs:17-21. -/
def rxBasebandBpsk (message : ι) : Map ι (Cx F) Bool :=
  rmap message (fun sample : Cx F => Flt.le 0 sample.re)

/-- Type of the stream returned by `tx_bpsk_signal`. -/
abbrev TxBpsk (ι F : Type) := Map (Enumerate (Inflate (Map ι Bool F) F)) (ℕ × F) F

/-- `tx_bpsk_signal` — src/bpsk.rs:23-41. -/
def txBpsk [RIter ι Bool] (message : ι) (sample_rate symbol_rate : ℕ) (carrier_freq : F) : RM (TxBpsk ι F) := do
  let samples_per_symbol ← udiv sample_rate symbol_rate
  rassert (decide (sample_rate / 2 ≥ Flt.toNat carrier_freq))
  rassert (isInt (Flt.ofNat sample_rate / Flt.ofNat symbol_rate : F))
  pure (rmap (renumerate (inflate (rmap message bitToNrz) samples_per_symbol))
    (fun p : ℕ × F => p.2 * Flt.cos (phase sample_rate carrier_freq p.1)))

/-- Type of the stream returned by `rx_bpsk_signal`. -/
abbrev RxBpsk (ι F : Type) := Map (IntegrateDump (Map (Enumerate ι) (ℕ × F) F)) F Bool

/-- `rx_bpsk_signal` — src/bpsk.rs:43-58. -/
def rxBpsk [RIter ι F] (message : ι) (sample_rate symbol_rate : ℕ) (carrier_freq : F) : RM (RxBpsk ι F) := do
  let samples_per_symbol ← udiv sample_rate symbol_rate
  pure (rmap (integrateAndDump (rmap (renumerate message)
      (fun p : ℕ × F => p.2 * Flt.cos (phase sample_rate carrier_freq p.1))) samples_per_symbol)
    (fun thresh_val : F => Flt.lt 0 thresh_val))

/-- `tx_baseband_qpsk_signal` — src/qpsk.rs:6-15. -/
def txBasebandQpsk [RIter ι Bool] (message : ι) : Map (Tuples ι Bool) (Bool × Bool) (Cx F) :=
  rmap (rtuples message Bool) (fun p : Bool × Bool =>
    match p with
    | (true, true) => ⟨Flt.sqrt (Flt.ofNat 2), Flt.sqrt (Flt.ofNat 2)⟩
    | (true, false) => ⟨Flt.sqrt (Flt.ofNat 2), -(Flt.sqrt (Flt.ofNat 2))⟩
    | (false, true) => ⟨-(Flt.sqrt (Flt.ofNat 2)), Flt.sqrt (Flt.ofNat 2)⟩
    | (false, false) => ⟨-(Flt.sqrt (Flt.ofNat 2)), -(Flt.sqrt (Flt.ofNat 2))⟩)

/-- `rx_baseband_qpsk_signal` — src/qpsk.rs:17-21. -/
def rxBasebandQpsk (message : ι) : FlatMap ι Unit (Cx F) (VecIter Bool) :=
  rflatMap message (fun sample : Cx F => pure (ofList [Flt.le 0 sample.re, Flt.le 0 sample.im]))

/-- Type of the stream returned by `tx_qpsk_signal`. -/
abbrev TxQpsk (ι F : Type) := Map (Enumerate (Inflate (Tuples ι Bool) (Bool × Bool))) (ℕ × (Bool × Bool)) F

/-- `tx_qpsk_signal` — src/qpsk.rs:23-42. -/
def txQpsk [RIter ι Bool] (message : ι) (sample_rate symbol_rate : ℕ) (carrier_freq : F) : RM (TxQpsk ι F) := do
  let samples_per_symbol ← udiv sample_rate symbol_rate
  pure (rmap (renumerate (inflate (rtuples message Bool) samples_per_symbol))
    (fun p : ℕ × (Bool × Bool) =>
      let i_t := bitToNrz p.2.1 * Flt.cos (phase sample_rate carrier_freq p.1)
      let q_t := -(bitToNrz p.2.2) * Flt.sin (phase sample_rate carrier_freq p.1)
      i_t + q_t))

/-- Type of the stream returned by `rx_qpsk_signal`. -/
abbrev RxQpsk (ι F : Type) :=
  FlatMap (NintegrateDump (Map (Enumerate ι) (ℕ × F) (Vector F 2))) Unit (Vector F 2) (VecIter Bool)

/-- `rx_qpsk_signal` — src/qpsk.rs:44-64. -/
def rxQpsk [RIter ι F] (message : ι) (sample_rate symbol_rate : ℕ) (carrier_freq : F) : RM (RxQpsk ι F) := do
  let samples_per_symbol ← udiv sample_rate symbol_rate
  pure (rflatMap (nintegrateAndDump (rmap (renumerate message)
      (fun p : ℕ × F =>
        let ii := p.2 * Flt.cos (phase sample_rate carrier_freq p.1)
        let qi := p.2 * -(Flt.sin (phase sample_rate carrier_freq p.1))
        (#v[ii, qi] : Vector F 2))) samples_per_symbol)
    (fun v : Vector F 2 => pure (ofList [Flt.le (0 : F) v[0], Flt.le (0 : F) v[1]])))

end Verif
