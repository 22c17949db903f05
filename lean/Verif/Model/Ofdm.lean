import Verif.Model.Fft
import Verif.Model.Lib
import Verif.Model.Psk

/-! # Model of `src/ofdm.rs` -/
namespace Verif
set_option linter.unusedSectionVars false
variable {ι : Type} {F : Type} [Add F] [Sub F] [Mul F] [Div F] [Neg F] [Zero F] [One F] [Flt F] [Fft F]

/-- `a..b` collected: empty when `a ≥ b`. -/
def rangeList (a b : ℕ) : List ℕ := List.range' a (b - a)

/-- `get_data_subcarriers` — src/ofdm.rs:9-18. -/
def getDataSubcarriers (num_subcarriers num_pilots : ℕ) : RM (List ℕ) := do
  let m := num_subcarriers / 2
  let p1 ← usub num_pilots 1
  let back := p1 / 2
  let front ← usub p1 back
  let e ← usub num_subcarriers back
  pure (rangeList front m ++ rangeList (m + 1) e)

/-- Insertion of the data into the data carriers — src/ofdm.rs:38-42. -/
def insertData (subcarriers : ℕ) (data_subcarriers : List ℕ) (data_chunk : List (Cx F)) : RM (List (Cx F)) :=
  (data_subcarriers.zip data_chunk).foldlM (fun v p => assignIdx v p.1 p.2) (List.replicate subcarriers 0)

/-- The closure of `tx_baseband_ofdm_signal` — src/ofdm.rs:36-57. -/
def ofdmFrame (subcarriers cp_len : ℕ) (data_subcarriers : List ℕ) (data_chunk : List (Cx F)) :
    RM (List (Cx F)) := do
  let ofdm_symbol_data ← insertData subcarriers data_subcarriers data_chunk
  let ofdm_symbols ← fftProcess true subcarriers (fftshift ofdm_symbol_data)
  let a ← usub subcarriers cp_len
  let cp ← slice ofdm_symbols a subcarriers
  pure ((cp ++ ofdm_symbols).map (fun s_i => Cx.divR s_i (Flt.ofNat subcarriers)))

/-- Type of the stream returned by `tx_baseband_ofdm_signal`. -/
abbrev TxBasebandOfdm (ι F : Type) := FlatMap (Chunks ι) Unit (List (Cx F)) (VecIter (Cx F))

/-- `tx_baseband_ofdm_signal` — src/ofdm.rs:20-60. -/
def txBasebandOfdm (symbols : ι) (subcarriers pilots : ℕ) : RM (TxBasebandOfdm ι F) := do
  let num_data_subcarriers ← usub subcarriers pilots
  let cp_len := subcarriers / 4
  let data_subcarriers ← getDataSubcarriers subcarriers pilots
  pure (rflatMap (chunks symbols num_data_subcarriers)
    (fun data_chunk => do pure (ofList (← ofdmFrame subcarriers cp_len data_subcarriers data_chunk))))

/-- The closure of `rx_baseband_ofdm_signal` — src/ofdm.rs:79-92. -/
def ofdmDeframe (subcarriers cp_len : ℕ) (data_subcarriers : List ℕ) (ofdm_symbol_data : List (Cx F)) :
    RM (List (Cx F)) := do
  let buffer ← sliceFrom ofdm_symbol_data cp_len
  let buffer ← fftProcess false subcarriers buffer
  let demoded := fftshift buffer
  data_subcarriers.mapM (fun carrier => index demoded carrier)

/-- Type of the stream returned by `rx_baseband_ofdm_signal`. -/
abbrev RxBasebandOfdm (ι F : Type) := FlatMap (Chunks ι) Unit (List (Cx F)) (VecIter (Cx F))

/-- `rx_baseband_ofdm_signal` — src/ofdm.rs:62-93. -/
def rxBasebandOfdm (message : ι) (subcarriers pilots : ℕ) : RM (RxBasebandOfdm ι F) := do
  let _num_data_subcarriers ← usub subcarriers pilots
  let cp_len := subcarriers / 4
  let data_subcarriers ← getDataSubcarriers subcarriers pilots
  pure (rflatMap (chunks message (subcarriers + cp_len))
    (fun d => do pure (ofList (← ofdmDeframe subcarriers cp_len data_subcarriers d))))

/-- Type of the stream returned by `tx_ofdm_qpsk_signal`. -/
abbrev TxOfdmQpsk (ι F : Type) :=
  Map (Enumerate (Inflate (TxBasebandOfdm (Map (Tuples ι Bool) (Bool × Bool) (Cx F)) F) (Cx F))) (ℕ × Cx F) F

/-- `tx_ofdm_qpsk_signal` — src/ofdm.rs:95-117. -/
def txOfdmQpsk [RIter ι Bool] (message : ι) (subcarriers pilots sample_rate symbol_rate : ℕ) (carrier_freq : F) :
    RM (TxOfdmQpsk ι F) := do
  rassert (isInt (Flt.ofNat sample_rate / Flt.ofNat symbol_rate : F))
  let samples_per_symbol ← udiv sample_rate symbol_rate
  let ofdm_symbols ← txBasebandOfdm (F := F) (txBasebandQpsk (F := F) message) subcarriers pilots
  pure (rmap (renumerate (inflate ofdm_symbols samples_per_symbol)) (fun p : ℕ × Cx F =>
    (p.2 * Cx.exp ⟨0, phase sample_rate carrier_freq p.1⟩).re))

/-- Type of the stream returned by `rx_ofdm_qpsk_signal`. -/
abbrev RxOfdmQpsk (ι F : Type) :=
  FlatMap (RxBasebandOfdm (Skip (TakeEvery (Map (Nonvolver (Map (Enumerate ι) (ℕ × F) (Vector F 2)) F 2)
    (Vector F 2) (Cx F)))) F) Unit (Cx F) (VecIter Bool)

/-- `rx_ofdm_qpsk_signal` — src/ofdm.rs:119-147. -/
def rxOfdmQpsk [RIter ι F] (message : ι) (subcarriers pilots sample_rate symbol_rate : ℕ) (carrier_freq : F) :
    RM (RxOfdmQpsk ι F) := do
  rassert (isInt (Flt.ofNat sample_rate / Flt.ofNat symbol_rate : F))
  let samples_per_symbol ← udiv sample_rate symbol_rate
  let filter : List F := List.replicate samples_per_symbol 1
  let ofdm_symbols := rskip (takeEvery (rmap (nonvolve (rmap (renumerate message)
      (fun p : ℕ × F =>
        let ii := p.2 * Flt.cos (phase sample_rate carrier_freq p.1)
        let qi := p.2 * -(Flt.sin (phase sample_rate carrier_freq p.1))
        (#v[ii, qi] : Vector F 2))) filter)
    (fun s_i : Vector F 2 => (⟨s_i[0], s_i[1]⟩ : Cx F))) samples_per_symbol) 1
  let qpsk_symbols ← rxBasebandOfdm (F := F) ofdm_symbols subcarriers pilots
  pure (rxBasebandQpsk qpsk_symbols)

end Verif
