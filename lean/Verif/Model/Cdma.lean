import Verif.Model.Psk

/-!
# Model of `src/bch.rs` and `src/cdma.rs`
-/
namespace Verif
set_option linter.unusedSectionVars false

variable {ι : Type}

/-! ## src/bch.rs

The `reed_solomon` crate is not part of the repository: it is a parameter. -/

/-- What `src/bch.rs` calls: `Encoder::new(5).encode(&data)[..]` and `Decoder::new(5).correct(&word, None)`
(`none` for `Err`, `some d` for `Ok(buffer)` with `buffer.data() = d`). -/
structure RS where
  encode : List UInt8 → RM (List UInt8)
  correct : List UInt8 → RM (Option (List UInt8))

/-- `DAT_VALUE` — src/bch.rs:5. -/
def datValue : ℕ := 7
/-- `ECC_VALUE` — src/bch.rs:6. -/
def eccValue : ℕ := 5
/-- `FRAME_VALUE` — src/bch.rs:7. -/
def frameValue : ℕ := datValue + eccValue

/-- `bch_stream_encode` — src/bch.rs:10-19. -/
def bchStreamEncode [RIter ι Bool] (rs : RS) (data : ι) :
    FlatMap (FlatMap (Chunks (Map (Chunks ι) (List Bool) UInt8)) Unit (List UInt8) (VecIter UInt8)) Unit UInt8
      (VecIter Bool) :=
  rflatMap (rflatMap (chunks (boolsToU8s data) datValue) (fun chunk : List UInt8 => do
      let encoded ← rs.encode chunk
      pure (ofList encoded)))
    (fun byte : UInt8 => pure (ofList (u8ToBools byte)))

/-- The closure of `bch_stream_decode` — src/bch.rs:24-38. -/
def bchDecodeChunk (rs : RS) (chunk : List UInt8) : RM (VecIter UInt8) := do
  match ← rs.correct chunk with
  | some decoded => pure (ofList decoded)
  | none => do
    let n ← usub chunk.length eccValue
    pure (ofList (chunk.take n))

/-- `bch_stream_decode` — src/bch.rs:21-40. -/
def bchStreamDecode [RIter ι Bool] (rs : RS) (data : ι) :
    FlatMap (FlatMap (Chunks (Map (Chunks ι) (List Bool) UInt8)) Unit (List UInt8) (VecIter UInt8)) Unit UInt8
      (VecIter Bool) :=
  rflatMap (rflatMap (chunks (boolsToU8s data) frameValue) (bchDecodeChunk rs))
    (fun byte : UInt8 => pure (ofList (u8ToBools byte)))

/-! ## src/cdma.rs -/

/-- `tx_baseband_cdma` — src/cdma.rs:9-17. -/
def txBasebandCdma [RIter ι Bool] (message : ι) (key : List Bool) :
    Map (Zip (Inflate ι Bool) (Cycle (VecIter Bool))) (Bool × Bool) Bool :=
  rmap (rzip (inflate message key.length) (rcycle (ofList key))) (fun p : Bool × Bool => p.1 ^^ p.2)

/-- The closure of `rx_baseband_cdma` — src/cdma.rs:29-37. -/
def cdmaVote (keyLen : ℕ) (data_bit : List Bool) : Bool :=
  let trueness := (data_bit.map (fun bit => if bit then 1 else 0)).sum
  decide (trueness * 2 > keyLen)

/-- `rx_baseband_cdma` — src/cdma.rs:20-38. -/
def rxBasebandCdma [RIter ι Bool] (bitstream : ι) (key : List Bool) :
    Map (Chunks (Map (Zip ι (Cycle (VecIter Bool))) (Bool × Bool) Bool)) (List Bool) Bool :=
  rmap (chunks (rmap (rzip bitstream (rcycle (ofList key))) (fun p : Bool × Bool => p.1 ^^ p.2)) key.length)
    (cdmaVote key.length)

variable {F : Type} [Add F] [Sub F] [Mul F] [Div F] [Neg F] [Zero F] [One F] [Flt F]

/-- Stream multiplied by a cyclic key. -/
abbrev Spread (ι F : Type) := Map (Zip ι (Cycle (Inflate (VecIter Bool) Bool))) (F × Bool) F

/-- `.zip(key.iter().inflate(samples_per_chip).cycle()).map(|(s_i, &keybit)| s_i * bit_to_nrz(keybit))` —
src/cdma.rs:60-61, 83-84, 147-148, 170-171. -/
def spread [RIter ι F] (signal : ι) (key : List Bool) (samples_per_chip : ℕ) : Spread ι F :=
  rmap (rzip signal (rcycle (inflate (ofList key) samples_per_chip))) (fun p : F × Bool => p.1 * bitToNrz p.2)

/-- The four assertions and the two divisions shared by the passband functions — src/cdma.rs:50-57, 74-81, 137-144,
161-168; returns `samples_per_chip`. -/
def cdmaGuards (sample_rate symbol_rate : ℕ) (carrier_freq : F) (keyLen : ℕ) : RM ℕ := do
  rassert (decide (sample_rate / 2 ≥ keyLen * symbol_rate))
  rassert (decide (sample_rate / 2 ≥ Flt.toNat carrier_freq))
  rassert (isInt (Flt.ofNat sample_rate / Flt.ofNat symbol_rate : F))
  rassert (isInt (Flt.ofNat sample_rate / (Flt.ofNat symbol_rate * Flt.ofNat keyLen) : F))
  let samples_per_symbol ← udiv sample_rate symbol_rate
  udiv samples_per_symbol keyLen

/-- `tx_cdma_bpsk_signal` — src/cdma.rs:43-62. -/
def txCdmaBpsk [RIter ι Bool] (message : ι) (sample_rate symbol_rate : ℕ) (carrier_freq : F) (key : List Bool) :
    RM (Spread (TxBpsk ι F) F) := do
  let samples_per_chip ← cdmaGuards sample_rate symbol_rate carrier_freq key.length
  let tx ← txBpsk message sample_rate symbol_rate carrier_freq
  pure (spread tx key samples_per_chip)

/-- `rx_cdma_bpsk_signal` — src/cdma.rs:67-87. -/
def rxCdmaBpsk [RIter ι F] (signal : ι) (sample_rate symbol_rate : ℕ) (carrier_freq : F) (key : List Bool) :
    RM (RxBpsk (Spread ι F) F) := do
  let samples_per_chip ← cdmaGuards sample_rate symbol_rate carrier_freq key.length
  rxBpsk (spread signal key samples_per_chip) sample_rate symbol_rate carrier_freq

/-- `tx_coded_cdma_bpsk_signal` — src/cdma.rs:92-106. -/
def txCodedCdmaBpsk [RIter ι Bool] (rs : RS) (message : ι) (sample_rate symbol_rate : ℕ) (carrier_freq : F)
    (key : List Bool) :=
  txCdmaBpsk (bchStreamEncode rs message) sample_rate symbol_rate carrier_freq key

/-- `rx_coded_cdma_bpsk_signal` — src/cdma.rs:111-125. -/
def rxCodedCdmaBpsk [RIter ι F] (rs : RS) (signal : ι) (sample_rate symbol_rate : ℕ) (carrier_freq : F)
    (key : List Bool) := do
  let rx ← rxCdmaBpsk signal sample_rate symbol_rate carrier_freq key
  pure (bchStreamDecode rs rx)

/-- `tx_cdma_qpsk_signal` — src/cdma.rs:130-149. -/
def txCdmaQpsk [RIter ι Bool] (message : ι) (sample_rate symbol_rate : ℕ) (carrier_freq : F) (key : List Bool) :
    RM (Spread (TxQpsk ι F) F) := do
  let samples_per_chip ← cdmaGuards sample_rate symbol_rate carrier_freq key.length
  let tx ← txQpsk message sample_rate symbol_rate carrier_freq
  pure (spread tx key samples_per_chip)

/-- `rx_cdma_qpsk_signal` — src/cdma.rs:154-174. -/
def rxCdmaQpsk [RIter ι F] (signal : ι) (sample_rate symbol_rate : ℕ) (carrier_freq : F) (key : List Bool) :
    RM (RxQpsk (Spread ι F) F) := do
  let samples_per_chip ← cdmaGuards sample_rate symbol_rate carrier_freq key.length
  rxQpsk (spread signal key samples_per_chip) sample_rate symbol_rate carrier_freq

end Verif
