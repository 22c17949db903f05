import Verif.Model.Psk

/-!
# Model of `src/fh.rs` and `src/fh_css.rs`

`rand::rngs::StdRng` is a parameter: a class `Rng` with `seed_from_u64` and the index generator used by
`SliceRandom::shuffle` of rand 0.8, whose only assumed property is that the index is below the bound.  The shuffle
itself (Fisher–Yates) is transcribed.
-/
namespace Verif
set_option linter.unusedSectionVars false

/-- What the code uses from `StdRng`. -/
class Rng (ρ : Type) where
  /-- `StdRng::seed_from_u64` -/
  seed : ℕ → ρ
  /-- `rand::seq::gen_index(rng, ubound)` -/
  genIndex : ρ → ℕ → ℕ × ρ
  genIndex_lt : ∀ r n, 0 < n → (genIndex r n).1 < n

/-- `slice::swap`. -/
def swapIdx {α : Type} (l : List α) (i j : ℕ) : RM (List α) :=
  if h : i < l.length ∧ j < l.length then
    pure (l.toArray.swap i j (by simpa using h.1) (by simpa using h.2)).toList
  else RM.panic .index

/-- `SliceRandom::shuffle` of rand 0.8: `for i in (1..self.len()).rev() { self.swap(i, gen_index(rng, i + 1)); }`. -/
def shuffle {ρ α : Type} [Rng ρ] (l : List α) (rng : ρ) : RM (List α × ρ) :=
  ((List.range l.length).drop 1).reverse.foldlM (fun (s : List α × ρ) i => do
    let g := Rng.genIndex s.2 (i + 1)
    pure (← swapIdx s.1 i g.1, g.2)) (l, rng)

/-- `const SEED: u64 = 64` — src/fh.rs:8, src/fh_css.rs:5, src/fh_ofdm_dcsk.rs:14. -/
def SEED : ℕ := 64

/-- `HopTable` — src/fh.rs:12-17. -/
structure HopTable (ρ F : Type) where
  rng : ρ
  hopping_table : List F
  idx : ℕ

/-- `HopTable::next` — src/fh.rs:42-54. -/
instance {ρ F : Type} [Rng ρ] : RIter (HopTable ρ F) F where
  next s :=
    if s.idx = 0 then do
      let (tbl, rng) ← shuffle s.hopping_table s.rng
      let v ← index tbl 0
      pure (some v, ⟨rng, tbl, 1⟩)
    else do
      let last ← usub s.hopping_table.length 1
      if s.idx = last then do
        let v ← index s.hopping_table last
        pure (some v, { s with idx := 0 })
      else do
        let v ← index s.hopping_table s.idx
        pure (some v, { s with idx := s.idx + 1 })

variable {ι ρ : Type} {F : Type} [Add F] [Sub F] [Mul F] [Div F] [Neg F] [Zero F] [One F] [Flt F] [Rng ρ]

/-- `HopTable::new` — src/fh.rs:20-36. -/
def hopTable (ρ : Type) [Rng ρ] (low high : F) (num_freqs seed : ℕ) : RM (HopTable ρ F) := do
  let hopping_table ← collect (linspace low high num_freqs)
  pure ⟨Rng.seed seed, hopping_table, 0⟩

/-- Type of the stream returned by `tx_fh_bpsk_signal`. -/
abbrev TxFhBpsk (ι ρ F : Type) := FlatMap (Zip ι (HopTable ρ F)) Unit (Bool × F) (TxBpsk (VecIter Bool) F)

/-- `tx_fh_bpsk_signal` — src/fh.rs:58-74. -/
def txFhBpsk (ρ : Type) [Rng ρ] [RIter ι Bool] (message : ι) (low_freq high_freq : F) (num_freqs sample_rate symbol_rate : ℕ) :
    RM (TxFhBpsk ι ρ F) := do
  rassert (decide (sample_rate / 2 ≥ Flt.toNat high_freq))
  rassert (isInt (Flt.ofNat sample_rate / Flt.ofNat symbol_rate : F))
  let hops ← hopTable ρ low_freq high_freq num_freqs SEED
  pure (rflatMap (rzip message hops) (fun p : Bool × F => txBpsk (ofList [p.1]) sample_rate symbol_rate p.2))

/-- Type of the stream returned by `rx_fh_bpsk_signal`. -/
abbrev RxFhBpsk (ι ρ F : Type) := FlatMap (Zip (Chunks ι) (HopTable ρ F)) Unit (List F × F) (RxBpsk (VecIter F) F)

/-- `rx_fh_bpsk_signal` — src/fh.rs:76-94. -/
def rxFhBpsk (ρ : Type) [Rng ρ] [RIter ι F] (signal : ι) (low_freq high_freq : F) (num_freqs sample_rate symbol_rate : ℕ) :
    RM (RxFhBpsk ι ρ F) := do
  let samples_per_symbol ← udiv sample_rate symbol_rate
  rassert (decide (sample_rate / 2 ≥ Flt.toNat high_freq))
  rassert (isInt (Flt.ofNat sample_rate / Flt.ofNat symbol_rate : F))
  let hops ← hopTable ρ low_freq high_freq num_freqs SEED
  pure (rflatMap (rzip (chunks signal samples_per_symbol) hops)
    (fun p : List F × F => rxBpsk (ofList p.1) sample_rate symbol_rate p.2))

/-- Type of the stream returned by `tx_fh_bpsk_signal_old`. -/
abbrev TxFhBpskOld (ι ρ F : Type) :=
  FlatMap (Enumerate (Zip (Map ι Bool F) (HopTable ρ F))) Unit (ℕ × (F × F)) (Map (VecIter ℕ) ℕ F)

/-- `tx_fh_bpsk_signal_old` — src/fh.rs:96-156 (the unused `_low`, `_high` of 127-129 are left out). -/
def txFhBpskOld (ρ : Type) [Rng ρ] [RIter ι Bool] (message : ι) (low_freq high_freq : F)
    (num_freqs sample_rate symbol_rate : ℕ) (carrier_freq : F) : RM (TxFhBpskOld ι ρ F) := do
  let samples_per_symbol ← udiv sample_rate symbol_rate
  rassert (decide (sample_rate / 2 ≥ Flt.toNat carrier_freq))
  rassert (isInt (Flt.ofNat sample_rate / Flt.ofNat symbol_rate : F))
  let hops ← hopTable ρ low_freq high_freq num_freqs SEED
  pure (rflatMap (renumerate (rzip (rmap message bitToNrz) hops)) (fun p : ℕ × (F × F) =>
    let time0 : F := Flt.ofNat p.1 / Flt.ofNat sample_rate
    pure (rmap (ofList (List.range samples_per_symbol)) (fun idx =>
      let time : F := time0 + Flt.ofNat idx / Flt.ofNat sample_rate
      let bpsk_val := p.2.1 * Flt.cos (Flt.ofNat 2 * Flt.pi * carrier_freq * time)
      let freq_hop := Flt.cos (Flt.ofNat 2 * Flt.pi * p.2.2 * time)
      bpsk_val * freq_hop))))

/-! ## fh_css.rs -/

/-- Type of the stream returned by `linear_chirp`. -/
abbrev Chirp (F : Type) := Map (Map (VecIter ℕ) ℕ F) F F

/-- `linear_chirp` — src/fh_css.rs:7-19 (`chirp_rate.inv()` is `1 / chirp_rate`). -/
def linearChirp (chirp_rate : F) (sample_rate : ℕ) (f0 f1 : F) : Chirp F :=
  let chirp_period : F := 1 / chirp_rate
  let k : F := (f1 - f0) / chirp_period
  let samps_per_chirp : ℕ := Flt.toNat (Flt.ofNat sample_rate / chirp_rate)
  rmap (linspace 0 chirp_period samps_per_chirp)
    (fun t_i => Flt.cos (Flt.ofNat 2 * Flt.pi * (f0 + k * t_i / Flt.ofNat 2) * t_i))

/-- `linear_upchirp_centered` — src/fh_css.rs:21-30. -/
def linearUpchirpCentered (chirp_rate center_freq bandwidth : F) (sample_rate : ℕ) : Chirp F :=
  let f0 := center_freq - bandwidth / Flt.ofNat 2
  let f1 := center_freq + bandwidth / Flt.ofNat 2
  linearChirp chirp_rate sample_rate f0 f1

/-- `linear_downchirp_centered` — src/fh_css.rs:31-40. -/
def linearDownchirpCentered (chirp_rate center_freq bandwidth : F) (sample_rate : ℕ) : Chirp F :=
  let f0 := center_freq - bandwidth / Flt.ofNat 2
  let f1 := center_freq + bandwidth / Flt.ofNat 2
  linearChirp chirp_rate sample_rate f0 f1

/-- Type of the stream returned by `tx_fh_css_signal`. -/
abbrev TxFhCss (ι ρ F : Type) := FlatMap (Zip ι (HopTable ρ F)) Unit (Bool × F) (Chirp F)

/-- `tx_fh_css_signal` — src/fh_css.rs:42-65. -/
def txFhCss (ρ : Type) [Rng ρ] [RIter ι Bool] (message : ι) (sample_rate symbol_rate : ℕ) (low_freq high_freq : F)
    (num_freqs : ℕ) : RM (TxFhCss ι ρ F) := do
  rassert (decide (sample_rate / 2 ≥ Flt.toNat high_freq))
  rassert (isInt (Flt.ofNat sample_rate / Flt.ofNat symbol_rate : F))
  let bandwidth : F := (high_freq - low_freq) / Flt.ofNat num_freqs
  let hops ← hopTable ρ low_freq high_freq num_freqs SEED
  pure (rflatMap (rzip message hops) (fun p : Bool × F =>
    let f : F × F :=
      if p.1 then (p.2 - bandwidth / Flt.ofNat 2, p.2 + bandwidth / Flt.ofNat 2)
      else (p.2 + bandwidth / Flt.ofNat 2, p.2 - bandwidth / Flt.ofNat 2)
    pure (linearChirp (Flt.ofNat symbol_rate) sample_rate f.1 f.2)))

end Verif
