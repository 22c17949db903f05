import Verif.Model.Chaos
import Verif.Model.Cdma
import Verif.Model.Hadamard
import Verif.Model.Fh
import Verif.Model.Fsk

/-!
# Model of the Python entry points — src/lib.rs:422-426 and 431-607

The PyO3 conversions (`Vec` from and to Python lists) are the identity here: a `Vec` argument is a list, a returned `Vec` is the
collected stream.
-/
namespace Verif
set_option linter.unusedSectionVars false
variable {F : Type} [Add F] [Sub F] [Mul F] [Div F] [Neg F] [Zero F] [One F] [Flt F]

/-- `chirp` — src/lib.rs:423-426. -/
def pyChirp (chirp_rate : F) (sample_rate : ℕ) (f0 f1 : F) : RM (List F) :=
  collect (linearChirp chirp_rate sample_rate f0 f1)

/-- `tx_baseband_bpsk` — src/lib.rs:431-434. -/
def pyTxBasebandBpsk (F : Type) [Neg F] [Zero F] [One F] (message : List Bool) : RM (List (Cx F)) :=
  collect (txBasebandBpsk (F := F) (ofList message))

/-- `tx_bpsk` — src/lib.rs:437-446. -/
def pyTxBpsk (message : List Bool) (sample_rate symbol_rate : ℕ) (carrier_freq : F) : RM (List F) := do
  collect (← txBpsk (ofList message) sample_rate symbol_rate carrier_freq)

/-- `rx_bpsk` — src/lib.rs:447-456. -/
def pyRxBpsk (signal : List F) (sample_rate symbol_rate : ℕ) (carrier_freq : F) : RM (List Bool) := do
  collect (← rxBpsk (ofList signal) sample_rate symbol_rate carrier_freq)

/-- `tx_qpsk` — src/lib.rs:458-467. -/
def pyTxQpsk (message : List Bool) (sample_rate symbol_rate : ℕ) (carrier_freq : F) : RM (List F) := do
  collect (← txQpsk (ofList message) sample_rate symbol_rate carrier_freq)

/-- `rx_qpsk` — src/lib.rs:468-477. -/
def pyRxQpsk (signal : List F) (sample_rate symbol_rate : ℕ) (carrier_freq : F) : RM (List Bool) := do
  collect (← rxQpsk (ofList signal) sample_rate symbol_rate carrier_freq)

/-- `tx_cdma_bpsk` — src/lib.rs:520-538. -/
def pyTxCdmaBpsk (message : List Bool) (sample_rate symbol_rate : ℕ) (carrier_freq : F) : RM (List F) := do
  let walsh_codes ← hadamardNew 16
  let key ← hadamardKey walsh_codes 0
  collect (← txCdmaBpsk (ofList message) sample_rate symbol_rate carrier_freq key)

/-- `tx_bfsk` — src/lib.rs:539-556. -/
def pyTxBfsk (message : List Bool) (sample_rate symbol_rate : ℕ) (freq_low freq_high : F) : RM (List F) := do
  collect (← txBfsk (ofList message) sample_rate symbol_rate freq_low freq_high)

/-- `tx_fh_css` — src/lib.rs:557-576. -/
def pyTxFhCss (ρ : Type) [Rng ρ] (message : List Bool) (sample_rate symbol_rate : ℕ) (freq_low freq_high : F)
    (num_freqs : ℕ) : RM (List F) := do
  collect (← txFhCss ρ (ofList message) sample_rate symbol_rate freq_low freq_high num_freqs)

/-- `tx_csk` — src/lib.rs:577-584. -/
def pyTxCsk (F : Type) [Add F] [Sub F] [Mul F] [Div F] [Neg F] [Zero F] [One F] [Flt F] (message : List Bool)
    (sample_rate symbol_rate : ℕ) : RM (List F) := do
  rassert (isInt (Flt.ofNat sample_rate / Flt.ofNat symbol_rate : F))
  let samples_per_symbol ← udiv sample_rate symbol_rate
  collect (inflate (← txCsk F (ofList message)) samples_per_symbol)

/-- `tx_dcsk` — src/lib.rs:586-593. -/
def pyTxDcsk (F : Type) [Add F] [Sub F] [Mul F] [Div F] [Neg F] [Zero F] [One F] [Flt F] (message : List Bool)
    (sample_rate symbol_rate : ℕ) : RM (List F) := do
  rassert (isInt (Flt.ofNat sample_rate / Flt.ofNat symbol_rate : F))
  let samples_per_symbol ← udiv sample_rate symbol_rate
  collect (inflate (← txDcsk F (ofList message)) samples_per_symbol)

end Verif
