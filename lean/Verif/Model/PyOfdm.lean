import Verif.Model.FhOfdm

/-!
# Model of the OFDM entry points of the Python module — src/lib.rs:479-518 and 595-607

As in `Verif.Model.Py`, a `Vec` argument is a list and a returned `Vec` is the collected stream.  The `println!` of
`tx_fh_ofdm_dcsk` is left out.
-/
namespace Verif
set_option linter.unusedSectionVars false
variable {F : Type} [Add F] [Sub F] [Mul F] [Div F] [Neg F] [Zero F] [One F] [Flt F] [Fft F]

/-- `tx_ofdm` — src/lib.rs:479-498. -/
def pyTxOfdm (message : List Bool) (subcarriers pilots sample_rate symbol_rate : ℕ) (carrier_freq : F) :
    RM (List F) := do
  collect (← txOfdmQpsk (ofList message) subcarriers pilots sample_rate symbol_rate carrier_freq)

/-- `rx_ofdm` — src/lib.rs:500-518. -/
def pyRxOfdm (signal : List F) (subcarriers pilots sample_rate symbol_rate : ℕ) (carrier_freq : F) :
    RM (List Bool) := do
  collect (← rxOfdmQpsk (ofList signal) subcarriers pilots sample_rate symbol_rate carrier_freq)

/-- `tx_fh_ofdm_dcsk` — src/lib.rs:595-607. -/
def pyTxFhOfdmDcsk (ρ : Type) [Rng ρ] (message : List Bool) (sample_rate symbol_rate : ℕ) (carrier_freq : F) :
    RM (List F) := do
  collect (← txFhOfdm2 ρ (ofList message) sample_rate symbol_rate carrier_freq)

end Verif
