import Verif.Model.Lib
import Verif.Model.Cdma
import Verif.Model.Fsk
import Verif.Model.Hadamard

/-!
# Model of the energy-per-bit check — tests/eb.rs

The random bits of line 26 are the argument `data`; the printing of the values (58-63) is their order in the result.
-/
namespace Verif
set_option linter.unusedSectionVars false
variable {F : Type} [Add F] [Sub F] [Mul F] [Div F] [Neg F] [Zero F] [One F] [Flt F] {ι : Type}

/-- `check_eb!` — tests/eb.rs:13-18. -/
def checkEb [RIter ι F] (num_bits : ℕ) (tx : ι) : RM F := do
  let l ← collect (rmap tx (fun s_i : F => powi s_i 2))
  pure (rsum l / Flt.ofNat num_bits)

/-- `check_ebs` — tests/eb.rs:22-64, with the number of bits of line 24 as an argument; the values in the order in which they are
printed. -/
def checkEbs (F : Type) [Add F] [Sub F] [Mul F] [Div F] [Neg F] [Zero F] [One F] [Flt F] (num_bits : ℕ) (data : List Bool) :
    RM (List F) := do
  let fs := 43200
  let sr := 90
  let fc : F := Flt.ofNat 180
  let fl : F := Flt.ofNat 1600
  let fh : F := Flt.ofNat 1800
  let bpsk_tx ← txBpsk (ofList data) fs sr fc
  let bpsk_eb ← checkEb (F := F) num_bits bpsk_tx
  let bpsk_tx_2 ← txBpsk (ofList data) fs sr fc
  let bpsk_tx_2 ← collect bpsk_tx_2
  let bpsk_eb_2 := avgEnergy bpsk_tx_2 / Flt.ofNat num_bits
  let qpsk_tx ← txQpsk (ofList data) fs sr fc
  let qpsk_eb ← checkEb (F := F) num_bits qpsk_tx
  let fsk_tx ← txBfsk (ofList data) fs sr fl fh
  let fsk_eb ← checkEb (F := F) num_bits fsk_tx
  let h ← hadamardNew 16
  let key ← hadamardKey h 2
  let cdma_bpsk_tx ← txCdmaBpsk (ofList data) fs sr fc key
  let cdma_bpsk_eb ← checkEb (F := F) num_bits cdma_bpsk_tx
  let cdma_qpsk_tx ← txCdmaQpsk (ofList data) fs sr fc key
  let cdma_qpsk_eb ← checkEb (F := F) num_bits cdma_qpsk_tx
  pure [fsk_eb, bpsk_eb, bpsk_eb_2, cdma_bpsk_eb, qpsk_eb, cdma_qpsk_eb]

end Verif
