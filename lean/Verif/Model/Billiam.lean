import Verif.Model.Lib
import Verif.Model.Cdma
import Verif.Model.Hadamard

/-!
# Model of the radiometer experiments — tests/billiam.rs

The experiments draw random bits and noise from the thread's generator: `data i j` and `noise i j` are what attempt `j` at the
`i`-th point of the curve draws.  `par_iter().map(..).collect()` gives the results in order.  The plots and the curve fits are
not modelled.
-/
namespace Verif.Billiam
set_option linter.unusedSectionVars false
variable {F : Type} [Add F] [Sub F] [Mul F] [Div F] [Neg F] [Zero F] [One F] [Flt F] {ν : Type} [RIter ν F]

/-- `get_pds` of `radiometer_pd_new` — tests/billiam.rs:25-54; `attempts` is the constant of line 61, which the function reads
besides its argument `attempts_var`. -/
def getPdsNew (attempts : ℕ) (snrs : List F) (attempts_var num_bits samp_rate : ℕ) (tx : List F) (noise : ℕ → ℕ → ν) : RM (List F) :=
  let e_b := rsum (tx.map (fun s_i => powi s_i 2)) / Flt.ofNat (samp_rate * num_bits)
  snrs.zipIdx.mapM (fun p => do
    let n_0 := e_b / p.1
    let energies ← (List.range attempts_var).mapM (fun j => do
      let ch ← awgn (ofList tx) n_0 (noise p.2 j)
      let chan_sig ← collect ch
      pure (avgEnergy chan_sig))
    pure (Flt.ofNat (energies.map (fun nrg => if Flt.lt (e_b / n_0) nrg then 0 else 1)).sum / Flt.ofNat attempts))

/-- `get_pds` of `radiometer_pd` — tests/billiam.rs:222-248; `attempts` is the constant of line 255. -/
def getPds (attempts : ℕ) (ebs : List F) (attempts_var num_bits : ℕ) (tx : List Bool → F → RM (List F)) (data : ℕ → ℕ → ℕ → Bool)
    (noise : ℕ → ℕ → ν) : RM (List F) :=
  ebs.zipIdx.mapM (fun p => do
    let eb := p.1
    let energies ← (List.range attempts_var).mapM (fun j => do
      let sig ← tx ((List.range num_bits).map (data p.2 j)) eb
      let ch ← awgn (ofList sig) (1 : F) (noise p.2 j)
      let chan_sig ← collect ch
      pure (avgEnergy chan_sig))
    pure (Flt.ofNat (energies.map (fun nrg => if Flt.lt eb nrg then 0 else 1)).sum / Flt.ofNat attempts))

/-- `bpsk_tx` — tests/billiam.rs:262-263. -/
def bpskTx (x : List Bool) (_e : F) : RM (List F) := do
  collect (← txBpsk (ofList x) 43200 900 (Flt.ofNat 1800))

/-- `qpsk_tx` — tests/billiam.rs:268-269. -/
def qpskTx (x : List Bool) (_e : F) : RM (List F) := do
  collect (← txQpsk (ofList x) 43200 900 (Flt.ofNat 1800))

/-- `cdma_bpsk_tx` — tests/billiam.rs:282-286. -/
def cdmaBpskTx (x : List Bool) (_e : F) : RM (List F) := do
  let h ← hadamardNew 16
  let key ← hadamardKey h 2
  collect (← txCdmaBpsk (ofList x) 43200 900 (Flt.ofNat 1800) key)

/-- `cdma_qpsk_tx` — tests/billiam.rs:296-300. -/
def cdmaQpskTx (x : List Bool) (_e : F) : RM (List F) := do
  let h ← hadamardNew 16
  let key ← hadamardKey h 2
  collect (← txCdmaQpsk (ofList x) 43200 900 (Flt.ofNat 1800) key)

/-- The curve of `radiometer_pmd_cdma` — tests/billiam.rs:377-429, for any number of bits and attempts. -/
def pmdCdma (ebs : List F) (attempts num_bits : ℕ) (data : ℕ → ℕ → ℕ → Bool) (noise : ℕ → ℕ → ν) : RM (List F) :=
  ebs.zipIdx.mapM (fun p => do
    let eb := p.1
    let h ← hadamardNew 16
    let key ← hadamardKey h 2
    let energies ← (List.range attempts).mapM (fun j => do
      let s ← txCdmaBpsk (ofList ((List.range num_bits).map (data p.2 j))) 43200 900 (Flt.ofNat 1800 : F) key
      let ch ← awgn s (1 : F) (noise p.2 j)
      let chan_sig ← collect ch
      pure (avgEnergy chan_sig))
    pure (Flt.ofNat (energies.map (fun nrg => if Flt.lt eb nrg then 1 else 0)).sum / Flt.ofNat attempts))

/-- The curve of `radiometer_pmd_cdma_qpsk` — tests/billiam.rs:448-482, for any number of bits and attempts. -/
def pmdCdmaQpsk (ebs : List F) (attempts num_bits : ℕ) (data : ℕ → ℕ → ℕ → Bool) (noise : ℕ → ℕ → ν) : RM (List F) :=
  ebs.zipIdx.mapM (fun p => do
    let eb := p.1
    let h ← hadamardNew 16
    let key ← hadamardKey h 2
    let energies ← (List.range attempts).mapM (fun j => do
      let s ← txCdmaQpsk (ofList ((List.range num_bits).map (data p.2 j))) 43200 900 (Flt.ofNat 1800 : F) key
      let ch ← awgn s (1 : F) (noise p.2 j)
      let chan_sig ← collect ch
      pure (avgEnergy chan_sig))
    pure (Flt.ofNat (energies.map (fun nrg => if Flt.lt eb nrg then 1 else 0)).sum / Flt.ofNat attempts))

end Verif.Billiam
