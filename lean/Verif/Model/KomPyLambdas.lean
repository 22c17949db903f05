import Verif.Model.Py
import Verif.Model.PyOfdm
import Verif.Model.Ssca

/-!
# Model of the detection experiment — kom_py/lambdas.py

The script draws random bits and noise from the thread's generator.  Every draw is named here by the place it is made for,
so that the statements can range over all of them.
-/
namespace Verif.KomPy
set_option linter.unusedSectionVars false
variable {F : Type} [Add F] [Sub F] [Mul F] [Div F] [Neg F] [Zero F] [One F] [Flt F] [Fft F]

/-- `random_data` — src/lib.rs:388-392: `num_bits` bits of the generator, the stream `coin`. -/
def randomData (coin : ℕ → Bool) (num_bits : ℕ) : List Bool := (List.range num_bits).map coin

/-- The random draws of one run of the experiment. -/
structure Draws (ν : Type) where
  /-- bits drawn while looking for the size of the message (lines 232 and 235), by the number of bits asked for -/
  size : ℕ → ℕ → Bool
  /-- bits of attempt `j` at the `i`-th signal-to-noise ratio (line 252) -/
  data : ℕ → ℕ → ℕ → Bool
  /-- noise added to the transmission of attempt `j` at the `i`-th ratio (line 252) -/
  noise : ℕ → ℕ → ν
  /-- noise alone, attempt `j` at the `i`-th ratio (line 256) -/
  alone : ℕ → ℕ → ν

/-- The loop that lengthens the message — kom_py/lambdas.py:233-235. -/
def growBits (tx : List Bool → RM (List F)) (coin : ℕ → ℕ → Bool) (num_bits : ℕ) (signal : List F) : RM (ℕ × List F) :=
  if signal.length < 4096 + 64 then do
    let num_bits := num_bits + 10
    let signal ← tx (randomData (coin num_bits) num_bits)
    growBits tx coin num_bits signal
  else pure (num_bits, signal)
partial_fixpoint

/-- The statistics collected for one signal-to-noise ratio: without (`h0`) and with (`h1`) a transmission, for the two
detectors of `_detectors` — kom_py/lambdas.py:56-61. -/
structure Stats (F : Type) where
  maxCut0 : List F
  maxCut1 : List F
  radiometer0 : List F
  radiometer1 : List F

/-- The body of the loop over the ratios — kom_py/lambdas.py:248-264.  `Pool.map` gives the results in order. -/
def runAt {ν : Type} [RIter ν F] (tx : List Bool → RM (List F)) (d : Draws ν) (num_attempts num_bits i : ℕ) (n0 : F) :
    RM (Stats F) := do
  let signals ← (List.range num_attempts).mapM (fun j => do
    let s ← tx (randomData (d.data i j) num_bits)
    awgnPy s n0 (d.noise i j))
  let noises ← (List.range num_attempts).mapM (fun j => do
    let first ← index signals 0
    pureAwgn first.length n0 (d.alone i j))
  let maxCut0 ← noises.mapM maxCutDetector
  let maxCut1 ← signals.mapM maxCutDetector
  pure ⟨maxCut0, maxCut1, noises.map energyDetectorDb, signals.map energyDetectorDb⟩

/-- `__run` up to the collected statistics — kom_py/lambdas.py:223-264; the number of bits is returned as well.  The
regressions that follow are in Model/KomPyRoc; the plots are not modelled. -/
def runExperiment {ν : Type} [RIter ν F] (tx : List Bool → RM (List F)) (snrs : List F) (num_attempts : ℕ) (d : Draws ν) :
    RM (ℕ × List (Stats F)) := do
  let signal ← tx (randomData (d.size 120) 120)
  let (num_bits, signal) ← growBits tx d.size 120 signal
  let eb := Verif.avgEnergy signal
  let n0s := snrs.map (fun snr => eb / snr)
  let out ← (n0s.zipIdx).mapM (fun p => runAt tx d num_attempts num_bits p.2 p.1)
  pure (num_bits, out)

/-! ## The eight transmitters of `harness` — kom_py/lambdas.py:295-346 -/

/-- `bfsk_signal` — kom_py/lambdas.py:304-310. -/
def bfskSignal (data : List Bool) : RM (List F) :=
  pyTxBfsk data (2 ^ 16) (2 ^ 8) (Flt.ofNat 2000 * Flt.lit 8 1) (Flt.ofNat 2000)

/-- `bpsk_signal` — kom_py/lambdas.py:295-297. -/
def bpskSignal (data : List Bool) : RM (List F) := pyTxBpsk data (2 ^ 16) (2 ^ 8) (Flt.ofNat 2000)

/-- `cdma_signal` — kom_py/lambdas.py:298-303. -/
def cdmaSignal (data : List Bool) : RM (List F) := pyTxCdmaBpsk data (2 ^ 16) (2 ^ 8) (Flt.ofNat 2000)

/-- `ofdm_signal` — kom_py/lambdas.py:329-334; `int(8 * 0.8)` is 6. -/
def ofdmSignal (data : List Bool) : RM (List F) := pyTxOfdm data 8 6 (2 ^ 16) (2 ^ 8) (Flt.ofNat 2000)

/-- `fh_css_signal` — kom_py/lambdas.py:313-320. -/
def fhCssSignal (ρ : Type) [Rng ρ] (data : List Bool) : RM (List F) :=
  pyTxFhCss ρ data (2 ^ 16) (2 ^ 8) (Flt.ofNat 2000) (Flt.ofNat 10000) 8

/-- `csk_signal` — kom_py/lambdas.py:311. -/
def cskSignal (data : List Bool) : RM (List F) := pyTxCsk F data (2 ^ 16) (2 ^ 8)

/-- `dcsk_signal` — kom_py/lambdas.py:312. -/
def dcskSignal (data : List Bool) : RM (List F) := pyTxDcsk F data (2 ^ 16) (2 ^ 8)

/-- `fh_ofdm_dcsk_signal` — kom_py/lambdas.py:321-326. -/
def fhOfdmDcskSignal (ρ : Type) [Rng ρ] (data : List Bool) : RM (List F) :=
  pyTxFhOfdmDcsk ρ data (2 ^ 16) (2 ^ 8) (Flt.ofNat 2000)

/-- `harness` — kom_py/lambdas.py:337-346. -/
def harness (ρ : Type) [Rng ρ] : List (List Bool → RM (List F)) :=
  [bfskSignal, bpskSignal, cdmaSignal, ofdmSignal, fhCssSignal ρ, cskSignal, dcskSignal, fhOfdmDcskSignal ρ]

end Verif.KomPy
