import Verif.Model.KomPyMore
import Verif.Model.Py
import Verif.Model.PyOfdm

/-!
# Model of the measurement script `kom_py/ber.py`

The script sends through the compiled module, adds noise with the compiled `awgn`, receives, and counts.  A run is a value of
`RM (Py α)`: the compiled functions may panic, the Python code may raise.  The process pool of `calc_ber` runs the points one after
the other, point number `i` with the noise source `std i`; `sum` of floats adds from left to right (Python 3.12 compensates it,
which changes nothing in exact arithmetic).  `noise_sig` (lines 45-46) uses a name that is not defined and is never called; the
plots are left out.
-/
namespace Verif.KomPy
set_option linter.unusedSectionVars false
variable {F ν : Type} [Add F] [Sub F] [Mul F] [Div F] [Neg F] [Zero F] [One F] [Flt F]

/-- `numpy.nan_to_num` of one number: NaN becomes zero, an infinity the finite number of that sign with the largest magnitude. -/
def npNanToNum (x : F) : F :=
  if Flt.isFinite x then x
  else if Flt.lt x 0 then -(Flt.ofNat (2 ^ 1024 - 2 ^ 971))
  else if Flt.lt 0 x then Flt.ofNat (2 ^ 1024 - 2 ^ 971)
  else 0

/-- One entry of `n0s` in `calc_ber` — kom_py/ber.py:52-54. -/
def berSigma (sample_rate symbol_rate : ℕ) (eb snr : F) : F :=
  npNanToNum (Flt.sqrt (Flt.ofNat sample_rate * eb / (Flt.ofNat 2 * snr)) / Flt.ofNat symbol_rate)

/-- `get_ber` — kom_py/ber.py:39-42. -/
def getBer [RIter ν F] (data : List Bool) (tx_sig : List F) (rx_func : List F → RM (List Bool)) (n0 : F) (std : ν) : RM (Py F) := do
  let noisy_sig ← awgnPy tx_sig n0 std
  let sig_hat ← rx_func noisy_sig
  pure (ber data sig_hat)

/-- `calc_ber` — kom_py/ber.py:49-62: the field `bers` of the result. -/
def calcBer [RIter ν F] (sample_rate symbol_rate : ℕ) (data : List Bool) (tx_sig : List F) (rx_fn : List F → RM (List Bool))
    (snrs : List F) (std : ℕ → ν) : RM (Py (List F)) :=
  if data.length = 0 then pure (.error .zeroDivision)
  else do
    let eb := rsum (tx_sig.map (fun s_i => s_i * s_i)) / Flt.ofNat data.length
    let n0s := snrs.map (berSigma sample_rate symbol_rate eb)
    let rates ← (n0s.mapIdx (fun i n0 => (i, n0))).mapM (fun p : ℕ × F => getBer data tx_sig rx_fn p.2 (std p.1))
    pure (rates.mapM id)

/-- `bpsk_rx` — kom_py/ber.py:78-79. -/
def bpskRx (sample_rate symbol_rate : ℕ) (carrier_freq : F) (signal : List F) : RM (List Bool) :=
  pyRxBpsk signal sample_rate symbol_rate carrier_freq

/-- `qpsk_rx` — kom_py/ber.py:81-82. -/
def qpskRx (sample_rate symbol_rate : ℕ) (carrier_freq : F) (signal : List F) : RM (List Bool) :=
  pyRxQpsk signal sample_rate symbol_rate carrier_freq

/-- `ofdm_rx` — kom_py/ber.py:91-96: the receiver is given the sent bits `data` of the enclosing scope, not `signal`; a `bool`
arrives in a `Vec<f64>` as 0 or 1.  `int(16 * 0.8)` is 12. -/
def ofdmRx [Fft F] (data : List Bool) (sample_rate symbol_rate : ℕ) (carrier_freq : F) (_signal : List F) : RM (List Bool) :=
  pyRxOfdm (data.map (fun b => if b then 1 else 0)) 16 12 sample_rate symbol_rate carrier_freq

/-- The standard deviation handed to `awgn` and `pure_awgn` by the detector experiment `__run` — kom_py/lambdas.py:238-240: `n0` is the mean
energy of a transmission over `snr`, and is passed where a standard deviation is expected (lines 251-257). -/
def lambdasSigma (signal : List F) (snr : F) : F := Verif.avgEnergy signal / snr

end Verif.KomPy
