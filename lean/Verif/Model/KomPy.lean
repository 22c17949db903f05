import Verif.Model.Psk

/-!
# Model of the pure-Python reference code in `kom_py/`

`kom_py/util.py`, `kom_py/psk.py`, `kom_py/cdma.py`, `kom_py/fh_ofdm_dcsk.py`: Python functions of the repository that
re-implement the modulators with `numpy`, without the compiled module.

Python exceptions are explicit error values.  Rates are `int`s that are not negative (`ℕ`); a true division of two `int`s is the
division of the two numbers they are (below `2^53` this is what Python computes).  `numpy` leaves the order of the additions of
`np.convolve` open, so the receivers are only read over `ℝ`.
-/
namespace Verif.KomPy
set_option linter.unusedSectionVars false

/-- Why a Python call raised. -/
inductive PyErr where
  /-- `AssertionError` -/
  | assertion
  /-- `ZeroDivisionError` -/
  | zeroDivision
  /-- `ValueError` -/
  | value
  /-- `RuntimeError` -/
  | runtime
  /-- `IndexError` -/
  | index
  deriving DecidableEq, Repr

/-- The result of a Python call. -/
abbrev Py (α : Type) := Except PyErr α

/-- `assert c`. -/
def pyAssert (c : Bool) : Py Unit := if c then .ok () else .error .assertion

/-! ## What is used of `numpy` and of the language -/

variable {F : Type} [Add F] [Sub F] [Mul F] [Div F] [Neg F] [Zero F] [One F] [Flt F]

/-- `a / b` for two `int`s. -/
def pyDiv (F : Type) [Div F] [Flt F] (a b : ℕ) : Py F :=
  if b = 0 then .error .zeroDivision else .ok (Flt.ofNat a / Flt.ofNat b)

/-- `a % b` for two `int`s. -/
def pyMod (a b : ℕ) : Py ℕ := if b = 0 then .error .zeroDivision else .ok (a % b)

/-- `a // b` for two `int`s. -/
def pyFloorDiv (a b : ℕ) : Py ℕ := if b = 0 then .error .zeroDivision else .ok (a / b)

/-- `np.repeat(l, n)`. -/
def npRepeat {A : Type} (l : List A) (n : ℕ) : List A := l.flatMap (fun a => List.replicate n a)

/-- `np.tile(l, n)`. -/
def npTile {A : Type} (l : List A) (n : ℕ) : List A := (List.replicate n l).flatten

/-- `np.convolve(a, v)` (mode `full`): raises on an empty operand; entry `n` is the sum of the `a[m]·v[n-m]`. -/
def npConvolve (a v : List F) : Py (List F) :=
  if a = [] ∨ v = [] then .error .value
  else .ok ((List.range (a.length + v.length - 1)).map (fun n =>
    rsum ((List.range (n + 1)).filterMap (fun m => do
      let x ← a[m]?
      let y ← v[n - m]?
      pure (x * y)))))

/-- `l[::step]`: raises for step zero; otherwise the items at the multiples of the step. -/
def pyEvery {A : Type} (l : List A) (step : ℕ) : Py (List A) :=
  if step = 0 then .error .value
  else .ok ((List.range ((l.length + step - 1) / step)).filterMap (fun k => l[k * step]?))

/-! ## kom_py/util.py -/

/-- `next_power_of_2` — kom_py/util.py:18-19.  `int.bit_length` of `x - 1`. -/
def nextPowerOf2 (x : ℕ) : ℕ := if x = 0 then 1 else 2 ^ Nat.size (x - 1)

/-- `floor_power_of_2` — kom_py/util.py:22-29.  `isPow` stands for `log(x, 2).is_integer()`, which is computed in floating
point: it is a parameter. -/
def floorPowerOf2 (isPow : ℕ → Bool) (x : ℕ) : ℕ :=
  if x = 0 then 0
  else if isPow x then x
  else 2 ^ (Nat.size (x - 1) - 1)

/-- `bit_to_nrz` — kom_py/util.py:32-33.  The `int` is turned into a `float` by the product it is used in. -/
def bitToNrz (bit : Bool) : F := if bit then 1 else -1

/-- `chunk` — kom_py/util.py:40-42: `zip_longest` over `n` references to one iterator. -/
def chunk {A : Type} (n : ℕ) (fill : A) (l : List A) : List (List A) :=
  if h : n = 0 ∨ l = [] then []
  else (l.take n ++ List.replicate (n - l.length) fill) :: chunk n fill (l.drop n)
termination_by l.length
decreasing_by
  have : l.length ≠ 0 := fun e => h (.inr (List.length_eq_zero_iff.mp e))
  simp only [List.length_drop]; omega

/-- `fftshift` — kom_py/util.py:45-50. -/
def fftshift {A : Type} (x : List A) : List A :=
  let pivot := (x.length + 1) / 2
  x.drop pivot ++ x.take pivot

/-! ## kom_py/psk.py -/

/-- `tx_baseband_bpsk` — kom_py/psk.py:7-8. -/
def txBasebandBpsk (data : List Bool) : List (Cx F) := data.map (fun bit => if bit then ⟨1, 0⟩ else ⟨-1, 0⟩)

/-- `rx_baseband_bpsk` — kom_py/psk.py:11-12. -/
def rxBasebandBpsk (signal : List (Cx F)) : List Bool := signal.map (fun s => Flt.le 0 s.re)

/-- The pair taken out of a chunk of two: `(b1, b2)` — kom_py/psk.py:18.  Another length would raise `ValueError`; chunks of
two never have another length. -/
def unpack2 {A : Type} : List A → Py (A × A)
  | [a, b] => .ok (a, b)
  | _ => .error .value

/-- `tx_baseband_qpsk` — kom_py/psk.py:15-19. -/
def txBasebandQpsk (data : List Bool) : Py (List (Cx F)) :=
  (chunk 2 false data).mapM (fun c => do
    let p ← unpack2 c
    pure ⟨bitToNrz p.1 * Flt.sqrt (Flt.ofNat 2), bitToNrz p.2 * Flt.sqrt (Flt.ofNat 2)⟩)

/-- `rx_baseband_qpsk` — kom_py/psk.py:22-23. -/
def rxBasebandQpsk (signal : List (Cx F)) : List Bool := signal.flatMap (fun s => [Flt.le 0 s.re, Flt.le 0 s.im])

/-- The three lines at the start of every passband function — kom_py/psk.py:29-33, 47-49, 65-67, 83-85. -/
def guards (samp_rate symb_rate : ℕ) (carrier_freq : F) : Py ℕ := do
  let samples_per_symbol := Flt.toNat (← pyDiv F samp_rate symb_rate)
  pyAssert (Flt.le carrier_freq (← pyDiv F samp_rate 2))
  pyAssert ((← pyMod samp_rate symb_rate) == 0)
  pure samples_per_symbol

/-- `tx_bpsk` — kom_py/psk.py:26-41.  The division by `samp_rate` is a `numpy` one; it is never by zero unless there are no
samples. -/
def txBpsk (data : List Bool) (samp_rate symb_rate : ℕ) (carrier_freq : F) : Py (List F) := do
  let samples_per_symbol ← guards samp_rate symb_rate carrier_freq
  let datums : List F := npRepeat (data.map bitToNrz) samples_per_symbol
  let time : List F := (List.range datums.length).map (fun i => Flt.ofNat i / Flt.ofNat samp_rate)
  pure (List.zipWith (fun d t => d * Flt.cos (Flt.ofNat 2 * Flt.pi * carrier_freq * t)) datums time)

/-- `[s_i * f(2 * np.pi * carrier_freq * (i / samp_rate)) for (i, s_i) in enumerate(signal)]` — kom_py/psk.py:52-55, 89-92,
97-100, kom_py/cdma.py:43-46. -/
def mix (f : F → F) (signal : List F) (samp_rate : ℕ) (carrier_freq : F) : Py (List F) :=
  (signal.zipIdx).mapM (fun p : F × ℕ => do
    let t ← pyDiv F p.2 samp_rate
    pure (p.1 * f (Flt.ofNat 2 * Flt.pi * carrier_freq * t)))

/-- `np.convolve(_, filter)`, `[th_i > 0 for th_i in sig[::samples_per_symbol]][1:]` — kom_py/psk.py:57-59, 104-105,
kom_py/cdma.py:48-50. -/
def slice (if_sig : List F) (samples_per_symbol : ℕ) : Py (List Bool) := do
  let sig ← npConvolve if_sig (List.replicate samples_per_symbol 1)
  let every ← pyEvery sig samples_per_symbol
  pure ((every.map (fun th => Flt.lt 0 th)).drop 1)

/-- `rx_bpsk` — kom_py/psk.py:44-59. -/
def rxBpsk (signal : List F) (samp_rate symb_rate : ℕ) (carrier_freq : F) : Py (List Bool) := do
  let samples_per_symbol ← guards samp_rate symb_rate carrier_freq
  let if_sig ← mix Flt.cos signal samp_rate carrier_freq
  slice if_sig samples_per_symbol

/-- `tx_qpsk` — kom_py/psk.py:62-77.  `np.exp(1j * np.pi * f * t)` is `cos + j·sin` of `π·f·t`: the factor two is missing. -/
def txQpsk (data : List Bool) (samp_rate symb_rate : ℕ) (carrier_freq : F) : Py (List F) := do
  let samples_per_symbol ← guards samp_rate symb_rate carrier_freq
  let symbols : List (Cx F) := npRepeat (← txBasebandQpsk data) samples_per_symbol
  symbols.zipIdx.mapM (fun p : Cx F × ℕ => do
    let t ← pyDiv F p.2 samp_rate
    let a := Flt.pi * carrier_freq * t
    pure (p.1.re * Flt.cos a - p.1.im * Flt.sin a))

/-- `rx_qpsk` — kom_py/psk.py:80-107. -/
def rxQpsk (signal : List F) (samp_rate symb_rate : ℕ) (carrier_freq : F) : Py (List Bool) := do
  let samples_per_symbol ← guards samp_rate symb_rate carrier_freq
  let ii ← mix Flt.cos signal samp_rate carrier_freq
  let ib ← slice ii samples_per_symbol
  let qi ← mix (fun a => -(Flt.sin a)) signal samp_rate carrier_freq
  let qb ← slice qi samples_per_symbol
  pure ((ib.zip qb).flatMap (fun p => [p.1, p.2]))

/-! ## kom_py/cdma.py -/

/-- `KEY` — kom_py/cdma.py:7, as bits (`1` is `true`, `-1` is `false`). -/
def KEY : List Bool :=
  [true, true, false, false, true, true, false, false, true, true, false, false, true, true, false, false]

/-- The assertions of both functions — kom_py/cdma.py:13-19, 34-39.  `float.is_integer` of a quotient of `int`s. -/
def cdmaGuards (samp_rate symb_rate : ℕ) (carrier_freq : F) : Py ℕ := do
  let samples_per_symbol := Flt.toNat (← pyDiv F samp_rate symb_rate)
  pyAssert (Flt.le carrier_freq (← pyDiv F samp_rate 2))
  pyAssert (Flt.le (Flt.ofNat (KEY.length * symb_rate) : F) (← pyDiv F samp_rate 2))
  pyAssert ((← pyMod samp_rate symb_rate) == 0)
  pyAssert (isInt (← pyDiv F samp_rate symb_rate))
  pyAssert (isInt (← pyDiv F samp_rate (symb_rate * KEY.length)))
  pure samples_per_symbol

/-- `tx_bpsk_cdma` — kom_py/cdma.py:10-28. -/
def txBpskCdma (data : List Bool) (samp_rate symb_rate : ℕ) (carrier_freq : F) : Py (List F) := do
  let samples_per_symbol ← cdmaGuards samp_rate symb_rate carrier_freq
  let samples_per_chip := Flt.toNat (← pyDiv F samples_per_symbol KEY.length)
  let bpsk ← txBpsk data samp_rate symb_rate carrier_freq
  let q ← pyFloorDiv bpsk.length samples_per_chip
  let tiles ← pyFloorDiv q KEY.length
  let spreading_code : List F := npTile (npRepeat (KEY.map bitToNrz) samples_per_chip) tiles
  pyAssert (bpsk.length == spreading_code.length)
  pure (List.zipWith (· * ·) bpsk spreading_code)

/-- `rx_bpsk_cdma` — kom_py/cdma.py:31-50. -/
def rxBpskCdma (signal : List F) (samp_rate symb_rate : ℕ) (carrier_freq : F) : Py (List Bool) := do
  let samples_per_symbol ← cdmaGuards samp_rate symb_rate carrier_freq
  let if_sig ← mix Flt.cos signal samp_rate carrier_freq
  slice if_sig samples_per_symbol

/-! ## kom_py/fh_ofdm_dcsk.py -/

/-- `_chebyshev` — kom_py/fh_ofdm_dcsk.py:25-27. -/
def chebyshev (xn : F) : F := 1 - Flt.ofNat 2 * (xn * xn)

/-- `chebyshev` without its assertion: `xn = _chebyshev(xn); yield xn` — kom_py/fh_ofdm_dcsk.py:30-35.  The value yielded by
the `n`-th call of `next`. -/
def chebyshevAt (x0 : F) : ℕ → F
  | 0 => chebyshev x0
  | n + 1 => chebyshev (chebyshevAt x0 n)

/-- `chebyshev` — kom_py/fh_ofdm_dcsk.py:30-35: the outcome of the `n`-th call of `next` on the generator, as long as no earlier
call has raised.  The assertion is evaluated in the first call. -/
def chebyshevNext (x0 : F) (n : ℕ) : Py F :=
  if Flt.le (-1) x0 && Flt.le x0 1 then .ok (chebyshevAt x0 n) else .error .assertion

/-- The first item of a row is the start value itself, then the map is iterated — kom_py/fh_ofdm_dcsk.py:49-53. -/
def chaosAt (x0 : F) : ℕ → F
  | 0 => x0
  | n + 1 => chebyshev (chaosAt x0 n)

/-- `tx_fh_dcsk` — kom_py/fh_ofdm_dcsk.py:38-66.  `_take(b, iter(data))` lets `StopIteration` escape from a generator when
there are fewer than `b` bits, which Python turns into a `RuntimeError`.  `rng.shuffle(new)` of column `col` is a parameter:
a permutation of the `b` places. -/
def txFhDcsk (shuffle : ℕ → (b : ℕ) → Fin b → Fin b) (data : List Bool) (b : ℕ) : Py (List (List F)) :=
  if data.length < b then .error .runtime
  else
    let x0s : List F := (List.range b).map (fun i => Flt.lit 1 3 + Flt.ofNat i / Flt.ofNat 10)
    -- dat_array[row][col] = to_nrz(data[row]) * chaos
    let dat : List (List F) := List.zipWith (fun bit x0 => (List.range b).map (fun col => bitToNrz bit * chaosAt x0 col))
      (data.take b) x0s
    -- every column is rearranged
    (List.finRange b).mapM (fun row => (List.range b).mapM (fun col =>
      match (dat[(shuffle col b row).val]?.bind (fun r => r[col]?)) with
      | some v => .ok v
      | none => .error .index))

end Verif.KomPy
