import Verif.Model.Iter
import Verif.Rust.Flt

/-!
# Model of the helper functions of `src/lib.rs`

`usize` is `ℕ` (no overflow: the code only multiplies lengths and rates), `u8` is `UInt8`, `f64` is the number type `F`.
-/
namespace Verif

variable {ι ν : Type}

/-! ## Bits and bytes -/

/-- `bool_to_u8` — src/lib.rs:48-56.  The `for` loop over `bools.iter().enumerate().take(min(len, 8))`. -/
def boolToU8 (bools : List Bool) : UInt8 :=
  ((bools.mapIdx (fun i b => (i, b))).take (min bools.length 8)).foldl
    (fun out (i, b) => if b then out ||| (1 <<< UInt8.ofNat i) else out) 0

/-- `u8_to_bools` — src/lib.rs:58-65.  The `[bool; 8]` is a list of length 8. -/
def u8ToBools (data : UInt8) : List Bool :=
  (List.replicate 8 false).mapIdx (fun i _ => (data &&& (1 <<< UInt8.ofNat i)) != 0)

/-- The loop `while !last_chunk.len() < 8 { last_chunk.push(false) }` — src/lib.rs:74-76.  In Rust `!` binds tighter
than `<` and is the bitwise complement of a `usize`, `2^64 - 1 - len`. -/
def padLoop (last_chunk : List Bool) : RM (List Bool) :=
  if 2 ^ 64 - 1 - last_chunk.length < 8 then padLoop (last_chunk ++ [false]) else pure last_chunk
partial_fixpoint

/-- The closure of `bools_to_u8s` — src/lib.rs:68-81. -/
def chunkToU8 (chunk : List Bool) : RM UInt8 :=
  if chunk.length ≠ 8 then do
    let last_chunk ← padLoop chunk
    pure (boolToU8 last_chunk)
  else pure (boolToU8 chunk)

/-- `bools_to_u8s` — src/lib.rs:67-82. -/
def boolsToU8s (bools : ι) : Map (Chunks ι) (List Bool) UInt8 := rmapM (chunks bools 8) chunkToU8

/-- `u8s_to_bools` — src/lib.rs:84-86. -/
def u8sToBools (bytes : ι) : FlatMap ι Unit UInt8 (VecIter Bool) :=
  rflatMap bytes (fun b => pure (ofList (u8ToBools b)))

/-! ## Numbers -/
section num
variable {F : Type} [Add F] [Sub F] [Mul F] [Div F] [Neg F] [Zero F] [One F] [Flt F]

/-- `is_int` — src/lib.rs:88-90. -/
def isInt (num : F) : Bool := Flt.eq num (Flt.ofNat (Flt.toNat num))

/-- `db` — src/lib.rs:117-120. -/
def db (x : F) : F := Flt.ofNat 10 * Flt.log10 x

/-- `undb` — src/lib.rs:122-125. -/
def undb (x : F) : F := Flt.powf (Flt.ofNat 10) (x / Flt.ofNat 10)

/-- `linspace` — src/lib.rs:127-131. -/
def linspace (start stop : F) (num : ℕ) : Map (VecIter ℕ) ℕ F :=
  let step := (stop - start) / Flt.ofNat num
  rmap (ofList (List.range num)) (fun i => start + step * Flt.ofNat i)

/-- `bit_to_nrz` — src/lib.rs:133-140. -/
def bitToNrz (bit : Bool) : F := if bit then 1 else -1

/-- `erf` — src/lib.rs:161-181. -/
def erf (x : F) : F :=
  let t : F := 1 / (1 + Flt.lit 5 1 * Flt.abs x)
  let tau := t * Flt.exp
    (-(powi x 2) - Flt.lit 126551223 8
      + Flt.lit 100002368 8 * t
      + Flt.lit 37409196 8 * powi t 2
      + Flt.lit 9678418 8 * powi t 3
      - Flt.lit 18628806 8 * powi t 4
      + Flt.lit 27886807 8 * powi t 5
      - Flt.lit 113520398 8 * powi t 6
      + Flt.lit 148851587 8 * powi t 7
      - Flt.lit 82215223 8 * powi t 8
      + Flt.lit 17087277 8 * powi t 9)
  if Flt.le 0 x then 1 - tau else tau - 1

/-- `erfc` — src/lib.rs:183-186. -/
def erfc (x : F) : F := 1 - erf x

/-- The closure of both Hamming windows — src/lib.rs:190 and 198. -/
def hammingAt (length i : ℕ) : F :=
  Flt.lit 54 2 - Flt.lit 46 2 * Flt.cos (Flt.ofNat 2 * Flt.pi * Flt.ofNat i / Flt.ofNat length)

/-- `hamming_window` — src/lib.rs:188-192. -/
def hammingWindow (length : ℕ) : List F := (List.range length).map (hammingAt length)

/-- `hamming_window_complex` — src/lib.rs:194-203. -/
def hammingWindowComplex (length : ℕ) : List (Cx F) := (List.range length).map (fun i => ⟨hammingAt length i, 0⟩)

/-- `ber` — src/lib.rs:205-214. -/
def ber (tx rx : List Bool) : F :=
  let len := min tx.length rx.length
  let errors := ((tx.zip rx).map (fun (ti, ri) => if ti == ri then 0 else 1)).foldl (· + ·) 0
  Flt.ofNat errors / Flt.ofNat len

/-- `Normal::new(mean, std_dev).unwrap().sample_iter(rng)` of `rand_distr`: `new` fails unless `std_dev` is finite, a sample is
`mean + std_dev * z` for the next `z` of the standard normal generator — the external random source, the parameter `std`. -/
def normalIter (mean std_dev : F) (std : ν) : RM (Map ν F F) :=
  if Flt.isFinite std_dev then pure (rmap std (fun z => mean + std_dev * z)) else RM.panic .unwrap

/-- `awgn` — src/lib.rs:229-237. -/
def awgn (signal : ι) (sigma : F) (std : ν) : RM (Map (Zip ι (Map ν F F)) (F × F) F) := do
  let n ← normalIter 0 sigma std
  pure (rmap (rzip signal n) (fun (sample, noise) => sample + noise))

/-- `awgn_complex` — src/lib.rs:216-227. -/
def awgnComplex (signal : ι) (sigma : F) (std : ν) : RM (Map (Zip ι (Map ν F F)) (Cx F × F) (Cx F)) := do
  let n ← normalIter 0 sigma std
  pure (rmap (rzip signal n) (fun (sample, noise) => sample.addR noise))

/-- `awgn_py` — src/lib.rs:399-411. -/
def awgnPy [RIter ν F] (signal : List F) (sigma : F) (std : ν) : RM (List F) := do
  let n ← normalIter 0 sigma std
  collect (rmap (rzip (ofList signal) n) (fun p : F × F => p.1 + p.2))

/-- `pure_awgn` — src/lib.rs:413-420. -/
def pureAwgn [RIter ν F] (size : ℕ) (sigma : F) (std : ν) : RM (List F) := do
  let n ← normalIter 0 sigma std
  collect (rtake n size)

/-- `avg_energy` — src/lib.rs:241-243 (`avg_energy_py`, 245-249, has the same body). -/
def avgEnergy (signal : List F) : F := rsum (signal.map (fun s => powi s 2)) / Flt.ofNat signal.length

/-- `energy` — src/lib.rs:251-253. -/
def energy [RIter ι F] (signal : ι) (sample_rate : F) : RM F := do
  let l ← collect (rmap signal (fun s : F => powi s 2))
  pure (rsum l / sample_rate)

/-- `power` — src/lib.rs:255-261: the fold keeps the *index* of the last sample as the count. -/
def power [RIter ι F] (signal : ι) (sample_rate : F) : RM F := do
  let l ← collect (renumerate signal)
  let (count, pow) := l.foldl (fun acc (idx, sample) => (idx, acc.2 + powi sample 2)) ((0 : ℕ), (0 : F))
  pure (pow / Flt.ofNat count / sample_rate)

/-- `energy_detector` of the Python module — src/lib.rs:394-397. -/
def energyDetectorDb (signal : List F) : F := Flt.ofNat 10 * Flt.log10 (rsum (signal.map (fun s => powi s 2)))

/-- `energy_detector` — src/willie.rs:21-24. -/
def energyDetector (signal : List F) (n0 : F) : Bool :=
  let energy := rsum (signal.map (fun s => powi s 2)) / Flt.ofNat signal.length
  Flt.lt n0 (Flt.sqrt energy)

end num

/-! ## `is_nan` / `no_nans` (IEEE only) -/

/-- `std::f64::NAN`, `INFINITY`, `NEG_INFINITY`. -/
def F64.nan : Float := Float.ofBits 0x7FF8000000000000
def F64.inf : Float := Float.ofBits 0x7FF0000000000000
def F64.negInf : Float := Float.ofBits 0xFFF0000000000000

/-- `<f64 as IsNan>::is_nan` — src/lib.rs:96-100. -/
def isNan (x : Float) : Bool := Float.beq x F64.nan || Float.beq x F64.inf || Float.beq x F64.negInf

/-- `<Complex<f64> as IsNan>::is_nan` — src/lib.rs:102-111. -/
def isNanC (z : Cx Float) : Bool :=
  Float.beq z.re F64.nan || Float.beq z.im F64.nan || Float.beq z.re F64.inf || Float.beq z.im F64.inf
    || Float.beq z.re F64.negInf || Float.beq z.im F64.negInf

/-- `no_nans::<f64>` — src/lib.rs:113-115. -/
def noNans (v : List Float) : Bool := !v.any isNan

/-- `no_nans::<Complex<f64>>` — src/lib.rs:113-115. -/
def noNansC (v : List (Cx Float)) : Bool := !v.any isNanC

/-! ## fftshift -/

/-- `fftshift` — src/lib.rs:142-148.  `pivot = ceil(n/2) ≤ n`, so the slices never panic. -/
def fftshift {T : Type} (x : List T) : List T :=
  let pivot := (x.length + 1) / 2
  x.drop pivot ++ x.take pivot

/-- `x[i] = v` on a slice. -/
def assignIdx {T : Type} (x : List T) (i : ℕ) (v : T) : RM (List T) :=
  if i < x.length then pure (x.set i v) else RM.panic .index

/-- `fftshift_mut` — src/lib.rs:150-159; returns the final contents of the slice. -/
def fftshiftMut {T : Type} (x : List T) : RM (List T) := do
  let pivot := (x.length + 1) / 2
  let v := x.take pivot
  -- for (i, j) in (pivot..x.len()).enumerate()
  let x ← (List.range (x.length - pivot)).foldlM (fun x i => do assignIdx x i (← index x (pivot + i))) x
  -- for (i, item) in (0..pivot).zip(v)
  ((List.range pivot).zip v).foldlM (fun x (i, item) => assignIdx x i item) x

end Verif
