import Verif.Model.KomPy
import Verif.Model.Ssca
import Verif.Model.Fh
import Mathlib.Data.Rat.Floor

/-!
# Model of more of the pure-Python code in `kom_py/`

`kom_py/ssca.py`, `kom_py/chirp.py`, the rest of `kom_py/util.py`, `ber` of `kom_py/ber.py` and `kom_py/ber_theory.py`, and the
averages of `kom_py/willie.py`.  Conventions as in `Verif.Model.KomPy`.
-/
namespace Verif.KomPy
set_option linter.unusedSectionVars false
variable {F : Type} [Add F] [Sub F] [Mul F] [Div F] [Neg F] [Zero F] [One F] [Flt F]

/-- `l[i]` for `i ≥ 0`. -/
def pyIndex {A : Type} (l : List A) (i : ℕ) : Py A :=
  match l[i]? with
  | some a => .ok a
  | none => .error .index

/-- `l[i] = v` for `i ≥ 0`; returns the list after the assignment. -/
def pySet {A : Type} (l : List A) (i : ℕ) (v : A) : Py (List A) :=
  if i < l.length then .ok (l.set i v) else .error .index

/-! ## kom_py/ssca.py -/

/-- `np.hamming(M)`, as documented by `numpy`: the window of one sample is `1`, otherwise `0.54 - 0.46·cos(2πi/(M-1))`. -/
def npHamming (M : ℕ) : List F :=
  if M = 1 then [1]
  else (List.range M).map (fun i =>
    Flt.lit 54 2 - Flt.lit 46 2 * Flt.cos (Flt.ofNat 2 * Flt.pi * Flt.ofNat i / Flt.ofNat (M - 1)))

/-- `np.fft.fft(x, n)` for `x` of length `n`: raises for zero points. -/
def npFft [Fft F] (n : ℕ) (x : List (Cx F)) : Py (List (Cx F)) :=
  if n = 0 then .error .value else .ok (Fft.dft false x)

/-- `e(k, m)` — kom_py/ssca.py:64-65, for the `j`-th `k` of `range(-Np // 2, Np // 2)`: `-Np // 2` is `-⌈Np/2⌉`. -/
def sscaE (Np m j : ℕ) : Cx F :=
  let k : F := Flt.ofNat j - Flt.ofNat ((Np + 1) / 2)
  Cx.exp ⟨0, -(Flt.ofNat 2) * Flt.pi * Flt.ofNat m * k / Flt.ofNat Np⟩

/-- `ssca(s, N, Np, map_output=False)` — kom_py/ssca.py:49-82.  The products of line 75 are entry by entry.  The array of
line 53 has the shape `(0,)` rather than `(0, Np)` when `N` is zero; all other shapes are as asserted. -/
def sscaBase [Fft F] (s : List F) (N Np : ℕ) : Py (Mat F) := do
  let s := s.take (N + Np)
  pyAssert (s.length == N + Np)
  -- step 1
  let x : List (List F) := (List.range N).map (fun i => (s.drop i).take Np)
  pyAssert (N != 0)
  -- step 2
  let a : List F := npHamming Np
  let xat : Mat F ← x.mapM (fun xi => do
    let f ← npFft Np (List.zipWith (fun v w => (⟨v * w, 0⟩ : Cx F)) xi a)
    pure (fftshift f))
  -- step 3
  let em : Mat F := (List.range N).map (fun m => (List.range Np).map (fun j => sscaE Np m j))
  let g : Mat F := (npHamming N).map (fun w => List.replicate Np ⟨w, 0⟩)
  let xs : Mat F ← (List.range N).mapM (fun i => (List.range Np).mapM (fun _ => do
    let v ← pyIndex s (Np / 2 + i)
    pure (Cx.conj ⟨v, 0⟩)))
  let mulM (A B : Mat F) : Mat F := List.zipWith (List.zipWith (· * ·)) A B
  let xg := mulM (mulM (mulM xat em) xs) g
  -- step 4
  let sx ← (transposeM Np xg).mapM (fun xgi => do
    let f ← npFft N xgi
    pure (fftshift f))
  pure (transposeM N sx)

/-- The row and the column of entry `(q_p, k_p)` in the mapped output — kom_py/ssca.py:91-94. -/
def sscaCell (F : Type) [Add F] [Sub F] [Mul F] [Div F] [Flt F] (N Np q_p k_p : ℕ) : ℕ × ℕ :=
  let f : F := Flt.ofNat k_p / Flt.ofNat (2 * Np) - Flt.ofNat q_p / Flt.ofNat (2 * N)
  let a : F := Flt.ofNat k_p / Flt.ofNat Np + Flt.ofNat q_p / Flt.ofNat N
  (Flt.toNat (Flt.ofNat Np * (f + Flt.lit 5 1)), Flt.toNat (Flt.ofNat N * a))

/-- `ssca(s, N, Np, map_output)` — kom_py/ssca.py:49-98. -/
def ssca [Fft F] (s : List F) (N Np : ℕ) (map_output : Bool) : Py (Mat F) := do
  let sx ← sscaBase s N Np
  if map_output then
    let sxf : Mat F := List.replicate (Np + 1) (List.replicate (2 * N + 1) 0)
    (List.range N).foldlM (fun sxf q_p =>
      (List.range Np).foldlM (fun sxf k_p => do
        let cell := sscaCell F N Np q_p k_p
        let v ← pyIndex (← pyIndex sx q_p) k_p
        let row ← pySet (← pyIndex sxf cell.1) cell.2 v
        pySet sxf cell.1 row) sxf) sxf
  else pure sx

/-- `numpy` orders complex numbers by the real part, then by the imaginary part (numbers that are not NaN). -/
def cxLt (a b : Cx F) : Bool := Flt.lt a.re b.re || (Flt.le a.re b.re && Flt.le b.re a.re && Flt.lt a.im b.im)

/-- `np.max` along a row: raises for an empty one. -/
def npMax : List (Cx F) → Py (Cx F)
  | [] => .error .value
  | z :: l => .ok (l.foldl (fun m w => if cxLt m w then w else m) z)

/-- `max_cut` — kom_py/ssca.py:101-105. -/
def maxCut (sx : Mat F) : Py (List F) :=
  sx.mapM (fun row => do
    let m ← npMax row
    pure (Flt.ofNat 10 * Flt.log10 (Cx.normSq m)))

/-- `dcs` — kom_py/ssca.py:109-112. -/
def dcs (sx : Mat F) : Py (List F) := do
  let row0 ← pyIndex sx 0
  let top : List F := columnEnergy row0.length sx
  let bot : List F := row0.map Cx.normSq
  pure ((List.zipWith (· / ·) top bot).map (fun l => Flt.ofNat 10 * Flt.log10 l))

/-! ## kom_py/chirp.py -/

/-- `np.linspace(start, stop, num)`: both ends are included; one point is `start`. -/
def npLinspace (start stop : F) (num : ℕ) : List F :=
  (List.range num).map (fun i => start + Flt.ofNat i * ((stop - start) / Flt.ofNat (num - 1)))

/-- `chirpz` — kom_py/chirp.py:61-75.  `chirp_rate` is not zero (`ZeroDivisionError`); `int` of the quotient.  The argument
`periods` is not used by the function and left out.  Rates are not negative. -/
def chirpz (chirp_rate sample_rate f0 f1 phase_rad : F) : Py (List F) :=
  if Flt.le chirp_rate 0 && Flt.le 0 chirp_rate then .error .zeroDivision
  else
    let chirp_period : F := 1 / chirp_rate
    let c : F := (f1 - f0) / chirp_period
    let samps_per_chirp := Flt.toNat (sample_rate / chirp_rate)
    let t_s := npLinspace 0 chirp_period samps_per_chirp
    .ok (t_s.map (fun t => Flt.sin (Flt.ofNat 2 * Flt.pi * (c * (t * t) / Flt.ofNat 2 + f0 * t) + phase_rad)))

/-- `chirpCtr` — kom_py/chirp.py:78-92.  The arguments of the call in line 92 are positional: `fs_Hz` becomes `chirp_rate`,
`rep_Hz` becomes `sample_rate` and `phase_rad` becomes the unused `periods`. -/
def chirpCtr (fs_Hz fc_Hz rep_Hz bw_Hz _phase_rad : F) : Py (List F) :=
  let f0_Hz := fc_Hz - bw_Hz / Flt.ofNat 2
  let f1_Hz := fc_Hz + bw_Hz / Flt.ofNat 2
  chirpz fs_Hz rep_Hz f0_Hz f1_Hz 0

/-! ## kom_py/util.py -/

/-- `x // y` for numbers; the remainder `x % y` is `x - y·(x // y)`. -/
def ratFloorDiv (x y : ℚ) : ℤ := ⌊x / y⌋
/-- `x % y`. -/
def ratMod (x y : ℚ) : ℚ := x - y * ⌊x / y⌋

/-- `secs_to_str` — kom_py/util.py:53-76.  Seconds are an exact number (`int` or the exact value of a `float`); `int` of a
number that is not negative is its floor. -/
def secsToStr (seconds : ℚ) : String :=
  let s_m : ℚ := 60
  let s_h : ℚ := 60 * s_m
  let s_d : ℚ := 24 * s_h
  let s_y : ℚ := 365.25 * s_d
  let years := ratFloorDiv seconds s_y
  let days := ratFloorDiv seconds s_d
  let hours := ratFloorDiv seconds s_h
  let minutes := ratFloorDiv seconds s_m
  let out := ""
  let out := if years ≠ 0 then out ++ s!"{ratFloorDiv seconds s_y}Y:" else out
  let out := if days ≠ 0 then out ++ s!"{ratFloorDiv (ratMod seconds s_y) s_d}d:" else out
  let out := if hours ≠ 0 then out ++ s!"{ratFloorDiv (ratMod seconds s_d) s_h}h:" else out
  let out := if minutes ≠ 0 then out ++ s!"{ratFloorDiv (ratMod seconds s_h) s_m}m:" else out
  let out := if seconds ≠ 0 then out ++ s!"{⌊ratMod seconds s_m⌋}s" else out
  if out = "" then "Эспэранто" else out

/-! ## kom_py/ber.py, kom_py/ber_theory.py, kom_py/willie.py -/

/-- `ber` — kom_py/ber.py:32-36 and kom_py/ber_theory.py:20-24. -/
def ber (tx rx : List Bool) : Py F :=
  pyDiv F ((List.zipWith (fun t r => if t = r then 0 else 1) tx rx).foldl (· + ·) 0) (min tx.length rx.length)

/-- `avg_energy` — kom_py/willie.py:18-20. -/
def avgEnergy (signal : List F) : Py F :=
  if signal.length = 0 then .error .zeroDivision
  else .ok (rsum (signal.map (fun s => s * s)) / Flt.ofNat signal.length)

/-- `avg_energy_iq` — kom_py/willie.py:23-25: `abs` of the square of a complex number. -/
def avgEnergyIq (signal : List (Cx F)) : Py F :=
  if signal.length = 0 then .error .zeroDivision
  else .ok (rsum (signal.map (fun s => Flt.sqrt (Cx.normSq (s * s)))) / Flt.ofNat signal.length / Flt.ofNat 2)

/-- `scale` — kom_py/willie.py:28-29. -/
def scale (vec : List F) (scalar : F) : List F := vec.map (fun v => scalar * v)

end Verif.KomPy
