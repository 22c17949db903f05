import Verif.Model.Fft
import Verif.Model.Lib

/-!
# src/ssca.rs and the detectors of src/lib.rs

`Array2<Complex<f64>>` is the list of its rows.  Building an array row by row with `push_row` never fails here, because every
row that is pushed has the length of the array's rows.
-/
namespace Verif
set_option linter.unusedSectionVars false
variable {F : Type} [Add F] [Sub F] [Mul F] [Div F] [Neg F] [Zero F] [One F] [Flt F]

/-- The rows of a two-dimensional array. -/
abbrev Mat (F : Type) := List (List (Cx F))

/-- `m.reversed_axes()` of an array with `cols` columns (every row of `m` has `cols` entries, so the default is not used). -/
def transposeM (cols : ℕ) (m : Mat F) : Mat F := (List.range cols).map (fun j => m.map (fun r => r.getD j 0))

/-- Row `i` of `xg` — src/ssca.rs:32-50.  `a` is the window of line 18; the row of `g_m` (lines 19-28) is constant, equal to
entry `i` of `hamming_window(n)`. -/
def sscaRow [Fft F] (s : List F) (n np i : ℕ) : RM (List (Cx F)) := do
  let a : List (Cx F) := hammingWindowComplex np
  let seg ← slice s i (i + np)
  let xa : List (Cx F) := List.zipWith (fun z x => ⟨z.re * x, z.im * x⟩) a seg
  let xa ← fftProcess false np xa
  let xat := fftshift xa
  let em : List (Cx F) := (List.range np).map (fun j =>
    let k : F := Flt.ofNat j - Flt.ofNat np / Flt.ofNat 2
    Cx.exp ⟨0, -(Flt.ofNat 2) * Flt.pi * k * Flt.ofNat i / Flt.ofNat np⟩)
  let g : List (Cx F) := List.replicate np ⟨hammingAt n i, 0⟩
  let xs : List (Cx F) ← (List.range np).mapM (fun _ => do
    let v ← index s (np / 2 + i)
    pure (Cx.conj ⟨v, 0⟩))
  pure (List.zipWith (· * ·) (List.zipWith (· * ·) (List.zipWith (· * ·) xat em) xs) g)

/-- `ssca_base` — src/ssca.rs:9-65. -/
def sscaBase [Fft F] (s : List F) (n np : ℕ) : RM (Mat F) := do
  rassert (decide (n > np))
  let xg ← (List.range n).mapM (sscaRow s n np)
  -- step 4
  let sx ← (transposeM np xg).mapM (fun xgi => do
    let xgi ← fftProcess false n xgi
    pure (fftshift xgi))
  pure (transposeM n sx)

/-- `m[[i, j]]`. -/
def index2 (m : Mat F) (i j : ℕ) : RM (Cx F) := do index (← index m i) j

/-- `m[[i, j]] = v`; returns the array after the assignment. -/
def assign2 (m : Mat F) (i j : ℕ) (v : Cx F) : RM (Mat F) := do
  let r ← index m i
  let r' ← assignIdx r j v
  assignIdx m i r'

/-- The row of the mapped output for entry `(q_p, k_p)` — src/ssca.rs:73-75. -/
def mappedRow (F : Type) [Add F] [Sub F] [Mul F] [Div F] [Flt F] (n np q_p k_p : ℕ) : ℕ :=
  let f : F := Flt.ofNat k_p / (Flt.ofNat 2 * Flt.ofNat np) - Flt.ofNat q_p / (Flt.ofNat 2 * Flt.ofNat n)
  Flt.toNat (Flt.ofNat np * (f + Flt.lit 5 1))

/-- The column of the mapped output for entry `(q_p, k_p)` — src/ssca.rs:74-76. -/
def mappedCol (F : Type) [Add F] [Mul F] [Div F] [Flt F] (n np q_p k_p : ℕ) : ℕ :=
  let a : F := Flt.ofNat k_p / Flt.ofNat np + Flt.ofNat q_p / Flt.ofNat n
  Flt.toNat (Flt.ofNat n * a)

/-- `ssca_mapped` — src/ssca.rs:67-81. -/
def sscaMapped [Fft F] (s : List F) (n np : ℕ) : RM (Mat F) := do
  let sx ← sscaBase s n np
  let sxf : Mat F := List.replicate (np + 1) (List.replicate (2 * n + 1) 0)
  (List.range n).foldlM (fun sxf q_p =>
    (List.range np).foldlM (fun sxf k_p => do
      let v ← index2 sx q_p k_p
      assign2 sxf (mappedRow F n np q_p k_p) (mappedCol F n np q_p k_p) v) sxf) sxf

/-! ## Detectors -/

/-- `a.partial_cmp(b)` of `f64`. -/
def partialCmp (a b : F) : Option Ordering :=
  match Flt.le a b, Flt.le b a with
  | false, false => none
  | false, true => some .gt
  | true, false => some .lt
  | true, true => some .eq

/-- One comparison of `max_by(|a, b| a.partial_cmp(b).unwrap())`; the later of two equal items is kept. -/
def maxStep (acc y : F) : RM F :=
  match partialCmp acc y with
  | none => RM.panic .unwrap
  | some .gt => pure acc
  | some _ => pure y

/-- `iter.max_by(|a, b| a.partial_cmp(b).unwrap())`: the reduction of the standard library. -/
def maxBy : List F → RM (Option F)
  | [] => pure none
  | x :: l => do
    let m ← l.foldlM maxStep x
    pure (some m)

/-- `.unwrap()` -/
def unwrapO {α : Type} : Option α → RM α
  | none => RM.panic .unwrap
  | some a => pure a

/-- `sx.map(norm_sqr).sum_axis(Axis(0))` for an array with `cols` columns.  (`ndarray` adds in an order that depends on the
memory layout; here it is the order of the rows.) -/
def columnEnergy (cols : ℕ) (m : Mat F) : List F :=
  m.foldl (fun acc r => List.zipWith (· + ·) acc (r.map Cx.normSq)) (List.replicate cols 0)

/-- `dcs_detector_sxf` — src/lib.rs:333-346. -/
def dcsSxf (sx : Mat F) : RM F := do
  let row0 ← index sx 0
  let top : List F := columnEnergy row0.length sx
  let bot : List F := row0.map Cx.normSq
  let lambda ← maxBy (List.zipWith (· / ·) top bot)
  let lambda ← unwrapO lambda
  pure (Flt.ofNat 10 * Flt.log10 lambda)

/-- `dcs_detector` — src/lib.rs:316-331. -/
def dcsDetector [Fft F] (signal : List F) : RM F := do
  let sx ← sscaBase signal 4096 64
  dcsSxf sx

/-- `max_cut_detector_sxf` — src/lib.rs:361-370. -/
def maxCutSxf (sx : Mat F) : RM F := do
  let lambda ← maxBy (sx.flatten.map Cx.normSq)
  let lambda ← unwrapO lambda
  pure (Flt.ofNat 10 * Flt.log10 lambda)

/-- `max_cut_detector` — src/lib.rs:348-359. -/
def maxCutDetector [Fft F] (signal : List F) : RM F := do
  let sx ← sscaBase signal 4096 64
  maxCutSxf sx

/-- `ssca_py` — src/lib.rs:372-386. -/
def sscaPy [Fft F] (s : List F) (n np : ℕ) (map_output : Bool) : RM (Mat F) :=
  if map_output then sscaMapped s n np else sscaBase s n np

end Verif
