import Verif.Model.KomPyMore

/-!
# Model of the detector test in `kom_py/willie.py`

`numpy` and `scipy` compute with NaN where Python would raise.  Here a value that may be NaN is an `Option`, `none` standing for
NaN; a comparison with NaN is false.  `np.mean` and `np.prod` are the sum and the product from left to right (numpy adds in
pairs, which changes nothing in exact arithmetic).  The lines that print are left out.
-/
namespace Verif.KomPy
set_option linter.unusedSectionVars false
variable {F : Type} [Add F] [Sub F] [Mul F] [Div F] [Neg F] [Zero F] [One F] [Flt F]

/-- `np.mean`: NaN for an empty array. -/
def npMean (l : List F) : Option F := if l.length = 0 then none else some (rsum l / Flt.ofNat l.length)

/-- `np.std`: the root of the mean squared distance from the mean; NaN for an empty array. -/
def npStd (l : List F) : Option F := do
  let mu ← npMean l
  let v ← npMean (l.map (fun x => (x - mu) * (x - mu)))
  pure (Flt.sqrt v)

/-- `scipy.stats.norm.pdf(x, loc, scale)`: NaN unless the scale is positive. -/
def normPdf (x loc scale : F) : Option F :=
  if Flt.lt 0 scale then
    let y := (x - loc) / scale
    some (Flt.exp (-(y * y) / Flt.ofNat 2) / Flt.sqrt (Flt.ofNat 2 * Flt.pi) / scale)
  else none

/-- `np.prod(norm.pdf(signal, mu, sigma))` — kom_py/willie.py:43-44. -/
def likelihood (signal : List F) (mu sigma : Option F) : Option F := do
  let d ← signal.mapM (fun x => do normPdf x (← mu) (← sigma))
  pure (d.foldl (· * ·) 1)

/-- `neyman_pearson` — kom_py/willie.py:32-49.  `ppf` is `scipy.stats.norm.ppf`, with `none` where it is NaN or plus infinity (at
`alpha ≥ 1` it is minus infinity or NaN, which is left out).  A positive number over zero is infinite, zero over zero is NaN. -/
def neymanPearson (ppf : F → Option F) (signal : List F) (n0 alpha : F) : Bool :=
  let p0 := likelihood signal (some 0) (some n0)
  let p1 := likelihood signal (npMean signal) (npStd signal)
  match p0, p1, ppf (1 - alpha) with
  | some p0, some p1, some threshold => if Flt.eq p1 0 then Flt.lt 0 p0 else Flt.lt threshold (p0 / p1)
  | _, _, _ => false

/-- The default of `alpha` — kom_py/willie.py:32. -/
def neymanPearsonAlpha : F := Flt.lit 5 2

/-- `p_value` — kom_py/willie.py:50-53; `normaltest` is the p-value of `scipy.stats.normaltest`.  The noise level is not used. -/
def pValue (normaltest : List F → F) (signal : List F) (_n0 : F) : Bool := Flt.lt (normaltest signal) (Flt.lit 5 2)

/-- `normal_detector` — src/willie.rs:17-19, with the p-value of lines 3-15 as a parameter. -/
def normalDetector (normaltest : List F → F) (signal : List F) (alpha : F) : Bool := Flt.lt alpha (normaltest signal)

end Verif.KomPy
