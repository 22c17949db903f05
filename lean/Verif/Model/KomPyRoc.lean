import Verif.Model.KomPyMore

/-!
# Model of the operating curves of the detection experiment — kom_py/lambdas.py

`sklearn` and `pandas` are modelled as far as the script uses them: `train_test_split` takes the shuffled indices as a
parameter, the fitted regression is a weight and an intercept given as a parameter, `roc_curve` is written out.  `none` stands for
NaN, `.value` for `ValueError`.  `pandas` sorts with an algorithm that may exchange equal rows; here they keep their order.
-/
namespace Verif.KomPy
set_option linter.unusedSectionVars false
variable {F : Type} [Add F] [Sub F] [Mul F] [Div F] [Neg F] [Zero F] [One F] [Flt F]

/-- The readings without (`h0`) and with (`h1`) a transmission, with their labels — kom_py/lambdas.py:78-79. -/
def labelled (h0 h1 : List F) : List (F × Bool) := h0.map (fun x => (x, false)) ++ h1.map (fun x => (x, true))

/-- `train_test_split(…, test_size=0.5, random_state=0)` — kom_py/lambdas.py:80-82.  `perm n` lists `0 … n-1` in the order into which
the generator with the given seed shuffles them; the first half of it, rounded up, is for the test.  `ValueError` if nothing is left
for the training. -/
def trainTestSplit {T : Type} (perm : ℕ → List ℕ) (l : List T) : Py (List T × List T) := do
  let nTest := (l.length + 1) / 2
  if l.length - nTest = 0 then .error .value
  let test ← ((perm l.length).take nTest).mapM (pyIndex l)
  let train ← (((perm l.length).drop nTest).take (l.length - nTest)).mapM (pyIndex l)
  pure (train, test)

/-- A row of the table of test readings — kom_py/lambdas.py:92-98. -/
structure Scored (F : Type) where
  x : F
  y : Bool
  proba : F

/-- `predict_proba(x)[1]` of a logistic regression with weight `w` and intercept `b` — kom_py/lambdas.py:87. -/
def predictProba (w b x : F) : F := 1 / (1 + Flt.exp (-(w * x + b)))

/-- The running counts of false and true alarms, kept where the score changes and at the end: `_binary_clf_curve` of `sklearn`
on scores in descending order. -/
def rocPoints : ℕ → ℕ → List (Scored F) → List (ℕ × ℕ)
  | _, _, [] => []
  | fp, tp, [r] => [(fp + (!r.y).toNat, tp + r.y.toNat)]
  | fp, tp, r :: r' :: l =>
    if Flt.eq r.proba r'.proba then rocPoints (fp + (!r.y).toNat) (tp + r.y.toNat) (r' :: l)
    else (fp + (!r.y).toNat, tp + r.y.toNat) :: rocPoints (fp + (!r.y).toNat) (tp + r.y.toNat) (r' :: l)

/-- The rows in ascending order of their score. -/
def byProba (l : List (Scored F)) : List (Scored F) := l.mergeSort (fun a b => Flt.le a.proba b.proba)

/-- A count divided by the last one of its kind, which is the number of all; NaN if there are none. -/
def rate (total k : ℕ) : Option F := if total = 0 then none else some (Flt.ofNat k / Flt.ofNat total)

/-- `metrics.roc_curve(…, drop_intermediate=False)` — kom_py/lambdas.py:88-90: false and true alarm rates, beginning with none
at all. -/
def rocCurve (l : List (Scored F)) : List (Option F) × List (Option F) :=
  let pts := (0, 0) :: rocPoints 0 0 (byProba l).reverse
  let last := pts.getLastD (0, 0)
  (pts.map (fun p => rate last.1 p.1), pts.map (fun p => rate last.2 p.2))

/-- The table with the rates — kom_py/lambdas.py:102-111. -/
structure RocRow (F : Type) where
  row : Scored F
  tpr : Option F
  fpr : Option F
  youden : Option F

/-- Entering a column — kom_py/lambdas.py:103-110: the rates backwards, without the first one unless there are as many as
readings `h0`.  `ValueError` if the length is not that of the table. -/
def column (rows len0 : ℕ) (v : List (Option F)) : Py (List (Option F)) :=
  let c := if v.length = len0 then v.reverse else v.tail.reverse
  if c.length = rows then .ok c else .error .value

/-- The table for the readings of the test — kom_py/lambdas.py:87-111. -/
def rocTable (len0 : ℕ) (w b : F) (test : List (F × Bool)) : Py (List (RocRow F)) := do
  let scored := test.map (fun p => (⟨p.1, p.2, predictProba w b p.1⟩ : Scored F))
  let curve := rocCurve scored
  let sorted := byProba scored
  let tpr ← column sorted.length len0 curve.2
  let fpr ← column sorted.length len0 curve.1
  pure (List.zipWith (fun r (q : Option F × Option F) => ⟨r, q.1, q.2, do let a ← q.1; let b ← q.2; pure (a - b)⟩) sorted (tpr.zip fpr))

/-- `__log_regress` — kom_py/lambdas.py:75-114.  `fit` is `LogisticRegression().fit`. -/
def logRegress (perm : ℕ → List ℕ) (fit : List (F × Bool) → Py (F × F)) (h0 h1 : List F) : Py (List (RocRow F)) := do
  let (train, test) ← trainTestSplit perm (labelled h0 h1)
  let (w, b) ← fit train
  rocTable h0.length w b test

/-- The area under a line through points, by trapezoids. -/
def trapezoid : F → F → List (F × F) → F
  | _, _, [] => 0
  | x, y, (x', y') :: l => (x' - x) * (y + y') / Flt.ofNat 2 + trapezoid x' y' l

/-- `__auc` — kom_py/lambdas.py:117-119: `roc_auc_score` of the labels and scores of the table.  `ValueError` if there is only one
label (a warning and NaN from `sklearn` 1.6 on).  `sklearn` leaves out points in the middle of straight pieces before it adds up the
area, which makes no difference to it. -/
def auc (rows : List (RocRow F)) : Py F :=
  let pts := rocPoints 0 0 (byProba (rows.map (·.row))).reverse
  let last := pts.getLastD (0, 0)
  if last.1 = 0 ∨ last.2 = 0 then .error .value
  else .ok (trapezoid 0 0 (pts.map (fun p => (Flt.ofNat p.1 / Flt.ofNat last.1, Flt.ofNat p.2 / Flt.ofNat last.2))))

/-- `a > b`, false where one of them is NaN. -/
def optGt (a b : Option F) : Bool :=
  match a, b with
  | some a, some b => Flt.lt b a
  | _, _ => false

/-- `__youden_j` — kom_py/lambdas.py:122-123: Python's `max` of the absolute values. -/
def youdenJ (rows : List (RocRow F)) : Py (Option F) :=
  match rows.map (fun r => r.youden.map Flt.abs) with
  | [] => .error .value
  | v :: l => .ok (l.foldl (fun m x => if optGt x m then x else m) v)

/-- The order of `sort_values(by="youden_j", ascending=False)`, NaN last. -/
def youdenDesc (a b : RocRow F) : Bool :=
  match a.youden, b.youden with
  | some a, some b => Flt.le b a
  | none, some _ => false
  | _, none => true

/-- `__best_threshold` — kom_py/lambdas.py:218-220: the reading of the row that comes first when sorted by descending index. -/
def bestThreshold (rows : List (RocRow F)) : Py F := do
  let sorted := rows.mergeSort youdenDesc
  let r ← pyIndex sorted 0
  pure r.row.x

end Verif.KomPy
