import Verif.Model.KomPy

/-!
# Model of `kom_py/pd_ber_snr_example.py`

The functions and the two curves of each panel; the plotting calls are left out. The complementary error function of SciPy is a parameter.
-/

namespace Verif.KomPy

variable {F : Type} [Add F] [Sub F] [Mul F] [Div F] [Neg F] [Zero F] [One F] [Flt F]

/-- `db` — kom_py/util.py:10-11. -/
def db (n : F) : F := Flt.ofNat 10 * Flt.log10 n

/-- `undb` — kom_py/util.py:14-15. -/
def undb (n : F) : F := Flt.powf (Flt.ofNat 10) (n / Flt.ofNat 10)

/-- `logistic_curve` — kom_py/pd_ber_snr_example.py:11-12. -/
def logisticCurve (x x0 L k : F) : F := L / (1 + Flt.exp (-k * (x - x0)))

/-- `ber` — kom_py/pd_ber_snr_example.py:15-16. -/
def exampleBer (erfc : F → F) (eb_n0 offset : F) : F := Flt.lit 5 1 * erfc (Flt.sqrt (eb_n0 - offset))

/-- `find_idx_closest_to_point` after at most `fuel` rounds of its loop — kom_py/pd_ber_snr_example.py:19-23; `none`: still running. The
body of the `if` is `...`, which does nothing, and nothing changes `idx`. -/
def findIdxClosest (point : F) (vec : List F) : ℕ → ℕ → Py (Option ℕ)
  | 0, _ => .ok none
  | fuel + 1, idx =>
    match vec[idx]? with
    | none => .error .index
    | some v => if Flt.lt point v then findIdxClosest point vec fuel idx else findIdxClosest point vec fuel idx

/-- `uncovert_log` — kom_py/pd_ber_snr_example.py:49 with the defaults of line 11. -/
def uncovertLog (x : F) : F := logisticCurve (db x) (-Flt.ofNat 15) (Flt.ofNat 1) (Flt.ofNat 1)

/-- `covert_log` — kom_py/pd_ber_snr_example.py:74 with the defaults of line 11. -/
def covertLog (x : F) : F := logisticCurve (db x) (Flt.ofNat 3) (Flt.ofNat 1) (Flt.ofNat 1)

end Verif.KomPy
