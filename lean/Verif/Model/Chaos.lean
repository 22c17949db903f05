import Verif.Model.Psk

/-!
# Model of `src/chaos/*.rs`, `src/csk.rs`, `src/dcsk.rs`
-/
namespace Verif
set_option linter.unusedSectionVars false
variable {ι : Type} {F : Type} [Add F] [Sub F] [Mul F] [Div F] [Neg F] [Zero F] [One F] [Flt F]

/-- `logistic_map` — src/chaos/logistic_map.rs:1-4. -/
def logisticMap (mu x0 : F) : F := mu * x0 * (1 - x0)

/-- `LogisticMap` — src/chaos/logistic_map.rs:6-9. -/
structure LogisticMap (F : Type) where
  mu : F
  xn : F

/-- `LogisticMap::new` — src/chaos/logistic_map.rs:11-16.  `(0f64..=1f64).contains(&x0)` is `0 <= x0 && x0 <= 1`. -/
def LogisticMap.new (mu x0 : F) : RM (LogisticMap F) := do
  rassert (Flt.le 0 x0 && Flt.le x0 1)
  pure ⟨mu, x0⟩

/-- `LogisticMap::next` — src/chaos/logistic_map.rs:18-25. -/
instance : RIter (LogisticMap F) F where
  next s := do
    let xn := logisticMap s.mu s.xn
    pure (some xn, { s with xn := xn })

/-- `chebyshev` — src/chaos/chebyshev.rs:1-8. -/
def chebyshev (xn : F) : F :=
  let mu : F := Flt.ofNat 3
  mu * powi xn 3 - (1 - mu) * xn

/-- `Chebyshev` — src/chaos/chebyshev.rs:10-12. -/
structure Chebyshev (F : Type) where
  xn : F

/-- `Chebyshev::new` — src/chaos/chebyshev.rs:14-19. -/
def Chebyshev.new (x0 : F) : RM (Chebyshev F) := do
  rassert (Flt.le (-1) x0 && Flt.le x0 1)
  pure ⟨x0⟩

/-- `Chebyshev::next` — src/chaos/chebyshev.rs:21-28. -/
instance : RIter (Chebyshev F) F where
  next s := do
    let xn := chebyshev s.xn
    pure (some xn, ⟨xn⟩)

/-- `tent_map` — src/chaos/mod.rs:6-8. -/
def tentMap (mu x0 : F) : F := Flt.ofNat 2 * mu * (1 - Flt.abs x0) - 1

/-- `bernoulli_map` — src/chaos/mod.rs:10-16. -/
def bernoulliMap (mu x0 : F) : F := if Flt.lt x0 0 then mu * x0 + 1 else mu * x0 - 1

/-! ## csk.rs -/

/-- Type of the stream returned by `tx_baseband_csk`. -/
abbrev TxCsk (ι F : Type) := Map (Zip (Zip ι (LogisticMap F)) (LogisticMap F)) ((Bool × F) × F) F

/-- `tx_baseband_csk` — src/csk.rs:3-11. -/
def txCsk (F : Type) [Add F] [Sub F] [Mul F] [Div F] [Neg F] [Zero F] [One F] [Flt F] [RIter ι Bool] (message : ι) :
    RM (TxCsk ι F) := do
  let mu : F := Flt.lit 39 1
  let x0_1 : F := Flt.lit 1 1
  let x0_2 : F := Flt.lit 15 2
  let l1 ← LogisticMap.new mu x0_1
  let l2 ← LogisticMap.new mu x0_2
  pure (rmap (rzip (rzip message l1) l2) (fun p : (Bool × F) × F => if p.1.1 then p.1.2 else p.2))

/-- Type of the stream returned by `rx_baseband_csk`. -/
abbrev RxCsk (ι F : Type) := Map (Zip (Zip ι (LogisticMap F)) (LogisticMap F)) ((F × F) × F) Bool

/-- `rx_baseband_csk` — src/csk.rs:13-21. -/
def rxCsk [RIter ι F] (message : ι) : RM (RxCsk ι F) := do
  let mu : F := Flt.lit 39 1
  let x0_1 : F := Flt.lit 1 1
  let x0_2 : F := Flt.lit 15 2
  let l1 ← LogisticMap.new mu x0_1
  let l2 ← LogisticMap.new mu x0_2
  pure (rmap (rzip (rzip message l1) l2)
    (fun p : (F × F) × F => Flt.lt (Flt.abs (p.1.1 - p.1.2)) (Flt.abs (p.1.1 - p.2))))

/-! ## dcsk.rs -/

/-- Type of the stream returned by `tx_baseband_dcsk`. -/
abbrev TxDcsk (ι F : Type) := FlatMap (Zip ι (LogisticMap F)) Unit (Bool × F) (VecIter F)

/-- `tx_baseband_dcsk` — src/dcsk.rs:4-8. -/
def txDcsk (F : Type) [Add F] [Sub F] [Mul F] [Div F] [Neg F] [Zero F] [One F] [Flt F] [RIter ι Bool] (message : ι) :
    RM (TxDcsk ι F) := do
  let l ← LogisticMap.new (Flt.lit 39 1 : F) (Flt.lit 1 1)
  pure (rflatMap (rzip message l) (fun p : Bool × F => pure (ofList [p.2, p.2 * bitToNrz p.1])))

/-- Type of the stream returned by `rx_baseband_dcsk`. -/
abbrev RxDcsk (ι F : Type) := Map (Tuples ι F) (F × F) Bool

/-- `rx_baseband_dcsk` — src/dcsk.rs:10-14. -/
def rxDcsk [RIter ι F] (message : ι) : RxDcsk ι F :=
  rmap (rtuples message F) (fun p : F × F => Flt.lt 0 (p.1 * p.2))

end Verif
