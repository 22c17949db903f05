import Verif.Model.Psk
import Verif.Model.Cdma
import Verif.Model.Lib

/-!
Tests that draw noise: tests/bpsk.rs and tests/cdma.rs, up to their assertions.
-/

namespace Verif

section model
variable {F : Type} [Add F] [Sub F] [Mul F] [Div F] [Neg F] [Zero F] [One F] [Flt F] {ν : Type} [RIter ν F]

/-- The macro `error!` — tests/util/mod.rs:143-154. -/
def errorMacro (thing1 thing2 : List Bool) : F :=
  rsum ((thing1.zip thing2).map (fun p => if p.1 = p.2 then (0 : F) else 1)) / Flt.ofNat thing1.length

/-- `bpsk_graphs` up to its assertion, plots left out — tests/bpsk.rs:13-52; the message is a parameter, `std` is the source of
standard normal numbers, the result is whether the assertion holds. -/
def bpskGraphs (F : Type) [Add F] [Sub F] [Mul F] [Div F] [Neg F] [Zero F] [One F] [Flt F] {ν : Type} [RIter ν F]
    (data : List Bool) (std : ν) : RM Bool := do
  let s ← txBpsk (ofList data) 44100 900 (Flt.ofNat 1800 : F)
  let tx ← collect s
  let r ← rxBpsk (ofList tx) 44100 900 (Flt.ofNat 1800 : F)
  let rxClean ← collect r
  let n ← awgn (ofList tx) (Flt.ofNat 2 : F) std
  let noisy ← collect n
  let r ← rxBpsk (ofList noisy) 44100 900 (Flt.ofNat 1800 : F)
  let rxDirty ← collect r
  pure (Flt.le (errorMacro rxClean rxDirty : F) (Flt.lit 2 1))

/-- `cdma_graphs` up to its assertions, plots and files left out — tests/cdma.rs:17-82; the message and the key are parameters. -/
def cdmaGraphs (F : Type) [Add F] [Sub F] [Mul F] [Div F] [Neg F] [Zero F] [One F] [Flt F] {ν : Type} [RIter ν F]
    (data key : List Bool) (std : ν) : RM Bool := do
  let s ← txCdmaBpsk (ofList data) 128000 1000 (Flt.ofNat 2500 : F) key
  let tx ← collect s
  let r ← rxCdmaBpsk (ofList tx) 128000 1000 (Flt.ofNat 2500 : F) key
  let rxClean ← collect r
  let n ← awgn (ofList tx) (Flt.ofNat 2 : F) std
  let noisy ← collect n
  let r ← rxCdmaBpsk (ofList noisy) 128000 1000 (Flt.ofNat 2500 : F) key
  let rxDirty ← collect r
  pure (Flt.le (errorMacro rxClean rxDirty : F) (Flt.lit 2 1) && decide (rxClean = rxDirty))

end model

end Verif
