import Verif.Rust.Beh

/-!
# Live streams

A stream that has delivered a first part and whose future is open.
-/
namespace Verif
variable {ι α : Type}

/-- The first `l.length` calls of `next` succeed and return the items of `l`; nothing is said about later calls, which may
return more items, end, panic or block for ever. -/
def Starts [RIter ι α] (s : ι) (l : List α) : Prop := BehN l.length s (fun n => l[n]?)

/-- A live run keeps up with a batch run: whatever the batch run (on the items that have arrived so far, then end of stream)
returns in total, the live run has delivered as well, without asking its source for anything beyond these items. -/
def KeepsUp {κ κ' β : Type} [RIter κ β] [RIter κ' β] (live : RM κ) (batch : RM κ') : Prop :=
  ∀ out, (do let s ← batch; collect s) = pure out → ∃ s, live = pure s ∧ Starts s out

end Verif
