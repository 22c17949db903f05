/-! Small list-level specifications, independent of the model. -/
namespace Verif.Spec

/-- Consecutive disjoint pairs; an odd last item is dropped. -/
def pairs {α : Type} : List α → List (α × α)
  | a :: b :: t => (a, b) :: pairs t
  | _ => []

/-- `flat_map` with a state threaded through. -/
def stFlat {σ α β : Type} (out : σ → α → List β) (upd : σ → α → σ) : σ → List α → List β
  | _, [] => []
  | st, a :: l => out st a ++ stFlat out upd (upd st a) l

/-- `map` with a state threaded through. -/
def stMap {σ α β : Type} (out : σ → α → β) (upd : σ → α → σ) : σ → List α → List β
  | _, [] => []
  | st, a :: l => out st a :: stMap out upd (upd st a) l

/-- Consecutive blocks of `k` items, the last one possibly shorter; nothing for `k = 0`. -/
def blocks {α : Type} (k : Nat) (l : List α) : List (List α) :=
  if _h : k = 0 ∨ l = [] then [] else l.take k :: blocks k (l.drop k)
termination_by l.length
decreasing_by
  have : 0 < l.length := List.length_pos_iff.mpr (fun e => _h (.inr e))
  rw [List.length_drop]; omega

/-- Consecutive blocks of exactly `k` items, an incomplete last block is dropped; nothing for `k = 0`. -/
def fullBlocks {α : Type} (k : Nat) (l : List α) : List (List α) :=
  (List.range (l.length / k)).map (fun i => (l.drop (i * k)).take k)

end Verif.Spec
