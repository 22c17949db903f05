import Verif.Rust.Res

/-!
# Rust iterators

`RIter ι α` is `impl Iterator<Item = α> for ι`: `next` maps a state to the returned option and the new state.
The std / itertools adapters used by the crate are transcribed from the Rust standard library.
-/
namespace Verif

/-- `Iterator::next` as a state transformer. -/
class RIter (ι : Type) (α : outParam Type) where
  next : ι → RM (Option α × ι)

export RIter (next)

/-- `vec::IntoIter`, `slice::Iter`, `ops::Range`, ... : a finite sequence held in memory. -/
structure VecIter (α : Type) where
  rest : List α

instance {α} : RIter (VecIter α) α where
  next s :=
    match s.rest with
    | [] => pure (none, s)
    | a :: l => pure (some a, ⟨l⟩)

/-- `vec.into_iter()` / `slice.iter().cloned()`. -/
def ofList {α} (l : List α) : VecIter α := ⟨l⟩

/-- `std::iter::repeat`. -/
structure Repeat (α : Type) where
  val : α

instance {α} : RIter (Repeat α) α where
  next s := pure (some s.val, s)

/-- `RangeFrom` (`(k..)`), an unbounded counter. -/
structure RangeFrom where
  start : Nat

instance : RIter RangeFrom Nat where
  next s := pure (some s.start, ⟨s.start + 1⟩)

/-- `Iterator::map`.  The closure may panic. -/
structure Map (ι α β : Type) where
  src : ι
  f : α → RM β

instance {ι α β} [RIter ι α] : RIter (Map ι α β) β where
  next s := do
    let (o, src') ← next s.src
    match o with
    | none => pure (none, { s with src := src' })
    | some a => do
      let b ← s.f a
      pure (some b, { s with src := src' })

/-- `Iterator::map` with a `FnMut` closure that owns the mutable state `st`. -/
structure MapSt (ι σ α β : Type) where
  src : ι
  st : σ
  f : σ → α → RM (β × σ)

instance {ι σ α β} [RIter ι α] : RIter (MapSt ι σ α β) β where
  next s := do
    let (o, src') ← next s.src
    match o with
    | none => pure (none, { s with src := src' })
    | some a => do
      let (b, st') ← s.f s.st a
      pure (some b, { s with src := src', st := st' })

/-- `Iterator::enumerate`. -/
structure Enumerate (ι : Type) where
  src : ι
  count : Nat

instance {ι α} [RIter ι α] : RIter (Enumerate ι) (Nat × α) where
  next s := do
    let (o, src') ← next s.src
    match o with
    | none => pure (none, { s with src := src' })
    | some a => pure (some (s.count, a), ⟨src', s.count + 1⟩)

/-- `Iterator::zip`: pulls the left source first; the right one only if the left one gave an item. -/
structure Zip (ι₁ ι₂ : Type) where
  a : ι₁
  b : ι₂

instance {ι₁ ι₂ α β} [RIter ι₁ α] [RIter ι₂ β] : RIter (Zip ι₁ ι₂) (α × β) where
  next s := do
    let (o, a') ← next s.a
    match o with
    | none => pure (none, { s with a := a' })
    | some x => do
      let (o₂, b') ← next s.b
      match o₂ with
      | none => pure (none, ⟨a', b'⟩)
      | some y => pure (some (x, y), ⟨a', b'⟩)

/-- `Iterator::cycle`. -/
structure Cycle (ι : Type) where
  orig : ι
  iter : ι

instance {ι α} [RIter ι α] : RIter (Cycle ι) α where
  next s := do
    let (o, it') ← next s.iter
    match o with
    | none => do
      let (o₂, it'') ← next s.orig
      pure (o₂, ⟨s.orig, it''⟩)
    | some a => pure (some a, ⟨s.orig, it'⟩)

/-- `Iterator::take`. -/
structure TakeN (ι : Type) where
  src : ι
  n : Nat

instance {ι α} [RIter ι α] : RIter (TakeN ι) α where
  next s :=
    match s.n with
    | 0 => pure (none, s)
    | n + 1 => do
      let (o, src') ← next s.src
      pure (o, ⟨src', n⟩)

/-- Pull and discard up to `n` items (`Iterator::nth` stops early when the source ends). -/
def nthPull {ι α} [RIter ι α] : Nat → ι → RM (Option α × ι)
  | 0, s => next s
  | n + 1, s => do
    let (o, s') ← next s
    match o with
    | none => pure (none, s')
    | some _ => nthPull n s'

/-- `Iterator::skip`: `if n > 0 { iter.nth(take(n)) } else { iter.next() }`. -/
structure Skip (ι : Type) where
  src : ι
  n : Nat

instance {ι α} [RIter ι α] : RIter (Skip ι) α where
  next s := do
    let (o, src') ← nthPull s.n s.src
    pure (o, ⟨src', 0⟩)

/-- `Iterator::chain`: `a` is dropped once it returned `None`. -/
structure Chain (ι₁ ι₂ : Type) where
  a : Option ι₁
  b : ι₂

instance {ι₁ ι₂ α} [RIter ι₁ α] [RIter ι₂ α] : RIter (Chain ι₁ ι₂) α where
  next s :=
    match s.a with
    | none => do
      let (o, b') ← next s.b
      pure (o, ⟨none, b'⟩)
    | some a => do
      let (o, a') ← next a
      match o with
      | some x => pure (some x, ⟨some a', s.b⟩)
      | none => do
        let (o, b') ← next s.b
        pure (o, ⟨none, b'⟩)

/-- `Itertools::tuples` at pairs: `None` as soon as the (fused) source ends, an odd item is kept in an internal buffer
and never returned by `next`. `src = none` is the fused state. -/
structure Tuples (ι α : Type) where
  src : Option ι
  buf : Option α

/-- `Fuse::next`. -/
def fuseNext {ι α} [RIter ι α] : Option ι → RM (Option α × Option ι)
  | none => pure (none, none)
  | some s => do
    let (o, s') ← next s
    match o with
    | none => pure (none, none)
    | some a => pure (some a, some s')

instance {ι α} [RIter ι α] : RIter (Tuples ι α) (α × α) where
  next s := do
    let (o, s₁) ← fuseNext s.src
    match o with
    | none => pure (none, { s with src := s₁ })
    | some a => do
      let (o, s₂) ← fuseNext s₁
      match o with
      | none => pure (none, ⟨s₂, some a⟩)
      | some b => pure (some (a, b), ⟨s₂, some b⟩)

/-- `Iterator::flat_map` (`FlattenCompat` over `Fuse<Map<..>>`), closure state `σ` for `FnMut`. -/
structure FlatMap (ι σ α κ : Type) where
  /-- `none`: the fused outer source has ended -/
  src : Option ι
  st : σ
  f : σ → α → RM (κ × σ)
  front : Option κ

/-- `FlattenCompat::next`: an unbounded loop in Rust. -/
def FlatMap.nextLoop {ι σ α κ β : Type} [RIter ι α] [RIter κ β] (s : FlatMap ι σ α κ) :
    RM (Option β × FlatMap ι σ α κ) := do
  let (o, fr) ← fuseNext s.front
  match o with
  | some b => pure (some b, { s with front := fr })
  | none => do
    let (o, src') ← fuseNext s.src
    match o with
    | none => pure (none, { s with front := none, src := src' })
    | some a => do
      let (k, st') ← s.f s.st a
      FlatMap.nextLoop { s with src := src', st := st', front := some k }
partial_fixpoint

instance {ι σ α κ β} [RIter ι α] [RIter κ β] : RIter (FlatMap ι σ α κ) β where
  next s := s.nextLoop

/-- `Iterator::filter_map`; the closure may panic. -/
structure FilterMap (ι α β : Type) where
  src : ι
  f : α → RM (Option β)

def FilterMap.nextLoop {ι α β : Type} [RIter ι α] (s : FilterMap ι α β) :
    RM (Option β × FilterMap ι α β) := do
  let (o, src') ← next s.src
  match o with
  | none => pure (none, { s with src := src' })
  | some a => do
    match ← s.f a with
    | some b => pure (some b, { s with src := src' })
    | none => FilterMap.nextLoop { s with src := src' }
partial_fixpoint

instance {ι α β} [RIter ι α] : RIter (FilterMap ι α β) β where
  next s := s.nextLoop

/-- `Iterator::collect::<Vec<_>>()`. -/
def collect {ι α : Type} [RIter ι α] (s : ι) : RM (List α) := do
  let (o, s') ← next s
  match o with
  | none => pure []
  | some a => do
    let l ← collect s'
    pure (a :: l)
partial_fixpoint

/-- `Iterator::last` (used on indices): drains, keeps the last item. -/
def rlast {ι α : Type} [RIter ι α] (s : ι) (acc : Option α) : RM (Option α) := do
  let (o, s') ← next s
  match o with
  | none => pure acc
  | some a => rlast s' (some a)
partial_fixpoint

/-! ### Method-call style constructors -/
section ctors
variable {ι κ α β σ : Type}
def rmap (s : ι) (f : α → β) : Map ι α β := ⟨s, fun a => pure (f a)⟩
def rmapM (s : ι) (f : α → RM β) : Map ι α β := ⟨s, f⟩
def rmapSt (s : ι) (st : σ) (f : σ → α → RM (β × σ)) : MapSt ι σ α β := ⟨s, st, f⟩
def renumerate (s : ι) : Enumerate ι := ⟨s, 0⟩
def rzip (a : ι) (b : κ) : Zip ι κ := ⟨a, b⟩
def rcycle (s : ι) : Cycle ι := ⟨s, s⟩
def rtake (s : ι) (n : Nat) : TakeN ι := ⟨s, n⟩
def rskip (s : ι) (n : Nat) : Skip ι := ⟨s, n⟩
def rchain (a : ι) (b : κ) : Chain ι κ := ⟨some a, b⟩
def rtuples (s : ι) (α : Type) [RIter ι α] : Tuples ι α := ⟨some s, none⟩
def rflatMap (s : ι) (f : α → RM κ) : FlatMap ι Unit α κ := ⟨some s, (), fun _ a => do pure (← f a, ()), none⟩
def rflatMapSt (s : ι) (st : σ) (f : σ → α → RM (κ × σ)) : FlatMap ι σ α κ := ⟨some s, st, f, none⟩
end ctors

end Verif
