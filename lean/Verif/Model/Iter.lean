import Verif.Rust.Iter

/-!
# Model of `src/iter/*.rs`

Every structure has the fields of the Rust struct, every `RIter` instance transcribes its `next`.
`T::default()` of the numeric item types is written `0` (it is `0` for all numeric types used); for `WholeChunks`,
where any `T: Default` is allowed, it is the class `RDefault`.
-/
namespace Verif

/-- `Default::default()`. -/
class RDefault (α : Type) where
  dflt : α

export RDefault (dflt)

instance : RDefault Bool := ⟨false⟩
instance : RDefault Nat := ⟨0⟩
instance : RDefault Int := ⟨0⟩
instance {α β} [RDefault α] [RDefault β] : RDefault (α × β) := ⟨(dflt, dflt)⟩

variable {ι : Type} {T : Type}

/-! ## chunks.rs -/

/-- `Chunks` — src/iter/chunks.rs:1-4. -/
structure Chunks (ι : Type) where
  source : ι
  num_chunks : Nat

/-- The `while buf.len() < self.num_chunks` loop — src/iter/chunks.rs:18-27; returns the pushed items. -/
def pullUpTo [RIter ι T] : Nat → ι → RM (List T × ι)
  | 0, s => pure ([], s)
  | k + 1, s => do
    let (o, s') ← next s
    match o with
    | none => pure ([], s')
    | some t => do
      let (buf, s'') ← pullUpTo k s'
      pure (t :: buf, s'')

/-- `Chunks::next` — src/iter/chunks.rs:15-33. -/
instance [RIter ι T] : RIter (Chunks ι) (List T) where
  next s := do
    let (buf, src') ← pullUpTo s.num_chunks s.source
    if buf.isEmpty then pure (none, { s with source := src' })
    else pure (some buf, { s with source := src' })

/-- `Iter::chunks` — src/iter/mod.rs:22-28, src/iter/chunks.rs:7-9. -/
def chunks (s : ι) (n : Nat) : Chunks ι := ⟨s, n⟩

/-- `WholeChunks` — src/iter/chunks.rs:36-40. -/
structure WholeChunks (ι : Type) where
  source : ι
  num_chunks : Nat
  done : Bool

/-- The `for _ in 0..self.num_chunks` loop — src/iter/chunks.rs:59-69; `done` is the flag after the loop. -/
def pullPadded [RIter ι T] [RDefault T] : Nat → ι → Bool → RM (List T × ι × Bool)
  | 0, s, done => pure ([], s, done)
  | k + 1, s, done => do
    let (o, s') ← next s
    match o with
    | some t => do
      let (buf, s'', d) ← pullPadded k s' done
      pure (t :: buf, s'', d)
    | none => do
      let (buf, s'', d) ← pullPadded k s' true
      pure (dflt :: buf, s'', d)

/-- `WholeChunks::next` — src/iter/chunks.rs:55-76. -/
instance [RIter ι T] [RDefault T] : RIter (WholeChunks ι) (List T) where
  next s := do
    let (buf, src', d) ←
      if !s.done then pullPadded s.num_chunks s.source s.done
      else pure ([], s.source, s.done)
    if buf.isEmpty then pure (none, { s with source := src', done := d })
    else pure (some buf, { s with source := src', done := d })

/-- `Iter::wchunks` — src/iter/mod.rs:34-40, src/iter/chunks.rs:43-49. -/
def wchunks (s : ι) (n : Nat) : WholeChunks ι := ⟨s, n, false⟩

/-! ## convolution.rs -/

/-- `Convolver` — src/iter/convolution.rs:9-16.  `buffer` front first. -/
structure Convolver (ι T : Type) where
  source : ι
  filter : List T
  buffer : List T

/-- `Sum` of a sequence of numbers: left fold from zero. -/
def rsum [Zero T] [Add T] (l : List T) : T := l.foldl (· + ·) 0

/-- `Convolver::_convolve` — src/iter/convolution.rs:32-38. -/
def Convolver.convolve_ [Zero T] [Add T] [Mul T] (s : Convolver ι T) : T :=
  rsum ((s.buffer.zip s.filter.reverse).map (fun (buf, filt) => buf * filt))

/-- `Convolver::next` — src/iter/convolution.rs:48-72. -/
instance [RIter ι T] [Zero T] [Add T] [Mul T] : RIter (Convolver ι T) T where
  next s := do
    let (o, src') ← next s.source
    match o with
    | some num =>
      -- push_front, then pop_back when longer than the filter
      let buffer := num :: s.buffer
      let buffer := if buffer.length > s.filter.length then buffer.dropLast else buffer
      let s' : Convolver ι T := { s with source := src', buffer := buffer }
      pure (some s'.convolve_, s')
    | none =>
      if s.buffer.length ≤ 1 then pure (none, { s with source := src' })
      else
        let s' : Convolver ι T := { s with source := src', buffer := s.buffer.dropLast }
        pure (some s'.convolve_, s')

/-- `Iter::convolve` — src/iter/mod.rs:46-52, src/iter/convolution.rs:23-30. -/
def convolve (s : ι) (filter : List T) : Convolver ι T := ⟨s, filter, []⟩

/-- `Nonvolver` — src/iter/convolution.rs:75-83. -/
structure Nonvolver (ι T : Type) (N : Nat) where
  source : ι
  filter : List T
  buffer : List (Vector T N)

/-- `Nonvolver::_nonvolve` — src/iter/convolution.rs:99-111. -/
def Nonvolver.nonvolve_ {N : Nat} [Zero T] [Add T] [Mul T] (s : Nonvolver ι T N) : Vector T N :=
  (s.buffer.zip s.filter.reverse).foldl
    (fun ret (buf, filt) => Vector.zipWith (fun r b => r + b * filt) ret buf) (Vector.replicate N 0)

/-- `Nonvolver::next` — src/iter/convolution.rs:120-141. -/
instance {N : Nat} [RIter ι (Vector T N)] [Zero T] [Add T] [Mul T] : RIter (Nonvolver ι T N) (Vector T N) where
  next s := do
    let (o, src') ← next s.source
    match o with
    | some nums =>
      let buffer := nums :: s.buffer
      let buffer := if buffer.length > s.filter.length then buffer.dropLast else buffer
      let s' : Nonvolver ι T N := { s with source := src', buffer := buffer }
      pure (some s'.nonvolve_, s')
    | none =>
      if s.buffer.length ≤ 1 then pure (none, { s with source := src' })
      else
        let s' : Nonvolver ι T N := { s with source := src', buffer := s.buffer.dropLast }
        pure (some s'.nonvolve_, s')

/-- `Iter::nonvolve` — src/iter/mod.rs:58-64, src/iter/convolution.rs:90-97. -/
def nonvolve {N : Nat} [RIter ι (Vector T N)] (s : ι) (filter : List T) : Nonvolver ι T N := ⟨s, filter, []⟩

/-! ## inflate.rs -/

/-- `Inflate` — src/iter/inflate.rs:1-7. -/
structure Inflate (ι T : Type) where
  source : ι
  copies : Nat
  curr_copy : Nat
  curr : Option T

/-- `Inflate::next` — src/iter/inflate.rs:23-31. -/
instance [RIter ι T] : RIter (Inflate ι T) T where
  next s :=
    if s.curr.isNone || s.curr_copy == s.copies then do
      let (o, src') ← next s.source
      pure (o, { s with source := src', curr := o, curr_copy := 1 })
    else
      pure (s.curr, { s with curr_copy := s.curr_copy + 1 })

/-- `Iter::inflate` — src/iter/mod.rs:74-80, src/iter/inflate.rs:10-17. -/
def inflate [RIter ι T] (s : ι) (copies : Nat) : Inflate ι T := ⟨s, copies, 0, none⟩

/-! ## integrate.rs -/

/-- `Integrate` — src/iter/integrate.rs:1-4. -/
structure Integrate (ι T : Type) where
  source : ι
  sum : T

/-- `Integrate::next` — src/iter/integrate.rs:21-24. -/
instance [RIter ι T] [Add T] : RIter (Integrate ι T) T where
  next s := do
    let (o, src') ← next s.source
    match o with
    | none => pure (none, { s with source := src' })
    | some x => pure (some (s.sum + x), ⟨src', s.sum + x⟩)

/-- `Iter::integrate` — src/iter/mod.rs:90-96, src/iter/integrate.rs:7-12. -/
def integrate [RIter ι T] [Zero T] (s : ι) : Integrate ι T := ⟨s, 0⟩

/-- `Nintegrate` — src/iter/integrate.rs:27-33. -/
structure Nintegrate (ι T : Type) (N : Nat) where
  source : ι
  sum : Vector T N

/-- `Nintegrate::next` — src/iter/integrate.rs:55-62. -/
instance {N : Nat} [RIter ι (Vector T N)] [Add T] : RIter (Nintegrate ι T N) (Vector T N) where
  next s := do
    let (o, src') ← next s.source
    match o with
    | none => pure (none, { s with source := src' })
    | some row =>
      let sum := Vector.zipWith (· + ·) s.sum row
      pure (some sum, ⟨src', sum⟩)

/-- `Iter::nintegrate` — src/iter/mod.rs:112-118, src/iter/integrate.rs:40-45. -/
def nintegrate {N : Nat} [RIter ι (Vector T N)] [Zero T] (s : ι) : Nintegrate ι T N := ⟨s, Vector.replicate N 0⟩

/-- `IntegrateDump` — src/iter/integrate.rs:65-68. -/
structure IntegrateDump (ι : Type) where
  source : ι
  dump_every : Nat

/-- The loop of `IntegrateDump::next` — src/iter/integrate.rs:84-87; `?` returns early. -/
def dumpLoop [RIter ι T] [Add T] : Nat → T → ι → RM (Option T × ι)
  | 0, sum, s => pure (some sum, s)
  | k + 1, sum, s => do
    let (o, s') ← next s
    match o with
    | none => pure (none, s')
    | some x => dumpLoop k (sum + x) s'

/-- `IntegrateDump::next` — src/iter/integrate.rs:82-88. -/
instance [RIter ι T] [Add T] [Zero T] : RIter (IntegrateDump ι) T where
  next s := do
    let (o, src') ← dumpLoop s.dump_every 0 s.source
    pure (o, { s with source := src' })

/-- `Iter::integrate_and_dump` — src/iter/mod.rs:120-126, src/iter/integrate.rs:71-73. -/
def integrateAndDump (s : ι) (dump_every : Nat) : IntegrateDump ι := ⟨s, dump_every⟩

/-- `NintegrateDump` — src/iter/integrate.rs:91-99 (the fields `curr` and `sum` are never read; omitted). -/
structure NintegrateDump (ι : Type) where
  source : ι
  dump_every : Nat

/-- The loop of `NintegrateDump::next` — src/iter/integrate.rs:125-132. -/
def ndumpLoop {N : Nat} [RIter ι (Vector T N)] [Add T] : Nat → Vector T N → ι → RM (Option (Vector T N) × ι)
  | 0, sum, s => pure (some sum, s)
  | k + 1, sum, s => do
    let (o, s') ← next s
    match o with
    | none => pure (none, s')
    | some row => ndumpLoop k (Vector.zipWith (· + ·) sum row) s'

/-- `NintegrateDump::next` — src/iter/integrate.rs:123-133. -/
instance {N : Nat} [RIter ι (Vector T N)] [Add T] [Zero T] : RIter (NintegrateDump ι) (Vector T N) where
  next s := do
    let (o, src') ← ndumpLoop s.dump_every (Vector.replicate N 0) s.source
    pure (o, { s with source := src' })

/-- `Iter::nintegrate_and_dump` — src/iter/mod.rs:128-134, src/iter/integrate.rs:106-113. -/
def nintegrateAndDump (s : ι) (dump_every : Nat) : NintegrateDump ι := ⟨s, dump_every⟩

/-! ## scale.rs -/

/-- `Scale` — src/iter/scale.rs:1-4. -/
structure Scale (ι S : Type) where
  source : ι
  scalar : S

/-- `Scale::next` — src/iter/scale.rs:15-17 (`T: Mul<f64, Output = T>`). -/
instance {S : Type} [RIter ι T] [HMul T S T] : RIter (Scale ι S) T where
  next s := do
    let (o, src') ← next s.source
    match o with
    | none => pure (none, { s with source := src' })
    | some x => pure (some (x * s.scalar), { s with source := src' })

/-- `Iter::scale` — src/iter/mod.rs:136-141, src/iter/scale.rs:7-9. -/
def scale {S : Type} (s : ι) (scalar : S) : Scale ι S := ⟨s, scalar⟩

/-! ## take_every.rs -/

/-- `Take` — src/iter/take_every.rs:1-5. -/
structure TakeEvery (ι : Type) where
  source : ι
  frequency : Nat
  curr : Nat

/-- `Take::next` — src/iter/take_every.rs:20-30; `%` panics when the frequency is 0. -/
def TakeEvery.nextLoop [RIter ι T] (s : TakeEvery ι) : RM (Option T × TakeEvery ι) := do
  let r ← umod s.curr s.frequency
  if r = 0 then do
    let (o, src') ← next s.source
    pure (o, { s with source := src', curr := s.curr + 1 })
  else do
    let (_, src') ← next s.source
    TakeEvery.nextLoop { s with source := src', curr := s.curr + 1 }
partial_fixpoint

instance [RIter ι T] : RIter (TakeEvery ι) T where
  next s := s.nextLoop

/-- `Iter::take_every` — src/iter/mod.rs:162-167, src/iter/take_every.rs:8-14. -/
def takeEvery (s : ι) (frequency : Nat) : TakeEvery ι := ⟨s, frequency, 0⟩

end Verif
