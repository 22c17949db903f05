import Verif.Rust.Iter

/-!
# Observable behaviour of iterators

`Beh s f`: the `n`-th call of `next` starting from `s` returns `f n` without panicking, for every `n`.
`Yields s l`: the calls return the items of `l` and then `None` for ever.
`Gives s g`: an infinite stream.
`BehN k s f`: only the first `k` calls are described (what happens later is left open).
-/
namespace Verif

variable {ι κ α β σ : Type}

/-- The first `k` calls of `next` return `f 0, …, f (k-1)`. -/
def BehN [RIter ι α] : Nat → ι → (Nat → Option α) → Prop
  | 0, _, _ => True
  | k + 1, s, f => ∃ s', next s = pure (f 0, s') ∧ BehN k s' (fun n => f (n + 1))

/-- All calls of `next` return `f 0, f 1, …`. -/
def Beh [RIter ι α] (s : ι) (f : Nat → Option α) : Prop := ∀ k, BehN k s f

/-- The iterator is exhausted: every further call returns `None`. -/
def Done [RIter ι α] (s : ι) : Prop := Beh s (fun _ => (none : Option α))

/-- The iterator returns exactly the items of `l`, then `None` for ever. -/
def Yields [RIter ι α] (s : ι) (l : List α) : Prop := Beh s (fun n => l[n]?)

/-- The iterator is infinite and returns `g 0, g 1, …`. -/
def Gives [RIter ι α] (s : ι) (g : Nat → α) : Prop := Beh s (fun n => some (g n))

/-- Once the behaviour is `none` it stays `none`. -/
def Fused (f : Nat → Option α) : Prop := ∀ n, f n = none → f (n + 1) = none

section basics
variable [RIter ι α]

theorem BehN.congr {k : Nat} {s : ι} {f f' : Nat → Option α} (h : ∀ n, n < k → f n = f' n) (hb : BehN k s f) :
    BehN k s f' := by
  induction k generalizing s f f' with
  | zero => trivial
  | succ k ih =>
    obtain ⟨s', h1, h2⟩ := hb
    refine ⟨s', ?_, ih (fun n hn => h (n + 1) (by omega)) h2⟩
    rw [← h 0 (by omega)]; exact h1

theorem BehN.mono {k k' : Nat} {s : ι} {f : Nat → Option α} (hk : k' ≤ k) (hb : BehN k s f) : BehN k' s f := by
  induction k' generalizing k s f with
  | zero => trivial
  | succ k' ih =>
    obtain ⟨k, rfl⟩ : ∃ j, k = j + 1 := ⟨k - 1, by omega⟩
    obtain ⟨s', h1, h2⟩ := hb
    exact ⟨s', h1, ih (by omega) h2⟩

/-- Coinduction. -/
theorem Beh.coind {R : ι → (Nat → Option α) → Prop}
    (hR : ∀ s f, R s f → ∃ s', next s = pure (f 0, s') ∧ R s' (fun n => f (n + 1)))
    {s : ι} {f : Nat → Option α} (h : R s f) : Beh s f := by
  intro k
  induction k generalizing s f with
  | zero => trivial
  | succ k ih =>
    obtain ⟨s', h1, h2⟩ := hR s f h
    exact ⟨s', h1, ih h2⟩

theorem Beh.cons {s s' : ι} {f : Nat → Option α} (h : next s = pure (f 0, s'))
    (ht : Beh s' (fun n => f (n + 1))) : Beh s f := by
  intro k
  cases k with
  | zero => trivial
  | succ k => exact ⟨s', h, ht k⟩

theorem Beh.step {s : ι} {f : Nat → Option α} (h : Beh s f) :
    ∃ s', next s = pure (f 0, s') ∧ Beh s' (fun n => f (n + 1)) := by
  obtain ⟨s', h1, _⟩ := h 1
  refine ⟨s', h1, fun k => ?_⟩
  obtain ⟨s'', h2, h3⟩ := h (k + 1)
  rw [h1] at h2
  have := (RM.ok_inj.mp h2)
  cases this
  exact h3

theorem Beh.congr {s : ι} {f f' : Nat → Option α} (h : ∀ n, f n = f' n) (hb : Beh s f) : Beh s f' := by
  have : f = f' := funext h
  rwa [← this]

theorem Done.step {s : ι} (h : Done (α := α) s) : ∃ s', next s = pure (none, s') ∧ Done (α := α) s' := Beh.step h

theorem Done.cons {s s' : ι} (h : next s = pure (none, s')) (ht : Done (α := α) s') : Done (α := α) s :=
  Beh.cons h ht

theorem Done.coind {R : ι → Prop} (hR : ∀ s, R s → ∃ s', next s = pure (none, s') ∧ R s')
    {s : ι} (h : R s) : Done (α := α) s :=
  Beh.coind (R := fun s f => R s ∧ f = fun _ => none)
    (fun s f ⟨h, hf⟩ => by
      obtain ⟨s', h1, h2⟩ := hR s h
      exact ⟨s', by rw [hf]; exact h1, h2, by rw [hf]⟩) ⟨h, rfl⟩

theorem yields_nil {s : ι} : Yields s ([] : List α) ↔ Done (α := α) s := by
  unfold Yields Done; simp

theorem Yields.nil {s : ι} (h : Done (α := α) s) : Yields s ([] : List α) := yields_nil.mpr h

theorem Yields.cons {s s' : ι} {a : α} {l : List α} (h : next s = pure (some a, s')) (ht : Yields s' l) :
    Yields s (a :: l) := by
  refine Beh.cons (s' := s') (by simpa using h) ?_
  simpa [Yields] using ht

theorem Yields.uncons {s : ι} {a : α} {l : List α} (h : Yields s (a :: l)) :
    ∃ s', next s = pure (some a, s') ∧ Yields s' l := by
  obtain ⟨s', h1, h2⟩ := Beh.step h
  refine ⟨s', by simpa using h1, ?_⟩
  simpa [Yields] using h2

theorem Yields.unnil {s : ι} (h : Yields s ([] : List α)) :
    ∃ s', next s = pure (none, s') ∧ Yields s' ([] : List α) := by
  obtain ⟨s', h1, h2⟩ := Beh.step h
  exact ⟨s', by simpa using h1, by simpa [Yields] using h2⟩

theorem Gives.step {s : ι} {g : Nat → α} (h : Gives s g) :
    ∃ s', next s = pure (some (g 0), s') ∧ Gives s' (fun n => g (n + 1)) := Beh.step h

theorem Yields.fused (l : List α) : Fused (fun n => l[n]?) := by
  intro n h
  simp only [List.getElem?_eq_none_iff] at *
  omega

theorem Gives.fused (g : Nat → α) : Fused (fun n => some (g n)) := by
  intro n h; cases h

theorem Fused.shift {f : Nat → Option α} (h : Fused f) : Fused (fun n => f (n + 1)) := fun n hn => h (n + 1) hn

theorem Fused.all_none {f : Nat → Option α} (h : Fused f) (h0 : f 0 = none) : ∀ n, f n = none := by
  intro n
  induction n with
  | zero => exact h0
  | succ n ih => exact h n ih

/-- Draining an iterator that yields `l` returns `l`. -/
theorem collect_of_yields {s : ι} {l : List α} (h : Yields s l) : collect s = pure l := by
  induction l generalizing s with
  | nil =>
    obtain ⟨s', h1, _⟩ := h.unnil
    unfold collect; rw [h1]; rfl
  | cons a l ih =>
    obtain ⟨s', h1, h2⟩ := h.uncons
    unfold collect; rw [h1]
    simp [ih h2]

/-- The observed list is unique. -/
theorem Yields.unique {s : ι} {l l' : List α} (h : Yields s l) (h' : Yields s l') : l = l' := by
  have h1 := collect_of_yields h
  rw [collect_of_yields h'] at h1
  exact (RM.ok_inj.mp h1).symm

/-- An iterator whose calls return items for ever is never drained: `collect` does not terminate. -/
theorem Gives.unique {s : ι} {g g' : Nat → α} (h : Gives s g) (h' : Gives s g') : g = g' := by
  funext n
  induction n generalizing s g g' with
  | zero =>
    obtain ⟨s1, e1, _⟩ := h.step
    obtain ⟨s2, e2, _⟩ := h'.step
    rw [e1, RM.ok_inj, Prod.mk.injEq, Option.some.injEq] at e2
    exact e2.1
  | succ n ih =>
    obtain ⟨s1, e1, h1⟩ := h.step
    obtain ⟨s2, e2, h2⟩ := h'.step
    rw [e1, RM.ok_inj, Prod.mk.injEq] at e2
    obtain ⟨-, rfl⟩ := e2
    exact ih h1 h2

theorem collect_of_gives {s : ι} {g : Nat → α} (h : Gives s g) : collect s = RM.diverge := by
  revert h; revert g; revert s
  suffices H : ∀ (s : ι) (g : Nat → α), Gives s g → collect s = RM.diverge from fun {s} {g} => H s g
  refine collect.fixpoint_induct (motive := fun c => ∀ (s : ι) (g : Nat → α), Gives s g → c s = RM.diverge) ?_ ?_
  · refine Lean.Order.admissible_pi_apply (P := fun s r => ∀ g : Nat → α, Gives s g → r = RM.diverge) ?_
    intro s
    exact Lean.Order.admissible_flatOrder (b := (none : Option (Except Panic (List α)))) _ (fun _ _ => rfl)
  · intro c ih s g h
    obtain ⟨s', h1, h2⟩ := h.step
    simp [h1, ih s' _ h2]

end basics
end Verif
