import Verif.Lemmas.Std
import Verif.Spec.Streams

/-! Behaviour of `tuples`, `flat_map`, `chain` and stateful closures. -/
namespace Verif
open Spec
variable {ι κ α β γ σ : Type}

section
variable [RIter ι α]

@[simp] theorem fuseNext_none : fuseNext (none : Option ι) = pure ((none : Option α), none) := rfl

/-- A (possibly fused) source yields `l`. -/
def FYields (s : Option ι) (l : List α) : Prop :=
  match s with
  | none => l = []
  | some s => Yields s l

theorem FYields.nil {s : Option ι} (h : FYields s ([] : List α)) : fuseNext s = pure (none, none) := by
  cases s with
  | none => rfl
  | some s =>
    obtain ⟨s', h1, _⟩ := Yields.unnil h
    simp [fuseNext, h1]

theorem FYields.cons {s : Option ι} {a : α} {l : List α} (h : FYields s (a :: l)) :
    ∃ s', fuseNext s = pure (some a, s') ∧ FYields s' l := by
  cases s with
  | none => simp [FYields] at h
  | some s =>
    obtain ⟨s', h1, h2⟩ := Yields.uncons h
    exact ⟨some s', by simp [fuseNext, h1], h2⟩

theorem tuples_done (b : Option α) : Done (α := α × α) (Tuples.mk (none : Option ι) b) :=
  Done.coind (R := fun (s : Tuples ι α) => s.src = none)
    (fun s h => ⟨s, by cases s; simp_all [next, fuseNext], h⟩) rfl

theorem FYields.tuples {s : Option ι} {l : List α} (b : Option α) (h : FYields s l) :
    Yields (Tuples.mk s b) (pairs l) := by
  fun_induction pairs l generalizing s b with
  | case1 a c t ih =>
    obtain ⟨s₁, h1, h2⟩ := h.cons
    obtain ⟨s₂, h3, h4⟩ := h2.cons
    refine .cons (s' := ⟨s₂, some c⟩) ?_ (ih _ h4)
    simp [next, h1, h3]
  | case2 l hl =>
    match l, hl with
    | [], _ =>
      refine .nil (Done.cons (s' := ⟨none, b⟩) ?_ (tuples_done _))
      simp [next, h.nil]
    | [a], _ =>
      obtain ⟨s₁, h1, h2⟩ := h.cons
      refine .nil (Done.cons (s' := ⟨none, some a⟩) ?_ (tuples_done _))
      simp [next, h1, h2.nil]
    | a :: c :: t, hl => exact absurd rfl (hl a c t)

theorem Yields.rtuples {s : ι} {l : List α} (h : Yields s l) : Yields (rtuples s α) (pairs l) :=
  FYields.tuples (s := some s) none h

theorem flatMap_done [RIter κ β] (st : σ) (f : σ → α → RM (κ × σ)) :
    Done (α := β) (FlatMap.mk (none : Option ι) st f none) :=
  Done.coind (R := fun (s : FlatMap ι σ α κ) => s.src = none ∧ s.front = none)
    (fun s h => ⟨s, by
      cases s; obtain ⟨rfl, rfl⟩ := h
      simp only [next]; unfold FlatMap.nextLoop; simp [fuseNext], h⟩) ⟨rfl, rfl⟩

theorem flatMap_front [RIter κ β] {src : Option ι} {st : σ} {f : σ → α → RM (κ × σ)} {fr : Option κ}
    {m r : List β} (hm : FYields fr m) (hr : Yields (FlatMap.mk src st f (none : Option κ)) r) :
    Yields (FlatMap.mk src st f fr) (m ++ r) := by
  induction m generalizing fr with
  | nil =>
    have hn := hm.nil
    have : next (FlatMap.mk src st f fr) = next (FlatMap.mk src st f (none : Option κ)) := by
      simp only [next]
      conv => lhs; unfold FlatMap.nextLoop
      conv => rhs; unfold FlatMap.nextLoop
      simp [hn]
    cases r with
    | nil =>
      obtain ⟨s', h1, h2⟩ := hr.unnil
      rw [← this] at h1
      exact .nil (Done.cons h1 (yields_nil.mp h2))
    | cons b r =>
      obtain ⟨s', h1, h2⟩ := hr.uncons
      rw [← this] at h1
      exact .cons h1 h2
  | cons b m ih =>
    obtain ⟨fr', h1, h2⟩ := hm.cons
    refine .cons (s' := ⟨src, st, f, fr'⟩) ?_ (ih h2)
    simp only [next]; unfold FlatMap.nextLoop; simp [h1]

/-- `flat_map` with a stateful closure; `Inv` is an invariant of the closure state along the input. -/
theorem FYields.flatMapSt [RIter κ β] {f : σ → α → RM (κ × σ)} {out : σ → α → List β} {upd : σ → α → σ}
    (Inv : σ → Prop) (P : α → Prop)
    (hf : ∀ st a, Inv st → P a → ∃ k, f st a = pure (k, upd st a) ∧ Yields k (out st a))
    (hInv : ∀ st a, Inv st → Inv (upd st a)) :
    ∀ {l : List α} {s : Option ι} {st : σ}, FYields s l → (∀ a ∈ l, P a) → Inv st →
      Yields (FlatMap.mk s st f (none : Option κ)) (stFlat out upd st l) := by
  intro l
  induction l with
  | nil =>
    intro s st h _ _
    refine .nil (Done.cons (s' := ⟨none, st, f, none⟩) ?_ (flatMap_done _ _))
    simp only [next]; unfold FlatMap.nextLoop; simp [h.nil]
  | cons a l ih =>
    intro s st h hP hi
    obtain ⟨s', h1, h2⟩ := h.cons
    obtain ⟨k, h3, h4⟩ := hf st a hi (hP a (by simp))
    have hy : Yields (FlatMap.mk s' (upd st a) f (some k)) (out st a ++ stFlat out upd (upd st a) l) :=
      flatMap_front (fr := some k) h4 (ih h2 (fun b hb => hP b (by simp [hb])) (hInv _ _ hi))
    have hn : next (FlatMap.mk s st f (none : Option κ)) = next (FlatMap.mk s' (upd st a) f (some k)) := by
      simp only [next]
      conv => lhs; unfold FlatMap.nextLoop
      simp [h1, h3]
    rw [stFlat]
    cases e : out st a ++ stFlat out upd (upd st a) l with
    | nil =>
      rw [e] at hy
      obtain ⟨q, h5, h6⟩ := hy.unnil
      exact .nil (Done.cons (hn.trans h5) (yields_nil.mp h6))
    | cons b r =>
      rw [e] at hy
      obtain ⟨q, h5, h6⟩ := hy.uncons
      exact .cons (hn.trans h5) h6

theorem Yields.rflatMapSt [RIter κ β] {f : σ → α → RM (κ × σ)} {out : σ → α → List β} {upd : σ → α → σ}
    (Inv : σ → Prop)
    (hf : ∀ st a, Inv st → ∃ k, f st a = pure (k, upd st a) ∧ Yields k (out st a))
    (hInv : ∀ st a, Inv st → Inv (upd st a)) {l : List α} {s : ι} {st : σ} (h : Yields s l) (hi : Inv st) :
      Yields (rflatMapSt s st f) (stFlat out upd st l) :=
  FYields.flatMapSt (s := some s) Inv (fun _ => True) (fun st a hi _ => hf st a hi) hInv h (fun _ _ => trivial) hi

theorem Yields.rflatMapSt_mem [RIter κ β] {f : σ → α → RM (κ × σ)} {out : σ → α → List β} {upd : σ → α → σ}
    {l : List α} {s : ι} {st : σ} (h : Yields s l)
    (hf : ∀ st a, a ∈ l → ∃ k, f st a = pure (k, upd st a) ∧ Yields k (out st a)) :
      Yields (Verif.rflatMapSt s st f) (stFlat out upd st l) :=
  FYields.flatMapSt (s := some s) (fun _ => True) (· ∈ l) (fun st a _ ha => hf st a ha) (fun _ _ _ => trivial) h
    (fun _ ha => ha) trivial

theorem stFlat_unit (out : Unit → α → List β) (upd : Unit → α → Unit) (l : List α) :
    stFlat out upd () l = l.flatMap (out ()) := by
  induction l with
  | nil => rfl
  | cons a l ih => simp [stFlat, ih]

/-- `flat_map` where the closure may depend on membership in the source. -/
theorem Yields.rflatMap_mem [RIter κ β] {f : α → RM κ} {out : α → List β} {l : List α} {s : ι}
    (hf : ∀ a ∈ l, ∃ k, f a = pure k ∧ Yields k (out a)) (h : Yields s l) :
      Yields (rflatMap s f) (l.flatMap out) := by
  suffices H : ∀ (g : Unit → α → RM (κ × Unit)) {l : List α} {s : Option ι},
      (∀ a ∈ l, ∃ k, g () a = pure (k, ()) ∧ Yields k (out a)) → FYields s l →
      Yields (FlatMap.mk s () g (none : Option κ)) (l.flatMap out) by
    refine H _ (s := some s) (fun a ha => ?_) h
    obtain ⟨k, h1, h2⟩ := hf a ha
    exact ⟨k, by simp [h1], h2⟩
  intro g l
  induction l with
  | nil =>
    intro s _ h
    refine .nil (Done.cons (s' := ⟨none, (), g, none⟩) ?_ (flatMap_done _ _))
    simp only [next]; unfold FlatMap.nextLoop; simp [h.nil]
  | cons a l ih =>
    intro s hf h
    obtain ⟨s', h1, h2⟩ := h.cons
    obtain ⟨k, h3, h4⟩ := hf a (by simp)
    have hy : Yields (FlatMap.mk s' () g (some k)) (out a ++ l.flatMap out) :=
      flatMap_front (fr := some k) h4 (ih (fun a ha => hf a (by simp [ha])) h2)
    have hn : next (FlatMap.mk s () g (none : Option κ)) = next (FlatMap.mk s' () g (some k)) := by
      simp only [next]
      conv => lhs; unfold FlatMap.nextLoop
      simp [h1, h3]
    rw [List.flatMap_cons]
    cases e : out a ++ l.flatMap out with
    | nil =>
      rw [e] at hy
      obtain ⟨q, h5, h6⟩ := hy.unnil
      exact .nil (Done.cons (hn.trans h5) (yields_nil.mp h6))
    | cons b r =>
      rw [e] at hy
      obtain ⟨q, h5, h6⟩ := hy.uncons
      exact .cons (hn.trans h5) h6

theorem Yields.rflatMap [RIter κ β] {f : α → RM κ} {out : α → List β}
    (hf : ∀ a, ∃ k, f a = pure k ∧ Yields k (out a)) {l : List α} {s : ι} (h : Yields s l) :
      Yields (Verif.rflatMap s f) (l.flatMap out) := h.rflatMap_mem (fun a _ => hf a)

theorem Yields.rmapSt {f : σ → α → RM (β × σ)} {out : σ → α → β} {upd : σ → α → σ} (Inv : σ → Prop)
    (hf : ∀ st a, Inv st → f st a = pure (out st a, upd st a)) (hInv : ∀ st a, Inv st → Inv (upd st a)) :
    ∀ {l : List α} {s : ι} {st : σ}, Yields s l → Inv st → Yields (rmapSt s st f) (stMap out upd st l) := by
  intro l
  induction l with
  | nil =>
    intro s st h _
    refine .nil (Done.coind (R := fun (m : MapSt ι σ α β) => Done (α := α) m.src) ?_ (yields_nil.mp h))
    intro m hm
    obtain ⟨s', h1, h2⟩ := Done.step hm
    exact ⟨{ m with src := s' }, by simp [next] at h1 ⊢; simp [h1], h2⟩
  | cons a l ih =>
    intro s st h hi
    obtain ⟨s', h1, h2⟩ := h.uncons
    refine .cons (s' := ⟨s', upd st a, f⟩) ?_ (ih h2 (hInv _ _ hi))
    simp [next, Verif.rmapSt] at h1 ⊢; simp [h1, hf st a hi]

theorem chain_none [RIter κ α] {b : κ} {h : Nat → Option α} (hb : Beh b h) :
    Beh (Chain.mk (none : Option ι) b) h := by
  refine Beh.coind (R := fun (c : Chain ι κ) f => c.a = none ∧ Beh c.b f) ?_ ⟨rfl, hb⟩
  rintro ⟨a, b⟩ f ⟨h0, hb⟩
  simp only at h0 hb; subst h0
  obtain ⟨b', h1, h2⟩ := hb.step
  exact ⟨⟨none, b'⟩, by simp [next] at h1 ⊢; simp [h1], rfl, h2⟩

theorem Yields.rchain [RIter κ α] {a : ι} {b : κ} {l m : List α} (ha : Yields a l) (hb : Yields b m) :
    Yields (rchain a b) (l ++ m) := by
  induction l generalizing a with
  | nil =>
    obtain ⟨a', h1, _⟩ := ha.unnil
    cases m with
    | nil =>
      obtain ⟨b', h2, h3⟩ := hb.unnil
      refine .nil (Done.cons (s' := ⟨none, b'⟩) ?_ (chain_none (yields_nil.mp h3)))
      simp [next, Verif.rchain] at h1 h2 ⊢; simp [h1, h2]
    | cons x m =>
      obtain ⟨b', h2, h3⟩ := hb.uncons
      refine .cons (s' := ⟨none, b'⟩) ?_ (show Beh _ _ from chain_none (h := fun n => m[n]?) h3)
      simp [next, Verif.rchain] at h1 h2 ⊢; simp [h1, h2]
  | cons x l ih =>
    obtain ⟨a', h1, h2⟩ := ha.uncons
    refine .cons (s' := ⟨some a', b⟩) ?_ (ih h2)
    simp [next, Verif.rchain] at h1 ⊢; simp [h1]

end
end Verif
