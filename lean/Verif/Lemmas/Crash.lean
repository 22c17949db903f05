import Verif.Lemmas.Std2

/-! Iterators that panic: `Crashes s l` — the calls of `next` return the items of `l`, and the following call panics. -/
namespace Verif
open Spec
variable {ι κ α β σ : Type}

/-- The items of `l` are returned, then the next call panics. -/
def Crashes [RIter ι α] (s : ι) : List α → Prop
  | [] => (next s).Panics
  | a :: l => ∃ s', next s = pure (some a, s') ∧ Crashes s' l

theorem Crashes.collect [RIter ι α] {s : ι} {l : List α} (h : Crashes s l) : (collect s).Panics := by
  induction l generalizing s with
  | nil =>
    obtain ⟨p, hp⟩ := h
    unfold Verif.collect; rw [hp]; exact ⟨p, rfl⟩
  | cons a l ih =>
    obtain ⟨s', h1, h2⟩ := h
    obtain ⟨p, hp⟩ := ih h2
    unfold Verif.collect; rw [h1]
    exact ⟨p, by simp [hp]⟩

theorem Crashes.of_next_eq [RIter ι α] {s t : ι} {l : List α} (e : next s = next t) (h : Crashes t l) : Crashes s l := by
  cases l with
  | nil => obtain ⟨p, hp⟩ := h; exact ⟨p, e.trans hp⟩
  | cons a l => obtain ⟨s', h1, h2⟩ := h; exact ⟨s', e.trans h1, h2⟩

theorem flatMap_front_crash [RIter ι α] [RIter κ β] {src : Option ι} {st : σ} {f : σ → α → RM (κ × σ)} {fr : Option κ}
    {m r : List β} (hm : FYields fr m) (hr : Crashes (FlatMap.mk src st f (none : Option κ)) r) :
    Crashes (FlatMap.mk src st f fr) (m ++ r) := by
  induction m generalizing fr with
  | nil =>
    refine hr.of_next_eq ?_
    simp only [next]
    conv => lhs; unfold FlatMap.nextLoop
    conv => rhs; unfold FlatMap.nextLoop
    simp [hm.nil]
  | cons b m ih =>
    obtain ⟨fr', h1, h2⟩ := hm.cons
    refine ⟨⟨src, st, f, fr'⟩, ?_, ih h2⟩
    simp only [next]; unfold FlatMap.nextLoop; simp [h1]

/-- A panicking closure call, after the items of `l` went well. -/
theorem Yields.rflatMap_crash [RIter ι α] [RIter κ β] {f : α → RM κ} {out : α → List β} {l l' : List α} {a : α} {s : ι}
    (h : Yields s (l ++ a :: l')) (hf : ∀ a ∈ l, ∃ k, f a = pure k ∧ Yields k (out a)) (ha : (f a).Panics) :
    Crashes (Verif.rflatMap s f) (l.flatMap out) := by
  suffices H : ∀ (g : Unit → α → RM (κ × Unit)) {l : List α} {s : Option ι},
      (∀ a ∈ l, ∃ k, g () a = pure (k, ()) ∧ Yields k (out a)) → (g () a).Panics → FYields s (l ++ a :: l') →
      Crashes (FlatMap.mk s () g (none : Option κ)) (l.flatMap out) by
    refine H _ (s := some s) (fun a ha => ?_) ?_ h
    · obtain ⟨k, h1, h2⟩ := hf a ha
      exact ⟨k, by simp [h1], h2⟩
    · obtain ⟨p, hp⟩ := ha
      exact ⟨p, by simp [hp]⟩
  intro g l
  induction l with
  | nil =>
    intro s _ ha h
    obtain ⟨s', h1, h2⟩ := FYields.cons (l := l') h
    obtain ⟨p, hp⟩ := ha
    refine ⟨p, ?_⟩
    simp only [next]; unfold FlatMap.nextLoop; simp [h1, hp]
  | cons b l ih =>
    intro s hf ha h
    obtain ⟨s', h1, h2⟩ := FYields.cons (l := l ++ a :: l') h
    obtain ⟨k, h3, h4⟩ := hf b (by simp)
    rw [List.flatMap_cons]
    refine Crashes.of_next_eq ?_ (flatMap_front_crash (fr := some k) h4 (ih (fun a ha => hf a (by simp [ha])) ha h2))
    simp only [next]
    conv => lhs; unfold FlatMap.nextLoop
    simp [h1, h3]

/-- A source that panics. -/
theorem Crashes.rflatMap [RIter ι α] [RIter κ β] {f : α → RM κ} {out : α → List β} {l : List α} {s : ι}
    (h : Crashes s l) (hf : ∀ a ∈ l, ∃ k, f a = pure k ∧ Yields k (out a)) :
    Crashes (Verif.rflatMap s f) (l.flatMap out) := by
  suffices H : ∀ (g : Unit → α → RM (κ × Unit)) {l : List α} {s : ι},
      (∀ a ∈ l, ∃ k, g () a = pure (k, ()) ∧ Yields k (out a)) → Crashes s l →
      Crashes (FlatMap.mk (some s) () g (none : Option κ)) (l.flatMap out) by
    refine H _ (fun a ha => ?_) h
    obtain ⟨k, h1, h2⟩ := hf a ha
    exact ⟨k, by simp [h1], h2⟩
  intro g l
  induction l with
  | nil =>
    intro s _ h
    obtain ⟨p, hp⟩ := h
    refine ⟨p, ?_⟩
    simp only [next] at hp ⊢; unfold FlatMap.nextLoop; simp [fuseNext, hp]
  | cons b l ih =>
    intro s hf h
    obtain ⟨s', h1, h2⟩ := h
    obtain ⟨k, h3, h4⟩ := hf b (by simp)
    rw [List.flatMap_cons]
    refine Crashes.of_next_eq ?_ (flatMap_front_crash (fr := some k) h4 (ih (fun a ha => hf a (by simp [ha])) h2))
    simp only [next] at h1 ⊢
    conv => lhs; unfold FlatMap.nextLoop
    simp [fuseNext, h1, h3]

end Verif
