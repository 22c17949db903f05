import Verif.Spec.Live
import Verif.Lemmas.Symbols

/-! Adapters on live streams: what the first items of the source determine. -/
namespace Verif
open Spec
set_option linter.unusedSectionVars false
variable {ι κ T α β : Type}

section
variable [RIter ι α]

theorem Starts.nil (s : ι) : Starts s ([] : List α) := trivial

theorem starts_cons {s : ι} {a : α} {l : List α} :
    Starts s (a :: l) ↔ ∃ s', next s = pure (some a, s') ∧ Starts s' l := by
  unfold Starts
  show BehN (l.length + 1) _ _ ↔ _
  constructor
  · rintro ⟨s', h1, h2⟩
    exact ⟨s', h1, h2⟩
  · rintro ⟨s', h1, h2⟩
    exact ⟨s', h1, h2⟩

theorem Starts.cons {s s' : ι} {a : α} {l : List α} (h : next s = pure (some a, s')) (ht : Starts s' l) :
    Starts s (a :: l) := starts_cons.mpr ⟨s', h, ht⟩

theorem Starts.of_eq {s : ι} {l l' : List α} (h : Starts s l) (e : l = l') : Starts s l' := e ▸ h

theorem Starts.take {s : ι} {l : List α} (h : Starts s l) (n : ℕ) : Starts s (l.take n) := by
  induction l generalizing s n with
  | nil => rw [List.take_nil]; exact trivial
  | cons a l ih =>
    cases n with
    | zero => exact trivial
    | succ n =>
      obtain ⟨s', h1, h2⟩ := starts_cons.mp h
      exact .cons h1 (ih h2 n)

theorem Yields.starts {s : ι} {l : List α} (h : Yields s l) : Starts s l := h l.length

theorem Gives.starts {s : ι} {g : ℕ → α} (h : Gives s g) (n : ℕ) : Starts s ((List.range n).map g) := by
  unfold Starts
  rw [List.length_map, List.length_range]
  refine (h n).congr ?_
  intro i hi
  simp [hi]

/-- A stream that starts with every prefix of an endless sequence is that sequence. -/
theorem gives_of_starts {s : ι} {g : ℕ → α} (h : ∀ n, Starts s ((List.range n).map g)) : Gives s g := by
  intro n
  have := h n
  unfold Starts at this
  rw [List.length_map, List.length_range] at this
  refine this.congr ?_
  intro i hi
  simp [hi]

theorem Starts.rmap {s : ι} {l : List α} (h : Starts s l) (f : α → β) : Starts (rmap s f) (l.map f) := by
  induction l generalizing s with
  | nil => exact trivial
  | cons a l ih =>
    obtain ⟨s', h1, h2⟩ := starts_cons.mp h
    exact .cons (s' := Verif.rmap s' f) (by simp [next, Verif.rmap, h1]) (ih h2)

theorem Starts.mapM {s : ι} {l : List α} {m : α → RM β} {g : α → β} (h : Starts s l) (hm : ∀ a ∈ l, m a = pure (g a)) :
    Starts (Map.mk s m) (l.map g) := by
  induction l generalizing s with
  | nil => exact trivial
  | cons a l ih =>
    obtain ⟨s', h1, h2⟩ := starts_cons.mp h
    exact .cons (s' := ⟨s', m⟩) (by simp [next, h1, hm a (by simp)]) (ih h2 (fun x hx => hm x (by simp [hx])))

theorem Starts.enumerate {s : ι} {l : List α} (h : Starts s l) (c : ℕ) :
    Starts (Enumerate.mk s c) (l.mapIdx (fun i a => (c + i, a))) := by
  induction l generalizing s c with
  | nil => exact trivial
  | cons a l ih =>
    obtain ⟨s', h1, h2⟩ := starts_cons.mp h
    rw [List.mapIdx_cons]
    refine .cons (s' := ⟨s', c + 1⟩) (by simp [next, h1]) ((ih h2 (c + 1)).of_eq ?_)
    congr 1; funext i a; congr 1; omega

theorem Starts.renumerate {s : ι} {l : List α} (h : Starts s l) :
    Starts (renumerate s) (l.mapIdx (fun i a => (i, a))) := by
  have := h.enumerate 0
  simp only [Nat.zero_add] at this
  exact this

theorem Starts.rzip_gives [RIter κ β] {s : ι} {t : κ} {l : List α} {g : ℕ → β} (h : Starts s l) (hg : Gives t g) :
    Starts (rzip s t) (l.mapIdx (fun i a => (a, g i))) := by
  induction l generalizing s t g with
  | nil => exact trivial
  | cons a l ih =>
    obtain ⟨s', h1, h2⟩ := starts_cons.mp h
    obtain ⟨t', h3, h4⟩ := Beh.step hg
    rw [List.mapIdx_cons]
    exact .cons (s' := Verif.rzip s' t') (by simp [next, Verif.rzip, h1, h3]) (ih h2 h4)

theorem Starts.inflate_run {s : ι} {l : List α} {c : ℕ} (hc : 0 < c)
    (hl : ∀ (a : α), Starts (Inflate.mk s c c (some a)) l) (a : α) (r j : ℕ) (hj : j + r = c) (hj1 : 1 ≤ j) :
    Starts (Inflate.mk s c j (some a)) (List.replicate r a ++ l) := by
  induction r generalizing j with
  | zero =>
    obtain rfl : j = c := by omega
    simpa using hl a
  | succ r ih =>
    rw [List.replicate_succ, List.cons_append]
    have : ¬ j = c := by omega
    exact .cons (s' := ⟨s, c, j + 1, some a⟩) (by simp [next, this]) (ih (j + 1) (by omega) (by omega))

theorem Starts.inflate_state {s : ι} {l : List α} (h : Starts s l) {c : ℕ} (hc : 0 < c) {j : ℕ} {o : Option α}
    (hj : o = none ∨ j = c) : Starts (Inflate.mk s c j o) (l.flatMap (List.replicate c)) := by
  induction l generalizing s j o with
  | nil => exact trivial
  | cons a l ih =>
    obtain ⟨s', h1, h2⟩ := starts_cons.mp h
    obtain ⟨c', rfl⟩ : ∃ c', c = c' + 1 := ⟨c - 1, by omega⟩
    rw [List.flatMap_cons, List.replicate_succ, List.cons_append]
    refine .cons (s' := ⟨s', c' + 1, 1, some a⟩) ?_
      (Starts.inflate_run hc (fun b => ih h2 (.inr rfl)) a c' 1 (by omega) le_rfl)
    rcases hj with rfl | rfl <;> simp [next, h1]

theorem Starts.inflate {s : ι} {l : List α} (h : Starts s l) {c : ℕ} (hc : 0 < c) :
    Starts (inflate (T := α) s c) (l.flatMap (List.replicate c)) := h.inflate_state hc (.inl rfl)

theorem Starts.integrate_state [Add α] {s : ι} {l : List α} (h : Starts s l) (acc : α) :
    Starts (Integrate.mk s acc) (runSums acc l) := by
  induction l generalizing s acc with
  | nil => exact trivial
  | cons a l ih =>
    obtain ⟨s', h1, h2⟩ := starts_cons.mp h
    exact .cons (s' := ⟨s', acc + a⟩) (by simp [next, h1]) (ih h2 _)

theorem pullUpTo_starts {s : ι} {a b : List α} (h : Starts s (a ++ b)) :
    ∃ s', pullUpTo (T := α) a.length s = pure (a, s') ∧ Starts s' b := by
  induction a generalizing s with
  | nil => exact ⟨s, rfl, h⟩
  | cons x a ih =>
    obtain ⟨s', h1, h2⟩ := starts_cons.mp h
    obtain ⟨s'', h3, h4⟩ := ih h2
    exact ⟨s'', by simp [pullUpTo, h1, h3], h4⟩

/-- Induction over the complete blocks of a list. -/
theorem fullBlocks_induct {P : List α → Prop} {k : ℕ} (hk : 0 < k) (h0 : ∀ l : List α, l.length < k → P l)
    (hs : ∀ a l : List α, a.length = k → P l → P (a ++ l)) (l : List α) : P l := by
  induction hn : l.length using Nat.strong_induction_on generalizing l with
  | _ n ih =>
    by_cases hlt : l.length < k
    · exact h0 l hlt
    · rw [← List.take_append_drop k l]
      exact hs _ _ (by rw [List.length_take]; omega) (ih (l.drop k).length (by rw [List.length_drop]; omega) _ rfl)

theorem Starts.chunks {k : ℕ} (hk : 0 < k) {s : ι} {l : List α} (h : Starts s l) :
    Starts (chunks s k) (fullBlocks k l) := by
  revert s
  refine fullBlocks_induct (P := fun l => ∀ {s : ι}, Starts s l → Starts (Verif.chunks s k) (fullBlocks k l)) hk ?_ ?_ l
  · intro l hl s _
    rw [fullBlocks_short hl]; exact trivial
  · intro a l ha ih s h
    rw [fullBlocks_append hk ha]
    obtain ⟨s', h1, h2⟩ := pullUpTo_starts h
    rw [ha] at h1
    have hne : a ≠ [] := by rintro rfl; simp at ha; omega
    exact .cons (s' := Verif.chunks s' k) (by simp [next, Verif.chunks, h1, hne]) (ih h2)

theorem dumpLoop_starts [Add α] {s : ι} {a b : List α} (h : Starts s (a ++ b)) (acc : α) :
    ∃ s', dumpLoop a.length acc s = pure (some (a.foldl (· + ·) acc), s') ∧ Starts s' b := by
  induction a generalizing s acc with
  | nil => exact ⟨s, rfl, h⟩
  | cons x a ih =>
    obtain ⟨s', h1, h2⟩ := starts_cons.mp h
    obtain ⟨s'', h3, h4⟩ := ih h2 (acc + x)
    exact ⟨s'', by simp [dumpLoop, h1, h3], h4⟩

theorem Starts.integrateAndDump [Add α] [Zero α] {k : ℕ} (hk : 0 < k) {s : ι} {l : List α} (h : Starts s l) :
    Starts (integrateAndDump s k) ((fullBlocks k l).map rsum) := by
  revert s
  refine fullBlocks_induct (P := fun l => ∀ {s : ι}, Starts s l →
    Starts (Verif.integrateAndDump s k) ((fullBlocks k l).map rsum)) hk ?_ ?_ l
  · intro l hl s _
    rw [fullBlocks_short hl]; exact trivial
  · intro a l ha ih s h
    rw [fullBlocks_append hk ha]
    obtain ⟨s', h1, h2⟩ := dumpLoop_starts h 0
    rw [ha] at h1
    exact .cons (s' := Verif.integrateAndDump s' k) (by simp [next, Verif.integrateAndDump, h1, rsum]) (ih h2)

theorem Starts.rtuples_state {s : ι} {l : List α} (h : Starts s l) (b : Option α) :
    Starts (Tuples.mk (some s) b) (pairs l) := by
  induction l using pairs.induct generalizing s b with
  | case1 x y l ih =>
    obtain ⟨s', h1, h2⟩ := starts_cons.mp h
    obtain ⟨s'', h3, h4⟩ := starts_cons.mp h2
    rw [pairs]
    exact .cons (s' := ⟨some s'', some y⟩) (by simp [next, fuseNext, h1, h3]) (ih h4 _)
  | case2 l hl => rw [pairs]; exact trivial; exact hl

theorem Starts.rtuples {s : ι} {l : List α} (h : Starts s l) : Starts (rtuples s α) (pairs l) := h.rtuples_state none

/-- One inner stream of a `flat_map` is delivered completely before the source is pulled again. -/
theorem Starts.flatMap_front [RIter κ β] {s : ι} {f : α → RM κ} {rest : List β}
    (hr : ∀ fr : Option κ, (∀ t, fr = some t → ∃ t', next t = pure ((none : Option β), t')) →
      Starts (FlatMap.mk (some s) () (fun _ a => do pure (← f a, ())) fr) rest)
    {t : κ} {l : List β} (h : Yields t l) :
    Starts (FlatMap.mk (some s) () (fun _ a => do pure (← f a, ())) (some t)) (l ++ rest) := by
  induction l generalizing t with
  | nil =>
    refine hr _ ?_
    intro t' e
    cases e
    obtain ⟨t', h1, _⟩ := h.unnil
    exact ⟨t', h1⟩
  | cons b l ih =>
    obtain ⟨t', h1, h2⟩ := h.uncons
    refine .cons (s' := ⟨some s, (), _, some t'⟩) ?_ (ih h2)
    simp only [next]
    rw [FlatMap.nextLoop]
    simp [fuseNext, h1]

theorem flatMap_next_front [RIter κ β] {s s' : ι} {f : α → RM κ} {fr : Option κ} {a : α} {t : κ}
    (hfr : ∀ t, fr = some t → ∃ t', next t = pure ((none : Option β), t')) (h1 : next s = pure (some a, s'))
    (h2 : f a = pure t) :
    (next (FlatMap.mk (some s) () (fun _ a => do pure (← f a, ())) fr) : RM (Option β × _))
      = next (FlatMap.mk (some s') () (fun _ a => do pure (← f a, ())) (some t)) := by
  simp only [next]
  conv_lhs => rw [FlatMap.nextLoop]
  cases fr with
  | none => simp [fuseNext, h1, h2]
  | some t0 =>
    obtain ⟨t', h3⟩ := hfr t0 rfl
    simp [fuseNext, h1, h2, h3]

theorem Starts.of_next_eq {s s' : ι} {l : List α} (e : next s = next s') (h : Starts s' l) : Starts s l := by
  cases l with
  | nil => exact trivial
  | cons a l =>
    obtain ⟨t, h1, h2⟩ := starts_cons.mp h
    exact .cons (e.trans h1) h2

theorem Starts.rflatMap [RIter κ β] {s : ι} {l : List α} (h : Starts s l) {f : α → RM κ} {out : α → List β}
    (hf : ∀ a ∈ l, ∃ t, f a = pure t ∧ Yields t (out a)) : Starts (rflatMap s f) (l.flatMap out) := by
  suffices hs : ∀ fr : Option κ, (∀ t, fr = some t → ∃ t', next t = pure ((none : Option β), t')) →
      Starts (FlatMap.mk (some s) () (fun _ a => do pure (← f a, ())) fr) (l.flatMap out) from
    hs none (by simp)
  induction l generalizing s with
  | nil => intro _ _; exact trivial
  | cons a l ih =>
    intro fr hfr
    obtain ⟨s', h1, h2⟩ := starts_cons.mp h
    obtain ⟨t, h3, h4⟩ := hf a (by simp)
    rw [List.flatMap_cons]
    exact Starts.of_next_eq (flatMap_next_front hfr h1 h3)
      (Starts.flatMap_front (ih h2 (fun x hx => hf x (by simp [hx]))) h4)
end

section
variable {N : ℕ} [RIter ι (Vector T N)]

theorem ndumpLoop_starts [Add T] {s : ι} {a b : List (Vector T N)} (h : Starts s (a ++ b)) (acc : Vector T N) :
    ∃ s', ndumpLoop a.length acc s = pure (some (rsumV acc a), s') ∧ Starts s' b := by
  induction a generalizing s acc with
  | nil => exact ⟨s, rfl, h⟩
  | cons x a ih =>
    obtain ⟨s', h1, h2⟩ := starts_cons.mp h
    obtain ⟨s'', h3, h4⟩ := ih h2 (Vector.zipWith (· + ·) acc x)
    exact ⟨s'', by simp [ndumpLoop, h1, h3, rsumV], h4⟩

theorem Starts.nintegrateAndDump [Add T] [Zero T] {k : ℕ} (hk : 0 < k) {s : ι} {l : List (Vector T N)} (h : Starts s l) :
    Starts (nintegrateAndDump s k) ((fullBlocks k l).map (rsumV (Vector.replicate N (0 : T)))) := by
  revert s
  refine fullBlocks_induct (P := fun l => ∀ {s : ι}, Starts s l →
    Starts (Verif.nintegrateAndDump s k) ((fullBlocks k l).map (rsumV (Vector.replicate N (0 : T))))) hk ?_ ?_ l
  · intro l hl s _
    rw [fullBlocks_short hl]; exact trivial
  · intro a l ha ih s h
    rw [fullBlocks_append hk ha]
    obtain ⟨s', h1, h2⟩ := ndumpLoop_starts h (Vector.replicate N (0 : T))
    rw [ha] at h1
    exact .cons (s' := Verif.nintegrateAndDump s' k) (by simp [next, Verif.nintegrateAndDump, h1]) (ih h2)
end

section
variable [RIter ι α] [RIter κ β]

theorem collect_cons_ok {s s' : ι} {a : α} {out : List α} (h1 : next s = pure (some a, s')) (h : collect s = pure out) :
    ∃ out', out = a :: out' ∧ collect s' = pure out' := by
  rw [collect, h1, pure_bind] at h
  obtain ⟨l, h2, h3⟩ := RM.bind_eq_ok.mp h
  rw [RM.ok_inj] at h3
  exact ⟨l, h3.symm, h2⟩

theorem collect_next_eq {s s' : ι} (h : (next s : RM (Option α × ι)) = next s') : collect (α := α) s = collect s' := by
  rw [collect, h, ← collect]

theorem flatMap_front_collect {s : ι} {f : α → RM κ} {t : κ} {l out : List β} (h : Yields t l)
    (hc : collect (FlatMap.mk (some s) () (fun _ a => do pure (← f a, ())) (some t)) = pure out) :
    ∃ t' out', Yields t' ([] : List β) ∧ out = l ++ out' ∧
      collect (FlatMap.mk (some s) () (fun _ a => do pure (← f a, ())) (some t')) = pure out' := by
  induction l generalizing t out with
  | nil => exact ⟨t, out, h, rfl, hc⟩
  | cons b l ih =>
    obtain ⟨t', h1, h2⟩ := h.uncons
    have hn : (next (FlatMap.mk (some s) () (fun _ a => do pure (← f a, ())) (some t)) : RM (Option β × _))
        = pure (some b, FlatMap.mk (some s) () (fun _ a => do pure (← f a, ())) (some t')) := by
      simp only [next]
      rw [FlatMap.nextLoop]
      simp [fuseNext, h1]
    obtain ⟨out', rfl, h3⟩ := collect_cons_ok hn hc
    obtain ⟨t'', out'', h4, rfl, h5⟩ := ih h2 h3
    exact ⟨t'', out'', h4, rfl, h5⟩

/-- If a batch run over a `flat_map` returns, then its closure succeeded on every item. -/
theorem flatMap_collect {s : ι} {l : List α} (h : Yields s l) {f : α → RM κ} {out : α → List β} {res : List β}
    (hf : ∀ a ∈ l, ∀ t, f a = pure t → Yields t (out a)) {fr : Option κ} (hfr : ∀ t, fr = some t → Yields t ([] : List β))
    (hc : collect (FlatMap.mk (some s) () (fun _ a => do pure (← f a, ())) fr) = pure res) :
    (∀ a ∈ l, ∃ t, f a = pure t) ∧ (res = l.flatMap out) := by
  induction l generalizing s fr res with
  | nil =>
    refine ⟨by simp, ?_⟩
    obtain ⟨s', h1, _⟩ := h.unnil
    have hn : ∃ x, (next (FlatMap.mk (some s) () (fun _ a => do pure (← f a, ())) fr) : RM (Option β × _))
        = pure (none, x) := by
      simp only [next]
      rw [FlatMap.nextLoop]
      cases fr with
      | none => simp [fuseNext, h1]
      | some t0 =>
        obtain ⟨t', h3, _⟩ := (hfr t0 rfl).unnil
        simp [fuseNext, h1, h3]
    obtain ⟨x, hn⟩ := hn
    rw [collect, hn, pure_bind, RM.ok_inj] at hc
    exact hc.symm
  | cons a l ih =>
    obtain ⟨s', h1, h2⟩ := h.uncons
    have hfr' : ∀ t, fr = some t → ∃ t', next t = pure ((none : Option β), t') := fun t e => by
      obtain ⟨t', h3, _⟩ := (hfr t e).unnil; exact ⟨t', h3⟩
    have hok : ∃ t, f a = pure t := by
      rw [collect] at hc
      obtain ⟨x, h3, _⟩ := RM.bind_eq_ok.mp hc
      simp only [next] at h3
      rw [FlatMap.nextLoop] at h3
      rcases RM.cases (f a) with ⟨t, e⟩ | ⟨p, e⟩ | e
      · exact ⟨t, e⟩
      all_goals
        exfalso
        cases fr with
        | none => simp [fuseNext, h1, e] at h3
        | some t0 =>
          obtain ⟨t', h4⟩ := hfr' t0 rfl
          simp [fuseNext, h1, e, h4] at h3
    obtain ⟨t, ht⟩ := hok
    rw [collect_next_eq (flatMap_next_front hfr' h1 ht)] at hc
    obtain ⟨t', res', h4, rfl, h5⟩ := flatMap_front_collect (hf a (by simp) t ht) hc
    obtain ⟨h6, rfl⟩ := ih h2 (fun x hx => hf x (by simp [hx])) (by rintro _ ⟨⟩; exact h4) h5
    refine ⟨?_, by rw [List.flatMap_cons]⟩
    intro x hx
    rcases List.mem_cons.mp hx with rfl | hx
    · exact ⟨t, ht⟩
    · exact h6 x hx

/-- `flat_map` keeps up when its inner streams are determined by the items. -/
theorem KeepsUp.rflatMap {ι' : Type} [RIter ι' α] {s : ι} {s' : ι'} {l : List α} (h : Starts s l) (h' : Yields s' l)
    {f : α → RM κ} {out : α → List β} (hf : ∀ a ∈ l, ∀ t, f a = pure t → Yields t (out a)) :
    KeepsUp (pure (rflatMap s f)) (pure (rflatMap s' f)) := by
  intro res hc
  rw [pure_bind] at hc
  obtain ⟨h1, rfl⟩ := flatMap_collect h' hf (by simp) hc
  exact ⟨_, rfl, h.rflatMap (fun a ha => by obtain ⟨t, ht⟩ := h1 a ha; exact ⟨t, ht, hf a ha t ht⟩)⟩
end
end Verif
