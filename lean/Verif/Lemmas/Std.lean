import Verif.Rust.Beh

/-! Behaviour of the std / itertools adapters. -/
namespace Verif

variable {ι κ α β γ σ : Type}

theorem yields_ofList (l : List α) : Yields (ofList l) l := by
  induction l with
  | nil => exact .nil (Done.coind (R := fun s : VecIter α => s.rest = [])
      (fun s h => ⟨s, by simp [next, h], h⟩) rfl)
  | cons a l ih => exact .cons (s' := ⟨l⟩) rfl ih

theorem gives_repeat (a : α) : Gives (Repeat.mk a) (fun _ => a) :=
  Beh.coind (R := fun s f => s = Repeat.mk a ∧ f = fun _ => some a)
    (fun s f ⟨h, hf⟩ => ⟨s, by subst h hf; rfl, h, by rw [hf]⟩) ⟨rfl, rfl⟩

theorem gives_rangeFrom (k : Nat) : Gives (RangeFrom.mk k) (fun n => k + n) :=
  Beh.coind (R := fun s f => f = fun n => some (s.start + n))
    (fun s f hf => ⟨⟨s.start + 1⟩, by subst hf; rfl, by subst hf; funext n; simp; omega⟩) rfl

section
variable [RIter ι α]

theorem Beh.mapM {s : ι} {h : Nat → Option α} {m : α → RM β} {g : α → β} (hs : Beh s h)
    (hm : ∀ n a, h n = some a → m a = pure (g a)) : Beh (Map.mk s m) (fun n => (h n).map g) := by
  refine Beh.coind (R := fun (s : Map ι α β) f => s.f = m ∧ ∃ h, Beh s.src h ∧
    (∀ n a, h n = some a → m a = pure (g a)) ∧ f = fun n => (h n).map g) ?_ ⟨rfl, h, hs, hm, rfl⟩
  rintro s f ⟨hf, h, hs, hm, rfl⟩
  obtain ⟨s', h1, h2⟩ := hs.step
  cases e : h 0 with
  | none =>
    rw [e] at h1
    exact ⟨{ s with src := s' }, by simp [next, h1, e], hf, _, h2, fun n a => hm (n + 1) a, rfl⟩
  | some a =>
    rw [e] at h1
    exact ⟨{ s with src := s' }, by simp [next, h1, e, hf, hm 0 a e], hf, _, h2, fun n a => hm (n + 1) a, rfl⟩

theorem Beh.rmap {s : ι} {h : Nat → Option α} (g : α → β) (hs : Beh s h) :
    Beh (rmap s g) (fun n => (h n).map g) := hs.mapM (fun _ _ _ => rfl)

theorem Yields.rmap {s : ι} {l : List α} (g : α → β) (hs : Yields s l) : Yields (rmap s g) (l.map g) :=
  (Beh.rmap g hs).congr (by simp)

theorem Gives.rmap {s : ι} {h : Nat → α} (g : α → β) (hs : Gives s h) : Gives (rmap s g) (fun n => g (h n)) :=
  (Beh.rmap g hs).congr (by simp)

theorem Yields.mapM {s : ι} {l : List α} {m : α → RM β} {g : α → β} (hs : Yields s l)
    (hm : ∀ a ∈ l, m a = pure (g a)) : Yields (Map.mk s m) (l.map g) :=
  (Beh.mapM hs (fun _ _ h => hm _ (List.mem_of_getElem? h))).congr (by simp)

theorem Beh.enumFrom {s : ι} {h : Nat → Option α} (hs : Beh s h) (hf : Fused h) (c : Nat) :
    Beh (Enumerate.mk s c) (fun n => (h n).map (fun a => (c + n, a))) := by
  refine Beh.coind (R := fun (s : Enumerate ι) f => ∃ h, Beh s.src h ∧ Fused h ∧
    f = fun n => (h n).map (fun a => (s.count + n, a))) ?_ ⟨h, hs, hf, rfl⟩
  rintro s f ⟨h, hs, hf, rfl⟩
  obtain ⟨s', h1, h2⟩ := hs.step
  cases e : h 0 with
  | none =>
    rw [e] at h1
    refine ⟨{ s with src := s' }, by simp [next, h1, e], _, h2, hf.shift, ?_⟩
    funext n; simp [hf.all_none e]
  | some a =>
    rw [e] at h1
    refine ⟨⟨s', s.count + 1⟩, by simp [next, h1, e], _, h2, hf.shift, ?_⟩
    funext n; simp [Nat.add_assoc, Nat.add_comm 1 n]

theorem Beh.renumerate {s : ι} {h : Nat → Option α} (hs : Beh s h) (hf : Fused h) :
    Beh (renumerate s) (fun n => (h n).map (fun a => (n, a))) :=
  (hs.enumFrom hf 0).congr (by simp)

theorem Yields.renumerate {s : ι} {l : List α} (hs : Yields s l) :
    Yields (renumerate s) (l.mapIdx (fun i a => (i, a))) :=
  (Beh.renumerate hs (Yields.fused l)).congr (by simp)

theorem Gives.renumerate {s : ι} {g : Nat → α} (hs : Gives s g) :
    Gives (Verif.renumerate s) (fun n => (n, g n)) :=
  (Beh.renumerate hs (Gives.fused g)).congr (by simp)

theorem Beh.rtake {s : ι} {h : Nat → Option α} (hs : Beh s h) (n : Nat) :
    Beh (rtake s n) (fun i => if i < n then h i else none) := by
  refine Beh.coind (R := fun (s : TakeN ι) f => (s.n = 0 ∧ f = fun _ => none) ∨ ∃ h, Beh s.src h ∧
    f = fun i => if i < s.n then h i else none) ?_ (.inr ⟨h, hs, rfl⟩)
  rintro ⟨s, n⟩ f hR
  have hz : f = (fun _ => none) → n = 0 → ∃ s', next (TakeN.mk s n) = pure (f 0, s') ∧
      ((s'.n = 0 ∧ (fun n => f (n + 1)) = fun _ => none) ∨ ∃ h, Beh s'.src h ∧
        (fun n => f (n + 1)) = fun i => if i < s'.n then h i else none) := by
    rintro rfl rfl
    exact ⟨⟨s, 0⟩, rfl, .inl ⟨rfl, rfl⟩⟩
  rcases hR with ⟨h0, rfl⟩ | ⟨h, hs, rfl⟩
  · exact hz rfl h0
  · cases n with
    | zero => exact hz (by simp) rfl
    | succ n =>
      obtain ⟨s', h1, h2⟩ := hs.step
      exact ⟨⟨s', n⟩, by simp [next] at h1 ⊢; simp [h1], .inr ⟨_, h2, by simp⟩⟩

theorem Gives.rtake {s : ι} {g : Nat → α} (hs : Gives s g) (n : Nat) :
    Yields (Verif.rtake s n) ((List.range n).map g) :=
  (Beh.rtake hs n).congr (by intro i; by_cases h : i < n <;> simp [h])

theorem Yields.rtake {s : ι} {l : List α} (hs : Yields s l) (n : Nat) :
    Yields (Verif.rtake s n) (l.take n) :=
  (Beh.rtake hs n).congr (by intro i; simp [List.getElem?_take])

theorem nthPull_beh {s : ι} {h : Nat → Option α} (hs : Beh s h) (hf : Fused h) (n : Nat) :
    ∃ s', nthPull n s = pure (h n, s') ∧ Beh s' (fun i => h (n + 1 + i)) := by
  induction n generalizing s h with
  | zero =>
    obtain ⟨s', h1, h2⟩ := hs.step
    exact ⟨s', h1, h2.congr (by intro i; simp [Nat.add_comm])⟩
  | succ n ih =>
    obtain ⟨s', h1, h2⟩ := hs.step
    cases e : h 0 with
    | none =>
      rw [e] at h1
      refine ⟨s', by simp [nthPull, h1, hf.all_none e], h2.congr (by simp [hf.all_none e])⟩
    | some a =>
      rw [e] at h1
      obtain ⟨s'', h3, h4⟩ := ih h2 hf.shift
      refine ⟨s'', by simp [nthPull, h1, h3], h4.congr (by intro i; congr 1; omega)⟩

theorem Beh.skip0 {s : ι} {h : Nat → Option α} (hs : Beh s h) : Beh (Skip.mk s 0) h := by
  refine Beh.coind (R := fun (s : Skip ι) f => s.n = 0 ∧ Beh s.src f) ?_ ⟨rfl, hs⟩
  rintro ⟨s, n⟩ f ⟨h0, hs⟩
  simp only at h0 hs; subst h0
  obtain ⟨s', h1, h2⟩ := hs.step
  exact ⟨⟨s', 0⟩, by simp [next, nthPull] at h1 ⊢; simp [h1], rfl, h2⟩

theorem Beh.rskip {s : ι} {h : Nat → Option α} (hs : Beh s h) (hf : Fused h) (n : Nat) :
    Beh (rskip s n) (fun i => h (n + i)) := by
  obtain ⟨s', h1, h2⟩ := nthPull_beh hs hf n
  refine Beh.cons (s' := ⟨s', 0⟩) ?_ ?_
  · simp [next, Verif.rskip, h1]
  · exact h2.skip0.congr (by intro i; congr 1; omega)

theorem Yields.rskip {s : ι} {l : List α} (hs : Yields s l) (n : Nat) : Yields (Verif.rskip s n) (l.drop n) :=
  (Beh.rskip hs (Yields.fused l) n).congr (by simp)

theorem Gives.rskip {s : ι} {g : Nat → α} (hs : Gives s g) (n : Nat) :
    Gives (Verif.rskip s n) (fun i => g (n + i)) :=
  Beh.rskip hs (Gives.fused g) n

/-- Behaviour of `zip` on fused sources. -/
def zipF (f : Nat → Option α) (g : Nat → Option β) (n : Nat) : Option (α × β) :=
  match f n, g n with
  | some a, some b => some (a, b)
  | _, _ => none

theorem Beh.rzip [RIter κ β] {a : ι} {b : κ} {f : Nat → Option α} {g : Nat → Option β} (ha : Beh a f)
    (hb : Beh b g) (hf : Fused f) (hg : Fused g) : Beh (rzip a b) (zipF f g) := by
  refine Beh.coind (R := fun (s : Zip ι κ) h => ∃ f g, Beh s.a f ∧ Beh s.b g ∧ Fused f ∧ Fused g ∧
    (h = zipF f g ∨ (f 0 = none ∨ g 0 = none) ∧ h = fun _ => none)) ?_ ⟨f, g, ha, hb, hf, hg, .inl rfl⟩
  rintro ⟨a, b⟩ h ⟨f, g, ha, hb, hf, hg, hh⟩
  have hnone : (f 0 = none ∨ g 0 = none) → h = fun _ => none := by
    intro h0
    rcases hh with rfl | ⟨_, rfl⟩
    · funext n
      rcases h0 with h0 | h0
      · simp [zipF, hf.all_none h0 n]
      · simp only [zipF, hg.all_none h0 n]; split <;> simp_all
    · rfl
  obtain ⟨a', h1, h2⟩ := ha.step
  obtain ⟨b', h3, h4⟩ := hb.step
  cases e : f 0 with
  | none =>
    rw [hnone (.inl e)]
    rw [e] at h1
    refine ⟨⟨a', b⟩, by simp [next] at h1 ⊢; simp [h1], _, g, h2, hb, hf.shift, hg, .inr ⟨.inl (hf 0 e), rfl⟩⟩
  | some x =>
    rw [e] at h1
    cases e' : g 0 with
    | none =>
      rw [hnone (.inr e')]
      rw [e'] at h3
      refine ⟨⟨a', b'⟩, by simp [next] at h1 h3 ⊢; simp [h1, h3], _, _, h2, h4, hf.shift, hg.shift,
        .inr ⟨.inr (hg 0 e'), rfl⟩⟩
    | some y =>
      rw [e'] at h3
      rcases hh with rfl | ⟨h0, rfl⟩
      · refine ⟨⟨a', b'⟩, by simp [next, zipF, e, e'] at h1 h3 ⊢; simp [h1, h3], _, _, h2, h4, hf.shift, hg.shift,
          .inl rfl⟩
      · simp [e, e'] at h0

theorem Yields.rzip_gives [RIter κ β] {a : ι} {b : κ} {l : List α} {g : Nat → β} (ha : Yields a l)
    (hb : Gives b g) : Yields (Verif.rzip a b) (l.mapIdx (fun i x => (x, g i))) :=
  (Beh.rzip ha hb (Yields.fused l) (Gives.fused g)).congr (by
    intro n; simp only [zipF, List.getElem?_mapIdx]; cases l[n]? <;> simp)

theorem Gives.rzip [RIter κ β] {a : ι} {b : κ} {f : Nat → α} {g : Nat → β} (ha : Gives a f)
    (hb : Gives b g) : Gives (Verif.rzip a b) (fun n => (f n, g n)) :=
  (Beh.rzip ha hb (Gives.fused f) (Gives.fused g)).congr (by intro n; simp [zipF])

theorem Yields.rzip [RIter κ β] {a : ι} {b : κ} {l : List α} {m : List β} (ha : Yields a l)
    (hb : Yields b m) : Yields (Verif.rzip a b) (l.zip m) :=
  (Beh.rzip ha hb (Yields.fused l) (Yields.fused m)).congr (by
    intro n; simp only [zipF, List.zip, List.getElem?_zipWith]; cases l[n]? <;> cases m[n]? <;> rfl)

theorem Yields.rzip_done [RIter κ β] {a : ι} {b : κ} {l : List α} (ha : Yields a l)
    (hb : Done (α := β) b) : Done (α := α × β) (Verif.rzip a b) := by
  have := ha.rzip (Yields.nil hb)
  simp at this
  exact yields_nil.mp this

/-- Cycling a non-empty finite source. -/
theorem Yields.rcycle {s : ι} {l : List α} (hs : Yields s l) (hl : 0 < l.length) :
    Gives (rcycle s) (fun n => l[n % l.length]'(Nat.mod_lt _ hl)) := by
  refine Beh.coind (R := fun (c : Cycle ι) f => c.orig = s ∧ ∃ k, k ≤ l.length ∧ Yields c.iter (l.drop k) ∧
    f = fun n => some (l[(k + n) % l.length]'(Nat.mod_lt _ hl))) ?_ ⟨rfl, 0, by omega, by simpa [Verif.rcycle] using hs, by simp⟩
  rintro ⟨o, it⟩ f ⟨h0, k, hk, hit, rfl⟩
  simp only at h0 hit; subst h0
  by_cases h : k < l.length
  · rw [List.drop_eq_getElem_cons h] at hit
    obtain ⟨s', h1, h2⟩ := hit.uncons
    refine ⟨⟨o, s'⟩, ?_, rfl, k + 1, by omega, h2, ?_⟩
    · simp [next] at h1 ⊢; simp [h1, Nat.mod_eq_of_lt h]
    · funext n; simp [Nat.add_assoc, Nat.add_comm 1 n]
  · obtain rfl : k = l.length := by omega
    rw [List.drop_length] at hit
    obtain ⟨s', h1, _⟩ := hit.unnil
    have hs' := hs
    rw [show l = l.drop 0 from rfl, List.drop_eq_getElem_cons hl] at hs'
    obtain ⟨s'', h3, h4⟩ := hs'.uncons
    refine ⟨⟨o, s''⟩, ?_, rfl, 1, by omega, h4, ?_⟩
    · simp [next] at h1 h3 ⊢; simp [h1, h3]
    · funext n; simp [Nat.add_comm 1 n]

theorem Done.rcycle {s : ι} (hs : Done (α := α) s) : Done (α := α) (rcycle s) := by
  refine Done.coind (R := fun (c : Cycle ι) => Done (α := α) c.orig ∧ Done (α := α) c.iter) ?_ ⟨hs, hs⟩
  rintro ⟨o, it⟩ ⟨h0, h1⟩
  obtain ⟨s', h2, h3⟩ := Done.step h1
  obtain ⟨s'', h4, h5⟩ := Done.step h0
  exact ⟨⟨o, s''⟩, by simp [next] at h2 h4 ⊢; simp [h2, h4], h0, h5⟩

end
end Verif
