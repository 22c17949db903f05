import Verif.Lemmas.Std2
import Verif.Model.Iter

/-! Behaviour of the crate's own adapters on finite sources. -/
namespace Verif
open Spec
variable {ι T : Type}

/-! ### blocks -/
theorem blocks_nil (k : Nat) : blocks k ([] : List T) = [] := by unfold blocks; simp
theorem blocks_zero (l : List T) : blocks 0 l = [] := by unfold blocks; simp
theorem blocks_cons {k : Nat} {l : List T} (hk : 0 < k) (hl : l ≠ []) :
    blocks k l = l.take k :: blocks k (l.drop k) := by
  conv => lhs; unfold blocks
  rw [dif_neg]
  rintro (h | h)
  · omega
  · exact hl h

theorem fullBlocks_lt {k : Nat} {l : List T} (h : l.length < k) : fullBlocks k l = [] := by
  simp [fullBlocks, Nat.div_eq_of_lt h]
theorem fullBlocks_zero (l : List T) : fullBlocks 0 l = [] := by
  simp [fullBlocks]
theorem fullBlocks_cons {k : Nat} {l : List T} (hk : 0 < k) (h : k ≤ l.length) :
    fullBlocks k l = l.take k :: fullBlocks k (l.drop k) := by
  have : l.length / k = (l.length - k) / k + 1 := by
    rw [← Nat.add_div_right _ hk]; congr 1; omega
  simp only [fullBlocks, this, List.range_succ_eq_map, List.map_cons, List.length_drop]
  simp only [Nat.zero_mul, List.drop_zero, List.map_map, List.cons.injEq, true_and]
  apply List.map_congr_left
  intro i _
  simp only [Function.comp, List.drop_drop, Nat.succ_mul, Nat.add_comm]

/-! ### Chunks -/
section
variable [RIter ι T]

theorem pullUpTo_yields {s : ι} {l : List T} (h : Yields s l) (k : Nat) :
    ∃ s', pullUpTo k s = pure (l.take k, s') ∧ Yields s' (l.drop k) := by
  induction k generalizing s l with
  | zero => exact ⟨s, by simp [pullUpTo], by simpa using h⟩
  | succ k ih =>
    cases l with
    | nil =>
      obtain ⟨s', h1, h2⟩ := h.unnil
      exact ⟨s', by simp [pullUpTo, h1], by simpa using h2⟩
    | cons a l =>
      obtain ⟨s', h1, h2⟩ := h.uncons
      obtain ⟨s'', h3, h4⟩ := ih h2
      exact ⟨s'', by simp [pullUpTo, h1, h3], by simpa using h4⟩

theorem Yields.chunks {s : ι} {l : List T} (h : Yields s l) (k : Nat) : Yields (chunks s k) (blocks k l) := by
  fun_induction blocks k l generalizing s with
  | case1 l hc =>
    refine .nil (Done.coind (R := fun (c : Chunks ι) => c.num_chunks = k ∧ (k = 0 ∨ Yields c.source ([] : List T))) ?_
      ⟨rfl, hc.imp id (fun e => by subst e; exact h)⟩)
    rintro ⟨c, n⟩ ⟨h0, h1⟩
    simp only at h0 h1; subst h0
    rcases h1 with rfl | h1
    · exact ⟨⟨c, 0⟩, by simp [next, pullUpTo], rfl, .inl rfl⟩
    · obtain ⟨s', h2, h3⟩ := pullUpTo_yields h1 n
      exact ⟨⟨s', n⟩, by simp [next, h2], rfl, .inr (by simpa using h3)⟩
  | case2 l hc ih =>
    obtain ⟨s', h2, h3⟩ := pullUpTo_yields h k
    refine .cons (s' := ⟨s', k⟩) ?_ (ih h3)
    simp only [not_or] at hc
    simpa [next, Verif.chunks, h2] using hc

theorem pullUpTo_gives {s : ι} {g : Nat → T} (h : Gives s g) (k : Nat) :
    ∃ s', pullUpTo k s = pure ((List.range k).map g, s') ∧ Gives s' (fun n => g (n + k)) := by
  induction k generalizing s g with
  | zero => exact ⟨s, by simp [pullUpTo], by simpa using h⟩
  | succ k ih =>
    obtain ⟨s', h1, h2⟩ := h.step
    obtain ⟨s'', h3, h4⟩ := ih h2
    refine ⟨s'', ?_, ?_⟩
    · simp [pullUpTo, h1, h3, List.range_succ_eq_map, Function.comp_def]
    · have e : (fun n => g (n + (k + 1))) = fun n => g (n + k + 1) := rfl
      rw [e]; exact h4

theorem Gives.chunks {s : ι} {g : Nat → T} (h : Gives s g) {k : Nat} (hk : 0 < k) :
    Gives (chunks s k) (fun n => (List.range k).map (fun j => g (n * k + j))) := by
  refine Beh.coind (R := fun (c : Chunks ι) f => c.num_chunks = k ∧ ∃ g : Nat → T, Gives c.source g ∧
    f = fun n => some ((List.range k).map (fun j => g (n * k + j)))) ?_ ⟨rfl, g, h, rfl⟩
  rintro ⟨c, n⟩ f ⟨h0, g, hg, rfl⟩
  simp only at h0 hg; subst h0
  obtain ⟨s', h1, h2⟩ := pullUpTo_gives hg n
  refine ⟨⟨s', n⟩, ?_, rfl, _, h2, ?_⟩
  · simp [next, h1]; omega
  · funext i
    refine congrArg some (List.map_congr_left fun j _ => congrArg g ?_)
    rw [Nat.add_mul]; omega

/-! ### WholeChunks -/

theorem pullPadded_yields [RDefault T] {s : ι} {l : List T} (h : Yields s l) (k : Nat) (d : Bool) :
    ∃ s', pullPadded k s d = pure (l.take k ++ List.replicate (k - l.length) dflt, s', d || decide (l.length < k))
      ∧ Yields s' (l.drop k) := by
  induction k generalizing s l d with
  | zero => exact ⟨s, by simp [pullPadded], by simpa using h⟩
  | succ k ih =>
    cases l with
    | nil =>
      obtain ⟨s', h1, h2⟩ := h.unnil
      obtain ⟨s'', h3, h4⟩ := ih h2 true
      exact ⟨s'', by simp [pullPadded, h1, h3, List.replicate_succ], by simpa using h4⟩
    | cons a l =>
      obtain ⟨s', h1, h2⟩ := h.uncons
      obtain ⟨s'', h3, h4⟩ := ih h2 d
      exact ⟨s'', by simp [pullPadded, h1, h3], by simpa using h4⟩

theorem wchunks_done [RDefault T] (s : ι) (k : Nat) : Done (α := List T) (WholeChunks.mk s k true) :=
  Done.coind (R := fun (c : WholeChunks ι) => c.done = true)
    (fun c h => ⟨c, by cases c; simp_all [next], h⟩) rfl

theorem wchunks_zero [RDefault T] (s : ι) : Yields (wchunks s 0) ([] : List (List T)) :=
  .nil (Done.coind (R := fun (c : WholeChunks ι) => c.num_chunks = 0 ∧ c.done = false)
    (fun c h => ⟨c, by obtain ⟨c, n, d⟩ := c; obtain ⟨rfl, rfl⟩ := h; simp [next, pullPadded], h⟩) ⟨rfl, rfl⟩)

/-- What `wchunks` does: a final chunk containing at least one default is always emitted. -/
theorem Yields.wchunks [RDefault T] {s : ι} {l : List T} (h : Yields s l) {k : Nat} (hk : 0 < k) :
    Yields (wchunks s k) (blocks k (l ++ List.replicate (k - l.length % k) dflt)) := by
  induction hn : l.length using Nat.strongRecOn generalizing s l with
  | _ n ih =>
    subst hn
    have hmod : l.length % k < k := Nat.mod_lt _ hk
    obtain ⟨s', h2, h3⟩ := pullPadded_yields h k false
    by_cases hl : l.length < k
    · have e : l ++ List.replicate (k - l.length % k) dflt ≠ [] := by
        intro e; have := congrArg List.length e; simp at this; omega
      rw [blocks_cons hk e]
      have hlen : (l ++ List.replicate (k - l.length % k) (dflt : T)).length = k := by
        rw [Nat.mod_eq_of_lt hl]; simp; omega
      rw [List.take_of_length_le (by omega), List.drop_eq_nil_of_le (by omega), blocks_nil]
      refine .cons (s' := ⟨s', k, true⟩) ?_ (.nil (wchunks_done _ _))
      rw [Nat.mod_eq_of_lt hl] at e ⊢
      rw [List.take_of_length_le (by omega)] at h2
      simp only [next, Verif.wchunks, h2]
      simp [hl]
      omega
    · have e : l ++ List.replicate (k - l.length % k) dflt ≠ [] := by
        intro e; have := congrArg List.length e; simp at this; omega
      rw [blocks_cons hk e, List.take_append_of_le_length (by omega), List.drop_append_of_le_length (by omega)]
      refine .cons (s' := ⟨s', k, false⟩) ?_ ?_
      · have hz : k - l.length = 0 := by omega
        simp [next, Verif.wchunks, h2, hl, hz]
        exact ⟨by omega, by rintro rfl; simp at hl; omega⟩
      · have := ih (l.drop k).length (by simp; omega) h3 rfl
        have hm : (l.drop k).length % k = l.length % k := by
          rw [List.length_drop, Nat.mod_eq_sub_mod (by omega : k ≤ l.length)]
        rwa [hm] at this

/-! ### Inflate -/

theorem inflate_state {s : ι} {l : List T} (h : Yields s l) {c : Nat} (hc : 0 < c) :
    ∀ (o : Option T) (j : Nat), (o.isSome → 1 ≤ j ∧ j ≤ c) →
    Yields (Inflate.mk s c j o) ((match o with | some a => List.replicate (c - j) a | none => []) ++
      l.flatMap (List.replicate c)) := by
  induction l generalizing s with
  | nil =>
    have hd : ∀ (o : Option T) j, (o = none ∨ j = c) → Done (α := T) (Inflate.mk s c j o) := by
      intro o j ho
      refine Done.coind (R := fun (i : Inflate ι T) => i.copies = c ∧ Done (α := T) i.source ∧
        (i.curr = none ∨ i.curr_copy = c)) ?_ ⟨rfl, yields_nil.mp h, ho⟩
      rintro ⟨s, n, j, o⟩ ⟨h0, h1, h2⟩
      simp only at h0 h1 h2; subst h0
      obtain ⟨s', h3, h4⟩ := Done.step h1
      refine ⟨⟨s', n, 1, none⟩, ?_, rfl, h4, .inl rfl⟩
      have : (o.isNone || j == n) = true := by rcases h2 with rfl | rfl <;> simp
      simp [next, this] at h3 ⊢; simp [h3]
    intro o j ho
    cases o with
    | none => exact .nil (hd _ _ (.inl rfl))
    | some a =>
      have ho := ho rfl
      simp only [List.flatMap_nil, List.append_nil]
      induction hm : c - j generalizing j with
      | zero => exact .nil (hd _ _ (.inr (by omega)))
      | succ m ih =>
        refine .cons (s' := ⟨s, c, j + 1, some a⟩) ?_ (ih (j + 1) (fun _ => by omega) (by omega) (by omega))
        have : (j == c) = false := by simp; omega
        simp [next, this]
  | cons x l ih =>
    obtain ⟨s', h1, h2⟩ := h.uncons
    have hpull : ∀ (o : Option T) j, (o = none ∨ j = c) → Yields (Inflate.mk s c j o) ((x :: l).flatMap (List.replicate c)) := by
      intro o j ho
      have hx := ih h2 (some x) 1 (fun _ => ⟨Nat.le_refl _, hc⟩)
      obtain ⟨m, rfl⟩ : ∃ m, c = m + 1 := ⟨c - 1, by omega⟩
      rw [List.flatMap_cons, List.replicate_succ, List.cons_append]
      refine .cons (s' := ⟨s', m + 1, 1, some x⟩) ?_ (by simpa using hx)
      have : (o.isNone || j == m + 1) = true := by rcases ho with rfl | rfl <;> simp
      simp [next, this] at h1 ⊢; simp [h1]
    intro o j ho
    cases o with
    | none => exact hpull _ _ (.inl rfl)
    | some a =>
      have ho := ho rfl
      simp only
      induction hm : c - j generalizing j with
      | zero => exact hpull _ _ (.inr (by omega))
      | succ m ihm =>
        refine .cons (s' := ⟨s, c, j + 1, some a⟩) ?_ (ihm (j + 1) (fun _ => by omega) (by omega) (by omega))
        have : (j == c) = false := by simp; omega
        simp [next, this]

theorem Yields.inflate {s : ι} {l : List T} (h : Yields s l) {c : Nat} (hc : 0 < c) :
    Yields (inflate s c) (l.flatMap (List.replicate c)) :=
  inflate_state h hc none 0 (by simp)

/-- `inflate(0)` never gets past the first item. -/
theorem inflate_zero_gives {s : ι} {a : T} {l : List T} (h : Yields s (a :: l)) :
    Gives (inflate s 0) (fun _ => a) := by
  obtain ⟨s', h1, _⟩ := h.uncons
  refine Beh.cons (s' := ⟨s', 0, 1, some a⟩) ?_ ?_
  · simp [next, Verif.inflate] at h1 ⊢; simp [h1]
  · refine Beh.coind (R := fun (i : Inflate ι T) f => i.copies = 0 ∧ 0 < i.curr_copy ∧ i.curr = some a ∧
      f = fun _ => some a) ?_ ⟨rfl, Nat.one_pos, rfl, rfl⟩
    rintro ⟨s, n, j, o⟩ f ⟨h0, h1, h2, rfl⟩
    simp only at h0 h1 h2; subst h0 h2
    refine ⟨⟨s, 0, j + 1, some a⟩, ?_, rfl, Nat.succ_pos _, rfl, rfl⟩
    have : (j == 0) = false := by simp; omega
    simp [next, this]

/-! ### Integrate -/

/-- Running sums starting from `acc`. -/
def runSums [Add T] (acc : T) : List T → List T
  | [] => []
  | x :: l => (acc + x) :: runSums (acc + x) l

theorem runSums_length [Add T] (acc : T) (l : List T) : (runSums acc l).length = l.length := by
  induction l generalizing acc with
  | nil => rfl
  | cons x l ih => simp [runSums, ih]

theorem runSums_getElem? [Add T] (acc : T) (l : List T) (i : Nat) :
    (runSums acc l)[i]? = if i < l.length then some ((l.take (i + 1)).foldl (· + ·) acc) else none := by
  induction l generalizing acc i with
  | nil => simp [runSums]
  | cons x l ih =>
    cases i with
    | zero => simp [runSums]
    | succ i => simp [runSums, ih]

theorem Yields.integrateFrom [Add T] {s : ι} {l : List T} (h : Yields s l) (acc : T) :
    Yields (Integrate.mk s acc) (runSums acc l) := by
  induction l generalizing s acc with
  | nil =>
    refine .nil (Done.coind (R := fun (i : Integrate ι T) => Done (α := T) i.source) ?_ (yields_nil.mp h))
    intro i hi
    obtain ⟨s', h1, h2⟩ := Done.step hi
    exact ⟨{ i with source := s' }, by simp [next] at h1 ⊢; simp [h1], h2⟩
  | cons x l ih =>
    obtain ⟨s', h1, h2⟩ := h.uncons
    exact .cons (s' := ⟨s', acc + x⟩) (by simp [next] at h1 ⊢; simp [h1]) (ih h2 _)

theorem Yields.integrate [Add T] [Zero T] {s : ι} {l : List T} (h : Yields s l) :
    Yields (integrate s) (runSums 0 l) := h.integrateFrom 0

/-! ### IntegrateDump -/

theorem dumpLoop_ge [Add T] {s : ι} {l : List T} (h : Yields s l) {k : Nat} (hk : k ≤ l.length) (acc : T) :
    ∃ s', dumpLoop k acc s = pure (some ((l.take k).foldl (· + ·) acc), s') ∧ Yields s' (l.drop k) := by
  induction k generalizing s l acc with
  | zero => exact ⟨s, by simp [dumpLoop], by simpa using h⟩
  | succ k ih =>
    cases l with
    | nil => simp at hk
    | cons a l =>
      obtain ⟨s', h1, h2⟩ := h.uncons
      obtain ⟨s'', h3, h4⟩ := ih h2 (by simpa using hk) (acc + a)
      exact ⟨s'', by simp [dumpLoop, h1, h3], by simpa using h4⟩

theorem dumpLoop_lt [Add T] {s : ι} {l : List T} (h : Yields s l) {k : Nat} (hk : l.length < k) (acc : T) :
    ∃ s', dumpLoop k acc s = pure (none, s') ∧ Yields s' ([] : List T) := by
  induction k generalizing s l acc with
  | zero => omega
  | succ k ih =>
    cases l with
    | nil =>
      obtain ⟨s', h1, h2⟩ := h.unnil
      exact ⟨s', by simp [dumpLoop, h1], h2⟩
    | cons a l =>
      obtain ⟨s', h1, h2⟩ := h.uncons
      obtain ⟨s'', h3, h4⟩ := ih h2 (by simpa using hk) (acc + a)
      exact ⟨s'', by simp [dumpLoop, h1, h3], h4⟩

theorem Yields.integrateAndDump [Add T] [Zero T] {s : ι} {l : List T} (h : Yields s l) {d : Nat} (hd : 0 < d) :
    Yields (integrateAndDump s d) ((fullBlocks d l).map rsum) := by
  induction hn : l.length using Nat.strongRecOn generalizing s l with
  | _ n ih =>
    subst hn
    by_cases hl : l.length < d
    · rw [fullBlocks_lt hl]
      refine .nil ?_
      obtain ⟨s', h1, h2⟩ := dumpLoop_lt h hl 0
      refine Done.cons (s' := ⟨s', d⟩) (by simp [next, Verif.integrateAndDump, h1]) ?_
      refine Done.coind (R := fun (i : IntegrateDump ι) => i.dump_every = d ∧ Yields i.source ([] : List T)) ?_
        ⟨rfl, h2⟩
      rintro ⟨s, k⟩ ⟨h0, h4⟩
      simp only at h0 h4; subst h0
      obtain ⟨s', h5, h6⟩ := dumpLoop_lt h4 (by simpa using hd) 0
      exact ⟨⟨s', k⟩, by simp [next, h5], rfl, h6⟩
    · rw [fullBlocks_cons hd (by omega), List.map_cons]
      obtain ⟨s', h1, h2⟩ := dumpLoop_ge h (k := d) (by omega) 0
      refine .cons (s' := ⟨s', d⟩) (by simp [next, Verif.integrateAndDump, h1, rsum]) ?_
      exact ih (l.drop d).length (by simp; omega) h2 rfl

theorem integrateAndDump_zero_gives [Add T] [Zero T] (s : ι) :
    Gives (integrateAndDump s 0) (fun _ => (0 : T)) :=
  Beh.coind (R := fun (i : IntegrateDump ι) f => i.dump_every = 0 ∧ f = fun _ => some (0 : T))
    (fun i f ⟨h0, hf⟩ => ⟨i, by obtain ⟨s, d⟩ := i; simp only at h0; subst h0 hf; simp [next, dumpLoop], h0, by
      rw [hf]⟩) ⟨rfl, rfl⟩

/-! ### Scale -/

theorem Yields.scale {S : Type} [HMul T S T] {s : ι} {l : List T} (h : Yields s l) (k : S) :
    Yields (scale s k) (l.map (· * k)) := by
  induction l generalizing s with
  | nil =>
    refine .nil (Done.coind (R := fun (i : Scale ι S) => Done (α := T) i.source) ?_ (yields_nil.mp h))
    intro i hi
    obtain ⟨s', h1, h2⟩ := Done.step hi
    exact ⟨{ i with source := s' }, by simp [next] at h1 ⊢; simp [h1], h2⟩
  | cons x l ih =>
    obtain ⟨s', h1, h2⟩ := h.uncons
    exact .cons (s' := ⟨s', k⟩) (by simp [next, Verif.scale] at h1 ⊢; simp [h1]) (ih h2)

/-! ### Take -/

theorem takeEvery_loop {s : ι} {h : Nat → Option T} (hs : Beh s h) {f c m : Nat} (hf : 0 < f)
    (hm : (c + m) % f = 0) (hlt : ∀ i, i < m → (c + i) % f ≠ 0) :
    ∃ s', (TakeEvery.mk s f c).nextLoop = pure (h m, ⟨s', f, c + m + 1⟩) ∧ Beh s' (fun i => h (m + 1 + i)) := by
  induction m generalizing s h c with
  | zero =>
    obtain ⟨s', h1, h2⟩ := hs.step
    refine ⟨s', ?_, h2.congr (by intro i; congr 1; omega)⟩
    unfold TakeEvery.nextLoop
    simp only [umod_pos hf, pure_bind]
    rw [if_pos (by simpa using hm)]
    simp [h1]
  | succ m ih =>
    obtain ⟨s', h1, h2⟩ := hs.step
    obtain ⟨s'', h3, h4⟩ := ih (c := c + 1) h2 (by rw [← hm]; congr 1; omega)
      (fun i hi => by have := hlt (i + 1) (by omega); rwa [show c + 1 + i = c + (i + 1) by omega])
    refine ⟨s'', ?_, h4.congr (by intro i; congr 1; omega)⟩
    unfold TakeEvery.nextLoop
    simp only [umod_pos hf, pure_bind]
    rw [if_neg (by simpa using hlt 0 (by omega))]
    simp [h1, h3]; omega

theorem Beh.takeEvery {s : ι} {h : Nat → Option T} (hs : Beh s h) {f : Nat} (hf : 0 < f) :
    Beh (takeEvery s f) (fun n => h (n * f)) := by
  obtain ⟨s', h1, h2⟩ := takeEvery_loop (c := 0) (m := 0) hs hf (by simp) (by simp)
  refine Beh.cons (s' := ⟨s', f, 1⟩) (by simpa [next, Verif.takeEvery] using h1) ?_
  refine Beh.coind (R := fun (t : TakeEvery ι) g => ∃ k h', t.frequency = f ∧ t.curr = k * f + 1 ∧ Beh t.source h' ∧
    g = fun n => h' (f - 1 + n * f)) ?_ ⟨0, _, rfl, by simp, h2, ?_⟩
  · rintro ⟨s, f', c⟩ g ⟨k, h', h0, h1, h2, rfl⟩
    simp only at h0 h1 h2; subst h0 h1
    obtain ⟨s', h3, h4⟩ := takeEvery_loop (c := k * f' + 1) (m := f' - 1) h2 hf
      (by rw [show k * f' + 1 + (f' - 1) = k * f' + f' by omega]; simp)
      (fun i hi => by
        rw [Nat.add_assoc, Nat.mul_comm, Nat.mul_add_mod]
        have := Nat.mod_eq_of_lt (show 1 + i < f' by omega)
        omega)
    refine ⟨_, by simpa [next] using h3, k + 1, _, rfl, ?_, h4, ?_⟩
    · simp only [Nat.succ_mul]; omega
    · funext n; show h' _ = h' _; congr 1; rw [Nat.add_mul]; omega
  · funext n; show h _ = h _; congr 1; rw [Nat.add_mul]; omega

end
end Verif
