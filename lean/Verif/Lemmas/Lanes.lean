import Verif.Lemmas.Adapters

/-! N-lane adapters and convolution on finite sources. -/
namespace Verif
open Spec
variable {ι T : Type} {N : Nat}

/-- Lane-wise sum of a list of rows. -/
def rsumV [Add T] (acc : Vector T N) (l : List (Vector T N)) : Vector T N :=
  l.foldl (fun a b => Vector.zipWith (· + ·) a b) acc

theorem rsumV_lane [Add T] (acc : Vector T N) (l : List (Vector T N)) (j : Nat) (hj : j < N) :
    (rsumV acc l)[j] = (l.map (·[j])).foldl (· + ·) acc[j] := by
  induction l generalizing acc with
  | nil => rfl
  | cons x l ih =>
    have := ih (Vector.zipWith (· + ·) acc x)
    simpa [rsumV] using this

/-- Running lane-wise sums. -/
def runSumsV [Add T] (acc : Vector T N) : List (Vector T N) → List (Vector T N)
  | [] => []
  | x :: l => Vector.zipWith (· + ·) acc x :: runSumsV (Vector.zipWith (· + ·) acc x) l

theorem runSumsV_lane [Add T] (acc : Vector T N) (l : List (Vector T N)) (j : Nat) (hj : j < N) :
    (runSumsV acc l).map (·[j]) = runSums acc[j] (l.map (·[j])) := by
  induction l generalizing acc with
  | nil => rfl
  | cons x l ih => simp [runSumsV, runSums, ih]

section
variable [RIter ι (Vector T N)]

theorem Yields.nintegrateFrom [Add T] {s : ι} {l : List (Vector T N)} (h : Yields s l) (acc : Vector T N) :
    Yields (Nintegrate.mk s acc) (runSumsV acc l) := by
  induction l generalizing s acc with
  | nil =>
    refine .nil (Done.coind (R := fun (i : Nintegrate ι T N) => Done (α := Vector T N) i.source) ?_ (yields_nil.mp h))
    intro i hi
    obtain ⟨s', h1, h2⟩ := Done.step hi
    exact ⟨{ i with source := s' }, by simp [next] at h1 ⊢; simp [h1], h2⟩
  | cons x l ih =>
    obtain ⟨s', h1, h2⟩ := h.uncons
    exact .cons (s' := ⟨s', Vector.zipWith (· + ·) acc x⟩) (by simp [next] at h1 ⊢; simp [h1]) (ih h2 _)

theorem Yields.nintegrate [Add T] [Zero T] {s : ι} {l : List (Vector T N)} (h : Yields s l) :
    Yields (nintegrate s) (runSumsV (Vector.replicate N (0 : T)) l) := h.nintegrateFrom _

theorem ndumpLoop_ge [Add T] {s : ι} {l : List (Vector T N)} (h : Yields s l) {k : Nat} (hk : k ≤ l.length)
    (acc : Vector T N) :
    ∃ s', ndumpLoop k acc s = pure (some (rsumV acc (l.take k)), s') ∧ Yields s' (l.drop k) := by
  induction k generalizing s l acc with
  | zero => exact ⟨s, by simp [ndumpLoop, rsumV], by simpa using h⟩
  | succ k ih =>
    cases l with
    | nil => simp at hk
    | cons a l =>
      obtain ⟨s', h1, h2⟩ := h.uncons
      obtain ⟨s'', h3, h4⟩ := ih h2 (by simpa using hk) (Vector.zipWith (· + ·) acc a)
      exact ⟨s'', by simp [ndumpLoop, h1, h3, rsumV], by simpa using h4⟩

theorem ndumpLoop_lt [Add T] {s : ι} {l : List (Vector T N)} (h : Yields s l) {k : Nat} (hk : l.length < k)
    (acc : Vector T N) :
    ∃ s', ndumpLoop k acc s = pure (none, s') ∧ Yields s' ([] : List (Vector T N)) := by
  induction k generalizing s l acc with
  | zero => omega
  | succ k ih =>
    cases l with
    | nil =>
      obtain ⟨s', h1, h2⟩ := h.unnil
      exact ⟨s', by simp [ndumpLoop, h1], h2⟩
    | cons a l =>
      obtain ⟨s', h1, h2⟩ := h.uncons
      obtain ⟨s'', h3, h4⟩ := ih h2 (by simpa using hk) (Vector.zipWith (· + ·) acc a)
      exact ⟨s'', by simp [ndumpLoop, h1, h3], h4⟩

theorem Yields.nintegrateAndDump [Add T] [Zero T] {s : ι} {l : List (Vector T N)} (h : Yields s l) {d : Nat}
    (hd : 0 < d) :
    Yields (nintegrateAndDump s d) ((fullBlocks d l).map (rsumV (Vector.replicate N (0 : T)))) := by
  induction hn : l.length using Nat.strongRecOn generalizing s l with
  | _ n ih =>
    subst hn
    by_cases hl : l.length < d
    · rw [fullBlocks_lt hl]
      refine .nil ?_
      obtain ⟨s', h1, h2⟩ := ndumpLoop_lt h hl (Vector.replicate N (0 : T))
      refine Done.cons (s' := ⟨s', d⟩) (by simp [next, Verif.nintegrateAndDump, h1]) ?_
      refine Done.coind (R := fun (i : NintegrateDump ι) => i.dump_every = d ∧
        Yields i.source ([] : List (Vector T N))) ?_ ⟨rfl, h2⟩
      rintro ⟨s, k⟩ ⟨h0, h4⟩
      simp only at h0 h4; subst h0
      obtain ⟨s', h5, h6⟩ := ndumpLoop_lt h4 (by simpa using hd) (Vector.replicate N (0 : T))
      exact ⟨⟨s', k⟩, by simp [next, h5], rfl, h6⟩
    · rw [fullBlocks_cons hd (by omega), List.map_cons]
      obtain ⟨s', h1, h2⟩ := ndumpLoop_ge h (k := d) (by omega) (Vector.replicate N (0 : T))
      refine .cons (s' := ⟨s', d⟩) (by simp [next, Verif.nintegrateAndDump, h1]) ?_
      exact ih (l.drop d).length (by simp; omega) h2 rfl

theorem nintegrateAndDump_zero_gives [Add T] [Zero T] (s : ι) :
    Gives (nintegrateAndDump s 0) (fun _ => Vector.replicate N (0 : T)) :=
  Beh.coind (R := fun (i : NintegrateDump ι) f => i.dump_every = 0 ∧ f = fun _ => some (Vector.replicate N (0 : T)))
    (fun i f ⟨h0, hf⟩ => ⟨i, by obtain ⟨s, d⟩ := i; simp only at h0; subst h0 hf; simp [next, ndumpLoop], h0, by
      rw [hf]⟩) ⟨rfl, rfl⟩
end

/-! ### Convolution -/

/-- The inner product of the buffer (newest item first) with the reversed filter. -/
def convDot [Zero T] [Add T] [Mul T] (filter buf : List T) : T :=
  rsum ((buf.zip filter.reverse).map (fun (b, f) => b * f))

/-- The buffer after one more item. -/
def convPush {A : Type} (len : Nat) (x : A) (buf : List A) : List A :=
  if (x :: buf).length > len then (x :: buf).dropLast else x :: buf

/-- Draining. -/
def convTail {A B : Type} (dot : List A → B) (buf : List A) : List B :=
  if buf.length ≤ 1 then [] else dot buf.dropLast :: convTail dot buf.dropLast
termination_by buf.length
decreasing_by rw [List.length_dropLast]; omega

/-- The whole run at list level. -/
def convRun {A B : Type} (len : Nat) (dot : List A → B) (buf : List A) : List A → List B
  | [] => convTail dot buf
  | x :: l => dot (convPush len x buf) :: convRun len dot (convPush len x buf) l

theorem Yields.convolveFrom [RIter ι T] [Zero T] [Add T] [Mul T] {s : ι} {l : List T} (h : Yields s l)
    (filter buf : List T) :
    Yields (Convolver.mk s filter buf) (convRun filter.length (convDot filter) buf l) := by
  induction l generalizing s buf with
  | nil =>
    rw [convRun]
    fun_induction convTail (convDot filter) buf generalizing s with
    | case1 buf hb =>
      refine .nil (Done.coind (R := fun (c : Convolver ι T) => c.buffer.length ≤ 1 ∧ Yields c.source ([] : List T)) ?_
        ⟨hb, h⟩)
      rintro ⟨s, f, b⟩ ⟨h0, h1⟩
      obtain ⟨s', h2, h3⟩ := h1.unnil
      simp only at h0 h2
      exact ⟨⟨s', f, b⟩, by simp [next] at h2 ⊢; simp [h2, h0], h0, h3⟩
    | case2 buf hb ih =>
      obtain ⟨s', h1, h2⟩ := h.unnil
      refine .cons (s' := ⟨s', filter, buf.dropLast⟩) ?_ (ih h2)
      simp [next] at h1 ⊢; simp [h1, hb, convDot, Convolver.convolve_]
  | cons x l ih =>
    obtain ⟨s', h1, h2⟩ := h.uncons
    rw [convRun]
    refine .cons (s' := ⟨s', filter, convPush filter.length x buf⟩) ?_ (ih h2 _)
    simp [next] at h1 ⊢; simp [h1, convDot, Convolver.convolve_, convPush]

theorem Yields.convolve [RIter ι T] [Zero T] [Add T] [Mul T] {s : ι} {l : List T} (h : Yields s l)
    (filter : List T) :
    Yields (convolve s filter) (convRun filter.length (convDot filter) [] l) := h.convolveFrom filter []

/-- Lane-wise inner product. -/
def nonvDot [Zero T] [Add T] [Mul T] (filter : List T) (buf : List (Vector T N)) : Vector T N :=
  (buf.zip filter.reverse).foldl
    (fun ret (b, f) => Vector.zipWith (fun r x => r + x * f) ret b) (Vector.replicate N 0)

theorem nonvDot_lane [Zero T] [Add T] [Mul T] (filter : List T) (buf : List (Vector T N)) (j : Nat) (hj : j < N) :
    (nonvDot filter buf)[j] = convDot filter (buf.map (·[j])) := by
  unfold nonvDot convDot rsum
  have key : ∀ (z : List T) (buf : List (Vector T N)) (acc : Vector T N) ,
      ((buf.zip z).foldl (fun ret (b, f) => Vector.zipWith (fun r x => r + x * f) ret b) acc)[j] =
      (((buf.map (·[j])).zip z).map (fun (b, f) => b * f)).foldl (· + ·) acc[j] := by
    intro z
    induction z with
    | nil => intro buf acc; simp
    | cons f z ih =>
      intro buf acc
      cases buf with
      | nil => rfl
      | cons b buf => simp [ih]
  have := key filter.reverse buf (Vector.replicate N 0)
  rw [this]
  simp

theorem Yields.nonvolveFrom [RIter ι (Vector T N)] [Zero T] [Add T] [Mul T] {s : ι} {l : List (Vector T N)}
    (h : Yields s l) (filter : List T) (buf : List (Vector T N)) :
    Yields (Nonvolver.mk s filter buf) (convRun filter.length (nonvDot filter) buf l) := by
  induction l generalizing s buf with
  | nil =>
    rw [convRun]
    fun_induction convTail (nonvDot filter) buf generalizing s with
    | case1 buf hb =>
      refine .nil (Done.coind (R := fun (c : Nonvolver ι T N) => c.buffer.length ≤ 1 ∧
        Yields c.source ([] : List (Vector T N))) ?_ ⟨hb, h⟩)
      rintro ⟨s, f, b⟩ ⟨h0, h1⟩
      obtain ⟨s', h2, h3⟩ := h1.unnil
      simp only at h0 h2
      exact ⟨⟨s', f, b⟩, by simp [next] at h2 ⊢; simp [h2, h0], h0, h3⟩
    | case2 buf hb ih =>
      obtain ⟨s', h1, h2⟩ := h.unnil
      refine .cons (s' := ⟨s', filter, buf.dropLast⟩) ?_ (ih h2)
      simp [next] at h1 ⊢; simp [h1, hb, nonvDot, Nonvolver.nonvolve_]
  | cons x l ih =>
    obtain ⟨s', h1, h2⟩ := h.uncons
    rw [convRun]
    refine .cons (s' := ⟨s', filter, convPush filter.length x buf⟩) ?_ (ih h2 _)
    simp [next] at h1 ⊢; simp [h1, nonvDot, Nonvolver.nonvolve_, convPush]

theorem Yields.nonvolve [RIter ι (Vector T N)] [Zero T] [Add T] [Mul T] {s : ι} {l : List (Vector T N)}
    (h : Yields s l) (filter : List T) :
    Yields (nonvolve s filter) (convRun filter.length (nonvDot filter) [] l) := h.nonvolveFrom filter []

theorem convPush_map {A B : Type} (g : A → B) (len : Nat) (x : A) (buf : List A) :
    (convPush len x buf).map g = convPush len (g x) (buf.map g) := by
  unfold convPush
  simp only [List.length_cons, List.length_map]
  split
  · simp [List.map_dropLast]
  · simp

theorem convTail_map {A B A' B' : Type} (g : A → A') (k : B → B') (dot : List A → B) (dot' : List A' → B')
    (hd : ∀ b, k (dot b) = dot' (b.map g)) (buf : List A) :
    (convTail dot buf).map k = convTail dot' (buf.map g) := by
  fun_induction convTail dot buf with
  | case1 buf hb => unfold convTail; rw [if_pos (by simpa using hb)]; rfl
  | case2 buf hb ih =>
    conv => rhs; unfold convTail
    rw [if_neg (by simpa using hb), List.map_cons, ih, hd, List.map_dropLast]

theorem convRun_map {A B A' B' : Type} (g : A → A') (k : B → B') (len : Nat) (dot : List A → B)
    (dot' : List A' → B') (hd : ∀ b, k (dot b) = dot' (b.map g)) (buf l : List A) :
    (convRun len dot buf l).map k = convRun len dot' (buf.map g) (l.map g) := by
  induction l generalizing buf with
  | nil => exact convTail_map g k dot dot' hd buf
  | cons x l ih => simp only [convRun, List.map_cons, ih, hd, convPush_map]

/-- The buffer during the signal: the newest items first, at most `len` of them. -/
theorem convPush_take {A : Type} (len : Nat) (x : A) (r : List A) :
    convPush len x (r.take len) = (x :: r).take len := by
  unfold convPush
  simp only [List.length_cons, List.length_take]
  split
  · next h =>
    have h2 : len ≤ r.length := by omega
    rw [List.dropLast_eq_take]
    simp only [List.length_cons, List.length_take, Nat.add_sub_cancel]
    rw [Nat.min_eq_left h2]
    cases len with
    | zero => simp
    | succ n => simp [List.take_take]
  · next h =>
    have h2 : r.length < len := by omega
    rw [List.take_of_length_le (by omega), List.take_of_length_le (by simp; omega)]

/-- All outputs: one per input item from the last `len` items, then the draining. -/
theorem convRun_eq {A B : Type} (len : Nat) (dot : List A → B) (r l : List A) :
    convRun len dot (r.take len) l =
      (List.range l.length).map (fun i => dot (((l.take (i + 1)).reverse ++ r).take len)) ++
        convTail dot ((l.reverse ++ r).take len) := by
  induction l generalizing r with
  | nil => simp [convRun]
  | cons x l ih =>
    rw [convRun, convPush_take, ih (x :: r)]
    simp [List.range_succ_eq_map, Function.comp_def]

theorem convTail_eq {A B : Type} (dot : List A → B) (buf : List A) :
    convTail dot buf = (List.range (buf.length - 1)).map (fun t => dot (buf.take (buf.length - 1 - t))) := by
  fun_induction convTail dot buf with
  | case1 buf hb => rw [show buf.length - 1 = 0 by omega]; rfl
  | case2 buf hb ih =>
    rw [ih, List.length_dropLast]
    obtain ⟨m, hm⟩ : ∃ m, buf.length - 1 = m + 1 := ⟨buf.length - 2, by omega⟩
    rw [hm, Nat.add_sub_cancel, List.range_succ_eq_map, List.map_cons, List.map_map]
    congr 1
    · rw [List.dropLast_eq_take, hm]; rfl
    · apply List.map_congr_left
      intro t ht
      simp only [List.mem_range] at ht
      simp only [Function.comp, List.dropLast_eq_take, List.take_take, hm]
      congr 2; omega

end Verif
