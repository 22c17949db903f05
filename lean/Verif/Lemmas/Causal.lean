import Verif.Lemmas.Lanes
import Verif.Lemmas.ConvL

/-! Two sources that agree on their first pulls drive the crate's adapters to outputs that agree. -/
namespace Verif
variable {ι κ T : Type}

/-- The first `m` pulls of the two iterators succeed and return the same items (or the same `None`s); nothing is said
about later pulls, which may differ, end, panic or hang. -/
def Agree (α : Type) [RIter ι α] [RIter κ α] (m : Nat) (s : ι) (t : κ) : Prop :=
  ∃ f : Nat → Option α, BehN m s f ∧ BehN m t f

section
variable {α : Type} [RIter ι α] [RIter κ α]

theorem Agree.step {m : Nat} {s : ι} {t : κ} (h : Agree α (m + 1) s t) :
    ∃ o s' t', next s = pure (o, s') ∧ next t = pure (o, t') ∧ Agree α m s' t' := by
  obtain ⟨f, ⟨s', h1, h2⟩, ⟨t', h3, h4⟩⟩ := h
  exact ⟨f 0, s', t', h1, h3, _, h2, h4⟩

theorem Agree.cons {m : Nat} {s s' : ι} {t t' : κ} {o : Option α} (h1 : next s = pure (o, s'))
    (h2 : next t = pure (o, t')) (h : Agree α m s' t') : Agree α (m + 1) s t := by
  obtain ⟨f, h3, h4⟩ := h
  exact ⟨fun n => n.casesOn o f, ⟨s', h1, h3⟩, ⟨t', h2, h4⟩⟩

theorem Agree.zero (s : ι) (t : κ) : Agree α 0 s t := ⟨fun _ => none, trivial, trivial⟩

theorem Agree.mono {m m' : Nat} {s : ι} {t : κ} (h : Agree α m s t) (hm : m' ≤ m) : Agree α m' s t := by
  obtain ⟨f, h1, h2⟩ := h
  exact ⟨f, h1.mono hm, h2.mono hm⟩

/-! ### chunks, wchunks -/
theorem pullUpTo_agree {k m : Nat} {s : ι} {t : κ} (h : Agree α (k + m) s t) :
    ∃ buf s' t', pullUpTo (T := α) k s = pure (buf, s') ∧ pullUpTo k t = pure (buf, t') ∧ Agree α m s' t' := by
  induction k generalizing s t with
  | zero => exact ⟨[], s, t, rfl, rfl, h.mono (by omega)⟩
  | succ k ih =>
    rw [show k + 1 + m = (k + m) + 1 by omega] at h
    obtain ⟨o, s', t', h1, h2, h3⟩ := h.step
    cases o with
    | none => exact ⟨[], s', t', by simp [pullUpTo, h1], by simp [pullUpTo, h2], h3.mono (by omega)⟩
    | some a =>
      obtain ⟨buf, s'', t'', h4, h5, h6⟩ := ih h3
      exact ⟨a :: buf, s'', t'', by simp [pullUpTo, h1, h4], by simp [pullUpTo, h2, h5], h6⟩

theorem Agree.chunks {n k : Nat} {s : ι} {t : κ} (h : Agree α (n * k) s t) :
    Agree (List α) k (chunks s n) (chunks t n) := by
  induction k generalizing s t with
  | zero => exact Agree.zero _ _
  | succ k ih =>
    rw [Nat.mul_succ, Nat.add_comm] at h
    obtain ⟨buf, s', t', h1, h2, h3⟩ := pullUpTo_agree h
    refine Agree.cons (o := if buf.isEmpty then none else some buf) (s' := Verif.chunks s' n)
      (t' := Verif.chunks t' n) ?_ ?_ (ih h3)
    · cases buf <;> simp [next, Verif.chunks, h1]
    · cases buf <;> simp [next, Verif.chunks, h2]

theorem pullPadded_agree [RDefault α] {k m : Nat} {s : ι} {t : κ} (d : Bool) (h : Agree α (k + m) s t) :
    ∃ buf d' s' t', pullPadded (T := α) k s d = pure (buf, s', d') ∧ pullPadded k t d = pure (buf, t', d') ∧
      Agree α m s' t' := by
  induction k generalizing s t d with
  | zero => exact ⟨[], d, s, t, rfl, rfl, h.mono (by omega)⟩
  | succ k ih =>
    rw [show k + 1 + m = (k + m) + 1 by omega] at h
    obtain ⟨o, s', t', h1, h2, h3⟩ := h.step
    cases o with
    | none =>
      obtain ⟨buf, d', s'', t'', h4, h5, h6⟩ := ih true h3
      exact ⟨dflt :: buf, d', s'', t'', by simp [pullPadded, h1, h4], by simp [pullPadded, h2, h5], h6⟩
    | some a =>
      obtain ⟨buf, d', s'', t'', h4, h5, h6⟩ := ih d h3
      exact ⟨a :: buf, d', s'', t'', by simp [pullPadded, h1, h4], by simp [pullPadded, h2, h5], h6⟩

theorem Agree.wchunks_state [RDefault α] {n k : Nat} {s : ι} {t : κ} (d : Bool) (h : Agree α (n * k) s t) :
    Agree (List α) k (WholeChunks.mk s n d) (WholeChunks.mk t n d) := by
  induction k generalizing s t d with
  | zero => exact Agree.zero _ _
  | succ k ih =>
    cases d with
    | true =>
      exact Agree.cons (o := none) (s' := ⟨s, n, true⟩) (t' := ⟨t, n, true⟩) (by simp [next]) (by simp [next])
        (ih true (h.mono (Nat.mul_le_mul_left _ (by omega))))
    | false =>
      rw [Nat.mul_succ, Nat.add_comm] at h
      obtain ⟨buf, d', s', t', h1, h2, h3⟩ := pullPadded_agree false h
      refine Agree.cons (o := if buf.isEmpty then none else some buf) (s' := ⟨s', n, d'⟩)
        (t' := ⟨t', n, d'⟩) ?_ ?_ (ih d' h3)
      · cases buf <;> simp [next, h1]
      · cases buf <;> simp [next, h2]

/-! ### inflate -/
theorem Agree.inflate_state {c k j : Nat} {o : Option α} {s : ι} {t : κ} (h : Agree α k s t) :
    Agree α k (Inflate.mk s c j o) (Inflate.mk t c j o) := by
  induction k generalizing s t j o with
  | zero => exact Agree.zero _ _
  | succ k ih =>
    by_cases hc : (o.isNone || j == c) = true
    · obtain ⟨o', s', t', h1, h2, h3⟩ := h.step
      exact Agree.cons (o := o') (s' := ⟨s', c, 1, o'⟩) (t' := ⟨t', c, 1, o'⟩) (by simp [next, hc, h1])
        (by simp [next, hc, h2]) (ih h3)
    · exact Agree.cons (o := o) (s' := ⟨s, c, j + 1, o⟩) (t' := ⟨t, c, j + 1, o⟩) (by simp only [next]; rw [if_neg hc])
        (by simp only [next]; rw [if_neg hc]) (ih (h.mono (by omega)))

/-! ### integrate, dump, scale -/
theorem Agree.integrate_state [Add α] {k : Nat} {acc : α} {s : ι} {t : κ} (h : Agree α k s t) :
    Agree α k (Integrate.mk s acc) (Integrate.mk t acc) := by
  induction k generalizing s t acc with
  | zero => exact Agree.zero _ _
  | succ k ih =>
    obtain ⟨o, s', t', h1, h2, h3⟩ := h.step
    cases o with
    | none => exact Agree.cons (o := none) (by simp only [next]; rw [h1]; rfl) (by simp only [next]; rw [h2]; rfl) (ih h3)
    | some a => exact Agree.cons (o := some (acc + a)) (by simp only [next]; rw [h1]; rfl) (by simp only [next]; rw [h2]; rfl) (ih h3)

theorem dumpLoop_agree [Add α] {d m : Nat} {acc : α} {s : ι} {t : κ} (h : Agree α (d + m) s t) :
    ∃ o s' t', dumpLoop d acc s = pure (o, s') ∧ dumpLoop d acc t = pure (o, t') ∧ Agree α m s' t' := by
  induction d generalizing s t acc with
  | zero => exact ⟨some acc, s, t, rfl, rfl, h.mono (by omega)⟩
  | succ d ih =>
    rw [show d + 1 + m = (d + m) + 1 by omega] at h
    obtain ⟨o, s', t', h1, h2, h3⟩ := h.step
    cases o with
    | none => exact ⟨none, s', t', by simp [dumpLoop, h1], by simp [dumpLoop, h2], h3.mono (by omega)⟩
    | some a =>
      obtain ⟨o', s'', t'', h4, h5, h6⟩ := ih (acc := acc + a) h3
      exact ⟨o', s'', t'', by simp [dumpLoop, h1, h4], by simp [dumpLoop, h2, h5], h6⟩

theorem Agree.integrateAndDump [Add α] [Zero α] {d k : Nat} {s : ι} {t : κ} (h : Agree α (d * k) s t) :
    Agree α k (integrateAndDump s d) (integrateAndDump t d) := by
  induction k generalizing s t with
  | zero => exact Agree.zero _ _
  | succ k ih =>
    rw [Nat.mul_succ, Nat.add_comm] at h
    obtain ⟨o, s', t', h1, h2, h3⟩ := dumpLoop_agree (acc := 0) h
    exact Agree.cons (o := o) (by simp only [next, Verif.integrateAndDump]; rw [h1]; rfl)
      (by simp only [next, Verif.integrateAndDump]; rw [h2]; rfl) (ih h3)

theorem Agree.scale {S : Type} [HMul α S α] {k : Nat} {c : S} {s : ι} {t : κ} (h : Agree α k s t) :
    Agree α k (scale s c) (scale t c) := by
  induction k generalizing s t with
  | zero => exact Agree.zero _ _
  | succ k ih =>
    obtain ⟨o, s', t', h1, h2, h3⟩ := h.step
    cases o with
    | none => exact Agree.cons (o := none) (by simp only [next, Verif.scale]; rw [h1]; rfl) (by simp only [next, Verif.scale]; rw [h2]; rfl) (ih h3)
    | some a => exact Agree.cons (o := some (a * c)) (by simp only [next, Verif.scale]; rw [h1]; rfl) (by simp only [next, Verif.scale]; rw [h2]; rfl) (ih h3)

/-! ### convolve -/
theorem Agree.convolve_state [Zero α] [Add α] [Mul α] {k : Nat} {fl buf : List α} {s : ι} {t : κ}
    (h : Agree α k s t) : Agree α k (Convolver.mk s fl buf) (Convolver.mk t fl buf) := by
  induction k generalizing s t buf with
  | zero => exact Agree.zero _ _
  | succ k ih =>
    obtain ⟨o, s', t', h1, h2, h3⟩ := h.step
    cases o with
    | some a =>
      exact Agree.cons
        (s' := ⟨s', fl, if (a :: buf).length > fl.length then (a :: buf).dropLast else a :: buf⟩)
        (t' := ⟨t', fl, if (a :: buf).length > fl.length then (a :: buf).dropLast else a :: buf⟩)
        (by simp only [next]; rw [h1]; rfl)
        (by simp only [next]; rw [h2]; rfl) (ih h3)
    | none =>
      by_cases hb : buf.length ≤ 1
      · exact Agree.cons (o := none) (s' := ⟨s', fl, buf⟩) (t' := ⟨t', fl, buf⟩)
          (by simp only [next]; rw [h1]; simp [hb]) (by simp only [next]; rw [h2]; simp [hb]) (ih h3)
      · exact Agree.cons (s' := ⟨s', fl, buf.dropLast⟩) (t' := ⟨t', fl, buf.dropLast⟩)
          (by simp only [next]; rw [h1]; simp only [pure_bind]; rw [if_neg hb])
          (by simp only [next]; rw [h2]; simp only [pure_bind]; rw [if_neg hb]; rfl) (ih h3)

/-! ### take_every -/
theorem nextLoop_agree {f c j m : Nat} (hf : 0 < f) (hj : (c + j) % f = 0) (hlt : j < f) {s : ι} {t : κ}
    (h : Agree α (j + 1 + m) s t) :
    ∃ o s' t', (TakeEvery.mk s f c).nextLoop (T := α) = pure (o, ⟨s', f, c + j + 1⟩) ∧
      (TakeEvery.mk t f c).nextLoop (T := α) = pure (o, ⟨t', f, c + j + 1⟩) ∧ Agree α m s' t' := by
  induction j generalizing s t c with
  | zero =>
    rw [show 0 + 1 + m = m + 1 by omega] at h
    obtain ⟨o, s', t', h1, h2, h3⟩ := h.step
    rw [Nat.add_zero] at hj
    refine ⟨o, s', t', ?_, ?_, h3⟩
    · unfold TakeEvery.nextLoop; simp [umod_pos hf, hj, h1]
    · unfold TakeEvery.nextLoop; simp [umod_pos hf, hj, h2]
  | succ j ih =>
    rw [show j + 1 + 1 + m = (j + 1 + m) + 1 by omega] at h
    obtain ⟨o, s', t', h1, h2, h3⟩ := h.step
    obtain ⟨o', s'', t'', h4, h5, h6⟩ := ih (c := c + 1) (by rw [← hj]; congr 1; omega) (by omega) h3
    have hne : c % f ≠ 0 := by
      intro h0
      have : (c + (j + 1)) % f = (j + 1) % f := by rw [Nat.add_mod, h0]; simp
      rw [hj, Nat.mod_eq_of_lt hlt] at this; omega
    refine ⟨o', s'', t'', ?_, ?_, h6⟩
    · unfold TakeEvery.nextLoop; simp [umod_pos hf, hne, h1]
      rw [show c + (j + 1) + 1 = c + 1 + j + 1 by omega]; exact h4
    · unfold TakeEvery.nextLoop; simp [umod_pos hf, hne, h2]
      rw [show c + (j + 1) + 1 = c + 1 + j + 1 by omega]; exact h5

theorem Agree.takeEvery_state {f c k : Nat} (hf : 0 < f) (hc : c % f = 1 % f) {s : ι} {t : κ}
    (h : Agree α (f * k) s t) : Agree α k (TakeEvery.mk s f c) (TakeEvery.mk t f c) := by
  induction k generalizing s t c with
  | zero => exact Agree.zero _ _
  | succ k ih =>
    have hm : (c + (f - 1)) % f = 0 := by
      rw [Nat.add_mod, hc, ← Nat.add_mod, show 1 + (f - 1) = f by omega, Nat.mod_self]
    obtain ⟨o, s', t', h1, h2, h3⟩ := nextLoop_agree (m := f * k) (j := f - 1) hf hm (by omega)
      (h.mono (by rw [Nat.mul_succ]; omega))
    exact Agree.cons h1 h2 (ih (by rw [Nat.add_mod, hm, Nat.zero_add, Nat.mod_mod]) h3)

end

/-! ### lanes -/
section
variable {N : Nat} [RIter ι (Vector T N)] [RIter κ (Vector T N)]

theorem Agree.nintegrate_state [Add T] {k : Nat} {acc : Vector T N} {s : ι} {t : κ} (h : Agree (Vector T N) k s t) :
    Agree (Vector T N) k (Nintegrate.mk s acc) (Nintegrate.mk t acc) := by
  induction k generalizing s t acc with
  | zero => exact Agree.zero _ _
  | succ k ih =>
    obtain ⟨o, s', t', h1, h2, h3⟩ := h.step
    cases o with
    | none => exact Agree.cons (o := none) (by simp only [next]; rw [h1]; rfl) (by simp only [next]; rw [h2]; rfl) (ih h3)
    | some a => exact Agree.cons (by simp only [next]; rw [h1]; rfl) (by simp only [next]; rw [h2]; rfl) (ih h3)

theorem ndumpLoop_agree [Add T] {d m : Nat} {acc : Vector T N} {s : ι} {t : κ} (h : Agree (Vector T N) (d + m) s t) :
    ∃ o s' t', ndumpLoop d acc s = pure (o, s') ∧ ndumpLoop d acc t = pure (o, t') ∧ Agree (Vector T N) m s' t' := by
  induction d generalizing s t acc with
  | zero => exact ⟨some acc, s, t, rfl, rfl, h.mono (by omega)⟩
  | succ d ih =>
    rw [show d + 1 + m = (d + m) + 1 by omega] at h
    obtain ⟨o, s', t', h1, h2, h3⟩ := h.step
    cases o with
    | none => exact ⟨none, s', t', by simp [ndumpLoop, h1], by simp [ndumpLoop, h2], h3.mono (by omega)⟩
    | some a =>
      obtain ⟨o', s'', t'', h4, h5, h6⟩ := ih (acc := Vector.zipWith (· + ·) acc a) h3
      exact ⟨o', s'', t'', by simp [ndumpLoop, h1, h4], by simp [ndumpLoop, h2, h5], h6⟩

theorem Agree.nintegrateAndDump [Add T] [Zero T] {d k : Nat} {s : ι} {t : κ} (h : Agree (Vector T N) (d * k) s t) :
    Agree (Vector T N) k (nintegrateAndDump s d) (nintegrateAndDump t d) := by
  induction k generalizing s t with
  | zero => exact Agree.zero _ _
  | succ k ih =>
    rw [Nat.mul_succ, Nat.add_comm] at h
    obtain ⟨o, s', t', h1, h2, h3⟩ := ndumpLoop_agree (acc := Vector.replicate N 0) h
    exact Agree.cons (o := o) (by simp only [next, Verif.nintegrateAndDump]; rw [h1]; rfl)
      (by simp only [next, Verif.nintegrateAndDump]; rw [h2]; rfl) (ih h3)

theorem Agree.nonvolve_state [Zero T] [Add T] [Mul T] {k : Nat} {fl : List T} {buf : List (Vector T N)} {s : ι} {t : κ}
    (h : Agree (Vector T N) k s t) : Agree (Vector T N) k (Nonvolver.mk s fl buf) (Nonvolver.mk t fl buf) := by
  induction k generalizing s t buf with
  | zero => exact Agree.zero _ _
  | succ k ih =>
    obtain ⟨o, s', t', h1, h2, h3⟩ := h.step
    cases o with
    | some a =>
      exact Agree.cons
        (s' := ⟨s', fl, if (a :: buf).length > fl.length then (a :: buf).dropLast else a :: buf⟩)
        (t' := ⟨t', fl, if (a :: buf).length > fl.length then (a :: buf).dropLast else a :: buf⟩)
        (by simp only [next]; rw [h1]; rfl)
        (by simp only [next]; rw [h2]; rfl) (ih h3)
    | none =>
      by_cases hb : buf.length ≤ 1
      · exact Agree.cons (o := none) (s' := ⟨s', fl, buf⟩) (t' := ⟨t', fl, buf⟩)
          (by simp only [next]; rw [h1]; simp [hb]) (by simp only [next]; rw [h2]; simp [hb]) (ih h3)
      · exact Agree.cons (s' := ⟨s', fl, buf.dropLast⟩) (t' := ⟨t', fl, buf.dropLast⟩)
          (by simp only [next]; rw [h1]; simp only [pure_bind]; rw [if_neg hb])
          (by simp only [next]; rw [h2]; simp only [pure_bind]; rw [if_neg hb]; rfl) (ih h3)
end
end Verif
