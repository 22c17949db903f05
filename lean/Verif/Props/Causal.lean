import Verif.Lemmas.Causal

/-!
# Property C12: the stream adapters are causal

`Agree α m s t`: the first `m` pulls from the sources `s` and `t` (of possibly different types) succeed and return the
same.  Nothing is assumed about later pulls.  Each theorem names the length of the prefix that determines the first `k`
outputs.
-/
namespace Verif.Props
open Verif
variable {ι κ T : Type}

section
variable [RIter ι T] [RIter κ T] {s : ι} {t : κ}

theorem C12_chunks (n k : Nat) (h : Agree T (n * k) s t) : Agree (List T) k (chunks s n) (chunks t n) := h.chunks

theorem C12_wchunks [RDefault T] (n k : Nat) (h : Agree T (n * k) s t) :
    Agree (List T) k (wchunks s n) (wchunks t n) := h.wchunks_state false

theorem C12_inflate (c k : Nat) (h : Agree T k s t) :
    Agree T k (inflate (T := T) s c) (inflate (T := T) t c) := h.inflate_state

theorem C12_integrate [Add T] [Zero T] (k : Nat) (h : Agree T k s t) :
    Agree T k (integrate (T := T) s) (integrate (T := T) t) := h.integrate_state

theorem C12_integrate_and_dump [Add T] [Zero T] (d k : Nat) (h : Agree T (d * k) s t) :
    Agree T k (integrateAndDump s d) (integrateAndDump t d) := h.integrateAndDump

theorem C12_convolve [Zero T] [Add T] [Mul T] (filter : List T) (k : Nat) (h : Agree T k s t) :
    Agree T k (convolve s filter) (convolve t filter) := h.convolve_state

theorem C12_scale {S : Type} [HMul T S T] (c : S) (k : Nat) (h : Agree T k s t) :
    Agree T k (scale s c) (scale t c) := h.scale

theorem C12_take_every (f k : Nat) (hf : 0 < f) (h : Agree T ((k - 1) * f + 1) s t) :
    Agree T k (takeEvery s f) (takeEvery t f) := by
  cases k with
  | zero => exact Agree.zero _ _
  | succ k =>
    obtain ⟨o, s', t', h1, h2, h3⟩ := nextLoop_agree (c := 0) (j := 0) (m := f * k) hf (by simp) hf
      (h.mono (by rw [Nat.add_sub_cancel, Nat.mul_comm k f]; omega))
    exact Agree.cons h1 h2 (h3.takeEvery_state hf rfl)
end

section
variable {N : Nat} [RIter ι (Vector T N)] [RIter κ (Vector T N)] {s : ι} {t : κ}

theorem C12_nintegrate [Add T] [Zero T] (k : Nat) (h : Agree (Vector T N) k s t) :
    Agree (Vector T N) k (nintegrate (T := T) (N := N) s) (nintegrate (T := T) (N := N) t) := h.nintegrate_state

theorem C12_nintegrate_and_dump [Add T] [Zero T] (d k : Nat) (h : Agree (Vector T N) (d * k) s t) :
    Agree (Vector T N) k (nintegrateAndDump s d) (nintegrateAndDump t d) := h.nintegrateAndDump

theorem C12_nonvolve [Zero T] [Add T] [Mul T] (filter : List T) (k : Nat) (h : Agree (Vector T N) k s t) :
    Agree (Vector T N) k (nonvolve (T := T) (N := N) s filter) (nonvolve (T := T) (N := N) t filter) :=
  h.nonvolve_state
end

/-- A list and an endless counter that agree on three pulls and on no more. -/
theorem agree_example : Agree Nat 3 (ofList [0, 1, 2]) (RangeFrom.mk 0) ∧
    ¬ Agree Nat 4 (ofList [0, 1, 2]) (RangeFrom.mk 0) := by
  constructor
  · refine ⟨fun n => some n, ?_, ?_⟩
    · exact (yields_ofList [0, 1, 2] 3).congr (by intro n hn; match n, hn with | 0, _ => rfl | 1, _ => rfl | 2, _ => rfl)
    · exact (gives_rangeFrom 0 3).congr (by simp)
  · intro h
    obtain ⟨o1, s1, t1, a1, b1, h⟩ := h.step
    obtain ⟨o2, s2, t2, a2, b2, h⟩ := h.step
    obtain ⟨o3, s3, t3, a3, b3, h⟩ := h.step
    obtain ⟨o4, s4, t4, a4, b4, h⟩ := h.step
    simp [next, ofList] at a1 b1
    obtain ⟨rfl, rfl⟩ := a1
    obtain ⟨_, rfl⟩ := b1
    simp [next] at a2 b2
    obtain ⟨rfl, rfl⟩ := a2
    obtain ⟨_, rfl⟩ := b2
    simp [next] at a3 b3
    obtain ⟨rfl, rfl⟩ := a3
    obtain ⟨_, rfl⟩ := b3
    simp [next] at a4 b4
    obtain ⟨rfl, rfl⟩ := a4
    simp at b4

example : Agree (List Nat) 1 (chunks (ofList [0, 1, 2]) 3) (chunks (RangeFrom.mk 0) 3) :=
  C12_chunks 3 1 agree_example.1

example : Agree (List Nat) 1 (wchunks (ofList [0, 1, 2]) 3) (wchunks (RangeFrom.mk 0) 3) :=
  C12_wchunks 3 1 agree_example.1

example : Agree Nat 3 (inflate (T := Nat) (ofList [0, 1, 2]) 5) (inflate (T := Nat) (RangeFrom.mk 0) 5) :=
  C12_inflate 5 3 agree_example.1

example : Agree Nat 3 (integrate (T := Nat) (ofList [0, 1, 2])) (integrate (T := Nat) (RangeFrom.mk 0)) :=
  C12_integrate 3 agree_example.1

example : Agree Nat 3 (convolve (ofList [0, 1, 2]) [1, 4]) (convolve (RangeFrom.mk 0) [1, 4]) :=
  C12_convolve [1, 4] 3 agree_example.1

example : Agree Nat 3 (scale (ofList [0, 1, 2]) 7) (scale (RangeFrom.mk 0) 7) :=
  C12_scale 7 3 agree_example.1

/-- The same for rows: two lists of pairs that differ after the second one. -/
theorem agree_rows : Agree (Vector Nat 2) 2 (ofList [#v[1, 2], #v[3, 4], #v[5, 6]]) (ofList [#v[1, 2], #v[3, 4], #v[0, 0]]) := by
  refine ⟨fun n => [#v[1, 2], #v[3, 4], #v[5, 6]][n]?, yields_ofList _ 2, ?_⟩
  exact (yields_ofList [#v[1, 2], #v[3, 4], #v[0, 0]] 2).congr
    (by intro n hn; match n, hn with | 0, _ => rfl | 1, _ => rfl)

example : Agree (Vector Nat 2) 2 (nintegrate (T := Nat) (N := 2) (ofList [#v[1, 2], #v[3, 4], #v[5, 6]]))
    (nintegrate (T := Nat) (N := 2) (ofList [#v[1, 2], #v[3, 4], #v[0, 0]])) := C12_nintegrate 2 agree_rows

example : Agree (Vector Nat 2) 1 (nintegrateAndDump (ofList [#v[1, 2], #v[3, 4], #v[5, 6]]) 2)
    (nintegrateAndDump (ofList [#v[1, 2], #v[3, 4], #v[0, 0]]) 2) := C12_nintegrate_and_dump 2 1 agree_rows

example : Agree (Vector Nat 2) 2 (nonvolve (T := Nat) (N := 2) (ofList [#v[1, 2], #v[3, 4], #v[5, 6]]) [1, 2])
    (nonvolve (T := Nat) (N := 2) (ofList [#v[1, 2], #v[3, 4], #v[0, 0]]) [1, 2]) := C12_nonvolve [1, 2] 2 agree_rows

example : Agree Nat 1 (integrateAndDump (ofList [0, 1, 2]) 3) (integrateAndDump (RangeFrom.mk 0) 3) :=
  C12_integrate_and_dump 3 1 agree_example.1

example : Agree Nat 2 (takeEvery (ofList [0, 1, 2]) 2) (takeEvery (RangeFrom.mk 0) 2) :=
  C12_take_every 2 2 (by decide) agree_example.1

end Verif.Props
