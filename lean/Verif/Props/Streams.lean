import Verif.Lemmas.ConvL

/-!
# Properties C03–C11: the stream adapters of `src/iter`

`src` ranges over every iterator (any state type) that yields a finite list `l` and is then exhausted.
`Yields (adapter src) out` means: pulling the adapter returns exactly the items of `out`, then `None` for ever, and
never panics or hangs; `collect` then returns `out` (`collect_of_yields`).
-/
namespace Verif.Props
open Verif

variable {ι T : Type}

/-! ## C03 chunks -/

theorem C03_chunks [RIter ι T] {src : ι} {l : List T} (h : Yields src l) {k : ℕ} (hk : 0 < k) :
    ∃ cs, Yields (chunks src k) cs ∧ cs.flatten = l ∧ (∀ c ∈ cs.dropLast, c.length = k) ∧
      (∀ c ∈ cs, 1 ≤ c.length ∧ c.length ≤ k) ∧ cs.length = (l.length + k - 1) / k := by
  refine ⟨_, h.chunks k, ?_⟩
  clear h
  induction hn : l.length using Nat.strongRecOn generalizing l with
  | _ n ih =>
    subst hn
    by_cases hl : l = []
    · subst hl; rw [blocks_nil]
      refine ⟨rfl, by simp, by simp, ?_⟩
      rw [Nat.div_eq_of_lt] <;> simp; omega
    · have hlen : 0 < l.length := List.length_pos_iff.mpr hl
      obtain ⟨h1, h2, h3, h4⟩ := ih (l.drop k).length (by simp; omega) rfl
      rw [blocks_cons hk hl]
      refine ⟨by simp [h1], ?_, ?_, ?_⟩
      · intro c hc
        by_cases hb : Spec.blocks k (l.drop k) = []
        · simp [hb] at hc
        · rw [List.dropLast_cons_of_ne_nil hb, List.mem_cons] at hc
          rcases hc with rfl | hc
          · rw [List.length_take, Nat.min_eq_left]
            by_contra hlt
            apply hb
            rw [List.drop_eq_nil_of_le (by omega), blocks_nil]
          · exact h2 c hc
      · intro c hc
        rw [List.mem_cons] at hc
        rcases hc with rfl | hc
        · rw [List.length_take]; omega
        · exact h3 c hc
      · rw [List.length_cons, h4, List.length_drop]
        rcases Nat.lt_or_ge l.length k with hlt | hge
        · rw [show l.length - k = 0 by omega, Nat.div_eq_of_lt (by omega : 0 + k - 1 < k)]
          rw [show l.length + k - 1 = (l.length - 1) + k by omega, Nat.add_div_right _ hk,
            Nat.div_eq_of_lt (by omega)]
        · rw [show l.length + k - 1 = (l.length - k + k - 1) + k by omega, Nat.add_div_right _ hk]

example : ∃ cs, Yields (chunks (ofList [1, 2, 3, 4, 5, 6, 7]) 3) cs ∧ cs.flatten = [1, 2, 3, 4, 5, 6, 7] ∧ cs.length = 3 := by
  obtain ⟨cs, h1, h2, -, -, h5⟩ := C03_chunks (yields_ofList [1, 2, 3, 4, 5, 6, 7]) (k := 3) (by decide)
  exact ⟨cs, h1, h2, h5⟩

theorem C03_chunks_zero [RIter ι T] {src : ι} {l : List T} (h : Yields src l) :
    Yields (chunks src 0) ([] : List (List T)) := by
  have := h.chunks 0
  rwa [blocks_zero] at this

example : collect (chunks (ofList [1, 2, 3, 4, 5]) 2) = pure [[1, 2], [3, 4], [5]] := by
  rw [collect_of_yields ((yields_ofList _).chunks 2)]; simp [Spec.blocks]

/-! ## C04 wchunks

The claim "padding is only added to complete a started chunk" is false: see `C04_wchunks_extra_chunk`.
What does hold is `C04_wchunks_partial`. -/

theorem C04_wchunks_all [RIter ι T] [RDefault T] {src : ι} {l : List T} (h : Yields src l) {k : ℕ} (hk : 0 < k) :
    ∃ cs, Yields (wchunks src k) cs ∧ (∀ c ∈ cs, c.length = k) ∧ cs.length = l.length / k + 1 ∧
      cs.flatten = l ++ List.replicate (k - l.length % k) dflt := by
  refine ⟨_, h.wchunks hk, ?_⟩
  clear h
  have key : ∀ (m : ℕ) (l : List T), l.length = m * k → (∀ c ∈ Spec.blocks k l, c.length = k) ∧
      (Spec.blocks k l).length = m ∧ (Spec.blocks k l).flatten = l := by
    intro m
    induction m with
    | zero => intro l hl; simp at hl; subst hl; simp [blocks_nil]
    | succ m ih =>
      intro l hl
      rw [Nat.add_mul, Nat.one_mul] at hl
      obtain ⟨h1, h2, h3⟩ := ih (l.drop k) (by simp; omega)
      rw [blocks_cons hk (by rintro rfl; simp at hl; omega)]
      refine ⟨?_, by simp [h2], by simp [h3]⟩
      intro c hc
      rw [List.mem_cons] at hc
      rcases hc with rfl | hc
      · rw [List.length_take]; omega
      · exact h1 c hc
  have hlt := Nat.mod_lt l.length hk
  have hdm := Nat.div_add_mod l.length k
  exact key (l.length / k + 1) _ (by
    rw [List.length_append, List.length_replicate, Nat.add_mul, Nat.one_mul, Nat.mul_comm (l.length / k)]; omega)

example : ∃ cs, Yields (wchunks (ofList [true, true, true]) 2) cs ∧ (∀ c ∈ cs, c.length = 2) ∧ cs.length = 2 ∧
    cs.flatten = [true, true, true, false] := C04_wchunks_all (yields_ofList [true, true, true]) (by decide)

/-- Holds when the length is not a multiple of the chunk size: then fewer than `k` defaults complete the last
chunk.  Missing: lengths that are multiples of `k` (including 0), where the code adds a whole chunk of defaults. -/
theorem C04_wchunks_partial [RIter ι T] [RDefault T] {src : ι} {l : List T} (h : Yields src l) {k : ℕ} (hk : 0 < k)
    (hdvd : ¬ k ∣ l.length) :
    ∃ cs p, Yields (wchunks src k) cs ∧ (∀ c ∈ cs, c.length = k) ∧ p < k ∧
      cs.flatten = l ++ List.replicate p dflt := by
  obtain ⟨cs, h1, h2, _, h4⟩ := C04_wchunks_all h hk
  refine ⟨cs, _, h1, h2, ?_, h4⟩
  have : l.length % k ≠ 0 := fun e => hdvd (Nat.dvd_of_mod_eq_zero e)
  omega

example : ∃ cs p, Yields (wchunks (ofList [true, true, true, true]) 3) cs ∧ (∀ c ∈ cs, c.length = 3) ∧ p < 3 ∧
    cs.flatten = [true, true, true, true] ++ List.replicate p false :=
  C04_wchunks_partial (yields_ofList [true, true, true, true]) (by decide) (by decide)

/-- The extra chunk: when `k` divides the length, `k` defaults are appended. -/
theorem C04_wchunks_extra_chunk [RIter ι T] [RDefault T] {src : ι} {l : List T} (h : Yields src l) {k : ℕ}
    (hk : 0 < k) (hdvd : k ∣ l.length) :
    ∃ cs, Yields (wchunks src k) cs ∧ cs.flatten = l ++ List.replicate k dflt := by
  obtain ⟨cs, h1, _, _, h4⟩ := C04_wchunks_all h hk
  rw [Nat.mod_eq_zero_of_dvd hdvd] at h4
  exact ⟨cs, h1, h4⟩

example : ∃ cs, Yields (wchunks (ofList [true, true, true, true]) 2) cs ∧
    cs.flatten = [true, true, true, true, false, false] :=
  C04_wchunks_extra_chunk (yields_ofList [true, true, true, true]) (by decide) (by decide)

/-- Negation of the claim with a witness: four bits in chunks of two come back as three chunks. -/
theorem C04_wchunks_refuted :
    ¬ ∀ (l : List Bool) (k : ℕ), 0 < k → k ∣ l.length →
      ∃ cs, Yields (wchunks (ofList l) k) cs ∧ cs.flatten = l := by
  intro H
  obtain ⟨cs, h1, h2⟩ := H [true, true, true, true] 2 (by decide) (by decide)
  obtain ⟨cs', h3, h4⟩ := C04_wchunks_extra_chunk (yields_ofList [true, true, true, true]) (k := 2) (by decide)
    (by decide)
  rw [h1.unique h3, h4] at h2
  simp at h2

example : collect (wchunks (ofList [true, true]) 2) = pure [[true, true], [false, false]] := by
  rw [collect_of_yields ((yields_ofList _).wchunks (by decide))]; simp [Spec.blocks, dflt]

/-! ## C05 inflate -/

/-- The documented behaviour for a positive number of copies.  Missing: `copies = 0`. -/
theorem C05_inflate_partial [RIter ι T] {src : ι} {l : List T} (h : Yields src l) {c : ℕ} (hc : 0 < c) :
    ∃ out, Yields (inflate src c) out ∧ out = l.flatMap (fun x => List.replicate c x) ∧ out.length = c * l.length ∧
      ∀ i, out[i]? = l[i / c]? := by
  refine ⟨_, h.inflate hc, rfl, by simp [Nat.mul_comm], ?_⟩
  clear h
  induction l with
  | nil => simp
  | cons a l ih =>
    intro i
    rw [List.flatMap_cons, List.getElem?_append]
    simp only [List.length_replicate]
    split
    · next hi => rw [Nat.div_eq_of_lt hi]; simp [hi]
    · next hi =>
      rw [ih, Nat.div_eq_sub_div hc (by omega : c ≤ i), List.getElem?_cons_succ]

example : ∃ out, Yields (inflate (ofList [7, 8]) 2) out ∧ out = [7, 7, 8, 8] ∧ out.length = 4 ∧
    ∀ i, out[i]? = [7, 8][i / 2]? := C05_inflate_partial (yields_ofList [7, 8]) (by decide)

/-- With 0 copies of a non-empty source the stream never ends (the first item is repeated for ever), instead of being
empty as documented. -/
theorem C05_inflate_zero_diverges [RIter ι T] {src : ι} {a : T} {l : List T} (h : Yields src (a :: l)) :
    Gives (inflate src 0) (fun _ => a) ∧ collect (inflate src 0) = RM.diverge :=
  ⟨inflate_zero_gives h, collect_of_gives (inflate_zero_gives h)⟩

example : collect (inflate (ofList [7, 8]) 0) = RM.diverge := (C05_inflate_zero_diverges (yields_ofList [7, 8])).2

theorem C05_inflate_refuted :
    ¬ ∀ (l : List ℕ) (c : ℕ), collect (inflate (ofList l) c) = pure (l.flatMap (fun x => List.replicate c x)) := by
  intro H
  have := H [7] 0
  rw [(C05_inflate_zero_diverges (yields_ofList [7])).2] at this
  exact RM.diverge_ne_ok this

example : collect (inflate (ofList [1, 2]) 3) = pure [1, 1, 1, 2, 2, 2] :=
  collect_of_yields ((yields_ofList [1, 2]).inflate (by decide))

/-! ## C06 integrate, nintegrate -/

theorem C06_integrate [RIter ι T] [Add T] [Zero T] {src : ι} {l : List T} (h : Yields src l) :
    ∃ out, Yields (integrate src) out ∧ out.length = l.length ∧
      ∀ i, i < l.length → out[i]? = some ((l.take (i + 1)).foldl (· + ·) 0) := by
  refine ⟨_, h.integrate, runSums_length _ _, fun i hi => ?_⟩
  rw [runSums_getElem?, if_pos hi]

example : ∃ out, Yields (integrate (ofList [5, 6, 7])) out ∧ out.length = 3 ∧ out[2]? = some 18 := by
  obtain ⟨out, h1, h2, h3⟩ := C06_integrate (yields_ofList [5, 6, 7])
  exact ⟨out, h1, h2, h3 2 (by decide)⟩

theorem C06_nintegrate {N : ℕ} [RIter ι (Vector T N)] [Add T] [Zero T] {src : ι} {l : List (Vector T N)}
    (h : Yields src l) :
    ∃ out, Yields (nintegrate src) out ∧ out.length = l.length ∧
      ∀ (j : ℕ) (hj : j < N), Yields (integrate (ofList (l.map (·[j])))) (out.map (·[j])) := by
  refine ⟨_, h.nintegrate, ?_, fun j hj => ?_⟩
  · have : ∀ (acc : Vector T N) (l : List (Vector T N)), (runSumsV acc l).length = l.length := by
      intro acc l
      induction l generalizing acc with
      | nil => rfl
      | cons x l ih => simp [runSumsV, ih]
    exact this _ _
  · rw [runSumsV_lane]
    simpa using (yields_ofList (l.map (·[j]))).integrate

example : ∃ out, Yields (nintegrate (T := ℕ) (N := 2) (ofList [#v[1, 10], #v[2, 20]])) out ∧ out.length = 2 ∧
    ∀ (j : ℕ) (hj : j < 2), Yields (integrate (ofList ([#v[1, 10], #v[2, 20]].map (·[j])))) (out.map (·[j])) :=
  C06_nintegrate (yields_ofList [#v[1, 10], #v[2, 20]])

example : collect (integrate (ofList [1, 2, 3])) = pure [1, 3, 6] :=
  collect_of_yields ((yields_ofList [1, 2, 3]).integrate)

/-! ## C07 integrate_and_dump -/

theorem C07_integrate_and_dump [RIter ι T] [Add T] [Zero T] {src : ι} {l : List T} (h : Yields src l) {d : ℕ}
    (hd : 0 < d) :
    ∃ out, Yields (integrateAndDump src d) out ∧ out.length = l.length / d ∧
      ∀ i, i < l.length / d → out[i]? = some (((l.drop (i * d)).take d).foldl (· + ·) 0) := by
  refine ⟨_, h.integrateAndDump hd, by simp [Spec.fullBlocks], fun i hi => ?_⟩
  simp [Spec.fullBlocks, hi, rsum]

example : ∃ out, Yields (integrateAndDump (ofList [1, 2, 3, 4, 5, 6, 7]) 3) out ∧ out.length = 2 ∧ out[1]? = some 15 := by
  obtain ⟨out, h1, h2, h3⟩ := C07_integrate_and_dump (yields_ofList [1, 2, 3, 4, 5, 6, 7]) (d := 3) (by decide)
  exact ⟨out, h1, h2, h3 1 (by decide)⟩

theorem C07_nintegrate_and_dump {N : ℕ} [RIter ι (Vector T N)] [Add T] [Zero T] {src : ι} {l : List (Vector T N)}
    (h : Yields src l) {d : ℕ} (hd : 0 < d) :
    ∃ out, Yields (nintegrateAndDump src d) out ∧ out.length = l.length / d ∧
      ∀ (j : ℕ) (hj : j < N), Yields (integrateAndDump (ofList (l.map (·[j]))) d) (out.map (·[j])) := by
  refine ⟨_, h.nintegrateAndDump hd, by simp [Spec.fullBlocks], fun j hj => ?_⟩
  have := (yields_ofList (l.map (·[j]))).integrateAndDump hd
  convert this using 1
  simp only [Spec.fullBlocks, List.map_map, List.length_map]
  apply List.map_congr_left
  intro i _
  simp [Function.comp, rsumV_lane, rsum, List.map_take, List.map_drop]

example : ∃ out, Yields (nintegrateAndDump (ofList [#v[1, 10], #v[2, 20], #v[3, 30]]) 2) out ∧ out.length = 1 ∧
    ∀ (j : ℕ) (hj : j < 2),
      Yields (integrateAndDump (ofList ([#v[1, 10], #v[2, 20], #v[3, 30]].map (·[j]))) 2) (out.map (·[j])) :=
  C07_nintegrate_and_dump (yields_ofList [#v[1, 10], #v[2, 20], #v[3, 30]]) (by decide)

theorem C07_period_zero_never_ends [RIter ι T] [Add T] [Zero T] (src : ι) :
    collect (integrateAndDump src 0) = (RM.diverge : RM (List T)) :=
  collect_of_gives (integrateAndDump_zero_gives src)

theorem C07_nperiod_zero_never_ends {N : ℕ} [RIter ι (Vector T N)] [Add T] [Zero T] (src : ι) :
    collect (nintegrateAndDump src 0) = (RM.diverge : RM (List (Vector T N))) :=
  collect_of_gives (nintegrateAndDump_zero_gives src)

example : collect (integrateAndDump (ofList [1, 2, 3, 4, 5]) 2) = pure [3, 7] := by
  rw [collect_of_yields ((yields_ofList [1, 2, 3, 4, 5]).integrateAndDump (by decide))]; decide

/-! ## C08 convolve -/

section conv
variable {R : Type} [CommSemiring R] [RIter ι R]

/-- What the code computes.  For a signal of `n ≥ 1` items and a filter of `m ≥ 1` taps it emits `n + min n m - 1` items;
the first `n` are the linear convolution with the *time-reversed* filter.  After the end of the signal the buffer only forgets
its oldest item and nothing moves on, so item `n - 1 + t` weighs the newest signal item with the last tap again. -/
theorem C08_convolve_actual {src : ι} {x : List R} (h : Yields src x) (filter : List R) (hx : x ≠ [])
    (hf : filter ≠ []) :
    ∃ out, Yields (convolve src filter) out ∧ out.length = x.length + min x.length filter.length - 1 ∧
      (∀ i, i < x.length → out[i]? = some (Spec.linConvAt x filter.reverse i)) ∧
      ∀ t, 0 < t → t < min x.length filter.length → out[x.length - 1 + t]? =
        some (∑ j ∈ Finset.range (min x.length filter.length - t), x.getD (x.length - 1 - j) 0 * filter.getD (filter.length - 1 - j) 0) := by
  have hx' : 0 < x.length := List.length_pos_iff.mpr hx
  have hf' : 0 < filter.length := List.length_pos_iff.mpr hf
  refine ⟨_, h.convolve filter, by rw [convOut_length]; omega, fun i hi => ?_, fun t ht htm => ?_⟩
  · rw [convOut_eq, List.getElem?_append_left (by simpa using hi)]
    simp [hi]
  · rw [convOut_eq, List.getElem?_append_right (by simp; omega), List.length_map, List.length_range, List.getElem?_map,
      List.getElem?_range (by omega), Option.map_some, convDot_tail _ _ _ (by omega)]
    congr 2
    · congr 1; omega

example : ∃ out, Yields (convolve (ofList [(1 : ℤ), 2, 3]) [(1 : ℤ), 10]) out ∧ out.length = 4 ∧
    out[0]? = some 10 ∧ out[1]? = some 21 ∧ out[2]? = some 32 ∧ out[3]? = some 30 := by
  obtain ⟨out, h1, h2, h3, h4⟩ := C08_convolve_actual (yields_ofList [(1 : ℤ), 2, 3]) [(1 : ℤ), 10] (by decide) (by decide)
  exact ⟨out, h1, h2, (h3 0 (by decide)).trans (by decide), (h3 1 (by decide)).trans (by decide),
    (h3 2 (by decide)).trans (by decide), (h4 1 (by decide) (by decide)).trans (by decide)⟩

/-- The claim holds for a filter with all taps equal that is not longer than the signal (the only kind the tests use).
Missing: every other filter; see `C08_convolve_refuted`. -/
theorem C08_convolve_partial {src : ι} {x : List R} (h : Yields src x) (c : R) (m : ℕ) (hm : 0 < m)
    (hmx : m ≤ x.length) :
    Yields (convolve src (List.replicate m c)) (Spec.linConv x (List.replicate m c)) := by
  have := h.convolve (List.replicate m c)
  rw [convOut_eq] at this
  convert this using 1
  unfold Spec.linConv
  simp only [List.length_replicate, List.reverse_replicate, Nat.min_eq_left hmx]
  rw [show x.length + m - 1 = x.length + (m - 1) by omega, List.range_add, List.map_append, List.map_map]
  congr 1
  apply List.map_congr_left
  intro t ht
  exact (linConvAt_replicate_tail x c m t hmx (by simpa using ht)).symm

/-- A symmetric filter gets at least the first `n` outputs right. -/
theorem C08_convolve_symmetric_partial {src : ι} {x : List R} (h : Yields src x) (filter : List R) (hx : x ≠ [])
    (hf : filter ≠ []) (hsym : filter.reverse = filter) :
    ∃ out, Yields (convolve src filter) out ∧ ∀ i, i < x.length → out[i]? = some (Spec.linConvAt x filter i) := by
  obtain ⟨out, h1, _, h3, _⟩ := C08_convolve_actual h filter hx hf
  rw [hsym] at h3
  exact ⟨out, h1, h3⟩

example : ∃ out, Yields (convolve (ofList [(1 : ℤ), 2, 3]) [(1 : ℤ), 5, 1]) out ∧
    ∀ i, i < 3 → out[i]? = some (Spec.linConvAt [1, 2, 3] [1, 5, 1] i) :=
  C08_convolve_symmetric_partial (yields_ofList [(1 : ℤ), 2, 3]) [(1 : ℤ), 5, 1] (by decide) (by decide) (by decide)

end conv

/-- Negation of the claim: convolving `[1, 0]` with `[1, 2]` gives `[2, 1, 0]` instead of `[1, 2, 0]`. -/
theorem C08_convolve_refuted :
    ¬ ∀ (x h : List ℤ), x ≠ [] → h ≠ [] → Yields (convolve (ofList x) h) (Spec.linConv x h) := by
  intro H
  have h1 := H [1, 0] [1, 2] (by simp) (by simp)
  have h2 := h1.unique ((yields_ofList [(1 : ℤ), 0]).convolve [1, 2])
  revert h2
  rw [convOut_eq]
  decide

/-- Even a constant filter fails when it is longer than the signal: the output is too short. -/
theorem C08_convolve_short_refuted :
    ¬ Yields (convolve (ofList [(1 : ℤ)]) [(1 : ℤ), 1]) (Spec.linConv [1] [1, 1]) := by
  intro h1
  have h2 := h1.unique ((yields_ofList [(1 : ℤ)]).convolve [1, 1])
  revert h2
  rw [convOut_eq]
  decide

example : Yields (convolve (ofList [(1 : ℤ), 2, 3]) [(1 : ℤ), 1]) [1, 3, 5, 3] := by
  have := C08_convolve_partial (yields_ofList [(1 : ℤ), 2, 3]) 1 2 (by decide) (by decide)
  rwa [show Spec.linConv [(1 : ℤ), 2, 3] (List.replicate 2 1) = [1, 3, 5, 3] by decide] at this

/-! ## C09 nonvolve -/

theorem C09_nonvolve {N : ℕ} [RIter ι (Vector T N)] [Zero T] [Add T] [Mul T] {src : ι} {l : List (Vector T N)}
    (h : Yields src l) (filter : List T) :
    ∃ out, Yields (nonvolve src filter) out ∧
      ∀ (j : ℕ) (hj : j < N), Yields (convolve (ofList (l.map (·[j]))) filter) (out.map (·[j])) := by
  refine ⟨_, h.nonvolve filter, fun j hj => ?_⟩
  have := (yields_ofList (l.map (·[j]))).convolve filter
  convert this using 1
  exact convRun_map (fun v : Vector T N => v[j]) (fun v : Vector T N => v[j]) _ _ _ (fun b => nonvDot_lane filter b j hj) [] l

example : ∃ out, Yields (nonvolve (ofList [#v[(1 : ℤ), 5], #v[2, 6]]) [(1 : ℤ), 1]) out ∧
    ∀ (j : ℕ) (hj : j < 2), Yields (convolve (ofList ([#v[(1 : ℤ), 5], #v[2, 6]].map (·[j]))) [(1 : ℤ), 1]) (out.map (·[j])) :=
  C09_nonvolve (yields_ofList _) _

/-! ## C10 take_every -/

/-- The `n`-th output is source item `n * f`, for every source (finite, infinite, even not fused). -/
theorem C10_take_every [RIter ι T] {src : ι} {h : ℕ → Option T} (hs : Beh src h) {f : ℕ} (hf : 0 < f) :
    Beh (takeEvery src f) (fun n => h (n * f)) := hs.takeEvery hf

/-- An endless source. -/
example : Beh (takeEvery (RangeFrom.mk 3) 5) (fun n => some (3 + n * 5)) :=
  C10_take_every (gives_rangeFrom 3) (by decide)

/-- The documented equivalence with `enumerate().filter_map(idx % f == 0)`. -/
theorem C10_take_every_doc [RIter ι T] {src : ι} {l : List T} (hs : Yields src l) {f : ℕ} (hf : 0 < f) :
    Yields (takeEvery src f) ((l.zipIdx.filter (fun p => p.2 % f = 0)).map (·.1)) := by
  refine Beh.congr (fun n => ?_) (Beh.takeEvery hs hf)
  symm
  -- dropping the first `j` items of a list whose indices start at `i`
  have key : ∀ (l : List T) (i m n : ℕ), (i + m) % f = 0 → (∀ t, t < m → (i + t) % f ≠ 0) →
      ((l.zipIdx i).filter (fun p => p.2 % f = 0))[n]?.map (·.1) = l[m + n * f]? := by
    intro l
    induction l with
    | nil => simp
    | cons a l ih =>
      intro i m n hm hlt
      cases m with
      | zero =>
        rw [List.zipIdx_cons, List.filter_cons_of_pos (by simpa using hm)]
        cases n with
        | zero => simp
        | succ n =>
          rw [List.getElem?_cons_succ, ih (i + 1) (f - 1) n]
          · rw [show 0 + (n + 1) * f = (f - 1 + n * f) + 1 by rw [Nat.add_mul]; omega, List.getElem?_cons_succ]
          · rw [show i + 1 + (f - 1) = i + f by omega]; simpa using hm
          · intro t ht
            obtain ⟨q, hq⟩ := Nat.dvd_of_mod_eq_zero (by simpa using hm : i % f = 0)
            rw [hq, Nat.add_assoc, Nat.mul_add_mod, Nat.mod_eq_of_lt (by omega)]; omega
      | succ m =>
        rw [List.zipIdx_cons, List.filter_cons_of_neg (by simpa using hlt 0 (by omega)), ih (i + 1) m n]
        · rw [show m + 1 + n * f = (m + n * f) + 1 by omega, List.getElem?_cons_succ]
        · rw [← hm]; congr 1; omega
        · intro t ht
          have := hlt (t + 1) (by omega)
          rwa [show i + 1 + t = i + (t + 1) by omega]
  have := key l 0 0 n (by simp) (by simp)
  simpa using this

theorem C10_take_every_zero_panics [RIter ι T] (src : ι) :
    collect (takeEvery src 0) = (RM.panic .arith : RM (List T)) := by
  unfold collect
  simp only [next, takeEvery]
  unfold TakeEvery.nextLoop
  simp

example : collect (takeEvery (ofList [10, 11, 12, 13, 14]) 2) = pure [10, 12, 14] := by
  rw [collect_of_yields (C10_take_every_doc (yields_ofList [10, 11, 12, 13, 14]) (f := 2) (by decide))]; decide

/-! ## C11 scale -/

theorem C11_scale {S : Type} [RIter ι T] [HMul T S T] {src : ι} {l : List T} (h : Yields src l) (k : S) :
    ∃ out : List T, Yields (scale src k) out ∧ out.length = l.length ∧ ∀ i : ℕ, out[i]? = l[i]?.map (· * k) :=
  ⟨_, h.scale k, by simp, by simp⟩

example : collect (scale (ofList [1, 2, 3]) (5 : ℕ)) = pure [5, 10, 15] :=
  collect_of_yields ((yields_ofList [1, 2, 3]).scale 5)

end Verif.Props
