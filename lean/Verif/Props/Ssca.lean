import Verif.Lemmas.SscaMap

/-! C58, C59, C60: the strip spectral correlation analyser and the detectors built on it. -/
namespace Verif.Props
open Verif Spec
set_option linter.unusedSectionVars false

section anyF
variable {F : Type} [Add F] [Sub F] [Mul F] [Div F] [Neg F] [Zero F] [One F] [Flt F] [Fft F]

/-! ## C58 -/

/-- `ssca_base` panics exactly when `n ≤ np` or the signal is shorter than `n + np - 1` (any arithmetic, any transform). -/
theorem C58_guard (s : List F) (n np : ℕ) : (sscaBase s n np).Panics ↔ n ≤ np ∨ s.length < n + np - 1 := by
  constructor
  · intro h
    by_contra h2
    rw [sscaBase_ok (by omega) (by omega)] at h
    exact RM.not_panics_ok _ h
  · intro h
    exact sscaBase_panics (by omega)

/-- Otherwise the result has `n` rows of `np` entries. -/
theorem C58_shape {s : List F} {n np : ℕ} (h1 : np < n) (h2 : n + np - 1 ≤ s.length) :
    ∃ M, sscaBase s n np = pure M ∧ M.length = n ∧ ∀ r ∈ M, r.length = np := by
  refine ⟨_, sscaBase_ok h1 (by omega), by simp, fun r hr => ?_⟩
  obtain ⟨q, _, rfl⟩ := List.mem_map.mp hr
  simp

example (x : F) : ∃ M, sscaBase (List.replicate 5 x) 4 2 = pure M ∧ M.length = 4 ∧ ∀ r ∈ M, r.length = 2 :=
  C58_shape (by decide) (by simp)

example (x : F) : (sscaBase (List.replicate 4 x) 4 2).Panics := (C58_guard _ _ _).mpr (.inr (by simp))

end anyF

/-- For even sizes the entries are the textbook strip spectral correlation (exact arithmetic). -/
theorem C58_formula {s : List ℝ} {n np : ℕ} (h1 : np < n) (h2 : n + np - 1 ≤ s.length) (hn : n % 2 = 0) (hnp : np % 2 = 0) :
    ∃ M : Mat ℝ, sscaBase s n np = pure M ∧ ∀ q k, q < n → k < np →
      ∃ row, M[q]? = some row ∧ ∃ z, row[k]? = some z ∧
        (⟨z.re, z.im⟩ : ℂ) = ssca (fun i => s.getD i 0) n np q k := by
  refine ⟨_, sscaBase_ok h1 (by omega), fun q k hq hk => ⟨(List.range np).map (sscaVal s n np q), by simp [hq], _, by
    simp only [List.getElem?_map, List.getElem?_range hk, Option.map_some], sscaVal_spec s hq hk hn hnp⟩⟩

example : ∃ M : Mat ℝ, sscaBase [1, 0, 2, 0, 3] 4 2 = pure M ∧ ∀ q k, q < 4 → k < 2 →
      ∃ row, M[q]? = some row ∧ ∃ z, row[k]? = some z ∧
        (⟨z.re, z.im⟩ : ℂ) = ssca (fun i => ([1, 0, 2, 0, 3] : List ℝ).getD i 0) 4 2 q k :=
  C58_formula (by decide) (by simp) (by decide) (by decide)

/-- Scaling the signal by `c` scales every entry by `c²`, for all sizes. -/
theorem C58_scale {s : List ℝ} (c : ℝ) {n np : ℕ} (h1 : np < n) (h2 : n + np - 1 ≤ s.length) :
    ∃ M : Mat ℝ, sscaBase s n np = pure M ∧
      sscaBase (s.map (fun x => c * x)) n np
        = pure (M.map (fun r => r.map (fun z => (⟨c ^ 2 * z.re, c ^ 2 * z.im⟩ : Cx ℝ)))) := by
  refine ⟨_, sscaBase_ok h1 (by omega), ?_⟩
  rw [sscaBase_ok h1 (by rw [List.length_map]; omega), List.map_map]
  refine congrArg pure (List.map_congr_left fun q hq => ?_)
  simp only [Function.comp, List.map_map]
  exact List.map_congr_left fun k hk => sscaVal_scale s c (List.mem_range.mp hq) (List.mem_range.mp hk)

example : ∃ M : Mat ℝ, sscaBase [1, 2, 3, 4, 5] 4 2 = pure M ∧
    sscaBase ([1, 2, 3, 4, 5].map (fun x => 3 * x)) 4 2
      = pure (M.map (fun r => r.map (fun z => (⟨3 ^ 2 * z.re, 3 ^ 2 * z.im⟩ : Cx ℝ)))) :=
  C58_scale 3 (by decide) (by simp)

/-! ## C59 -/

/-- `ssca_mapped` never writes outside its `(np+1) × (2n+1)` array (exact arithmetic); it panics only if `ssca_base` does. -/
theorem C59_in_range {s : List ℝ} {n np : ℕ} (h1 : np < n) (h2 : n + np - 1 ≤ s.length) (h64 : 2 * n < 2 ^ 64) :
    ∃ M : Mat ℝ, sscaMapped s n np = pure M ∧ M.length = np + 1 ∧ ∀ r ∈ M, r.length = 2 * n + 1 := by
  refine ⟨_, sscaMapped_ok h1 (by omega) (sscaPos_range h64 h1), matOf_length _ _ _, fun r hr => ?_⟩
  obtain ⟨q, _, rfl⟩ := List.mem_map.mp hr
  simp

example : ∃ M : Mat ℝ, sscaMapped [1, 2, 3, 4, 5] 4 2 = pure M ∧ M.length = 3 ∧ ∀ r ∈ M, r.length = 9 :=
  C59_in_range (by decide) (by simp) (by decide)

/-- When `np` divides `n`, entry `(q, k)` of the unmapped spectrum is found in row `⌊(k + np - np·q/n)/2⌋` and column
`n/np·k + q`, and all other cells are zero: no entry is overwritten. -/
theorem C59_placed {s : List ℝ} {n np : ℕ} (h1 : np < n) (h2 : n + np - 1 ≤ s.length) (h64 : 2 * n < 2 ^ 64)
    (hd : np ∣ n) :
    ∃ S M : Mat ℝ, sscaBase s n np = pure S ∧ sscaMapped s n np = pure M ∧
      (∀ q k, q < n → k < np → ∃ z, S[q]?.bind (fun r => r[k]?) = some z ∧
        M[(n * (k + np) - np * q) / (2 * n)]?.bind (fun r => r[n / np * k + q]?) = some z) ∧
      (∀ r c, r ≤ np → c ≤ 2 * n →
        (∀ q k, q < n → k < np → ¬ (r = (n * (k + np) - np * q) / (2 * n) ∧ c = n / np * k + q)) →
        M[r]?.bind (fun r => r[c]?) = some 0) := by
  have hcol : ∀ k, n * k / np = n / np * k := by
    intro k
    obtain ⟨r, rfl⟩ := hd
    rcases Nat.eq_zero_or_pos np with h | h
    · subst h; simp
    · rw [Nat.mul_assoc, Nat.mul_div_cancel_left _ h, Nat.mul_div_cancel_left _ h]
  refine ⟨_, _, sscaBase_ok h1 (by omega), sscaMapped_ok h1 (by omega) (sscaPos_range h64 h1), ?_, ?_⟩
  · intro q k hq hk
    refine ⟨sscaVal s n np q k, by simp [hq, hk], ?_⟩
    have hp : (q, k) ∈ sscaPairs n np := mem_sscaPairs.mpr ⟨hq, hk⟩
    have hv := foldl_update_of_inj (sscaPos ℝ n np) (fun p => sscaVal s n np p.1 p.2) hp (fun p hp' e => by
      obtain ⟨a, b⟩ := mem_sscaPairs.mp hp'
      exact sscaPos_inj h64 h1 hd a b hq hk e) (fun _ => 0)
    have hpos : sscaPos ℝ n np (q, k) = ((n * (k + np) - np * q) / (2 * n), n / np * k + q) := by
      unfold sscaPos
      rw [mappedRow_real hq hk (by omega), mappedCol_real hq hk h64, hcol]
    have hrange := sscaPos_range h64 h1 (q, k) hq hk
    rw [hpos] at hv hrange
    simp only at hrange
    rw [matOf, List.getElem?_map, List.getElem?_range hrange.1, Option.map_some, Option.bind_some, List.getElem?_map,
      List.getElem?_range hrange.2, Option.map_some, hv]
  · intro r c hr hc hno
    have hv := foldl_update_of_not (sscaPos ℝ n np) (fun p => sscaVal s n np p.1 p.2) (l := sscaPairs n np) (x := (r, c))
      (fun p hp e => by
        obtain ⟨a, b⟩ := mem_sscaPairs.mp hp
        refine hno p.1 p.2 a b ?_
        unfold sscaPos at e
        rw [mappedRow_real a b (by omega), mappedCol_real a b h64, hcol] at e
        simp only [Prod.mk.injEq] at e
        exact ⟨e.1.symm, e.2.symm⟩) (fun _ => 0)
    rw [matOf, List.getElem?_map, List.getElem?_range (by omega), Option.map_some, Option.bind_some, List.getElem?_map,
      List.getElem?_range (by omega), Option.map_some, hv]

example : ∃ S M : Mat ℝ, sscaBase [1, 2, 3, 4, 5] 4 2 = pure S ∧ sscaMapped [1, 2, 3, 4, 5] 4 2 = pure M ∧
    (∀ q k, q < 4 → k < 2 → ∃ z, S[q]?.bind (fun r => r[k]?) = some z ∧
      M[(4 * (k + 2) - 2 * q) / (2 * 4)]?.bind (fun r => r[4 / 2 * k + q]?) = some z) := by
  obtain ⟨S, M, h1, h2, h3, _⟩ := C59_placed (s := [1, 2, 3, 4, 5]) (n := 4) (np := 2) (by decide) (by simp) (by decide)
    ⟨2, rfl⟩
  exact ⟨S, M, h1, h2, h3⟩

/-- The divisibility is needed: for `n = 6`, `np = 4` the entries `(2, 3)` and `(3, 2)` belong to the same cell (row 2, column
6), and the second replaces the first. -/
theorem C59_collision {s : List ℝ} (h : 9 ≤ s.length) :
    (6 * (3 + 4) - 4 * 2) / (2 * 6) = 2 ∧ 6 * 3 / 4 + 2 = 6 ∧
    ∃ S M : Mat ℝ, sscaBase s 6 4 = pure S ∧ sscaMapped s 6 4 = pure M ∧
      ∃ z, S[3]?.bind (fun r => r[2]?) = some z ∧ M[2]?.bind (fun r => r[6]?) = some z := by
  refine ⟨by decide, by decide, _, _, sscaBase_ok (by decide) (by omega),
    sscaMapped_ok (by decide) (by omega) (sscaPos_range (by decide) (by decide)), sscaVal s 6 4 3 2, by simp, ?_⟩
  have hpos : ∀ p : ℕ × ℕ, p.1 < 6 → p.2 < 4 →
      sscaPos ℝ 6 4 p = ((6 * (p.2 + 4) - 4 * p.1) / (2 * 6), 6 * p.2 / 4 + p.1) := fun p h1 h2 => by
    unfold sscaPos
    rw [mappedRow_real h1 h2 (by decide), mappedCol_real h1 h2 (by decide)]
  have hsplit : sscaPairs 6 4 = (sscaPairs 6 4).take 14 ++ (3, 2) :: (sscaPairs 6 4).drop 15 := by decide
  have hv : ((sscaPairs 6 4).foldl (fun (g : ℕ × ℕ → Cx ℝ) p => Function.update g (sscaPos ℝ 6 4 p) (sscaVal s 6 4 p.1 p.2)) (fun _ => (0 : Cx ℝ)))
      (2, 6) = sscaVal s 6 4 3 2 := by
    rw [hsplit, List.foldl_append, List.foldl_cons, foldl_update_of_not (sscaPos ℝ 6 4) (fun p => sscaVal s 6 4 p.1 p.2)
      (l := (sscaPairs 6 4).drop 15) (x := (2, 6))]
    · rw [hpos (3, 2) (by decide) (by decide)]
      exact Function.update_self ..
    · intro p hp
      obtain ⟨a, b⟩ := mem_sscaPairs.mp (List.mem_of_mem_drop hp)
      rw [hpos p a b]
      revert p
      decide
  rw [matOf, List.getElem?_map, List.getElem?_range (by decide), Option.map_some, Option.bind_some, List.getElem?_map,
    List.getElem?_range (by decide), Option.map_some, hv]

/-! ## C60 -/

/-- The squared magnitude. -/
theorem normSq_real (z : Cx ℝ) : Cx.normSq z = z.re ^ 2 + z.im ^ 2 := by unfold Cx.normSq; ring

/-- `max_cut_detector_sxf`: `10·log10` of the largest squared magnitude. -/
theorem C60_max_cut {S : Mat ℝ} (h : S.flatten ≠ []) :
    ∃ L : ℝ, maxCutSxf S = pure (10 * Real.logb 10 L) ∧ (∃ z ∈ S.flatten, L = z.re ^ 2 + z.im ^ 2) ∧
      ∀ z ∈ S.flatten, z.re ^ 2 + z.im ^ 2 ≤ L := by
  unfold maxCutSxf
  obtain ⟨z, l, hzl⟩ := List.exists_cons_of_ne_nil h
  rw [hzl, List.map_cons]
  obtain ⟨L, h1, h2, h3⟩ := maxBy_real (Cx.normSq z) (l.map Cx.normSq)
  rw [h1, pure_bind]
  refine ⟨L, by simp [unwrapO], ?_, ?_⟩
  · rw [← List.map_cons] at h2
    obtain ⟨w, hw, e⟩ := List.mem_map.mp h2
    exact ⟨w, hw, by rw [← e, normSq_real]⟩
  · intro w hw
    rw [← normSq_real]
    exact h3 _ (by rw [← List.map_cons]; exact List.mem_map_of_mem hw)

example : ∃ L : ℝ, maxCutSxf ([[⟨3, 4⟩, ⟨1, 0⟩]] : Mat ℝ) = pure (10 * Real.logb 10 L) ∧ L = 25 := by
  obtain ⟨L, h1, ⟨z, hz, h2⟩, h3⟩ := C60_max_cut (S := [[⟨3, 4⟩, ⟨1, 0⟩]]) (by simp)
  refine ⟨L, h1, ?_⟩
  have := h3 ⟨3, 4⟩ (by simp)
  simp only [List.flatten_cons, List.flatten_nil, List.append_nil, List.mem_cons, List.not_mem_nil, or_false] at hz
  rcases hz with rfl | rfl <;> norm_num at h2 this <;> linarith

theorem columnEnergy_real {c : ℕ} (S : Mat ℝ) (h : ∀ r ∈ S, r.length = c) (acc : List ℝ) (ha : acc.length = c) :
    S.foldl (fun acc r => List.zipWith (· + ·) acc (r.map Cx.normSq)) acc
      = (List.range c).map (fun j => acc.getD j 0 + (S.map (fun r => Cx.normSq (r.getD j 0))).sum) := by
  induction S generalizing acc with
  | nil => simpa using list_eq_map_getD ha 0
  | cons r S ih =>
    have hr := h r (by simp)
    rw [List.foldl_cons, ih (fun q hq => h q (by simp [hq])) _ (by simp [ha, hr])]
    refine List.map_congr_left fun j hj => ?_
    have hj := List.mem_range.mp hj
    have : (List.zipWith (· + ·) acc (r.map Cx.normSq)).getD j 0 = acc.getD j 0 + Cx.normSq (r.getD j 0) := by
      have h1 : j < acc.length := by omega
      have h2 : j < r.length := by omega
      simp [List.getD, h1, h2]
    rw [this, List.map_cons, List.sum_cons, add_assoc]

/-- `dcs_detector_sxf`: `10·log10` of the largest quotient of the energy of a column and the energy of its first entry, if no
entry of the first row is zero. -/
theorem C60_dcs_partial {S : Mat ℝ} {r0 : List (Cx ℝ)} {c : ℕ} (h0 : S[0]? = some r0) (hS : ∀ r ∈ S, r.length = c)
    (hc : 0 < c) (_hz : ∀ z ∈ r0, z ≠ 0) :
    ∃ L : ℝ, dcsSxf S = pure (10 * Real.logb 10 L) ∧
      (∃ j < c, L = (S.map (fun r => (r.getD j 0).re ^ 2 + (r.getD j 0).im ^ 2)).sum
        / ((r0.getD j 0).re ^ 2 + (r0.getD j 0).im ^ 2)) ∧
      ∀ j < c, (S.map (fun r => (r.getD j 0).re ^ 2 + (r.getD j 0).im ^ 2)).sum
        / ((r0.getD j 0).re ^ 2 + (r0.getD j 0).im ^ 2) ≤ L := by
  have hr0 : r0.length = c := hS r0 (List.mem_of_getElem? h0)
  unfold dcsSxf
  have hi : index S 0 = pure r0 := by
    have hl : 0 < S.length := by
      by_contra h
      rw [List.getElem?_eq_none (by omega)] at h0
      simp at h0
    rw [index_lt hl]
    rw [List.getElem?_eq_getElem hl, Option.some.injEq] at h0
    rw [h0]
  rw [hi, pure_bind]
  simp only []
  have hl : List.zipWith (· / ·) (columnEnergy r0.length S) (r0.map Cx.normSq)
      = (List.range c).map (fun j => (S.map (fun r => (r.getD j 0).re ^ 2 + (r.getD j 0).im ^ 2)).sum
        / ((r0.getD j 0).re ^ 2 + (r0.getD j 0).im ^ 2)) := by
    rw [columnEnergy, hr0, columnEnergy_real S hS _ (by simp), list_eq_map_getD (l := r0.map Cx.normSq) (n := c) (by simp [hr0]) 0,
      List.zipWith_map, List.zipWith_self]
    refine List.map_congr_left fun j hj => ?_
    have hj := List.mem_range.mp hj
    have h2 : j < r0.length := by omega
    congr 1
    · simp only [normSq_real]
      simp [List.getD, hj]
    · rw [← normSq_real]; simp [List.getD, h2]
  rw [hl]
  obtain ⟨c', rfl⟩ : ∃ c', c = c' + 1 := ⟨c - 1, by omega⟩
  rw [List.range_succ_eq_map, List.map_cons]
  obtain ⟨L, h1, h2, h3⟩ := maxBy_real ((S.map (fun r => (r.getD 0 0).re ^ 2 + (r.getD 0 0).im ^ 2)).sum
        / ((r0.getD 0 0).re ^ 2 + (r0.getD 0 0).im ^ 2)) (((List.range c').map Nat.succ).map (fun j => (S.map (fun r => (r.getD j 0).re ^ 2 + (r.getD j 0).im ^ 2)).sum
        / ((r0.getD j 0).re ^ 2 + (r0.getD j 0).im ^ 2)))
  rw [h1, pure_bind]
  rw [← List.map_cons (f := fun j => (S.map (fun r => (r.getD j 0).re ^ 2 + (r.getD j 0).im ^ 2)).sum
        / ((r0.getD j 0).re ^ 2 + (r0.getD j 0).im ^ 2)), ← List.range_succ_eq_map] at h2 h3
  refine ⟨L, by simp [unwrapO], ?_, ?_⟩
  · obtain ⟨j, hj, e⟩ := List.mem_map.mp h2
    exact ⟨j, List.mem_range.mp hj, e.symm⟩
  · intro j hj
    exact h3 _ (List.mem_map.mpr ⟨j, List.mem_range.mpr hj, rfl⟩)

example : ∃ L : ℝ, dcsSxf ([[⟨1, 0⟩, ⟨2, 0⟩], [⟨0, 3⟩, ⟨2, 0⟩]] : Mat ℝ) = pure (10 * Real.logb 10 L) ∧ L = 10 := by
  obtain ⟨L, h1, ⟨j, hj, h2⟩, h3⟩ := C60_dcs_partial (S := [[⟨1, 0⟩, ⟨2, 0⟩], [⟨0, 3⟩, ⟨2, 0⟩]]) (c := 2) rfl (by simp)
    (by decide) (by
      intro z hz
      simp only [List.mem_cons, List.not_mem_nil, or_false] at hz
      rcases hz with rfl | rfl <;> (intro h; have := congrArg Cx.re h; norm_num at this))
  refine ⟨L, h1, ?_⟩
  have := h3 0 (by decide)
  have hj : j = 0 ∨ j = 1 := by omega
  rcases hj with rfl | rfl <;> norm_num at h2 this <;> linarith

theorem dcsSxf_silence {F : Type} [Add F] [Sub F] [Mul F] [Div F] [Neg F] [Zero F] [One F] [Flt F]
    (hn : Cx.normSq (0 : Cx F) = 0) (h0 : (0 : F) + 0 = 0) (hp : maxStep ((0 : F) / 0) (0 / 0) = RM.panic .unwrap) (r c : ℕ) :
    (dcsSxf (List.replicate (r + 1) (List.replicate (c + 2) (0 : Cx F)))).Panics := by
  have hcol : ∀ r m, (List.replicate r (List.replicate m (0 : Cx F))).foldl
      (fun acc r => List.zipWith (· + ·) acc (r.map Cx.normSq)) (List.replicate m (0 : F)) = List.replicate m 0 := by
    intro r m
    induction r with
    | zero => rfl
    | succ r ih =>
      rw [List.replicate_succ, List.foldl_cons, List.map_replicate, hn, List.zipWith_replicate, min_self, h0, ih]
  unfold dcsSxf columnEnergy
  rw [List.replicate_succ, index_lt (by simp), pure_bind]
  simp only [List.getElem_cons_zero, List.length_replicate]
  rw [← List.replicate_succ, hcol, List.map_replicate, hn, List.zipWith_replicate, min_self]
  have : maxBy (List.replicate (c + 2) ((0 : F) / 0)) = RM.panic .unwrap := by
    rw [List.replicate_succ, maxBy, List.replicate_succ, List.foldlM_cons, hp]
    rfl
  rw [this]
  exact ⟨_, rfl⟩

/-- Not every spectrum has a value: in IEEE arithmetic the silent spectrum (all entries zero, at least two columns) makes
`dcs_detector_sxf` panic, because `0/0` is not a number and numbers that are not comparable cannot be ordered. -/
theorem C60_dcs_silence (r c : ℕ) :
    (dcsSxf (List.replicate (r + 1) (List.replicate (c + 2) (0 : Cx Float)))).Panics :=
  dcsSxf_silence (by decide +kernel) (by decide +kernel) (by decide +kernel) r c

/-! ### The detectors on signals, and the Python entry point -/

/-- `max_cut_detector` analyses the signal with 4096 x 64 points. It panics on fewer than 4159 samples; otherwise it gives
10·log10 of the largest squared magnitude of the strip spectrum. -/
theorem C60_max_cut_signal (s : List ℝ) : ((maxCutDetector s).Panics ↔ s.length < 4159) ∧
    (4159 ≤ s.length → ∃ L : ℝ, maxCutDetector s = pure (10 * Real.logb 10 L) ∧
      (∃ q k, q < 4096 ∧ k < 64 ∧ L = Complex.normSq (ssca (fun i => s.getD i 0) 4096 64 q k)) ∧
      ∀ q k, q < 4096 → k < 64 → Complex.normSq (ssca (fun i => s.getD i 0) 4096 64 q k) ≤ L) := by
  have key : 4159 ≤ s.length → ∃ L : ℝ, maxCutDetector s = pure (10 * Real.logb 10 L) ∧
      (∃ q k, q < 4096 ∧ k < 64 ∧ L = Complex.normSq (ssca (fun i => s.getD i 0) 4096 64 q k)) ∧
      ∀ q k, q < 4096 → k < 64 → Complex.normSq (ssca (fun i => s.getD i 0) 4096 64 q k) ≤ L := by
    intro h
    obtain ⟨M, h1, h2, h3⟩ := C58_shape (s := s) (n := 4096) (np := 64) (by decide) (by omega)
    obtain ⟨M', h1', h4⟩ := C58_formula (s := s) (n := 4096) (np := 64) (by decide) (by omega) (by decide) (by decide)
    rw [h1, RM.ok_inj] at h1'
    subst h1'
    have hn : ∀ q k row z, q < 4096 → k < 64 → M[q]? = some row → row[k]? = some z →
        z.re ^ 2 + z.im ^ 2 = Complex.normSq (ssca (fun i => s.getD i 0) 4096 64 q k) := by
      intro q k row z hq hk hr hz
      obtain ⟨row', e1, z', e2, e3⟩ := h4 q k hq hk
      rw [hr, Option.some.injEq] at e1
      subst e1
      rw [hz, Option.some.injEq] at e2
      subst e2
      rw [← e3, Complex.normSq_apply]; ring
    have hmem : ∀ q k, q < 4096 → k < 64 → ∃ z ∈ M.flatten,
        z.re ^ 2 + z.im ^ 2 = Complex.normSq (ssca (fun i => s.getD i 0) 4096 64 q k) := by
      intro q k hq hk
      obtain ⟨row, e1, z, e2, -⟩ := h4 q k hq hk
      exact ⟨z, List.mem_flatten.mpr ⟨row, List.mem_of_getElem? e1, List.mem_of_getElem? e2⟩, hn q k row z hq hk e1 e2⟩
    obtain ⟨z0, hz0, -⟩ := hmem 0 0 (by decide) (by decide)
    obtain ⟨L, a1, ⟨z, hz, a2⟩, a3⟩ := C60_max_cut (S := M) (List.ne_nil_of_mem hz0)
    refine ⟨L, by rw [maxCutDetector, h1, pure_bind, a1], ?_, ?_⟩
    · obtain ⟨row, hr, hzr⟩ := List.mem_flatten.mp hz
      obtain ⟨q, hq, e1⟩ := List.mem_iff_getElem.mp hr
      obtain ⟨k, hk, e2⟩ := List.mem_iff_getElem.mp hzr
      have hk' : k < 64 := by rw [← h3 row hr]; exact hk
      rw [h2] at hq
      refine ⟨q, k, hq, hk', ?_⟩
      rw [a2]
      exact hn q k row z hq hk' (by rw [← e1]; exact List.getElem?_eq_getElem _) (by rw [← e2]; exact List.getElem?_eq_getElem _)
    · intro q k hq hk
      obtain ⟨w, hw, e⟩ := hmem q k hq hk
      rw [← e]; exact a3 w hw
  refine ⟨⟨fun hp => ?_, fun h => ?_⟩, key⟩
  · by_contra h
    obtain ⟨L, e, -⟩ := key (by omega)
    rw [e] at hp
    exact RM.not_panics_ok _ hp
  · obtain ⟨e, he⟩ := (C58_guard s 4096 64).mpr (.inr (by omega))
    exact ⟨e, by rw [maxCutDetector, he]; rfl⟩

/-- `dcs_detector` likewise: fewer than 4159 samples panic; if no entry of the first row of the strip spectrum vanishes, the
value is 10·log10 of the largest ratio of the energy of a column to the energy of its first entry. -/
theorem C60_dcs_signal_partial (s : List ℝ) : (s.length < 4159 → (dcsDetector s).Panics) ∧
    (4159 ≤ s.length → (∀ k < 64, ssca (fun i => s.getD i 0) 4096 64 0 k ≠ 0) →
      ∃ L : ℝ, dcsDetector s = pure (10 * Real.logb 10 L) ∧
      (∃ k < 64, L = (∑ q ∈ Finset.range 4096, Complex.normSq (ssca (fun i => s.getD i 0) 4096 64 q k))
        / Complex.normSq (ssca (fun i => s.getD i 0) 4096 64 0 k)) ∧
      ∀ k < 64, (∑ q ∈ Finset.range 4096, Complex.normSq (ssca (fun i => s.getD i 0) 4096 64 q k))
        / Complex.normSq (ssca (fun i => s.getD i 0) 4096 64 0 k) ≤ L) := by
  refine ⟨fun h => ?_, fun h hz => ?_⟩
  · obtain ⟨e, he⟩ := (C58_guard s 4096 64).mpr (.inr (by omega))
    exact ⟨e, by rw [dcsDetector, he]; rfl⟩
  · obtain ⟨M, h1, h2, h3⟩ := C58_shape (s := s) (n := 4096) (np := 64) (by decide) (by omega)
    obtain ⟨M', h1', h4⟩ := C58_formula (s := s) (n := 4096) (np := 64) (by decide) (by omega) (by decide) (by decide)
    rw [h1, RM.ok_inj] at h1'
    subst h1'
    have hn : ∀ q k row, q < 4096 → k < 64 → M[q]? = some row →
        (row.getD k 0).re ^ 2 + (row.getD k 0).im ^ 2 = Complex.normSq (ssca (fun i => s.getD i 0) 4096 64 q k) := by
      intro q k row hq hk hr
      obtain ⟨row', e1, z', e2, e3⟩ := h4 q k hq hk
      rw [hr, Option.some.injEq] at e1
      subst e1
      rw [List.getD_eq_getElem?_getD, e2, Option.getD_some, ← e3, Complex.normSq_apply]; ring
    obtain ⟨r0, e0, -⟩ := h4 0 0 (by decide) (by decide)
    have hcol : ∀ k < 64, (M.map (fun r => (r.getD k 0).re ^ 2 + (r.getD k 0).im ^ 2)).sum
        = ∑ q ∈ Finset.range 4096, Complex.normSq (ssca (fun i => s.getD i 0) 4096 64 q k) := by
      intro k hk
      have hM : M.map (fun r => (r.getD k 0).re ^ 2 + (r.getD k 0).im ^ 2)
          = (List.range 4096).map (fun q => Complex.normSq (ssca (fun i => s.getD i 0) 4096 64 q k)) := by
        apply List.ext_getElem?
        intro q
        rw [List.getElem?_map, List.getElem?_map]
        by_cases hq : q < 4096
        · obtain ⟨row, e1, -⟩ := h4 q k hq hk
          rw [e1, List.getElem?_range hq, Option.map_some, Option.map_some, hn q k row hq hk e1]
        · rw [List.getElem?_eq_none (show List.length M ≤ q by omega),
            List.getElem?_eq_none (show (List.range 4096).length ≤ q by rw [List.length_range]; omega)]; rfl
      rw [hM, ← List.sum_toFinset _ List.nodup_range]
      refine Finset.sum_congr ?_ fun _ _ => rfl
      ext q
      rw [List.mem_toFinset, List.mem_range, Finset.mem_range]
    have hr0 : r0.length = 64 := h3 r0 (List.mem_of_getElem? e0)
    obtain ⟨L, a1, ⟨j, hj, a2⟩, a3⟩ := C60_dcs_partial (S := M) e0 h3 (by decide) (by
      intro z hzm hz0
      obtain ⟨k, hk, e2⟩ := List.mem_iff_getElem.mp hzm
      have hk' : k < 64 := by omega
      have := hn 0 k r0 (by decide) hk' e0
      rw [List.getD_eq_getElem?_getD, List.getElem?_eq_getElem hk, Option.getD_some, e2, hz0] at this
      apply hz k hk'
      apply Complex.normSq_eq_zero.mp
      rw [← this]
      show (0 : ℝ) ^ 2 + (0 : ℝ) ^ 2 = 0
      norm_num)
    refine ⟨L, by rw [dcsDetector, h1, pure_bind, a1], ⟨j, hj, ?_⟩, fun k hk => ?_⟩
    · rw [a2, hcol j hj, hn 0 j r0 (by decide) hj e0]
    · have := a3 k hk
      rwa [hcol k hk, hn 0 k r0 (by decide) hk e0] at this

/-- The Python entry point: `map_output = False` gives the strip spectrum with `n` rows of `np` entries of C58, `True` the
`np + 1` rows of `2n + 1` cells of C59. -/
theorem C58_py {s : List ℝ} {n np : ℕ} (h1 : np < n) (h2 : n + np - 1 ≤ s.length) (hn : n % 2 = 0) (hnp : np % 2 = 0) :
    ∃ M : Mat ℝ, sscaPy s n np false = pure M ∧ M.length = n ∧ (∀ r ∈ M, r.length = np) ∧ ∀ q k, q < n → k < np →
      ∃ row, M[q]? = some row ∧ ∃ z, row[k]? = some z ∧
        (⟨z.re, z.im⟩ : ℂ) = ssca (fun i => s.getD i 0) n np q k := by
  obtain ⟨M, a1, a2⟩ := C58_formula h1 h2 hn hnp
  obtain ⟨M', b1, b2, b3⟩ := C58_shape h1 h2
  rw [a1, RM.ok_inj] at b1
  subst b1
  exact ⟨M, a1, b2, b3, a2⟩

theorem C59_py {s : List ℝ} {n np : ℕ} (h1 : np < n) (h2 : n + np - 1 ≤ s.length) (h64 : 2 * n < 2 ^ 64) (hd : np ∣ n)
    (hn : n % 2 = 0) (hnp : np % 2 = 0) :
    ∃ M : Mat ℝ, sscaPy s n np true = pure M ∧ M.length = np + 1 ∧ (∀ r ∈ M, r.length = 2 * n + 1) ∧
      (∀ q k, q < n → k < np → ∃ z : Cx ℝ, (⟨z.re, z.im⟩ : ℂ) = ssca (fun i => s.getD i 0) n np q k ∧
        M[(n * (k + np) - np * q) / (2 * n)]?.bind (fun r => r[n / np * k + q]?) = some z) ∧
      (∀ r c, r ≤ np → c ≤ 2 * n →
        (∀ q k, q < n → k < np → ¬ (r = (n * (k + np) - np * q) / (2 * n) ∧ c = n / np * k + q)) →
        M[r]?.bind (fun r => r[c]?) = some 0) := by
  obtain ⟨S, M, a1, a2, a3, a4⟩ := C59_placed h1 h2 h64 hd
  obtain ⟨M', b1, b2, b3⟩ := C59_in_range h1 h2 h64
  rw [a2, RM.ok_inj] at b1
  subst b1
  obtain ⟨S', c1, c2⟩ := C58_formula h1 h2 hn hnp
  rw [a1, RM.ok_inj] at c1
  subst c1
  refine ⟨M, a2, b2, b3, ?_, a4⟩
  intro q k hq hk
  obtain ⟨z, e1, e2⟩ := a3 q k hq hk
  obtain ⟨row, f1, z', f2, f3⟩ := c2 q k hq hk
  rw [f1, Option.bind_some, f2, Option.some.injEq] at e1
  subst e1
  exact ⟨z', f3, e2⟩

example : ∃ M : Mat ℝ, sscaPy [1, 2, 3, 4, 5] 4 2 false = pure M ∧ M.length = 4 := by
  obtain ⟨M, h1, h2, -⟩ := C58_py (s := [1, 2, 3, 4, 5]) (n := 4) (np := 2) (by decide) (by simp) (by decide) (by decide)
  exact ⟨M, h1, h2⟩

example : ∃ M : Mat ℝ, sscaPy [1, 2, 3, 4, 5] 4 2 true = pure M ∧ M.length = 3 := by
  obtain ⟨M, h1, h2, -⟩ := C59_py (s := [1, 2, 3, 4, 5]) (n := 4) (np := 2) (by decide) (by simp) (by decide) (by decide)
    (by decide) (by decide)
  exact ⟨M, h1, h2⟩

example : (maxCutDetector (List.replicate 4158 (1 : ℝ))).Panics ∧ ¬ (maxCutDetector (List.replicate 4159 (1 : ℝ))).Panics :=
  ⟨(C60_max_cut_signal _).1.mpr (by rw [List.length_replicate]; norm_num),
   fun h => by have := (C60_max_cut_signal _).1.mp h; rw [List.length_replicate] at this; omega⟩

/-! ### Scaling the signal -/

/-- Scaling the signal by `c` shifts the max-cut statistic by `40·log10|c|`. -/
theorem C58_max_cut_shift {s : List ℝ} {c : ℝ} (hc : c ≠ 0) (hs : 4159 ≤ s.length) {S : Mat ℝ}
    (hS : sscaBase s 4096 64 = pure S) (hnz : ∃ z ∈ S.flatten, z ≠ 0) :
    ∃ v, maxCutDetector s = pure v ∧ maxCutDetector (s.map (fun x => c * x)) = pure (v + 40 * Real.logb 10 |c|) := by
  obtain ⟨S', h1, h2⟩ := C58_scale (s := s) c (n := 4096) (np := 64) (by decide) (by omega)
  rw [hS, RM.ok_inj] at h1
  subst h1
  obtain ⟨z0, hz0, hz0'⟩ := hnz
  obtain ⟨L, a1, ⟨z, hz, a2⟩, a3⟩ := C60_max_cut (S := S) (List.ne_nil_of_mem hz0)
  have hfl : (S.map (fun r => r.map (fun z => (⟨c ^ 2 * z.re, c ^ 2 * z.im⟩ : Cx ℝ)))).flatten
      = S.flatten.map (fun z => (⟨c ^ 2 * z.re, c ^ 2 * z.im⟩ : Cx ℝ)) := List.map_flatten.symm
  obtain ⟨L', b1, ⟨z', hz', b2⟩, b3⟩ := C60_max_cut
    (S := S.map (fun r => r.map (fun z => (⟨c ^ 2 * z.re, c ^ 2 * z.im⟩ : Cx ℝ))))
    (by rw [hfl]; simpa using List.ne_nil_of_mem hz0)
  have hLL : L' = c ^ 4 * L := by
    apply le_antisymm
    · rw [hfl] at hz'
      obtain ⟨w, hw, rfl⟩ := List.mem_map.mp hz'
      rw [b2]
      have := mul_le_mul_of_nonneg_left (a3 w hw) (by positivity : (0 : ℝ) ≤ c ^ 4)
      calc _ = c ^ 4 * (w.re ^ 2 + w.im ^ 2) := by ring
        _ ≤ _ := this
    · have := b3 ⟨c ^ 2 * z.re, c ^ 2 * z.im⟩ (by rw [hfl]; exact List.mem_map.mpr ⟨z, hz, rfl⟩)
      calc c ^ 4 * L = (c ^ 2 * z.re) ^ 2 + (c ^ 2 * z.im) ^ 2 := by rw [a2]; ring
        _ ≤ L' := this
  have hLpos : 0 < L := by
    refine lt_of_lt_of_le ?_ (a3 z0 hz0)
    by_contra h
    have hre : z0.re = 0 := by nlinarith [sq_nonneg z0.re, sq_nonneg z0.im]
    have him : z0.im = 0 := by nlinarith [sq_nonneg z0.re, sq_nonneg z0.im]
    exact hz0' (Cx.ext hre him)
  refine ⟨_, by rw [maxCutDetector, hS, pure_bind, a1], ?_⟩
  rw [maxCutDetector, h2, pure_bind, b1, hLL, Real.logb_mul (by positivity) hLpos.ne']
  refine congrArg pure ?_
  have : Real.logb 10 (c ^ 4) = 4 * Real.logb 10 |c| := by
    rw [← Real.logb_abs, abs_pow, Real.logb_pow]; push_cast; ring
  rw [this]; ring

/-- Scaling the signal does not change the DCS statistic (first row without zeros). -/
theorem C58_dcs_invariant {s : List ℝ} {c : ℝ} (hc : c ≠ 0) (hs : 4159 ≤ s.length) {S : Mat ℝ}
    (hS : sscaBase s 4096 64 = pure S) (hnz : ∀ r, S[0]? = some r → ∀ z ∈ r, z ≠ 0) :
    ∃ v, dcsDetector s = pure v ∧ dcsDetector (s.map (fun x => c * x)) = pure v := by
  obtain ⟨S', h1, h2⟩ := C58_scale (s := s) c (n := 4096) (np := 64) (by decide) (by omega)
  rw [hS, RM.ok_inj] at h1
  subst h1
  obtain ⟨S', h3, h4, h5⟩ := C58_shape (s := s) (n := 4096) (np := 64) (by decide) (by omega)
  rw [hS, RM.ok_inj] at h3
  subst h3
  have h0 : S[0]? = some S[0] := List.getElem?_eq_getElem (by omega)
  obtain ⟨L, a1, ⟨j, hj, a2⟩, a3⟩ := C60_dcs_partial h0 h5 (by decide) (hnz _ h0)
  set sc : Cx ℝ → Cx ℝ := fun z => ⟨c ^ 2 * z.re, c ^ 2 * z.im⟩ with hsc
  have hsc0 : ∀ z, z ≠ 0 → sc z ≠ 0 := by
    intro z hz h
    apply hz
    have e1 := congrArg Cx.re h
    have e2 := congrArg Cx.im h
    simp only [hsc, Cx.zero_re, Cx.zero_im, mul_eq_zero, pow_eq_zero_iff two_ne_zero, hc, false_or] at e1 e2
    exact Cx.ext e1 e2
  obtain ⟨L', b1, ⟨j', hj', b2⟩, b3⟩ := C60_dcs_partial (S := S.map (fun r => r.map sc)) (r0 := S[0].map sc) (c := 64)
    (by rw [List.getElem?_map, h0]; rfl)
    (by intro r hr; obtain ⟨r', hr', rfl⟩ := List.mem_map.mp hr; rw [List.length_map]; exact h5 r' hr') (by decide)
    (by intro z hz; obtain ⟨w, hw, rfl⟩ := List.mem_map.mp hz; exact hsc0 w (hnz _ h0 w hw))
  have hq : ∀ j, ((S.map (fun r => r.map sc)).map (fun r => (r.getD j 0).re ^ 2 + (r.getD j 0).im ^ 2)).sum
        / (((S[0].map sc).getD j 0).re ^ 2 + ((S[0].map sc).getD j 0).im ^ 2)
      = (S.map (fun r => (r.getD j 0).re ^ 2 + (r.getD j 0).im ^ 2)).sum
        / ((S[0].getD j 0).re ^ 2 + (S[0].getD j 0).im ^ 2) := by
    intro j
    have hg : ∀ r : List (Cx ℝ), (((r.map sc).getD j 0).re ^ 2 + ((r.map sc).getD j 0).im ^ 2)
        = c ^ 4 * ((r.getD j 0).re ^ 2 + (r.getD j 0).im ^ 2) := by
      intro r
      simp only [List.getD, List.getElem?_map]
      cases r[j]? with
      | none => simp
      | some z => simp [hsc]; ring
    rw [List.map_map]
    simp only [Function.comp_def, hg]
    rw [List.sum_map_mul_left, mul_div_mul_left _ _ (by positivity)]
  have hLL : L' = L := by
    apply le_antisymm
    · rw [b2, hq]; exact a3 j' hj'
    · rw [a2, ← hq]; exact b3 j hj
  refine ⟨_, by rw [dcsDetector, hS, pure_bind, a1], ?_⟩
  rw [dcsDetector, h2, pure_bind, b1, hLL]

/-- A unit impulse. -/
def impulse : List ℝ := List.replicate 32 0 ++ 1 :: List.replicate 4126 (0 : ℝ)

theorem impulse_length : impulse.length = 4159 := by
  rw [impulse, List.length_append, List.length_cons, List.length_replicate, List.length_replicate]

/-- A unit impulse has no zero entry in its spectrum, so both statements above apply to it. -/
theorem impulse_spectrum : ∃ S : Mat ℝ, sscaBase impulse 4096 64 = pure S ∧
    ∀ r ∈ S, ∀ z ∈ r, z ≠ 0 := by
  set s : List ℝ := impulse with hs
  have hlen : s.length = 4159 := impulse_length
  have hval : ∀ i, s.getD i 0 = if i = 32 then 1 else 0 := by
    intro i
    rw [hs, impulse, List.getD, List.getElem?_append]
    simp only [List.length_replicate]
    split
    · rw [List.getElem?_replicate, if_pos (by omega), if_neg (by omega)]; rfl
    · by_cases h : i = 32
      · subst h; rfl
      · obtain ⟨k, hk⟩ : ∃ k, i - 32 = k + 1 := ⟨i - 33, by omega⟩
        rw [hk, List.getElem?_cons_succ, List.getElem?_replicate, if_neg h]; split <;> rfl
  refine ⟨_, sscaBase_ok (by decide) (by rw [hlen]), fun r hr z hz h0 => ?_⟩
  obtain ⟨q, hq, rfl⟩ := List.mem_map.mp hr
  obtain ⟨k, hk, rfl⟩ := List.mem_map.mp hz
  have h := sscaVal_spec s (List.mem_range.mp hq) (List.mem_range.mp hk) (by decide) (by decide)
  rw [h0] at h
  have hz : (Cx.toC (0 : Cx ℝ)) = 0 := rfl
  rw [hz] at h
  unfold ssca at h
  simp only [hval] at h
  rw [Finset.sum_eq_single 0, Finset.sum_eq_single 32] at h
  · simp only [Nat.zero_add, Nat.reduceDiv, if_true] at h
    have h := h.symm
    rw [mul_eq_zero, Complex.ofReal_eq_zero] at h
    rcases h with h | h
    · unfold hammingW at h
      have h1 : (2 * Real.pi * ((32 : ℕ) : ℝ) / ((64 : ℕ) : ℝ)) = Real.pi := by push_cast; ring
      rw [h1, Real.cos_pi] at h
      norm_num at h
    · exact Complex.exp_ne_zero _ h
  · intro j _ hj
    rw [if_neg (c := 0 + j = 32) (by omega)]
    simp
  · simp
  · intro i _ hi
    refine Finset.sum_eq_zero fun j _ => ?_
    rw [if_neg (c := i + 64 / 2 = 32) (by omega)]
    simp
  · simp

example : ∃ v, maxCutDetector impulse = pure v ∧
    maxCutDetector (impulse.map (fun x => 2 * x))
      = pure (v + 40 * Real.logb 10 |2|) := by
  obtain ⟨S, h1, h2⟩ := impulse_spectrum
  obtain ⟨M, h3, h4, h5⟩ := C58_shape (s := impulse) (n := 4096) (np := 64)
    (by decide) (by rw [impulse_length])
  rw [h1, RM.ok_inj] at h3
  subst h3
  have hr : S[0] ∈ S := List.getElem_mem (by omega)
  have hl := h5 _ hr
  have hz : S[0][0] ∈ S[0] := List.getElem_mem (by omega)
  exact C58_max_cut_shift two_ne_zero impulse_length.ge h1 ⟨_, List.mem_flatten.mpr ⟨_, hr, hz⟩, h2 _ hr _ hz⟩

example : ∃ v, dcsDetector impulse = pure v ∧
    dcsDetector (impulse.map (fun x => 2 * x)) = pure v := by
  obtain ⟨S, h1, h2⟩ := impulse_spectrum
  exact C58_dcs_invariant two_ne_zero impulse_length.ge h1 (fun r hr => h2 r (List.mem_of_getElem? hr))

example : ∃ L : ℝ, dcsDetector impulse = pure (10 * Real.logb 10 L) := by
  obtain ⟨L, h, -⟩ := (C60_dcs_signal_partial impulse).2 impulse_length.ge (by
    obtain ⟨S, h1, h2⟩ := impulse_spectrum
    obtain ⟨M, h3, h4⟩ := C58_formula (s := impulse) (n := 4096) (np := 64) (by decide) (by rw [impulse_length]) (by decide)
      (by decide)
    rw [h1, RM.ok_inj] at h3
    subst h3
    intro k hk h0
    obtain ⟨row, e1, z, e2, e3⟩ := h4 0 k (by decide) hk
    refine h2 row (List.mem_of_getElem? e1) z (List.mem_of_getElem? e2) ?_
    rw [h0] at e3
    have hre := congrArg Complex.re e3
    have him := congrArg Complex.im e3
    exact (Cx.mk.injEq ..).mpr ⟨hre, him⟩)
  exact ⟨L, h⟩

end Verif.Props
