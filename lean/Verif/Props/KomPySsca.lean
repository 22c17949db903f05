import Verif.Lemmas.KomPySsca
import Verif.Props.Ssca

/-!
# The strip spectral correlation and the detectors of the pure-Python code, beside the compiled ones (C95, C96)
-/
namespace Verif.Props
open Verif Spec
set_option linter.unusedSectionVars false

section anyF
variable {F : Type} [Add F] [Sub F] [Mul F] [Div F] [Neg F] [Zero F] [One F] [Flt F] [Fft F]

/-! ## C95 -/

/-- `ssca` of `kom_py` raises exactly when the signal is shorter than `N + Np` or one of the sizes is zero (any arithmetic, any
transform). -/
theorem C95_guard (s : List F) (N Np : ℕ) :
    (∃ e, KomPy.ssca s N Np false = .error e) ↔ s.length < N + Np ∨ N = 0 ∨ Np = 0 := by
  rw [pySsca_unmapped]
  constructor
  · rintro ⟨e, he⟩
    by_contra h
    rw [pyBase_ok (by omega) (by omega) (by omega)] at he
    cases he
  · intro h
    by_cases h1 : s.length < N + Np
    · exact ⟨_, pyBase_short h1⟩
    · rcases Nat.eq_zero_or_pos N with rfl | h2
      · exact ⟨_, pyBase_zero (by omega)⟩
      · have : Np = 0 := by omega
        subst this
        exact ⟨_, pyBase_zero' h2 (by omega)⟩

/-- Otherwise the result has `N` rows of `Np` entries. -/
theorem C95_shape {s : List F} {N Np : ℕ} (hN : 0 < N) (hNp : 0 < Np) (h : N + Np ≤ s.length) :
    ∃ M, KomPy.ssca s N Np false = .ok M ∧ M.length = N ∧ ∀ r ∈ M, r.length = Np := by
  refine ⟨_, (pySsca_unmapped s N Np).trans (pyBase_ok hN hNp h), by simp, fun r hr => ?_⟩
  obtain ⟨q, _, rfl⟩ := List.mem_map.mp hr
  simp

example (x : F) : ∃ M, KomPy.ssca (List.replicate 6 x) 4 2 false = .ok M ∧ M.length = 4 ∧ ∀ r ∈ M, r.length = 2 :=
  C95_shape (by decide) (by decide) (by simp)

/-- One sample fewer is enough for the compiled function and not for the Python one. -/
example (x : F) : (∃ e, KomPy.ssca (List.replicate 5 x) 4 2 false = .error e) ∧ ∃ M, sscaBase (List.replicate 5 x) 4 2 = pure M :=
  ⟨(C95_guard _ _ _).mpr (.inl (by simp)), (C58_shape (by decide) (by simp)).imp fun _ h => h.1⟩

/-- The last of the `N + Np` samples it insists on is not used: two signals that agree on the first `N + Np - 1` samples have the
same spectrum. -/
theorem C95_prefix {s t : List F} {N Np : ℕ} (hN : 0 < N) (hNp : 0 < Np) (hs : N + Np ≤ s.length) (ht : N + Np ≤ t.length)
    (h : s.take (N + Np - 1) = t.take (N + Np - 1)) : KomPy.ssca s N Np false = KomPy.ssca t N Np false := by
  have hst : ∀ i, i < N + Np - 1 → s.getD i (0 : F) = t.getD i 0 := fun i hi => by
    rw [← getD_take_lt s hi, h, getD_take_lt t hi]
  have hseg : ∀ i, i < N → pySeg s Np i = pySeg t Np i := fun i hi => by
    unfold pySeg
    refine List.map_congr_left fun j hj => ?_
    have hj := List.mem_range.mp hj
    rw [hst (i + j) (by omega)]
  have hxg : ∀ i k, i < N → pyXg s N Np i k = pyXg t N Np i k := fun i k hi => by
    unfold pyXg
    rw [hseg i hi, hst (Np / 2 + i) (by omega)]
  rw [pySsca_unmapped, pySsca_unmapped, pyBase_ok hN hNp hs, pyBase_ok hN hNp ht]
  refine congrArg Except.ok (List.map_congr_left fun q _ => List.map_congr_left fun k _ => ?_)
  unfold pyVal
  rw [List.map_congr_left (g := fun i => pyXg t N Np i k) fun i hi => hxg i k (List.mem_range.mp hi)]

example (a b c d e x y : F) : KomPy.ssca [a, b, c, d, e, x] 4 2 false = KomPy.ssca [a, b, c, d, e, y] 4 2 false :=
  C95_prefix (by decide) (by decide) (by simp) (by simp) (by simp)

end anyF

/-- The compiled spectrum is the general formula with periodic windows. -/
theorem ssca_eq_with (s : ℕ → ℝ) (n np q k : ℕ) : Spec.ssca s n np q k = sscaWith (hammingW n) (hammingW np) s n np q k := rfl

/-- For even sizes both functions compute the textbook strip spectral correlation, entry by entry, but with different windows: the
Python function with symmetric Hamming windows, the compiled one with periodic ones (exact arithmetic).  *Missing for the full
claim: the windows, hence the values, are not the same; see `C95_differ`.* -/
theorem C95_formula_partial {s : List ℝ} {n np : ℕ} (h0 : 0 < np) (h1 : np < n) (h2 : n + np ≤ s.length) (hn : n % 2 = 0)
    (hnp : np % 2 = 0) :
    ∃ P M : Mat ℝ, KomPy.ssca s n np false = .ok P ∧ sscaBase s n np = pure M ∧ ∀ q k, q < n → k < np →
      (∃ row, P[q]? = some row ∧ ∃ z, row[k]? = some z ∧
        (⟨z.re, z.im⟩ : ℂ) = sscaWith (hammingSym n) (hammingSym np) (fun i => s.getD i 0) n np q k) ∧
      ∃ row, M[q]? = some row ∧ ∃ z, row[k]? = some z ∧
        (⟨z.re, z.im⟩ : ℂ) = sscaWith (hammingW n) (hammingW np) (fun i => s.getD i 0) n np q k := by
  obtain ⟨M, hM, hv⟩ := C58_formula (s := s) h1 (by omega) hn hnp
  refine ⟨_, M, (pySsca_unmapped s n np).trans (pyBase_ok (by omega) h0 h2), hM, fun q k hq hk => ⟨?_, hv q k hq hk⟩⟩
  exact ⟨(List.range np).map (pyVal s n np q), by simp [hq], _, by
    simp only [List.getElem?_map, List.getElem?_range hk, Option.map_some], pyVal_spec s hq hk hn hnp⟩

example : ∃ P M : Mat ℝ, KomPy.ssca [(1 : ℝ), 2, 3, 4, 5, 6] 4 2 false = .ok P ∧ sscaBase [(1 : ℝ), 2, 3, 4, 5, 6] 4 2 = pure M ∧
    ∃ row, P[1]? = some row ∧ ∃ z, row[1]? = some z ∧
      (⟨z.re, z.im⟩ : ℂ) = sscaWith (hammingSym 4) (hammingSym 2) (fun i => [(1 : ℝ), 2, 3, 4, 5, 6].getD i 0) 4 2 1 1 := by
  obtain ⟨P, M, h1, h2, h3⟩ := C95_formula_partial (s := [(1 : ℝ), 2, 3, 4, 5, 6]) (n := 4) (np := 2) (by decide) (by decide)
    (by simp) rfl rfl
  exact ⟨P, M, h1, h2, (h3 1 1 (by decide) (by decide)).1⟩

theorem sscaWith_pulse (wn wp : ℕ → ℝ) (q : ℕ) :
    sscaWith wn wp (fun i => ([0, 1, 0, 0, 0, 0] : List ℝ).getD i 0) 4 2 q 1 = ((wn 0 * wp 1 : ℝ) : ℂ) := by
  unfold sscaWith
  simp [Finset.sum_range_succ]

/-- The values differ: for the signal with the single pulse `s[1] = 1`, sizes 4 and 2, the entry in row 0 and column 1 is `0.0064`
from the Python function and `0.08` from the compiled one. -/
theorem C95_differ : ∃ P M : Mat ℝ,
    KomPy.ssca [0, 1, 0, 0, 0, 0] 4 2 false = .ok P ∧ sscaBase [0, 1, 0, 0, 0, 0] 4 2 = pure M ∧
      P[0]?.bind (fun r => r[1]?) = some ⟨0.0064, 0⟩ ∧ M[0]?.bind (fun r => r[1]?) = some ⟨0.08, 0⟩ := by
  obtain ⟨P, M, hP, hM, h⟩ := C95_formula_partial (s := [0, 1, 0, 0, 0, 0]) (n := 4) (np := 2) (by decide) (by decide) (by simp)
    (by decide) (by decide)
  refine ⟨P, M, hP, hM, ?_, ?_⟩
  · obtain ⟨row, h1, z, h2, h3⟩ := (h 0 1 (by decide) (by decide)).1
    rw [h1, Option.bind_some, h2, Option.some.injEq]
    rw [sscaWith_pulse] at h3
    have e : hammingSym 4 0 * hammingSym 2 1 = 0.0064 := by
      have hc : Real.cos (2 * Real.pi * (1 : ℕ) / ((2 : ℕ) - 1)) = 1 := by
        rw [show 2 * Real.pi * ((1 : ℕ) : ℝ) / (((2 : ℕ) : ℝ) - 1) = 2 * Real.pi by push_cast; ring]
        exact Real.cos_two_pi
      unfold hammingSym
      rw [hc]
      norm_num
    rw [e] at h3
    have := congrArg Complex.re h3
    have := congrArg Complex.im h3
    cases z
    simp_all
  · obtain ⟨row, h1, z, h2, h3⟩ := (h 0 1 (by decide) (by decide)).2
    rw [h1, Option.bind_some, h2, Option.some.injEq]
    rw [sscaWith_pulse] at h3
    have e : hammingW 4 0 * hammingW 2 1 = 0.08 := by
      have hc : Real.cos (2 * Real.pi * (1 : ℕ) / (2 : ℕ)) = -1 := by
        rw [show 2 * Real.pi * ((1 : ℕ) : ℝ) / ((2 : ℕ) : ℝ) = Real.pi by push_cast; ring]
        exact Real.cos_pi
      unfold hammingW
      rw [hc]
      norm_num
    rw [e] at h3
    have := congrArg Complex.re h3
    have := congrArg Complex.im h3
    cases z
    simp_all

/-- The mapped output of the Python function: when `Np` divides `N`, entry `(q, k)` of the unmapped spectrum is found in the same
cell as in the compiled function (`C59_placed`), and all other cells are zero. -/
theorem C95_placed {s : List ℝ} {n np : ℕ} (h0 : 0 < np) (h1 : np < n) (h2 : n + np ≤ s.length) (h64 : 2 * n < 2 ^ 64)
    (hd : np ∣ n) :
    ∃ S M : Mat ℝ, KomPy.ssca s n np false = .ok S ∧ KomPy.ssca s n np true = .ok M ∧
      M.length = np + 1 ∧ (∀ r ∈ M, r.length = 2 * n + 1) ∧
      (∀ q k, q < n → k < np → ∃ z, S[q]?.bind (fun r => r[k]?) = some z ∧
        M[(n * (k + np) - np * q) / (2 * n)]?.bind (fun r => r[n / np * k + q]?) = some z) ∧
      (∀ r c, r ≤ np → c ≤ 2 * n →
        (∀ q k, q < n → k < np → ¬ (r = (n * (k + np) - np * q) / (2 * n) ∧ c = n / np * k + q)) →
        M[r]?.bind (fun r => r[c]?) = some 0) := by
  have hcol : ∀ k, n * k / np = n / np * k := by
    intro k
    obtain ⟨r, rfl⟩ := hd
    rw [Nat.mul_assoc, Nat.mul_div_cancel_left _ h0, Nat.mul_div_cancel_left _ h0]
  have hr : ∀ q k, q < n → k < np → (KomPy.sscaCell ℝ n np q k).1 < np + 1 ∧ (KomPy.sscaCell ℝ n np q k).2 < 2 * n + 1 :=
    fun q k hq hk => by rw [sscaCell_real]; exact sscaPos_range h64 h1 (q, k) hq hk
  have hM := pyMapped_ok (s := s) (by omega) h0 h2 hr
  simp only [sscaCell_real] at hM
  refine ⟨_, _, (pySsca_unmapped s n np).trans (pyBase_ok (by omega) h0 h2), hM, matOf_length _ _ _, ?_, ?_, ?_⟩
  · intro r hr
    obtain ⟨q, _, rfl⟩ := List.mem_map.mp hr
    simp
  · intro q k hq hk
    refine ⟨pyVal s n np q k, by simp [hq, hk], ?_⟩
    have hp : (q, k) ∈ sscaPairs n np := mem_sscaPairs.mpr ⟨hq, hk⟩
    have hv := foldl_update_of_inj (sscaPos ℝ n np) (fun p => pyVal s n np p.1 p.2) hp (fun p hp' e => by
      obtain ⟨a, b⟩ := mem_sscaPairs.mp hp'
      exact sscaPos_inj h64 h1 hd a b hq hk e) (fun _ => 0)
    have hpos : sscaPos ℝ n np (q, k) = ((n * (k + np) - np * q) / (2 * n), n / np * k + q) := by
      unfold sscaPos
      rw [mappedRow_real hq hk (by omega), mappedCol_real hq hk h64, hcol]
    have hrange := sscaPos_range h64 h1 (q, k) hq hk
    rw [hpos] at hv hrange
    simp only at hrange
    rw [matOf, List.getElem?_map, List.getElem?_range hrange.1, Option.map_some, Option.bind_some, List.getElem?_map,
      List.getElem?_range hrange.2, Option.map_some, hv]
  · intro r c hr hc hno
    have hv := foldl_update_of_not (sscaPos ℝ n np) (fun p => pyVal s n np p.1 p.2) (l := sscaPairs n np) (x := (r, c))
      (fun p hp e => by
        obtain ⟨a, b⟩ := mem_sscaPairs.mp hp
        refine hno p.1 p.2 a b ?_
        unfold sscaPos at e
        rw [mappedRow_real a b (by omega), mappedCol_real a b h64, hcol] at e
        simp only [Prod.mk.injEq] at e
        exact ⟨e.1.symm, e.2.symm⟩) (fun _ => 0)
    rw [matOf, List.getElem?_map, List.getElem?_range (by omega), Option.map_some, Option.bind_some, List.getElem?_map,
      List.getElem?_range (by omega), Option.map_some, hv]

example : ∃ S M : Mat ℝ, KomPy.ssca [1, 2, 3, 4, 5, 6] 4 2 false = .ok S ∧ KomPy.ssca [1, 2, 3, 4, 5, 6] 4 2 true = .ok M ∧
    M.length = 3 := by
  obtain ⟨S, M, h1, h2, h3, _⟩ := C95_placed (s := [1, 2, 3, 4, 5, 6]) (n := 4) (np := 2) (by decide) (by decide) (by simp)
    (by decide) ⟨2, rfl⟩
  exact ⟨S, M, h1, h2, h3⟩

/-! ## C96 -/

/-- `10·log10` is increasing on positive numbers. -/
theorem db_le {a b : ℝ} (ha : 0 < a) (h : a ≤ b) : 10 * Real.logb 10 a ≤ 10 * Real.logb 10 b := by
  have := (Real.logb_le_logb (by norm_num : (1 : ℝ) < 10) ha (by linarith)).mpr h
  linarith

/-- `dcs` of `kom_py` gives one figure per column; the compiled `dcs_detector_sxf` gives the largest of them, if no entry of the
first row is zero. -/
theorem C96_dcs {S : Mat ℝ} {r0 : List (Cx ℝ)} {c : ℕ} (h0 : S[0]? = some r0) (hS : ∀ r ∈ S, r.length = c)
    (hc : 0 < c) (hz : ∀ z ∈ r0, z ≠ 0) :
    ∃ v L, KomPy.dcs S = .ok v ∧ dcsSxf S = pure L ∧ v.length = c ∧ L ∈ v ∧ ∀ x ∈ v, x ≤ L := by
  have hr0 : r0.length = c := hS r0 (List.mem_of_getElem? h0)
  obtain ⟨L, hL, ⟨j, hj, hLj⟩, hmax⟩ := C60_dcs_partial h0 hS hc hz
  have hl : List.zipWith (· / ·) (columnEnergy r0.length S) (r0.map Cx.normSq)
      = (List.range c).map (fun j => (S.map (fun r => (r.getD j 0).re ^ 2 + (r.getD j 0).im ^ 2)).sum
        / ((r0.getD j 0).re ^ 2 + (r0.getD j 0).im ^ 2)) := by
    rw [columnEnergy, hr0, columnEnergy_real S hS _ (by simp), list_eq_map_getD (l := r0.map Cx.normSq) (n := c) (by simp [hr0]) 0,
      List.zipWith_map, List.zipWith_self]
    refine List.map_congr_left fun j hj => ?_
    have hj := List.mem_range.mp hj
    have h2 : j < r0.length := by omega
    congr 1
    · simp only [normSq_real]
      simp [List.getD, hj]
    · rw [← normSq_real]; simp [List.getD, h2]
  have hd : KomPy.dcs S = .ok ((List.range c).map (fun j => 10 * Real.logb 10
      ((S.map (fun r => (r.getD j 0).re ^ 2 + (r.getD j 0).im ^ 2)).sum / ((r0.getD j 0).re ^ 2 + (r0.getD j 0).im ^ 2)))) := by
    unfold KomPy.dcs
    rw [KomPy.pyIndex, h0]
    change Except.ok _ = _
    rw [hl, List.map_map]
    simp
  refine ⟨_, _, hd, hL, by simp, List.mem_map.mpr ⟨j, List.mem_range.mpr hj, by rw [hLj]⟩, fun x hx => ?_⟩
  obtain ⟨i, hi, rfl⟩ := List.mem_map.mp hx
  have hi := List.mem_range.mp hi
  refine db_le ?_ (hmax i hi)
  have hpos : 0 < (r0.getD i 0).re ^ 2 + (r0.getD i 0).im ^ 2 := by
    have hm : r0.getD i 0 ∈ r0 := by
      rw [List.getD, List.getElem?_eq_getElem (by omega : i < r0.length)]
      exact List.getElem_mem _
    have hne := hz _ hm
    by_contra hh
    have h1 := sq_nonneg (r0.getD i 0).re
    have h2 := sq_nonneg (r0.getD i 0).im
    exact hne (Cx.ext (pow_eq_zero_iff (two_ne_zero) |>.mp (by linarith)) (pow_eq_zero_iff (two_ne_zero) |>.mp (by linarith)))
  refine div_pos (lt_of_lt_of_le hpos ?_) hpos
  have hm := List.mem_of_getElem? h0
  exact List.single_le_sum (by
    intro x hx
    obtain ⟨r, _, rfl⟩ := List.mem_map.mp hx
    positivity) _ (List.mem_map.mpr ⟨r0, hm, rfl⟩)

example : ∃ v L, KomPy.dcs ([[⟨1, 0⟩, ⟨2, 0⟩], [⟨0, 3⟩, ⟨2, 0⟩]] : Mat ℝ) = .ok v ∧
    dcsSxf ([[⟨1, 0⟩, ⟨2, 0⟩], [⟨0, 3⟩, ⟨2, 0⟩]] : Mat ℝ) = pure L ∧ v.length = 2 ∧ L ∈ v ∧ ∀ x ∈ v, x ≤ L :=
  C96_dcs rfl (by simp) (by decide) (by
    intro z hz
    simp only [List.mem_cons, List.not_mem_nil, or_false] at hz
    rcases hz with rfl | rfl <;> (intro h; have := congrArg Cx.re h; norm_num at this))

theorem cxLt_real (a b : Cx ℝ) : KomPy.cxLt a b = true ↔ a.re < b.re ∨ (a.re = b.re ∧ a.im < b.im) := by
  simp only [KomPy.cxLt, Bool.or_eq_true, Bool.and_eq_true, Flt.lt_real, Flt.le_real, decide_eq_true_eq]
  constructor
  · rintro (h | ⟨⟨h1, h2⟩, h3⟩)
    · exact .inl h
    · exact .inr ⟨le_antisymm h1 h2, h3⟩
  · rintro (h | ⟨h1, h3⟩)
    · exact .inl h
    · exact .inr ⟨⟨h1.le, h1.ge⟩, h3⟩

/-- `np.max` of a row: the largest in the order by real, then imaginary part. -/
theorem npMax_real {row : List (Cx ℝ)} (h : row ≠ []) :
    ∃ m, KomPy.npMax row = .ok m ∧ m ∈ row ∧ ∀ w ∈ row, w.re < m.re ∨ (w.re = m.re ∧ w.im ≤ m.im) := by
  obtain ⟨z, l, rfl⟩ := List.exists_cons_of_ne_nil h
  refine ⟨_, rfl, ?_⟩
  clear h
  induction l generalizing z with
  | nil => exact ⟨by simp, fun w hw => by simp at hw; subst hw; exact .inr ⟨rfl, le_refl _⟩⟩
  | cons y l ih =>
    rw [List.foldl_cons]
    obtain ⟨h1, h2⟩ := ih (if KomPy.cxLt z y then y else z)
    generalize hm : l.foldl (fun m w => if KomPy.cxLt m w then w else m) (if KomPy.cxLt z y then y else z) = m at h1 h2
    by_cases hc : KomPy.cxLt z y = true
    · rw [if_pos hc] at h1 h2
      refine ⟨List.mem_cons_of_mem _ h1, fun w hw => ?_⟩
      rcases List.mem_cons.mp hw with rfl | hw
      · rw [cxLt_real] at hc
        rcases h2 y (by simp) with h3 | ⟨h3, h4⟩ <;> rcases hc with h5 | ⟨h5, h6⟩
        · exact .inl (h5.trans h3)
        · exact .inl (h5.trans_lt h3)
        · exact .inl (h5.trans_eq h3)
        · exact .inr ⟨h5.trans h3, h6.le.trans h4⟩
      · exact h2 w hw
    · rw [if_neg hc] at h1 h2
      refine ⟨?_, fun w hw => ?_⟩
      · rcases List.mem_cons.mp h1 with h | h
        · rw [h]; simp
        · simp [h]
      · rcases List.mem_cons.mp hw with rfl | hw
        · exact h2 w (by simp)
        · rcases List.mem_cons.mp hw with rfl | hw
          · rw [cxLt_real] at hc
            push Not at hc
            have hz := h2 z (by simp)
            rcases lt_or_eq_of_le hc.1 with h5 | h5
            · rcases hz with h3 | ⟨h3, _⟩
              · exact .inl (h5.trans h3)
              · exact .inl (h5.trans_eq h3)
            · have h6 := hc.2 h5.symm
              rcases hz with h3 | ⟨h3, h4⟩
              · exact .inl (h5.trans_lt h3)
              · exact .inr ⟨h5.trans h3, h6.trans h4⟩
          · exact h2 w (by simp [hw])

/-- `max_cut` of `kom_py` gives one figure per row, none of them above the figure of the compiled `max_cut_detector_sxf`, and it is
among them when every entry is a positive real number.  *Missing for the full claim: for spectra with other entries the
largest of the Python figures can be smaller; see `C96_max_cut_differ`.* -/
theorem C96_max_cut_partial {S : Mat ℝ} (h : S ≠ []) (hS : ∀ r ∈ S, r ≠ []) (hz : ∀ r ∈ S, ∀ z ∈ r, z ≠ 0) :
    ∃ v L, KomPy.maxCut S = .ok v ∧ maxCutSxf S = pure L ∧ v.length = S.length ∧ (∀ x ∈ v, x ≤ L) ∧
      ((∀ r ∈ S, ∀ z ∈ r, 0 < z.re ∧ z.im = 0) → L ∈ v) := by
  choose! m hm using fun (row : List (Cx ℝ)) (h : row ≠ []) => npMax_real h
  have hv : KomPy.maxCut S = .ok (S.map (fun r => 10 * Real.logb 10 ((m r).re ^ 2 + (m r).im ^ 2))) := by
    unfold KomPy.maxCut
    refine py_mapM_ok fun r hr => ?_
    rw [(hm r (hS r hr)).1]
    change Except.ok _ = Except.ok _
    rw [normSq_real]
    simp
  have hne : S.flatten ≠ [] := by
    obtain ⟨r, l, rfl⟩ := List.exists_cons_of_ne_nil h
    have := hS r (by simp)
    simp [this]
  obtain ⟨L, hL, ⟨z, hzm, hLz⟩, hmax⟩ := C60_max_cut hne
  refine ⟨_, _, hv, hL, by simp, fun x hx => ?_, fun hpos => ?_⟩
  · obtain ⟨r, hr, rfl⟩ := List.mem_map.mp hx
    have hmr := (hm r (hS r hr)).2.1
    refine db_le ?_ (hmax _ (List.mem_flatten.mpr ⟨r, hr, hmr⟩))
    have hne := hz r hr _ hmr
    by_contra hh
    have h1 := sq_nonneg (m r).re
    have h2 := sq_nonneg (m r).im
    exact hne (Cx.ext (pow_eq_zero_iff (two_ne_zero) |>.mp (by linarith)) (pow_eq_zero_iff (two_ne_zero) |>.mp (by linarith)))
  · obtain ⟨r, hr, hzr⟩ := List.mem_flatten.mp hzm
    refine List.mem_map.mpr ⟨r, hr, ?_⟩
    obtain ⟨_, hmr, hmx⟩ := hm r (hS r hr)
    obtain ⟨p1, p2⟩ := hpos r hr z hzr
    obtain ⟨p3, p4⟩ := hpos r hr _ hmr
    have hle : z.re ≤ (m r).re := by
      rcases hmx z hzr with h | ⟨h, _⟩
      · exact h.le
      · exact h.le
    have h1 := hmax _ (List.mem_flatten.mpr ⟨r, hr, hmr⟩)
    rw [hLz] at h1 ⊢
    rw [p2, p4] at h1 ⊢
    have : (m r).re = z.re := by nlinarith
    rw [this]

example : ∃ v L, KomPy.maxCut ([[⟨1, 0⟩, ⟨2, 0⟩], [⟨7, 0⟩, ⟨4, 0⟩]] : Mat ℝ) = .ok v ∧
    maxCutSxf ([[⟨1, 0⟩, ⟨2, 0⟩], [⟨7, 0⟩, ⟨4, 0⟩]] : Mat ℝ) = pure L ∧ L ∈ v := by
  obtain ⟨v, L, h1, h2, _, _, h3⟩ := C96_max_cut_partial (S := [[⟨1, 0⟩, ⟨2, 0⟩], [⟨7, 0⟩, ⟨4, 0⟩]]) (by simp) (by simp) (by
    intro r hr z hz
    simp only [List.mem_cons, List.not_mem_nil, or_false] at hr
    rcases hr with rfl | rfl <;> simp only [List.mem_cons, List.not_mem_nil, or_false] at hz <;> rcases hz with rfl | rfl <;>
      (intro h; have := congrArg Cx.re h; norm_num at this))
  exact ⟨v, L, h1, h2, h3 (by simp)⟩

/-- The spectrum with the single row `-5, 1`: the Python `max_cut` answers `10·log10 1 = 0`, because `np.max` orders complex numbers by
their real parts; the compiled detector answers `10·log10 25`, which is positive. -/
theorem C96_max_cut_differ :
    KomPy.maxCut ([[⟨-5, 0⟩, ⟨1, 0⟩]] : Mat ℝ) = .ok [0] ∧
      maxCutSxf ([[⟨-5, 0⟩, ⟨1, 0⟩]] : Mat ℝ) = pure (10 * Real.logb 10 25) ∧ 0 < 10 * Real.logb 10 25 := by
  refine ⟨?_, ?_, ?_⟩
  · have hc : KomPy.cxLt (⟨-5, 0⟩ : Cx ℝ) ⟨1, 0⟩ = true := (cxLt_real _ _).mpr (.inl (by norm_num))
    have hmx : KomPy.npMax ([⟨-5, 0⟩, ⟨1, 0⟩] : List (Cx ℝ)) = .ok ⟨1, 0⟩ := by
      simp only [KomPy.npMax, List.foldl_cons, List.foldl_nil, hc, if_true]
    unfold KomPy.maxCut
    rw [py_mapM_ok (g := fun _ => 0)]
    · rfl
    · intro r hr
      simp only [List.mem_singleton] at hr
      subst hr
      rw [hmx]
      change Except.ok _ = Except.ok _
      rw [normSq_real]
      simp
  · obtain ⟨L, hL, ⟨z, hz, hLz⟩, hmax⟩ := C60_max_cut (S := [[⟨-5, 0⟩, ⟨1, 0⟩]]) (by simp)
    rw [hL]
    have h5 := hmax ⟨-5, 0⟩ (by simp)
    simp only [List.flatten_cons, List.flatten_nil, List.append_nil, List.mem_cons, List.not_mem_nil, or_false] at hz
    have : L = 25 := by
      rcases hz with rfl | rfl <;> norm_num at hLz h5 <;> linarith
    rw [this]
  · have := Real.logb_pos (by norm_num : (1 : ℝ) < 10) (by norm_num : (1 : ℝ) < 25)
    linarith

end Verif.Props
