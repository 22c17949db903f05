import Verif.Lemmas.RocReadings

/-!
# C122: the operating curves of the detection experiment

Exact arithmetic.  `perm` is the order into which the readings are shuffled, `fit` the regression; both are arbitrary.
`readings test y`, `reach`, `beats` are in Spec/Roc.
-/
namespace Verif.Props
open Verif Spec KomPy

/-- The readings are divided into two halves, nothing is lost or used twice. -/
theorem C122_split {T : Type} {perm : ℕ → List ℕ} (hp : ∀ n, (perm n).Perm (List.range n)) (l : List T) (h2 : 2 ≤ l.length) :
    ∃ train test, trainTestSplit perm l = pure (train, test) ∧ (test ++ train).Perm l ∧ test.length = (l.length + 1) / 2 := by
  obtain ⟨d, hd⟩ : ∃ d, d ∈ l := by
    match l, h2 with
    | a :: l, _ => exact ⟨a, by simp⟩
  have hlen : (perm l.length).length = l.length := by rw [(hp _).length_eq, List.length_range]
  have hidx : ∀ i ∈ perm l.length, pyIndex l i = pure (l.getD i d) := by
    intro i hi
    have : i < l.length := List.mem_range.mp ((hp _).mem_iff.mp hi)
    unfold pyIndex
    rw [List.getD_eq_getElem?_getD, List.getElem?_eq_getElem this]
    rfl
  refine ⟨(((perm l.length).drop ((l.length + 1) / 2)).take (l.length - (l.length + 1) / 2)).map (fun i => l.getD i d),
    ((perm l.length).take ((l.length + 1) / 2)).map (fun i => l.getD i d), ?_, ?_, ?_⟩
  · unfold trainTestSplit
    simp only
    rw [if_neg (by omega), py_mapM_ok (fun i hi => hidx i (List.mem_of_mem_take hi)),
      py_mapM_ok (fun i hi => hidx i (List.mem_of_mem_drop (List.mem_of_mem_take hi)))]
    rfl
  · rw [List.take_of_length_le (l := (perm l.length).drop _) (by rw [List.length_drop, hlen]), ← List.map_append,
      List.take_append_drop]
    refine ((hp l.length).map _).trans (List.Perm.of_eq ?_)
    apply List.ext_getElem
    · simp
    · intro i h1 h2
      rw [List.getElem_map, List.getElem_range, List.getD_eq_getElem?_getD, List.getElem?_eq_getElem h2, Option.getD_some]
  · rw [List.length_map, List.length_take, hlen]; omega

example : ∃ train test, trainTestSplit (fun n => (List.range n).reverse) [(1 : ℕ), 2, 3, 4, 5] = pure (train, test) ∧
    (test ++ train).Perm [1, 2, 3, 4, 5] ∧ test.length = 3 :=
  C122_split (fun n => List.reverse_perm _) _ (by simp)

/-- A run of the script on readings `h0`, `h1`: as many with as without a signal, marked `false` (without) and `true` (with), divided into `train` and `test`, weight `w` and
intercept `b` fitted to the training half. -/
structure Run (perm : ℕ → List ℕ) (fit : List (ℝ × Bool) → Py (ℝ × ℝ)) (h0 h1 : List ℝ) (test : List (ℝ × Bool)) (w b : ℝ) : Prop where
  shuffled : ∀ n, (perm n).Perm (List.range n)
  equal : h0.length = h1.length
  fitted : ∃ train, trainTestSplit perm (h0.map (·, false) ++ h1.map (·, true)) = pure (train, test) ∧ fit train = pure (w, b)

variable {perm : ℕ → List ℕ} {fit : List (ℝ × Bool) → Py (ℝ × ℝ)} {h0 h1 : List ℝ} {test : List (ℝ × Bool)} {w b : ℝ}

theorem Run.table (h : Run perm fit h0 h1 test w b) : logRegress perm fit h0 h1 = rocTable h0.length w b test ∧ test.length = h0.length := by
  obtain ⟨train, e1, e2⟩ := h.fitted
  change trainTestSplit perm (labelled h0 h1) = _ at e1
  constructor
  · unfold logRegress
    rw [e1]
    show (do let (w, b) ← fit train; rocTable h0.length w b test) = _
    rw [e2]
    rfl
  · by_cases hl : 2 ≤ (labelled h0 h1).length
    · obtain ⟨tr, te, e, -, hlen⟩ := C122_split h.shuffled (labelled h0 h1) hl
      rw [e] at e1
      have : te = test := by
        have := Except.ok.inj e1
        exact (Prod.mk.inj this).2
      rw [← this, hlen]
      unfold labelled
      rw [List.length_append, List.length_map, List.length_map, ← h.equal]
      omega
    · exfalso
      unfold trainTestSplit at e1
      simp only at e1
      rw [if_pos (by omega)] at e1
      cases e1

private theorem scores_nodup (hw : w ≠ 0) (hd : (test.map (·.1)).Nodup) : ((scored w b test).map (·.proba)).Nodup := by
  rw [show (scored w b test).map (·.proba) = (test.map (·.1)).map (predictProba w b) by
    unfold scored; rw [List.map_map, List.map_map]; rfl]
  exact hd.map (proba_inj hw b)

private theorem mem_scored {r : Scored ℝ} (h : r ∈ scored w b test) : (r.x, r.y) ∈ test ∧ r.proba = predictProba w b r.x := by
  obtain ⟨p, hp, rfl⟩ := List.mem_map.mp h
  exact ⟨hp, rfl⟩

private theorem rows_of (h : Run perm fit h0 h1 test w b) (hw : w ≠ 0) (hd : (test.map (·.1)).Nodup)
    (hs0 : readings test false ≠ []) (hs1 : readings test true ≠ []) :
    logRegress perm fit h0 h1 = pure ((byProba (scored w b test)).map (rowOf (scored w b test))) := by
  rw [h.table.1]
  refine rocTable_distinct (by rw [h.table.2]; omega) (scores_nodup hw hd) ?_ ?_
  · rw [scored_count, ← readings_length]; exact List.length_pos_iff.mpr hs0
  · rw [scored_count, ← readings_length]; exact List.length_pos_iff.mpr hs1

/-- The table, when all test readings are different and both kinds are among them: the readings in ascending order, each with the
fractions of the readings with and without a signal that reach it. -/
theorem C122_table (h : Run perm fit h0 h1 test w b) (hw : 0 < w) (hd : (test.map (·.1)).Nodup)
    (hs0 : readings test false ≠ []) (hs1 : readings test true ≠ []) :
    ∃ rows, logRegress perm fit h0 h1 = pure rows ∧ (rows.map (fun r => (r.row.x, r.row.y))).Perm test ∧
      rows.Pairwise (fun r q => r.row.x < q.row.x) ∧
      ∀ r ∈ rows, r.tpr = some (reach (readings test true) r.row.x) ∧ r.fpr = some (reach (readings test false) r.row.x) ∧
        r.youden = some (reach (readings test true) r.row.x - reach (readings test false) r.row.x) := by
  have hmem : ∀ r ∈ byProba (scored w b test), r.proba = predictProba w b r.x :=
    fun r hr => (mem_scored ((byProba_perm _).mem_iff.mp hr)).2
  have hr : ∀ y x, reached (scored w b test) y (predictProba w b x) = reach (readings test y) x := by
    intro y x
    rw [scored_reached]
    unfold reach
    rw [count_readings, readings_length]
    simp only [mul_le_mul_iff_right₀ hw]
  refine ⟨_, rows_of h hw.ne' hd hs0 hs1, ?_, ?_, ?_⟩
  · rw [List.map_map]
    refine ((byProba_perm (scored w b test)).map _).trans (List.Perm.of_eq ?_)
    unfold scored
    rw [List.map_map]
    exact (List.map_congr_left fun p _ => rfl).trans (List.map_id _)
  · rw [List.pairwise_map]
    refine (byProba_strict (scores_nodup hw.ne' hd)).imp_of_mem ?_
    intro r q hr' hq' hlt
    rw [hmem r hr', hmem q hq', proba_lt] at hlt
    exact lt_of_mul_lt_mul_left hlt hw.le
  · intro r hr'
    obtain ⟨q, hq, rfl⟩ := List.mem_map.mp hr'
    simp only [rowOf, hmem q hq, hr]
    exact ⟨trivial, trivial, trivial⟩

/-- Youden's index as the script plots it is the largest distance between the two fractions at any threshold whatever
(the Kolmogorov–Smirnov distance of the two samples), however the regression comes out, even with the wrong sign. -/
theorem C122_youden (h : Run perm fit h0 h1 test w b) (hw : w ≠ 0) (hd : (test.map (·.1)).Nodup)
    (hs0 : readings test false ≠ []) (hs1 : readings test true ≠ []) :
    ∃ J, (do let rows ← logRegress perm fit h0 h1; youdenJ rows) = pure (some J) ∧
      IsGreatest {d | ∃ t, d = |reach (readings test true) t - reach (readings test false) t|} J := by
  have c0 : 0 < test.countP (fun p => p.2 == false) := by rw [← readings_length]; exact List.length_pos_iff.mpr hs0
  have c1 : 0 < test.countP (fun p => p.2 == true) := by rw [← readings_length]; exact List.length_pos_iff.mpr hs1
  have hmem : ∀ r ∈ byProba (scored w b test), (r.x, r.y) ∈ test ∧ r.proba = predictProba w b r.x :=
    fun r hr => mem_scored ((byProba_perm _).mem_iff.mp hr)
  have hne : (byProba (scored w b test)).map (rowOf (scored w b test)) ≠ [] := by
    intro e
    have e := congrArg List.length e
    rw [List.length_map, (byProba_perm _).length_eq] at e
    simp only [scored, List.length_map, List.length_nil] at e
    have := List.countP_le_length (p := fun p => p.2 == false) (l := test)
    omega
  obtain ⟨m, e1, ⟨r, hr, hm⟩, hmax⟩ := youdenJ_max (J := fun r => gap test (fun z => w * r.row.x ≤ w * z)) hne (fun r hr => by
    obtain ⟨q, hq, rfl⟩ := List.mem_map.mp hr
    simp only [rowOf, (hmem q hq).2, scored_gap])
  have hrow : ∀ x ∈ test.map (·.1), ∃ r ∈ (byProba (scored w b test)).map (rowOf (scored w b test)), r.row.x = x := by
    intro x hx
    obtain ⟨p, hp, rfl⟩ := List.mem_map.mp hx
    exact ⟨_, List.mem_map_of_mem ((byProba_perm _).mem_iff.mpr (List.mem_map_of_mem hp)), rfl⟩
  have hx : ∀ r ∈ (byProba (scored w b test)).map (rowOf (scored w b test)), r.row.x ∈ test.map (·.1) := by
    intro r hr
    obtain ⟨q, hq, rfl⟩ := List.mem_map.mp hr
    exact List.mem_map_of_mem (hmem q hq).1
  refine ⟨m, ?_, ?_⟩
  · rw [rows_of h hw hd hs0 hs1]; exact e1
  simp only [← gap_reach]
  rcases lt_or_gt_of_ne hw with hw | hw
  · have hg : ∀ x, gap test (fun z => w * x ≤ w * z) = gap test (fun z => z ≤ x) :=
      fun x => gap_congr fun z _ => mul_le_mul_left_of_neg hw
    simp only [hg] at hm hmax
    constructor
    · obtain ⟨t, ht⟩ := (gaps_down c0 c1).2 _ (hx r hr)
      exact ⟨t, by rw [ht, abs_neg, hm]⟩
    · rintro d ⟨t, rfl⟩
      obtain ⟨x, hx', ht⟩ := (gaps_down c0 c1).1 t
      obtain ⟨q, hq, rfl⟩ := hrow x hx'
      rw [ht, abs_neg]
      exact hmax q hq
  · have hg : ∀ x, gap test (fun z => w * x ≤ w * z) = gap test (fun z => x ≤ z) :=
      fun x => gap_congr fun z _ => mul_le_mul_iff_right₀ hw
    simp only [hg] at hm hmax
    constructor
    · exact ⟨r.row.x, hm⟩
    · rintro d ⟨t, rfl⟩
      obtain ⟨x, hx', ht⟩ := gaps_up c0 c1 t
      obtain ⟨q, hq, rfl⟩ := hrow x hx'
      rw [ht]
      exact hmax q hq

/-- The regression has no influence on it. -/
theorem C122_regression {fit' : List (ℝ × Bool) → Py (ℝ × ℝ)} {w' b' : ℝ} (h : Run perm fit h0 h1 test w b)
    (h' : Run perm fit' h0 h1 test w' b') (hw : w ≠ 0) (hw' : w' ≠ 0) (hd : (test.map (·.1)).Nodup)
    (hs0 : readings test false ≠ []) (hs1 : readings test true ≠ []) :
    (do let rows ← logRegress perm fit h0 h1; youdenJ rows) = (do let rows ← logRegress perm fit' h0 h1; youdenJ rows) := by
  obtain ⟨J, e, hJ⟩ := C122_youden h hw hd hs0 hs1
  obtain ⟨J', e', hJ'⟩ := C122_youden h' hw' hd hs0 hs1
  rw [e, e', hJ.unique hJ']

/-- The cut-off that the script reports: no threshold separates the two kinds of test readings better. -/
theorem C122_best (h : Run perm fit h0 h1 test w b) (hw : 0 < w) (hd : (test.map (·.1)).Nodup)
    (hs0 : readings test false ≠ []) (hs1 : readings test true ≠ []) :
    ∃ x ∈ test.map (·.1), (do let rows ← logRegress perm fit h0 h1; bestThreshold rows) = pure x ∧
      ∀ t, reach (readings test true) t - reach (readings test false) t
        ≤ reach (readings test true) x - reach (readings test false) x := by
  have c0 : 0 < test.countP (fun p => p.2 == false) := by rw [← readings_length]; exact List.length_pos_iff.mpr hs0
  have c1 : 0 < test.countP (fun p => p.2 == true) := by rw [← readings_length]; exact List.length_pos_iff.mpr hs1
  obtain ⟨rows, e, hp, -, hr⟩ := C122_table h hw hd hs0 hs1
  have hne : rows ≠ [] := by
    rintro rfl
    have := hp.length_eq
    simp only [List.map_nil, List.length_nil] at this
    have := List.countP_le_length (p := fun p => p.2 == false) (l := test)
    omega
  obtain ⟨r, hr', e2, hmax⟩ := bestThreshold_max hne (fun r hr' => (hr r hr').2.2)
  have hx : ∀ x, x ∈ test.map (·.1) ↔ ∃ r ∈ rows, r.row.x = x := by
    intro x
    have := (hp.map (·.1)).mem_iff (a := x)
    rw [List.map_map] at this
    rw [← this]
    simp only [List.mem_map, Function.comp]
  refine ⟨r.row.x, (hx _).mpr ⟨r, hr', rfl⟩, by rw [e]; exact e2, fun t => ?_⟩
  rw [← gap_reach]
  obtain ⟨x, hx', ht⟩ := gaps_up c0 c1 t
  obtain ⟨q, hq, rfl⟩ := (hx x).mp hx'
  rw [ht, gap_reach]
  exact hmax q hq

/-- The area under the curve, ties or not: the chance that a test reading with a signal exceeds one without, or its complement if
the regression has a negative weight. -/
theorem C122_auc (h : Run perm fit h0 h1 test w b) (hw : w ≠ 0) (hs0 : readings test false ≠ []) (hs1 : readings test true ≠ [])
    {rows : List (RocRow ℝ)} (hrows : logRegress perm fit h0 h1 = pure rows) :
    auc rows = pure (if 0 < w then beats (readings test false) (readings test true)
      else 1 - beats (readings test false) (readings test true)) := by
  have l0 : 0 < (readings test false).length := List.length_pos_iff.mpr hs0
  have l1 : 0 < (readings test true).length := List.length_pos_iff.mpr hs1
  have hrow : rows.map (·.row) = byProba (scored w b test) := by
    have hs := rocTable_shape (len0 := h0.length) hw b test
    rw [h.table.1] at hrows
    split_ifs at hs with hc
    · obtain ⟨rows', e1, e2⟩ := hs
      rw [e1] at hrows
      rw [← Except.ok.inj hrows]
      exact e2
    · rw [hs] at hrows; cases hrows
  have hp : (rows.map (·.row)).Perm (scored w b test) := hrow ▸ byProba_perm _
  rw [auc_wins (n0 := (readings test false).length) (n1 := (readings test true).length)
    (by rw [hp.countP_eq, scored_count, readings_length]) (by rw [hp.countP_eq, scored_count, readings_length]) l0 l1,
    wins_perm hp, wins_scored]
  congr 1
  rcases lt_or_gt_of_ne hw with hw | hw
  · rw [if_neg (not_lt.mpr hw.le)]
    unfold beats
    have key : ∀ (A B : List ℝ), (A.map (fun x => (B.map (fun y => if w * x < w * y then (1 : ℝ) else if w * x = w * y then 1 / 2 else 0)).sum)).sum
        = A.length * B.length - (A.map (fun x => (B.map (fun y => if x < y then (1 : ℝ) else if x = y then 1 / 2 else 0)).sum)).sum := by
      intro A B
      induction A with
      | nil => simp
      | cons a A ih =>
        have : (B.map (fun y => if w * a < w * y then (1 : ℝ) else if w * a = w * y then 1 / 2 else 0)).sum
            = B.length - (B.map (fun y => if a < y then (1 : ℝ) else if a = y then 1 / 2 else 0)).sum := by
          clear ih
          induction B with
          | nil => simp
          | cons y B ih =>
            simp only [List.map_cons, List.sum_cons, List.length_cons, ih]
            have e1 : w * a < w * y ↔ y < a := mul_lt_mul_left_of_neg hw
            have e2 : w * a = w * y ↔ a = y := mul_right_inj' hw.ne
            simp only [e1, e2]
            rcases lt_trichotomy a y with h | h | h
            · rw [if_neg (not_lt.mpr h.le), if_neg h.ne, if_pos h]; push_cast; ring
            · subst h; rw [if_neg (lt_irrefl _), if_pos rfl]; push_cast; ring
            · rw [if_pos h, if_neg (not_lt.mpr h.le), if_neg h.ne']; push_cast; ring
        simp only [List.map_cons, List.sum_cons, List.length_cons, ih, this]
        push_cast
        ring
    rw [key]
    have h0' : ((readings test false).length : ℝ) ≠ 0 := by positivity
    have h1' : ((readings test true).length : ℝ) ≠ 0 := by positivity
    field_simp
  · rw [if_pos hw]
    unfold beats
    simp only [mul_lt_mul_iff_right₀ hw, mul_right_inj' hw.ne']

/-- Which readings the script accepts: at most one of the test readings may be repeated, and only once.  Otherwise it stops with a
`ValueError`. -/
theorem C122_accepts (h : Run perm fit h0 h1 test w b) (hw : w ≠ 0) :
    ((∃ rows, logRegress perm fit h0 h1 = pure rows) ↔ test.length ≤ (test.map (·.1)).dedup.length + 1) ∧
      (¬ test.length ≤ (test.map (·.1)).dedup.length + 1 → logRegress perm fit h0 h1 = .error .value) := by
  have hs := rocTable_shape (len0 := h0.length) hw b test
  rw [← h.table.1, ← h.table.2] at hs
  have hle : (test.map (·.1)).dedup.length ≤ test.length := by
    have := (List.dedup_sublist (test.map (·.1))).length_le
    rwa [List.length_map] at this
  split_ifs at hs with hc
  · obtain ⟨rows, e, -⟩ := hs
    refine ⟨⟨fun _ => ?_, fun _ => ⟨rows, e⟩⟩, fun hn => absurd ?_ hn⟩ <;>
    · by_cases h1 : (test.map (·.1)).dedup.length + 1 = test.length
      · omega
      · have := hc.2 h1; omega
  · have hn : ¬ test.length ≤ (test.map (·.1)).dedup.length + 1 := fun h' => hc ⟨fun h => h, fun h'' => by omega⟩
    refine ⟨⟨fun ⟨rows, e⟩ => ?_, fun h' => absurd h' hn⟩, fun _ => hs⟩
    rw [hs] at e; cases e

/-! ## Concrete cases -/

/-- Six readings are shuffled so that the first, second and fourth are for the test. -/
def shuffle (n : ℕ) : List ℕ := if n = 6 then [0, 1, 3, 2, 4, 5] else List.range n

theorem shuffle_perm (n : ℕ) : (shuffle n).Perm (List.range n) := by
  unfold shuffle
  split_ifs with h
  · subst h; decide
  · exact List.Perm.refl _

theorem split_of (a b c d e f : ℝ) : trainTestSplit shuffle ([a, b, c].map (·, false) ++ [d, e, f].map (·, true))
    = pure ([(c, false), (e, true), (f, true)], [(a, false), (b, false), (d, true)]) := by
  simp [trainTestSplit, shuffle, pyIndex, bind, Except.bind, pure, Except.pure]

theorem run_of (a b c d e f w v : ℝ) : Run shuffle (fun _ => pure (w, v)) [a, b, c] [d, e, f] [(a, false), (b, false), (d, true)] w v :=
  ⟨shuffle_perm, rfl, [(c, false), (e, true), (f, true)], split_of a b c d e f, rfl⟩

private theorem distinct_132 : ([(1, false), (3, false), (2, true)].map (·.1) : List ℝ).Nodup := by norm_num

/-- Readings 1 and 3 without, 2 with a signal: Youden's index is a half, at the threshold 2; the area is a half. -/
example (v : ℝ) : (do let rows ← logRegress shuffle (fun _ => pure (2, v)) [1, 3, 9] [2, 5, 8]; youdenJ rows) = pure (some (1 / 2)) := by
  obtain ⟨J, e, hJ⟩ := C122_youden (run_of 1 3 9 2 5 8 2 v) (by norm_num) distinct_132 (by simp [readings]) (by simp [readings])
  rw [e]
  obtain ⟨t, ht⟩ := hJ.1
  have h2 := hJ.2 ⟨2, rfl⟩
  simp only [readings, reach] at ht h2
  congr 2
  apply le_antisymm
  · rw [ht]
    by_cases h1 : t ≤ 1 <;> by_cases h2 : t ≤ 2 <;> by_cases h3 : t ≤ 3 <;> norm_num [h1, h2, h3, List.countP_cons] <;> linarith
  · refine le_trans ?_ h2
    norm_num [List.countP_cons]

example (v : ℝ) : ∃ rows, logRegress shuffle (fun _ => pure (2, v)) [1, 3, 9] [2, 5, 8] = pure rows ∧ auc rows = pure (1 / 2) := by
  obtain ⟨rows, e, -⟩ := C122_table (run_of 1 3 9 2 5 8 2 v) (by norm_num) distinct_132 (by simp [readings]) (by simp [readings])
  refine ⟨rows, e, ?_⟩
  rw [C122_auc (run_of 1 3 9 2 5 8 2 v) (by norm_num) (by simp [readings]) (by simp [readings]) e]
  norm_num [beats, readings]

example (v : ℝ) : (do let rows ← logRegress shuffle (fun _ => pure (2, v)) [1, 3, 9] [2, 5, 8]; youdenJ rows)
    = (do let rows ← logRegress shuffle (fun _ => pure (-1, 0)) [1, 3, 9] [2, 5, 8]; youdenJ rows) :=
  C122_regression (run_of 1 3 9 2 5 8 2 v) (run_of 1 3 9 2 5 8 (-1) 0) (by norm_num) (by norm_num) distinct_132 (by simp [readings])
    (by simp [readings])

example : ∃ x ∈ [1, 3, 2], (do let rows ← logRegress shuffle (fun _ => pure (2, 0)) [1, 3, 9] [2, 5, 8]; bestThreshold rows) = pure x ∧
    1 / 2 ≤ reach [2] x - reach [1, 3] x := by
  obtain ⟨x, hx, e, hmax⟩ := C122_best (run_of 1 3 9 2 5 8 2 0) (by norm_num) distinct_132 (by simp [readings]) (by simp [readings])
  refine ⟨x, by simpa using hx, e, ?_⟩
  refine le_trans ?_ (hmax 2)
  norm_num [readings, reach, List.countP_cons]

/-- One repeated reading, and the script reports a worthless cut-off: of the test readings 1, 1 (without) and 2 (with a signal) it
picks 1, which every reading reaches, although 2 separates them completely.  (With one repetition there is one rate fewer, and the
columns are entered one row too low.) -/
theorem C122_shifted {w : ℝ} (hw : 0 < w) (v c e f : ℝ) :
    Run shuffle (fun _ => pure (w, v)) [1, 1, c] [2, e, f] [(1, false), (1, false), (2, true)] w v ∧
    (do let rows ← logRegress shuffle (fun _ => pure (w, v)) [1, 1, c] [2, e, f]; bestThreshold rows) = pure 1 ∧
    reach [2] 1 - reach [1, 1] 1 = 0 ∧ reach [2] 2 - reach [1, 1] 2 = 1 := by
  have hrun := run_of 1 1 c 2 e f w v
  refine ⟨hrun, ?_, by norm_num [reach, List.countP_cons], by norm_num [reach, List.countP_cons]⟩
  have hlt : predictProba w v 1 < predictProba w v 2 := by rw [proba_lt]; linarith
  set p1 := predictProba w v 1
  set p2 := predictProba w v 2
  obtain ⟨l, hl⟩ : ∃ l : List (Scored ℝ), l = [⟨1, false, p1⟩, ⟨1, false, p1⟩, ⟨2, true, p2⟩] := ⟨_, rfl⟩
  have hsc : [((1 : ℝ), false), (1, false), (2, true)].map (fun p => (⟨p.1, p.2, predictProba w v p.1⟩ : Scored ℝ)) = l := by
    rw [hl]; rfl
  have hb : byProba l = l := byProba_of_sorted (by rw [hl]; simp [hlt.le])
  have hpts : rocPoints 0 0 l.reverse = [(0, 1), (2, 1)] := by
    rw [hl]
    simp [rocPoints, hlt.ne']
  have hrows : logRegress shuffle (fun _ => pure (w, v)) [1, 1, c] [2, e, f] = pure
      [⟨⟨1, false, p1⟩, some 1, some 1, some 0⟩, ⟨⟨1, false, p1⟩, some 1, some 0, some 1⟩, ⟨⟨2, true, p2⟩, some 0, some 0, some 0⟩] := by
    rw [hrun.table.1]
    unfold rocTable rocCurve
    simp only [hsc, hb, hpts]
    rw [hl]
    simp only [column, rate, List.map_cons, List.map_nil, List.length_cons, List.length_nil, List.getLastD_cons, List.getLastD_nil]
    norm_num
    simp [bind, Except.bind, pure, Except.pure]
  rw [hrows]
  obtain ⟨r, hr, e1, hmax⟩ := bestThreshold_max (J := fun r : RocRow ℝ => r.youden.getD 0)
    (rows := [⟨⟨1, false, p1⟩, some 1, some 1, some 0⟩, ⟨⟨1, false, p1⟩, some 1, some 0, some 1⟩, ⟨⟨2, true, p2⟩, some 0, some 0, some 0⟩])
    (by simp) (by simp)
  refine e1.trans ?_
  have h1 := hmax ⟨⟨1, false, p1⟩, some 1, some 0, some 1⟩ (by simp)
  simp only [List.mem_cons, List.not_mem_nil, or_false] at hr
  rcases hr with rfl | rfl | rfl
  · rfl
  · rfl
  · simp only [Option.getD_some] at h1
    linarith

/-- Three equal readings, and it stops. -/
example : logRegress shuffle (fun _ => pure ((2 : ℝ), 0)) [1, 1, 9] [1, 5, 8] = .error .value :=
  (C122_accepts (run_of 1 1 9 1 5 8 2 0) (by norm_num)).2 (by simp [List.dedup, List.pwFilter])

example : ∃ rows, logRegress shuffle (fun _ => pure ((2 : ℝ), 0)) [1, 1, 9] [2, 5, 8] = pure rows :=
  (C122_accepts (run_of 1 1 9 2 5 8 2 0) (by norm_num)).1.mpr (by simp [List.dedup, List.pwFilter])

end Verif.Props
