import Verif.Lemmas.Roc
import Verif.Lemmas.KomPySsca
import Mathlib.Data.Finset.Max
import Mathlib.Order.Bounds.Basic

/-! From scores to readings, and what the script takes from the table. -/
namespace Verif.KomPy
open Verif Spec

theorem proba_le (w b x y : ℝ) : predictProba w b x ≤ predictProba w b y ↔ w * x ≤ w * y := by
  unfold predictProba
  rw [Flt.exp_real, Flt.exp_real, one_div_le_one_div (by positivity) (by positivity), add_le_add_iff_left, Real.exp_le_exp]
  constructor <;> intro h <;> linarith

theorem proba_lt (w b x y : ℝ) : predictProba w b x < predictProba w b y ↔ w * x < w * y := by
  rw [lt_iff_not_ge, lt_iff_not_ge, proba_le]

theorem proba_eq (w b x y : ℝ) : predictProba w b x = predictProba w b y ↔ w * x = w * y := by
  rw [le_antisymm_iff, le_antisymm_iff, proba_le, proba_le]

theorem proba_inj {w : ℝ} (hw : w ≠ 0) (b : ℝ) : Function.Injective (predictProba w b) := by
  intro x y h
  rw [proba_eq] at h
  exact mul_left_cancel₀ hw h

/-! ## Gaps -/

/-- The fraction of the readings with a signal in a set, minus that of the readings without. -/
noncomputable def gap (test : List (ℝ × Bool)) (U : ℝ → Prop) [DecidablePred U] : ℝ :=
  (test.countP (fun p => p.2 == true && decide (U p.1)) : ℝ) / (test.countP (fun p => p.2 == true) : ℝ)
    - (test.countP (fun p => p.2 == false && decide (U p.1)) : ℝ) / (test.countP (fun p => p.2 == false) : ℝ)

theorem gap_congr {test : List (ℝ × Bool)} {U V : ℝ → Prop} [DecidablePred U] [DecidablePred V]
    (h : ∀ z ∈ test.map (·.1), U z ↔ V z) : gap test U = gap test V := by
  have : ∀ y, test.countP (fun p => p.2 == y && decide (U p.1)) = test.countP (fun p => p.2 == y && decide (V p.1)) := by
    intro y
    apply List.countP_congr
    intro p hp
    simp [h p.1 (List.mem_map_of_mem hp)]
  unfold gap
  rw [this, this]

theorem count_not (test : List (ℝ × Bool)) (y : Bool) (U : ℝ → Prop) [DecidablePred U] :
    test.countP (fun p => p.2 == y && decide (U p.1)) + test.countP (fun p => p.2 == y && decide (¬ U p.1))
      = test.countP (fun p => p.2 == y) := by
  induction test with
  | nil => rfl
  | cons p l ih =>
    simp only [List.countP_cons]
    by_cases h1 : p.2 == y <;> by_cases h2 : U p.1 <;> simp [h1, h2] <;> simp at ih <;> omega

theorem gap_not {test : List (ℝ × Bool)} (U : ℝ → Prop) [DecidablePred U] (h0 : 0 < test.countP (fun p => p.2 == false))
    (h1 : 0 < test.countP (fun p => p.2 == true)) : gap test (fun z => ¬ U z) = -gap test U := by
  have e : ∀ y, (test.countP (fun p => p.2 == y && decide (¬ U p.1)) : ℝ)
      = test.countP (fun p => p.2 == y) - test.countP (fun p => p.2 == y && decide (U p.1)) := by
    intro y
    rw [← count_not test y U]
    push_cast
    ring
  have h0' : (test.countP (fun p => p.2 == false) : ℝ) ≠ 0 := by exact_mod_cast h0.ne'
  have h1' : (test.countP (fun p => p.2 == true) : ℝ) ≠ 0 := by exact_mod_cast h1.ne'
  unfold gap
  rw [e, e]
  field_simp
  ring

theorem gap_none {test : List (ℝ × Bool)} (U : ℝ → Prop) [DecidablePred U] (h : ∀ z ∈ test.map (·.1), ¬ U z) : gap test U = 0 := by
  have : ∀ y, test.countP (fun p => p.2 == y && decide (U p.1)) = 0 := by
    intro y
    rw [List.countP_eq_zero]
    intro p hp
    simp [h p.1 (List.mem_map_of_mem hp)]
  unfold gap
  rw [this, this]
  simp

theorem gap_all {test : List (ℝ × Bool)} (U : ℝ → Prop) [DecidablePred U] (h0 : 0 < test.countP (fun p => p.2 == false))
    (h1 : 0 < test.countP (fun p => p.2 == true)) (h : ∀ z ∈ test.map (·.1), U z) : gap test U = 0 := by
  have := gap_not U h0 h1
  rw [gap_none _ (fun z hz => not_not.mpr (h z hz))] at this
  linarith

theorem count_readings (test : List (ℝ × Bool)) (y : Bool) (U : ℝ → Prop) [DecidablePred U] :
    (readings test y).countP (fun x => decide (U x)) = test.countP (fun p => p.2 == y && decide (U p.1)) := by
  unfold readings
  rw [List.countP_map, List.countP_filter]
  apply List.countP_congr
  intro p _
  simp [and_comm]

theorem readings_length (test : List (ℝ × Bool)) (y : Bool) : (readings test y).length = test.countP (fun p => p.2 == y) := by
  unfold readings
  rw [List.length_map, List.countP_eq_length_filter]

theorem gap_reach (test : List (ℝ × Bool)) (t : ℝ) :
    gap test (fun z => t ≤ z) = reach (readings test true) t - reach (readings test false) t := by
  unfold gap reach
  rw [count_readings, count_readings, readings_length, readings_length]

theorem scored_count (w b : ℝ) (test : List (ℝ × Bool)) (y : Bool) :
    (scored w b test).countP (fun r => r.y == y) = test.countP (fun p => p.2 == y) := by
  unfold scored
  rw [List.countP_map]; rfl

theorem scored_reached (w b : ℝ) (test : List (ℝ × Bool)) (y : Bool) (x : ℝ) :
    reached (scored w b test) y (predictProba w b x)
      = (test.countP (fun p => p.2 == y && decide (w * x ≤ w * p.1)) : ℝ) / (test.countP (fun p => p.2 == y) : ℝ) := by
  unfold reached
  rw [scored_count]
  unfold scored
  rw [List.countP_map]
  simp only [Function.comp_def, proba_le]

theorem scored_gap (w b : ℝ) (test : List (ℝ × Bool)) (x : ℝ) :
    reached (scored w b test) true (predictProba w b x) - reached (scored w b test) false (predictProba w b x)
      = gap test (fun z => w * x ≤ w * z) := by
  rw [scored_reached, scored_reached]; rfl

theorem exists_least {xs : List ℝ} {p : ℝ → Prop} (h : ∃ z ∈ xs, p z) : ∃ x ∈ xs, p x ∧ ∀ z ∈ xs, p z → x ≤ z := by
  classical
  obtain ⟨z, hz, hp⟩ := h
  obtain ⟨x, hx, hmin⟩ := (xs.toFinset.filter p).exists_min_image id ⟨z, by simp [hz, hp]⟩
  simp only [Finset.mem_filter, List.mem_toFinset, id] at hx hmin
  exact ⟨x, hx.1, hx.2, fun y hy hpy => hmin y ⟨hy, hpy⟩⟩

theorem exists_most {xs : List ℝ} {p : ℝ → Prop} (h : ∃ z ∈ xs, p z) : ∃ x ∈ xs, p x ∧ ∀ z ∈ xs, p z → z ≤ x := by
  classical
  obtain ⟨z, hz, hp⟩ := h
  obtain ⟨x, hx, hmin⟩ := (xs.toFinset.filter p).exists_max_image id ⟨z, by simp [hz, hp]⟩
  simp only [Finset.mem_filter, List.mem_toFinset, id] at hx hmin
  exact ⟨x, hx.1, hx.2, fun y hy hpy => hmin y ⟨hy, hpy⟩⟩

/-- The thresholds at the readings are enough. -/
theorem gaps_up {test : List (ℝ × Bool)} (h0 : 0 < test.countP (fun p => p.2 == false))
    (h1 : 0 < test.countP (fun p => p.2 == true)) (t : ℝ) :
    ∃ x ∈ test.map (·.1), gap test (fun z => t ≤ z) = gap test (fun z => x ≤ z) := by
  have hne : ∃ z, z ∈ test.map (·.1) := by
    obtain ⟨p, hp, -⟩ := List.countP_pos_iff.mp h0
    exact ⟨p.1, List.mem_map_of_mem hp⟩
  by_cases h : ∃ z ∈ test.map (·.1), t ≤ z
  · obtain ⟨x, hx, htx, hmin⟩ := exists_least h
    exact ⟨x, hx, gap_congr fun z hz => ⟨hmin z hz, htx.trans⟩⟩
  · obtain ⟨z, hz⟩ := hne
    obtain ⟨x, hx, -, hmin⟩ := exists_least (p := fun _ => True) ⟨z, hz, trivial⟩
    push Not at h
    refine ⟨x, hx, ?_⟩
    rw [gap_none _ (fun z hz => not_le.mpr (h z hz)), gap_all _ h0 h1 (fun z hz => hmin z hz trivial)]

theorem gaps_down {test : List (ℝ × Bool)} (h0 : 0 < test.countP (fun p => p.2 == false))
    (h1 : 0 < test.countP (fun p => p.2 == true)) :
    (∀ t, ∃ x ∈ test.map (·.1), gap test (fun z => t ≤ z) = -gap test (fun z => z ≤ x)) ∧
    (∀ x ∈ test.map (·.1), ∃ t, gap test (fun z => t ≤ z) = -gap test (fun z => z ≤ x)) := by
  have hne : ∃ z, z ∈ test.map (·.1) := by
    obtain ⟨p, hp, -⟩ := List.countP_pos_iff.mp h0
    exact ⟨p.1, List.mem_map_of_mem hp⟩
  constructor
  · intro t
    by_cases h : ∃ z ∈ test.map (·.1), z < t
    · obtain ⟨x, hx, htx, hmax⟩ := exists_most h
      refine ⟨x, hx, ?_⟩
      rw [← gap_not _ h0 h1]
      exact gap_congr fun z hz => ⟨fun h' h'' => absurd (h'.trans h'') (not_le.mpr htx),
        fun h' => not_lt.mp fun h'' => h' (hmax z hz h'')⟩
    · obtain ⟨z, hz⟩ := hne
      obtain ⟨x, hx, -, hmax⟩ := exists_most (p := fun _ => True) ⟨z, hz, trivial⟩
      push Not at h
      refine ⟨x, hx, ?_⟩
      rw [gap_all _ h0 h1 h, gap_all _ h0 h1 (fun z hz => hmax z hz trivial), neg_zero]
  · intro x hx
    by_cases h : ∃ z ∈ test.map (·.1), x < z
    · obtain ⟨t, ht, hxt, hmin⟩ := exists_least h
      refine ⟨t, ?_⟩
      rw [← gap_not _ h0 h1]
      exact gap_congr fun z hz => ⟨fun h' h'' => absurd (h'.trans h'') (not_le.mpr hxt), fun h' => hmin z hz (not_le.mp h')⟩
    · obtain ⟨m, hm, -, hmax⟩ := exists_most (p := fun _ => True) ⟨x, hx, trivial⟩
      push Not at h
      refine ⟨m + 1, ?_⟩
      rw [gap_all (fun z => z ≤ x) h0 h1 h, gap_none _ (fun z hz => by have := hmax z hz trivial; linarith), neg_zero]

/-! ## What the script takes from the table -/

theorem youdenJ_max {rows : List (RocRow ℝ)} {J : RocRow ℝ → ℝ} (hne : rows ≠ []) (h : ∀ r ∈ rows, r.youden = some (J r)) :
    ∃ m, youdenJ rows = pure (some m) ∧ (∃ r ∈ rows, m = |J r|) ∧ ∀ r ∈ rows, |J r| ≤ m := by
  have hmap : rows.map (fun r => r.youden.map Flt.abs) = rows.map (fun r => some |J r|) :=
    List.map_congr_left fun r hr => by rw [h r hr]; rfl
  have key : ∀ (l : List (RocRow ℝ)) (v : ℝ), ∃ m,
      (l.map (fun r => some |J r|)).foldl (fun m x => if optGt x m then x else m) (some v) = some m ∧
        (m = v ∨ ∃ r ∈ l, m = |J r|) ∧ v ≤ m ∧ ∀ r ∈ l, |J r| ≤ m := by
    intro l
    induction l with
    | nil => intro v; exact ⟨v, rfl, .inl rfl, le_rfl, by simp⟩
    | cons r l ih =>
      intro v
      rw [List.map_cons, List.foldl_cons]
      by_cases hlt : v < |J r|
      · have : optGt (some |J r|) (some v) = true := by simp [optGt, hlt]
        rw [if_pos this]
        obtain ⟨m, e, h1, h2, h3⟩ := ih |J r|
        refine ⟨m, e, ?_, by linarith, ?_⟩
        · rcases h1 with h1 | ⟨q, hq, h1⟩
          · exact .inr ⟨r, by simp, h1⟩
          · exact .inr ⟨q, by simp [hq], h1⟩
        · intro q hq
          rcases List.mem_cons.mp hq with rfl | hq
          · exact h2
          · exact h3 q hq
      · have : optGt (some |J r|) (some v) = false := by simpa [optGt] using hlt
        rw [this, if_neg (by simp)]
        obtain ⟨m, e, h1, h2, h3⟩ := ih v
        refine ⟨m, e, ?_, h2, ?_⟩
        · rcases h1 with h1 | ⟨q, hq, h1⟩
          · exact .inl h1
          · exact .inr ⟨q, by simp [hq], h1⟩
        · intro q hq
          rcases List.mem_cons.mp hq with rfl | hq
          · linarith
          · exact h3 q hq
  obtain ⟨r, l, rfl⟩ := List.exists_cons_of_ne_nil hne
  obtain ⟨m, e, h1, h2, h3⟩ := key l |J r|
  refine ⟨m, ?_, ?_, ?_⟩
  · unfold youdenJ
    rw [hmap]
    exact congrArg Except.ok e
  · rcases h1 with h1 | ⟨q, hq, h1⟩
    · exact ⟨r, by simp, h1⟩
    · exact ⟨q, by simp [hq], h1⟩
  · intro q hq
    rcases List.mem_cons.mp hq with rfl | hq
    · exact h2
    · exact h3 q hq

theorem bestThreshold_max {rows : List (RocRow ℝ)} {J : RocRow ℝ → ℝ} (hne : rows ≠ []) (h : ∀ r ∈ rows, r.youden = some (J r)) :
    ∃ r ∈ rows, bestThreshold rows = pure r.row.x ∧ ∀ q ∈ rows, J q ≤ J r := by
  have hs := List.pairwise_mergeSort (le := youdenDesc)
    (fun a b c h1 h2 => by
      simp only [youdenDesc] at h1 h2 ⊢
      rcases ha : a.youden with _ | x <;> rcases hb : b.youden with _ | y <;> rcases hc : c.youden with _ | z <;>
        simp only [ha, hb, hc, Flt.le_real, decide_eq_true_eq, Bool.false_eq_true] at h1 h2 ⊢
      linarith)
    (fun a b => by
      simp only [youdenDesc]
      rcases ha : a.youden with _ | x <;> rcases hb : b.youden with _ | y <;>
        simp only [Flt.le_real, Bool.or_eq_true, decide_eq_true_eq, Bool.false_eq_true, or_true, or_false]
      exact le_total _ _) rows
  have hp := List.mergeSort_perm rows youdenDesc
  rcases hm : rows.mergeSort youdenDesc with _ | ⟨r, l⟩
  · rw [hm] at hp
    exact absurd hp.symm.eq_nil hne
  · rw [hm] at hs hp
    have hr : r ∈ rows := hp.mem_iff.mp (by simp)
    refine ⟨r, hr, ?_, ?_⟩
    · unfold bestThreshold
      rw [hm]
      rfl
    · intro q hq
      rcases List.mem_cons.mp (hp.mem_iff.mpr hq) with rfl | hq'
      · exact le_rfl
      · have := (List.pairwise_cons.mp hs).1 q hq'
        simp only [youdenDesc, h r hr, h q hq, Flt.le_real, decide_eq_true_eq] at this
        exact this

/-! ## Shape of the table with ties -/

theorem column_ok {rows len0 : ℕ} {v : List (Option ℝ)} (h : (v.length = len0 → v.length = rows) ∧ (v.length ≠ len0 → v.length - 1 = rows)) :
    ∃ c, column rows len0 v = .ok c ∧ c.length = rows := by
  unfold column
  by_cases h1 : v.length = len0
  · have h2 := h.1 h1
    refine ⟨v.reverse, ?_, by simpa using h2⟩
    simp only [if_pos h1, List.length_reverse, if_pos h2]
  · have h2 := h.2 h1
    refine ⟨v.tail.reverse, ?_, by simpa using h2⟩
    simp only [if_neg h1, List.length_reverse, List.length_tail, if_pos h2]

theorem column_error {rows len0 : ℕ} {v : List (Option ℝ)} (h : ¬ ((v.length = len0 → v.length = rows) ∧ (v.length ≠ len0 → v.length - 1 = rows))) :
    column rows len0 v = .error .value := by
  unfold column
  by_cases h1 : v.length = len0
  · have : ¬ v.length = rows := fun h2 => h ⟨fun _ => h2, fun h3 => absurd h1 h3⟩
    simp only [if_pos h1, List.length_reverse, if_neg this]
  · have : ¬ v.length - 1 = rows := fun h2 => h ⟨fun h3 => absurd h3 h1, fun _ => h2⟩
    simp only [if_neg h1, List.length_reverse, List.length_tail, if_neg this]

theorem scores_distinct {w : ℝ} (hw : w ≠ 0) (b : ℝ) (test : List (ℝ × Bool)) :
    (rocPoints 0 0 (byProba (scored w b test)).reverse).length = (test.map (·.1)).dedup.length := by
  rw [rocPoints_length _ _ _ (by rw [List.pairwise_reverse]; exact byProba_sorted _)]
  have hp : ((byProba (scored w b test)).reverse.map (·.proba)).Perm ((test.map (·.1)).map (predictProba w b)) := by
    rw [List.map_map]
    have := (((List.reverse_perm _).trans (byProba_perm (scored w b test))).map (·.proba))
    rw [show (scored w b test).map (·.proba) = test.map (predictProba w b ∘ (·.1)) by
      unfold scored; rw [List.map_map]; rfl] at this
    exact this
  rw [hp.dedup.length_eq, List.dedup_map_of_injective (proba_inj hw b), List.length_map]

/-- When the script accepts the lengths, and what the rows are then. -/
theorem rocTable_shape {len0 : ℕ} {w : ℝ} (hw : w ≠ 0) (b : ℝ) (test : List (ℝ × Bool)) :
    if (((test.map (·.1)).dedup.length + 1 = len0 → (test.map (·.1)).dedup.length + 1 = test.length) ∧
      ((test.map (·.1)).dedup.length + 1 ≠ len0 → (test.map (·.1)).dedup.length = test.length)) then
      ∃ rows, rocTable len0 w b test = .ok rows ∧ rows.map (·.row) = byProba (scored w b test)
    else rocTable len0 w b test = .error .value := by
  have hd := scores_distinct hw b test
  have hn : (byProba (scored w b test)).length = test.length := by
    rw [(byProba_perm _).length_eq]; simp [scored]
  have l1 : ((rocCurve (scored w b test)).1).length = (test.map (·.1)).dedup.length + 1 := by
    simp only [rocCurve, List.length_map, List.length_cons, hd]
  have l2 : ((rocCurve (scored w b test)).2).length = (test.map (·.1)).dedup.length + 1 := by
    simp only [rocCurve, List.length_map, List.length_cons, hd]
  split_ifs with h
  · obtain ⟨c1, e1, m1⟩ := column_ok (rows := test.length) (len0 := len0) (v := (rocCurve (scored w b test)).1) (by
      rw [l1]; exact ⟨h.1, fun h' => by simpa using h.2 h'⟩)
    obtain ⟨c2, e2, m2⟩ := column_ok (rows := test.length) (len0 := len0) (v := (rocCurve (scored w b test)).2) (by
      rw [l2]; exact ⟨h.1, fun h' => by simpa using h.2 h'⟩)
    unfold rocTable
    simp only [show test.map (fun p => (⟨p.1, p.2, predictProba w b p.1⟩ : Scored ℝ)) = scored w b test from rfl, hn, e1, e2]
    refine ⟨_, rfl, ?_⟩
    rw [List.map_zipWith]
    have : ∀ (a : List (Scored ℝ)) (q : List (Option ℝ × Option ℝ)), a.length = q.length →
        List.zipWith (fun r _ => r) a q = a := by
      intro a
      induction a with
      | nil => intro q _; simp
      | cons x a ih =>
        intro q hq
        match q, hq with
        | y :: q, hq => rw [List.zipWith_cons_cons, ih q (by simpa using hq)]
    exact this _ _ (by rw [List.length_zip, m1, m2, hn, Nat.min_self])
  · unfold rocTable
    simp only [show test.map (fun p => (⟨p.1, p.2, predictProba w b p.1⟩ : Scored ℝ)) = scored w b test from rfl, hn]
    rw [column_error (v := (rocCurve (scored w b test)).2) (by
      rw [l2]; exact fun h' => h ⟨h'.1, fun h'' => by simpa using h'.2 h''⟩)]
    rfl

/-! ## The area in terms of the readings -/

theorem wins_scored (w b : ℝ) (test : List (ℝ × Bool)) : wins (scored w b test)
    = ((readings test false).map (fun x => ((readings test true).map
      (fun y => if w * x < w * y then (1 : ℝ) else if w * x = w * y then 1 / 2 else 0)).sum)).sum := by
  have hf : ∀ y, (scored w b test).filter (fun r => r.y == y)
      = (readings test y).map (fun x => (⟨x, y, predictProba w b x⟩ : Scored ℝ)) := by
    intro y
    unfold scored readings
    rw [List.filter_map, List.map_map]
    apply List.map_congr_left
    intro p hp
    have := (List.mem_filter.mp hp).2
    simp only [Function.comp, beq_iff_eq] at this ⊢
    rw [this]
  unfold wins
  rw [hf, hf, List.map_map]
  congr 1
  apply List.map_congr_left
  intro x _
  simp only [Function.comp, List.map_map]
  congr 1
  apply List.map_congr_left
  intro y _
  simp only [Function.comp, proba_lt, proba_eq]

end Verif.KomPy
