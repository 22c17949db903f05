import Verif.Model.KomPyRoc
import Verif.Spec.Roc
import Mathlib.Data.List.Dedup
import Mathlib.Analysis.SpecialFunctions.Exp

/-! The operating curve of kom_py/lambdas.py, in exact arithmetic. -/
namespace Verif.KomPy
open Verif Spec

theorem cnt_false (r : Scored ℝ) (l : List (Scored ℝ)) :
    (r :: l).countP (fun r => r.y == false) = (!r.y).toNat + l.countP (fun r => r.y == false) := by
  rw [List.countP_cons]
  cases r.y <;> simp; omega

theorem cnt_true (r : Scored ℝ) (l : List (Scored ℝ)) :
    (r :: l).countP (fun r => r.y == true) = r.y.toNat + l.countP (fun r => r.y == true) := by
  rw [List.countP_cons]
  cases r.y <;> simp; omega

/-- Where no two neighbours have the same score, every reading gives a point. -/
theorem rocPoints_strict : ∀ (l : List (Scored ℝ)) (fp tp : ℕ), l.IsChain (fun a b => a.proba ≠ b.proba) →
    rocPoints fp tp l = (List.range l.length).map (fun i => (fp + (l.take (i + 1)).countP (fun r => r.y == false),
      tp + (l.take (i + 1)).countP (fun r => r.y == true)))
  | [], _, _, _ => rfl
  | [r], fp, tp, _ => by cases hy : r.y <;> simp [rocPoints, hy]
  | r :: r' :: l, fp, tp, h => by
    have h1 : r.proba ≠ r'.proba := by
      rw [List.isChain_cons_cons] at h; exact h.1
    have h2 : (r' :: l).IsChain (fun a b => a.proba ≠ b.proba) := by
      rw [List.isChain_cons_cons] at h; exact h.2
    have he : Flt.eq r.proba r'.proba = false := by
      rw [Flt.eq_real]; simpa using h1
    rw [rocPoints, he, if_neg (by simp), rocPoints_strict (r' :: l) _ _ h2, List.length_cons (a := r), List.range_succ_eq_map,
      List.map_cons, List.map_map]
    congr 1
    · simp only [List.take_succ_cons, List.take_zero, cnt_false, cnt_true, List.countP_nil, Nat.add_zero, Nat.zero_add]
    · apply List.map_congr_left
      intro i _
      simp only [Function.comp, Nat.succ_eq_add_one, List.take_succ_cons (a := r), cnt_false, cnt_true]
      simp only [Nat.add_assoc]

/-- The number of points is the number of different scores. -/
theorem rocPoints_length : ∀ (l : List (Scored ℝ)) (fp tp : ℕ), l.Pairwise (fun a b => b.proba ≤ a.proba) →
    (rocPoints fp tp l).length = (l.map (·.proba)).dedup.length
  | [], _, _, _ => rfl
  | [r], fp, tp, _ => by simp [rocPoints]
  | r :: r' :: l, fp, tp, h => by
    have h2 := (List.pairwise_cons.mp h).2
    rw [rocPoints]
    by_cases he : r.proba = r'.proba
    · rw [Flt.eq_real, if_pos (by simpa using he), rocPoints_length (r' :: l) _ _ h2, List.map_cons (a := r),
        List.dedup_cons_of_mem (by simp [he])]
    · rw [Flt.eq_real, if_neg (by simpa using he), List.length_cons, rocPoints_length (r' :: l) _ _ h2, List.map_cons (a := r),
        List.dedup_cons_of_notMem, List.length_cons]
      intro hm
      obtain ⟨q, hq, e⟩ := List.mem_map.mp hm
      have h3 := (List.pairwise_cons.mp h2).1
      have h4 := (List.pairwise_cons.mp h).1 r' (by simp)
      rcases List.mem_cons.mp hq with rfl | hq
      · exact he e.symm
      · have := h3 q hq
        rw [e] at this
        exact he (le_antisymm this h4)

/-- The last point counts everything. -/
theorem rocPoints_last : ∀ (l : List (Scored ℝ)) (fp tp : ℕ), l ≠ [] → ∀ d, (rocPoints fp tp l).getLastD d
    = (fp + l.countP (fun r => r.y == false), tp + l.countP (fun r => r.y == true))
  | [], _, _, h, _ => absurd rfl h
  | [r], fp, tp, _, _ => by cases hy : r.y <;> simp [rocPoints, hy]
  | r :: r' :: l, fp, tp, _, d => by
    rw [rocPoints]
    have ih := rocPoints_last (r' :: l) (fp + (!r.y).toNat) (tp + r.y.toNat) (by simp)
    split_ifs
    · rw [ih, cnt_false r, cnt_true r, Nat.add_assoc, Nat.add_assoc]
    · rw [List.getLastD_cons, ih, cnt_false r, cnt_true r, Nat.add_assoc, Nat.add_assoc]

theorem byProba_sorted (l : List (Scored ℝ)) : (byProba l).Pairwise (fun a b => a.proba ≤ b.proba) := by
  have := List.pairwise_mergeSort (le := fun a b : Scored ℝ => Flt.le a.proba b.proba)
    (fun a b c h1 h2 => by rw [Flt.le_real, decide_eq_true_eq] at *; exact h1.trans h2)
    (fun a b => by simp only [Flt.le_real, Bool.or_eq_true, decide_eq_true_eq]; exact le_total _ _) l
  exact this.imp (fun h => by rw [Flt.le_real, decide_eq_true_eq] at h; exact h)

theorem byProba_perm (l : List (Scored ℝ)) : (byProba l).Perm l := List.mergeSort_perm _ _

theorem byProba_of_sorted {l : List (Scored ℝ)} (h : l.Pairwise (fun a b => a.proba ≤ b.proba)) : byProba l = l :=
  List.mergeSort_of_pairwise (h.imp (fun h => by rw [Flt.le_real, decide_eq_true_eq]; exact h))

/-- With different scores they are strictly ascending. -/
theorem byProba_strict {l : List (Scored ℝ)} (hd : (l.map (·.proba)).Nodup) :
    (byProba l).Pairwise (fun a b => a.proba < b.proba) := by
  have h1 := byProba_sorted l
  have h2 : ((byProba l).map (·.proba)).Nodup := ((byProba_perm l).map _).nodup_iff.mpr hd
  rw [List.Nodup, List.pairwise_map] at h2
  exact (h1.and h2).imp (fun h => lt_of_le_of_ne h.1 h.2)

/-- In a strictly ascending list the readings from place `i` on are those that reach the score at place `i`. -/
theorem drop_count {l : List (Scored ℝ)} (h : l.Pairwise (fun a b => a.proba < b.proba)) {i : ℕ} (hi : i < l.length) (y : Bool) :
    (l.drop i).countP (fun r => r.y == y) = l.countP (fun r => r.y == y && decide (l[i].proba ≤ r.proba)) := by
  induction l generalizing i with
  | nil => simp at hi
  | cons a l ih =>
    obtain ⟨h1, h2⟩ := List.pairwise_cons.mp h
    cases i with
    | zero =>
      rw [List.drop_zero]
      apply List.countP_congr
      intro r hr
      have : a.proba ≤ r.proba := by
        rcases List.mem_cons.mp hr with rfl | hr
        · exact le_rfl
        · exact (h1 r hr).le
      simp [this]
    | succ i =>
      have hi' : i < l.length := by simpa using hi
      rw [List.drop_succ_cons, ih h2 hi', List.countP_cons]
      have : ¬ l[i].proba ≤ a.proba := not_le.mpr (h1 _ (List.getElem_mem hi'))
      simp [this]

/-! ## The area -/

/-- For each reading without a signal the number of readings with a signal above it, ties half. -/
noncomputable def wins (l : List (Scored ℝ)) : ℝ :=
  ((l.filter (fun r => r.y == false)).map (fun a => ((l.filter (fun r => r.y == true)).map
    (fun b => if a.proba < b.proba then (1 : ℝ) else if a.proba = b.proba then 1 / 2 else 0)).sum)).sum

theorem wins_perm {l l' : List (Scored ℝ)} (h : l.Perm l') : wins l = wins l' := by
  unfold wins
  have h1 := h.filter (fun r => r.y == true)
  have h0 := h.filter (fun r => r.y == false)
  rw [(h0.map _).sum_eq]
  congr 1
  apply List.map_congr_left
  intro a _
  exact (h1.map _).sum_eq

theorem sum_const_map {T : Type} (l : List T) (f : T → ℝ) (c : ℝ) (h : ∀ x ∈ l, f x = c) : (l.map f).sum = l.length * c := by
  rw [List.map_congr_left h, List.map_const', List.sum_replicate, nsmul_eq_mul]

theorem wins_append {g l : List (Scored ℝ)} (h : ∀ a ∈ g, ∀ b ∈ l, b.proba < a.proba) :
    wins (g ++ l) = wins g + wins l + (l.countP (fun r => r.y == false) : ℝ) * (g.countP (fun r => r.y == true) : ℝ) := by
  unfold wins
  rw [List.filter_append, List.filter_append, List.map_append, List.sum_append]
  have e1 : ∀ a ∈ g.filter (fun r => r.y == false), ((g.filter (fun r => r.y == true) ++ l.filter (fun r => r.y == true)).map
      (fun b => if a.proba < b.proba then (1 : ℝ) else if a.proba = b.proba then 1 / 2 else 0)).sum
      = ((g.filter (fun r => r.y == true)).map
      (fun b => if a.proba < b.proba then (1 : ℝ) else if a.proba = b.proba then 1 / 2 else 0)).sum := by
    intro a ha
    rw [List.map_append, List.sum_append, sum_const_map (l.filter _) _ 0, mul_zero, add_zero]
    intro b hb
    have := h a (List.mem_of_mem_filter ha) b (List.mem_of_mem_filter hb)
    rw [if_neg (by linarith), if_neg (by linarith)]
  have e2 : ∀ a ∈ l.filter (fun r => r.y == false), ((g.filter (fun r => r.y == true) ++ l.filter (fun r => r.y == true)).map
      (fun b => if a.proba < b.proba then (1 : ℝ) else if a.proba = b.proba then 1 / 2 else 0)).sum
      = (g.countP (fun r => r.y == true) : ℝ) + ((l.filter (fun r => r.y == true)).map
      (fun b => if a.proba < b.proba then (1 : ℝ) else if a.proba = b.proba then 1 / 2 else 0)).sum := by
    intro a ha
    rw [List.map_append, List.sum_append, sum_const_map (g.filter _) _ 1, mul_one, List.countP_eq_length_filter]
    intro b hb
    rw [if_pos (h b (List.mem_of_mem_filter hb) a (List.mem_of_mem_filter ha))]
  rw [List.map_congr_left e1, List.map_congr_left e2]
  have e3 : ∀ (L : List (Scored ℝ)) (c : ℝ) (f : Scored ℝ → ℝ), (L.map (fun a => c + f a)).sum = L.length * c + (L.map f).sum := by
    intro L c f
    induction L with
    | nil => simp
    | cons a L ih => simp only [List.map_cons, List.sum_cons, List.length_cons, ih]; push_cast; ring
  rw [e3, List.countP_eq_length_filter (l := l)]
  ring

theorem wins_equal {g : List (Scored ℝ)} {s : ℝ} (h : ∀ a ∈ g, a.proba = s) :
    wins g = (g.countP (fun r => r.y == false) : ℝ) * (g.countP (fun r => r.y == true) : ℝ) / 2 := by
  unfold wins
  rw [sum_const_map _ _ ((g.countP (fun r => r.y == true) : ℝ) / 2), List.countP_eq_length_filter (p := fun r : Scored ℝ => r.y == false)]
  · ring
  · intro a ha
    rw [sum_const_map _ _ (1 / 2), List.countP_eq_length_filter]
    · ring
    · intro b hb
      rw [h a (List.mem_of_mem_filter ha), h b (List.mem_of_mem_filter hb), if_neg (lt_irrefl _), if_pos rfl]

/-- Trapezoids between points of natural numbers. -/
noncomputable def area : ℕ × ℕ → List (ℕ × ℕ) → ℝ
  | _, [] => 0
  | p, q :: l => ((q.1 : ℝ) - p.1) * ((p.2 : ℝ) + q.2) / 2 + area q l

theorem area_points : ∀ (l g : List (Scored ℝ)) (f t : ℕ) (s : ℝ), (∀ a ∈ g, a.proba = s) → (∀ a ∈ l, a.proba ≤ s) →
    (g ≠ [] → ∃ r l', l = r :: l' ∧ r.proba = s) → l.Pairwise (fun a b => b.proba ≤ a.proba) →
    area (f, t) (rocPoints (f + g.countP (fun r => r.y == false)) (t + g.countP (fun r => r.y == true)) l)
      = ((g ++ l).countP (fun r => r.y == false) : ℝ) * t + wins (g ++ l)
  | [], g, f, t, s, _, _, h3, _ => by
    have : g = [] := by
      by_contra h
      obtain ⟨r, l', e, -⟩ := h3 h
      cases e
    subst this
    simp [rocPoints, area, wins]
  | [r], g, f, t, s, h1, h2, h3, _ => by
    obtain ⟨s', hs', hr⟩ : ∃ s', (∀ a ∈ g, a.proba = s') ∧ r.proba = s' := by
      by_cases hg : g = []
      · exact ⟨r.proba, by simp [hg], rfl⟩
      · obtain ⟨q, l', e, hq⟩ := h3 hg
        cases e
        exact ⟨s, h1, hq⟩
    have hall : ∀ a ∈ g ++ [r], a.proba = s' := by
      intro a ha
      rcases List.mem_append.mp ha with ha | ha
      · exact hs' a ha
      · rw [List.mem_singleton.mp ha]; exact hr
    rw [wins_equal hall, rocPoints, List.countP_append, List.countP_append, cnt_false, cnt_true]
    simp only [area, List.countP_nil, Nat.add_zero]
    push_cast
    ring
  | r :: r' :: l, g, f, t, s, h1, h2, h3, h4 => by
    obtain ⟨s', hs', hr⟩ : ∃ s', (∀ a ∈ g, a.proba = s') ∧ r.proba = s' := by
      by_cases hg : g = []
      · exact ⟨r.proba, by simp [hg], rfl⟩
      · obtain ⟨q, l', e, hq⟩ := h3 hg
        cases e
        exact ⟨s, h1, hq⟩
    have hall : ∀ a ∈ g ++ [r], a.proba = s' := by
      intro a ha
      rcases List.mem_append.mp ha with ha | ha
      · exact hs' a ha
      · rw [List.mem_singleton.mp ha]; exact hr
    obtain ⟨p1, p2⟩ := List.pairwise_cons.mp h4
    have hle : ∀ a ∈ r' :: l, a.proba ≤ r'.proba := by
      intro a ha
      rcases List.mem_cons.mp ha with rfl | ha
      · exact le_rfl
      · exact (List.pairwise_cons.mp p2).1 a ha
    have hcat : g ++ r :: r' :: l = (g ++ [r]) ++ (r' :: l) := by simp
    have hf : f + g.countP (fun r => r.y == false) + (!r.y).toNat = f + (g ++ [r]).countP (fun r => r.y == false) := by
      rw [List.countP_append, cnt_false, List.countP_nil]; omega
    have ht : t + g.countP (fun r => r.y == true) + r.y.toNat = t + (g ++ [r]).countP (fun r => r.y == true) := by
      rw [List.countP_append, cnt_true, List.countP_nil]; omega
    rw [rocPoints, hf, ht, hcat]
    by_cases he : r.proba = r'.proba
    · rw [Flt.eq_real, if_pos (by simpa using he)]
      exact area_points (r' :: l) (g ++ [r]) f t s' hall (fun a ha => by rw [← hr, he]; exact hle a ha)
        (fun _ => ⟨r', l, rfl, by rw [← he, hr]⟩) p2
    · rw [Flt.eq_real, if_neg (by simpa using he), area]
      have ih := area_points (r' :: l) [] (f + (g ++ [r]).countP (fun r => r.y == false))
        (t + (g ++ [r]).countP (fun r => r.y == true)) r'.proba (by simp) hle (fun h => absurd rfl h) p2
      simp only [List.countP_nil, Nat.add_zero, List.nil_append] at ih
      have hlt : ∀ a ∈ g ++ [r], ∀ b ∈ r' :: l, b.proba < a.proba := by
        intro a ha b hb
        rw [hall a ha, ← hr]
        exact lt_of_le_of_lt (hle b hb) (lt_of_le_of_ne (p1 r' (by simp)) (Ne.symm he))
      rw [ih, wins_append hlt, wins_equal hall, List.countP_append (l₂ := r' :: l)]
      push_cast
      ring

theorem trapezoid_area (n0 n1 : ℝ) (h0 : n0 ≠ 0) (h1 : n1 ≠ 0) : ∀ (l : List (ℕ × ℕ)) (p : ℕ × ℕ),
    trapezoid ((p.1 : ℝ) / n0) ((p.2 : ℝ) / n1) (l.map (fun p => ((p.1 : ℝ) / n0, (p.2 : ℝ) / n1))) = area p l / (n0 * n1)
  | [], p => by simp [trapezoid, area]
  | q :: l, p => by
    rw [List.map_cons, trapezoid, area, trapezoid_area n0 n1 h0 h1 l q, Flt.ofNat_real]
    push_cast
    field_simp

/-- The reported area is the chance that a reading with a signal has the higher score. -/
theorem auc_wins {rows : List (RocRow ℝ)} {n0 n1 : ℕ} (hn0 : n0 = (rows.map (·.row)).countP (fun r => r.y == false))
    (hn1 : n1 = (rows.map (·.row)).countP (fun r => r.y == true)) (h0 : 0 < n0) (h1 : 0 < n1) :
    auc rows = pure (wins (rows.map (·.row)) / (n0 * n1)) := by
  obtain ⟨l, hl0⟩ : ∃ l, l = rows.map (·.row) := ⟨_, rfl⟩
  rw [← hl0] at hn0 hn1 ⊢
  have hne : (byProba l).reverse ≠ [] := by
    intro h
    have : l = [] := by
      have h' := congrArg List.length h
      rw [List.length_reverse, (byProba_perm l).length_eq] at h'
      exact List.length_eq_zero_iff.mp h'
    rw [this] at hn0
    simp at hn0
    omega
  have hp : (byProba l).reverse.Perm l := (List.reverse_perm _).trans (byProba_perm l)
  have hl := rocPoints_last (byProba l).reverse 0 0 hne (0, 0)
  rw [hp.countP_eq, hp.countP_eq, ← hn0, ← hn1, Nat.zero_add, Nat.zero_add] at hl
  have hs : (byProba l).reverse.Pairwise (fun a b => b.proba ≤ a.proba) := by
    rw [List.pairwise_reverse]; exact byProba_sorted l
  obtain ⟨r, t, e⟩ := List.exists_cons_of_ne_nil hne
  have ha := area_points (byProba l).reverse [] 0 0 r.proba (by simp) (fun a ha => by
    rw [e] at hs ha
    rcases List.mem_cons.mp ha with rfl | ha
    · exact le_rfl
    · exact (List.pairwise_cons.mp hs).1 a ha) (fun h => absurd rfl h) hs
  simp only [List.countP_nil, List.nil_append, Nat.cast_zero, mul_zero, zero_add] at ha
  have ht := trapezoid_area n0 n1 (by positivity) (by positivity) (rocPoints 0 0 (byProba l).reverse) (0, 0)
  simp only [Nat.cast_zero, zero_div] at ht
  show auc rows = .ok _
  unfold auc
  simp only [← hl0, hl, Flt.ofNat_real]
  rw [if_neg (by omega), ht, ha, wins_perm hp]

/-! ## The table -/

/-- The fraction of the readings of one kind whose score reaches `s`. -/
noncomputable def reached (l : List (Scored ℝ)) (y : Bool) (s : ℝ) : ℝ :=
  (l.countP (fun r => r.y == y && decide (s ≤ r.proba)) : ℝ) / (l.countP (fun r => r.y == y) : ℝ)

theorem reached_perm {l l' : List (Scored ℝ)} (h : l.Perm l') : reached l = reached l' := by
  funext y s
  unfold reached
  rw [h.countP_eq, h.countP_eq]

noncomputable def scored (w b : ℝ) (test : List (ℝ × Bool)) : List (Scored ℝ) :=
  test.map (fun p => (⟨p.1, p.2, predictProba w b p.1⟩ : Scored ℝ))

/-- The row of a reading. -/
noncomputable def rowOf (l : List (Scored ℝ)) (r : Scored ℝ) : RocRow ℝ :=
  ⟨r, some (reached l true r.proba), some (reached l false r.proba), some (reached l true r.proba - reached l false r.proba)⟩

theorem curve_column {l : List (Scored ℝ)} {f : ℕ × ℕ → ℕ} {y : Bool} (len0 : ℕ) (hlen : l.length + 1 ≠ len0)
    (hs : l.Pairwise (fun a b => a.proba < b.proba))
    (hf : ∀ i, f (((l.reverse.take (i + 1)).countP (fun r => r.y == false)), (l.reverse.take (i + 1)).countP (fun r => r.y == true))
      = (l.reverse.take (i + 1)).countP (fun r => r.y == y))
    (hl : f (((0, 0) :: rocPoints 0 0 l.reverse).getLastD (0, 0)) = l.countP (fun r => r.y == y)) (hy : 0 < l.countP (fun r => r.y == y)) :
    column l.length len0 (((0, 0) :: rocPoints 0 0 l.reverse).map (fun p => rate (F := ℝ)
      (f (((0, 0) :: rocPoints 0 0 l.reverse).getLastD (0, 0))) (f p))) = .ok (l.map (fun r => some (reached l y r.proba))) := by
  have hc : l.reverse.IsChain (fun a b => a.proba ≠ b.proba) := by
    apply List.Pairwise.isChain
    rw [List.pairwise_reverse]
    exact hs.imp (fun h => h.ne')
  rw [hl]
  have hp := rocPoints_strict l.reverse 0 0 hc
  simp only [Nat.zero_add, List.length_reverse] at hp
  have hlen' : (((0, 0) :: rocPoints 0 0 l.reverse).map (fun p => rate (F := ℝ) (l.countP (fun r => r.y == y)) (f p))).length
      = l.length + 1 := by
    rw [hp]; simp
  have hcol : ∀ v : List (Option ℝ), v.length = l.length + 1 → column l.length len0 v = .ok v.tail.reverse := by
    intro v hv
    unfold column
    have hn : ¬ v.length = len0 := by rw [hv]; exact hlen
    simp only [if_neg hn]
    rw [if_pos (by simp [hv])]
  rw [hcol _ hlen']
  simp only [List.map_cons, List.tail_cons, hp, List.map_map]
  congr 1
  apply List.ext_getElem
  · simp
  intro i h1 h2
  have hi : i < l.length := by simpa using h2
  simp only [List.getElem_reverse, List.getElem_map, List.getElem_range, Function.comp, List.length_map, List.length_range]
  rw [hf]
  have : l.reverse.take (l.length - 1 - i + 1) = (l.drop i).reverse := by
    rw [List.take_reverse]
    congr 2
    omega
  rw [this, List.countP_reverse, drop_count hs hi]
  unfold rate reached
  rw [if_neg (by omega), Flt.ofNat_real, Flt.ofNat_real]

/-- With different scores, both kinds of readings and enough of them, the table lists for each reading the fractions that reach
its score. -/
theorem rocTable_distinct {len0 : ℕ} {w b : ℝ} {test : List (ℝ × Bool)} (hlen : test.length + 1 ≠ len0)
    (hd : ((scored w b test).map (·.proba)).Nodup) (h0 : 0 < (scored w b test).countP (fun r => r.y == false))
    (h1 : 0 < (scored w b test).countP (fun r => r.y == true)) :
    rocTable len0 w b test = pure ((byProba (scored w b test)).map (rowOf (scored w b test))) := by
  obtain ⟨l, hl⟩ : ∃ l, l = byProba (scored w b test) := ⟨_, rfl⟩
  have hp : l.Perm (scored w b test) := hl ▸ byProba_perm _
  have hs : l.Pairwise (fun a b => a.proba < b.proba) := hl ▸ byProba_strict hd
  have hlen' : l.length + 1 ≠ len0 := by rw [hp.length_eq]; simpa [scored] using hlen
  have hne : l.reverse ≠ [] := by
    intro h
    have : l = [] := by simpa using h
    rw [← hp.countP_eq, this] at h0
    simp at h0
  have hlast := rocPoints_last l.reverse 0 0 hne (0, 0)
  rw [Nat.zero_add, Nat.zero_add, List.countP_reverse, List.countP_reverse] at hlast
  have e1 := curve_column (l := l) (f := Prod.snd) (y := true) len0 hlen' hs (fun _ => rfl)
    (by rw [List.getLastD_cons, hlast]) (by rw [hp.countP_eq]; exact h1)
  have e2 := curve_column (l := l) (f := Prod.fst) (y := false) len0 hlen' hs (fun _ => rfl)
    (by rw [List.getLastD_cons, hlast]) (by rw [hp.countP_eq]; exact h0)
  unfold rocTable rocCurve
  simp only [show test.map (fun p => (⟨p.1, p.2, predictProba w b p.1⟩ : Scored ℝ)) = scored w b test from rfl, ← hl]
  rw [e1, e2]
  show Except.ok _ = Except.ok _
  congr 1
  rw [reached_perm hp, List.zip_map', List.zipWith_map_right, List.zipWith_self]
  apply List.map_congr_left
  intro r _
  rfl

end Verif.KomPy
