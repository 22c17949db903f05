import Verif.Props.Chaos
import Verif.Props.IeeeChaos

/-!
# The chaotic receivers on arbitrary recordings (C93)
-/
namespace Verif.Props
open Verif Spec
set_option linter.unusedSectionVars false
variable {ι κ : Type} {F : Type} [Add F] [Sub F] [Mul F] [Div F] [Neg F] [Zero F] [One F] [Flt F]

theorem pairs_getElemD {T : Type} (l : List T) (d : T) (j : ℕ) :
    (pairs l)[j]? = if j < l.length / 2 then some (l.getD (2 * j) d, l.getD (2 * j + 1) d) else none := by
  induction l using pairs.induct generalizing j with
  | case1 a b t ih =>
    rw [pairs]
    cases j with
    | zero => simp
    | succ j =>
      rw [List.getElem?_cons_succ, ih]
      have e : (a :: b :: t).length / 2 = t.length / 2 + 1 := by simp only [List.length_cons]; omega
      rw [e]
      by_cases h : j < t.length / 2
      · rw [if_pos h, if_pos (by omega), show 2 * (j + 1) = 2 * j + 1 + 1 by ring]
        simp only [List.getD_cons_succ]
      · rw [if_neg h, if_neg (by omega)]
  | case2 l h =>
    have hl : l.length < 2 := by
      rcases l with _ | ⟨a, _ | ⟨b, t⟩⟩
      · simp
      · simp
      · exact absurd rfl (h a b t)
    rw [pairs]
    · rw [if_neg (by omega)]; rfl
    · exact h

/-- The DCSK receiver answers every recording, in any arithmetic: one bit per pair of samples (an odd last sample is ignored), bit
`j` telling whether the product of samples `2j` and `2j+1` is positive. -/
theorem C93_dcsk_any [RIter κ F] {s : κ} {l : List F} (h : Yields s l) :
    collect (rxDcsk (F := F) s)
      = pure ((List.range (l.length / 2)).map (fun j => Flt.lt 0 (l.getD (2 * j) 0 * l.getD (2 * j + 1) 0))) := by
  rw [collect_of_yields (rxDcsk_ok h)]
  congr 1
  apply List.ext_getElem?
  intro j
  rw [List.getElem?_map, List.getElem?_map, pairs_getElemD l 0]
  by_cases hj : j < l.length / 2
  · rw [if_pos hj, List.getElem?_range hj]; rfl
  · rw [if_neg hj, List.getElem?_eq_none (by rw [List.length_range]; omega)]; rfl

/-- Cutting a recording between two pairs cuts the answer. -/
theorem C93_dcsk_append [RIter κ F] {s s₁ s₂ : κ} {a b : List F} (ha : a.length % 2 = 0) (h : Yields s (a ++ b))
    (h₁ : Yields s₁ a) (h₂ : Yields s₂ b) :
    ∃ x y, collect (rxDcsk (F := F) s₁) = pure x ∧ collect (rxDcsk (F := F) s₂) = pure y ∧
      collect (rxDcsk (F := F) s) = pure (x ++ y) := by
  refine ⟨_, _, collect_of_yields (rxDcsk_ok h₁), collect_of_yields (rxDcsk_ok h₂), ?_⟩
  rw [collect_of_yields (rxDcsk_ok h), ← List.map_append]
  congr 2
  clear h h₁ h₂
  induction a using pairs.induct with
  | case1 x y t ih =>
    simp only [List.cons_append, pairs]
    rw [ih (by simp only [List.length_cons] at ha; omega)]
  | case2 l hl =>
    rcases l with _ | ⟨x, _ | ⟨y, t⟩⟩
    · rfl
    · simp at ha
    · exact absurd rfl (hl x y t)

example : ∃ x y, collect (rxDcsk (F := ℝ) (ofList [1, 1, 2, -2])) = pure x ∧ collect (rxDcsk (F := ℝ) (ofList [3, -1, 7])) = pure y ∧
    collect (rxDcsk (F := ℝ) (ofList [1, 1, 2, -2, 3, -1, 7])) = pure (x ++ y) :=
  C93_dcsk_append (a := [1, 1, 2, -2]) (b := [3, -1, 7]) rfl (yields_ofList _) (yields_ofList _) (yields_ofList _)

theorem sent_pair (d : F) {f g : ℕ → Bool → F} {msg : List Bool} {j : ℕ} {b : Bool} (hb : msg[j]? = some b) :
    ((msg.mapIdx (fun i a => [f i a, g i a])).flatten).getD (2 * j) d = f j b ∧
    ((msg.mapIdx (fun i a => [f i a, g i a])).flatten).getD (2 * j + 1) d = g j b ∧
    2 * j + 1 < ((msg.mapIdx (fun i a => [f i a, g i a])).flatten).length := by
  have h := pairs_getElemD ((msg.mapIdx (fun i a => [f i a, g i a])).flatten) d j
  rw [pairs_mapIdx_flatten, List.getElem?_mapIdx, hb, Option.map_some] at h
  by_cases hj : j < ((msg.mapIdx (fun i a => [f i a, g i a])).flatten).length / 2
  · rw [if_pos hj, Option.some.injEq, Prod.mk.injEq] at h
    exact ⟨h.1.symm, h.2.symm, by omega⟩
  · rw [if_neg hj] at h; cases h

theorem sent_length {f g : ℕ → Bool → F} {msg : List Bool} :
    ((msg.mapIdx (fun i a => [f i a, g i a])).flatten).length = 2 * msg.length := by
  rw [List.length_flatten, map_mapIdx']
  have : msg.mapIdx (fun i a => ([f i a, g i a] : List F).length) = List.replicate msg.length 2 := by
    apply List.ext_getElem?
    intro i
    rw [List.getElem?_mapIdx, List.getElem?_replicate]
    by_cases h : i < msg.length
    · rw [if_pos h, List.getElem?_eq_getElem h]; rfl
    · rw [if_neg h, List.getElem?_eq_none (by omega)]; rfl
  rw [this, List.sum_replicate]
  simp [Nat.mul_comm]

/-- The decisions determine the answer. -/
theorem dcsk_of_decisions [RIter κ F] {s : κ} {l' : List F} {msg : List Bool} (d : F) (hs : Yields s l')
    (hlen : l'.length = 2 * msg.length)
    (h : ∀ j b, msg[j]? = some b → Flt.lt 0 (l'.getD (2 * j) d * l'.getD (2 * j + 1) d) = b) :
    collect (rxDcsk (F := F) s) = pure msg := by
  rw [collect_of_yields (rxDcsk_ok hs)]
  congr 1
  apply List.ext_getElem?
  intro j
  rw [List.getElem?_map, pairs_getElemD l' d]
  by_cases hj : j < msg.length
  · rw [if_pos (by omega), Option.map_some, h j _ (List.getElem?_eq_getElem hj), List.getElem?_eq_getElem hj]
  · rw [if_neg (by omega), List.getElem?_eq_none (by omega)]; rfl

/-- DCSK survives any disturbance of every sample by less than 0.0950625. -/
theorem C93_dcsk_noise [RIter ι Bool] [RIter κ ℝ] {m : ι} {msg : List Bool} (h : Yields m msg) {l l' : List ℝ}
    (hl : (do let tx ← txDcsk ℝ m; collect tx) = pure l) {s : κ} (hs : Yields s l') (hlen : l'.length = l.length)
    (hn : ∀ i < l.length, |l'.getD i 0 - l.getD i 0| < 0.0950625) : collect (rxDcsk (F := ℝ) s) = pure msg := by
  obtain ⟨-, ref, g, -, -, hb, he⟩ := C45_roundtrip h
  rw [he, RM.ok_inj] at hl
  subst hl
  refine dcsk_of_decisions 0 hs (hlen.trans sent_length) fun j b hjb => ?_
  obtain ⟨e1, e2, e3⟩ := sent_pair (F := ℝ) 0 (f := fun i _ => g i) (g := fun i b => if b then g i else -g i) hjb
  have n1 := hn (2 * j) (by omega)
  have n2 := hn (2 * j + 1) e3
  rw [e1] at n1
  rw [e2] at n2
  have := (hb j).1
  generalize l'.getD (2 * j) 0 = x at n1
  generalize l'.getD (2 * j + 1) 0 = y at n2
  obtain ⟨p1, p2⟩ := abs_lt.mp n1
  have hx : 0 < x := by linarith
  cases b
  · simp only [Bool.false_eq_true, if_false] at n2
    obtain ⟨q1, q2⟩ := abs_lt.mp n2
    simp only [Flt.lt_real, decide_eq_false_iff_not]
    have hy : y < 0 := by linarith
    nlinarith [mul_pos hx (neg_pos.mpr hy)]
  · simp only [if_true] at n2
    obtain ⟨q1, q2⟩ := abs_lt.mp n2
    simp only [Flt.lt_real, decide_eq_true_eq]
    exact mul_pos hx (by linarith)

theorem four_le : (4 : ℝ) ≤ 2 ^ (1023 : ℤ) :=
  calc (4 : ℝ) = 2 ^ (2 : ℤ) := by norm_num
    _ ≤ 2 ^ (1023 : ℤ) := zpow_le_zpow_right₀ (by norm_num) (by norm_num)

open F64 in
/-- In double precision too: any finite recording within 0.089 of the transmitted samples is read without error. -/
theorem C93_dcsk_noise_ieee [RIter ι Bool] [RIter κ Float] {m : ι} {msg : List Bool} (h : Yields m msg) {l l' : List Float}
    (hl : (do let tx ← txDcsk Float m; collect tx) = pure l) {s : κ} (hs : Yields s l') (hlen : l'.length = l.length)
    (hf : ∀ i < l.length, Fin (l'.getD i 0)) (hn : ∀ i < l.length, |val (l'.getD i 0) - val (l.getD i 0)| ≤ 0.089) :
    collect (rxDcsk (F := Float) s) = pure msg := by
  obtain ⟨tx, t1, t2, -⟩ := C45_decision h csk_ref1 (gives_logistic _ _)
  rw [t1, pure_bind, collect_of_yields t2, RM.ok_inj] at hl
  subst hl
  refine dcsk_of_decisions 0 hs (hlen.trans sent_length) fun j b hjb => ?_
  obtain ⟨e1, e2, e3⟩ := sent_pair (F := Float) (0 : Float) (f := fun i _ => orbit (logisticMap (F64.lit 39 1)) (F64.lit 1 1) i)
    (g := fun i b => orbit (logisticMap (F64.lit 39 1)) (F64.lit 1 1) i * bitToNrz b) hjb
  obtain ⟨f, a, c⟩ := orbit_39_ieee fin_lit1 val_lit1.1 val_lit1.2 j
  have n1 := hn (2 * j) (by omega)
  have n2 := hn (2 * j + 1) e3
  have f1 := hf (2 * j) (by omega)
  have f2 := hf (2 * j + 1) e3
  rw [e1] at n1
  rw [e2] at n2
  generalize l'.getD (2 * j) 0 = x at *
  generalize l'.getD (2 * j + 1) 0 = y at *
  generalize orbit (logisticMap (F64.lit 39 1)) (F64.lit 1 1) j = o at *
  obtain ⟨p1, p2⟩ := _root_.abs_le.mp n1
  have hx : 0.001 ≤ val x ∧ val x ≤ 2 := ⟨by linarith, by linarith⟩
  show Float.lt 0 (x * y) = b
  cases b
  · have e : o * bitToNrz false = -o := mul_neg_one_eq o
    rw [e, neg_val] at n2
    obtain ⟨q1, q2⟩ := _root_.abs_le.mp n2
    have hy : val y ≤ -0.001 ∧ -2 ≤ val y := ⟨by linarith, by linarith⟩
    obtain ⟨g1, g2⟩ := mul_val f1 f2 (rnd_lt_huge (by
      rw [abs_mul, abs_of_nonneg (by linarith [hx.1] : 0 ≤ val x), abs_of_nonpos (by linarith [hy.1])]
      exact (by nlinarith : val x * -val y ≤ 4).trans four_le))
    rw [Bool.eq_false_iff, Ne, lt_iff fin_zero g1, g2, val_zero, not_lt]
    exact (rnd_mono (by nlinarith : val x * val y ≤ 0)).trans rnd_zero.le
  · have e : o * bitToNrz true = o := mul_one_eq o
    rw [e] at n2
    obtain ⟨q1, q2⟩ := _root_.abs_le.mp n2
    have hy : 0.001 ≤ val y ∧ val y ≤ 2 := ⟨by linarith, by linarith⟩
    obtain ⟨g1, g2⟩ := mul_val f1 f2 (rnd_lt_huge (by
      rw [abs_of_nonneg (by nlinarith)]
      exact (by nlinarith : val x * val y ≤ 4).trans four_le))
    rw [lt_iff fin_zero g1, g2, val_zero]
    exact lt_of_lt_of_le (two_zpow_pos (-20)) (le_rnd_of_le (isF_zpow (e := -20) (by norm_num)) (by norm_num; nlinarith))

/-- The CSK receiver answers every recording with one bit per sample: whether the sample is nearer to the first chaotic sequence
(from 0.1) than to the second (from 0.15). -/
theorem C93_csk_any [RIter κ ℝ] {s : κ} {l : List ℝ} (h : Yields s l) :
    ∃ r1 r2 g1 g2, LogisticMap.new (3.9 : ℝ) 0.1 = pure r1 ∧ LogisticMap.new (3.9 : ℝ) 0.15 = pure r2 ∧ Gives r1 g1 ∧ Gives r2 g2 ∧
      (do let rx ← rxCsk (F := ℝ) s; collect rx) = pure (l.mapIdx (fun i x => decide (|x - g1 i| < |x - g2 i|))) := by
  have h1 : LogisticMap.new (3.9 : ℝ) 0.1 = pure ⟨3.9, 0.1⟩ := by
    unfold LogisticMap.new; rw [rassert_pos (by simp; norm_num), pure_bind]
  have h2 : LogisticMap.new (3.9 : ℝ) 0.15 = pure ⟨3.9, 0.15⟩ := by
    unfold LogisticMap.new; rw [rassert_pos (by simp; norm_num), pure_bind]
  refine ⟨_, _, _, _, h1, h2, gives_logistic _ _, gives_logistic _ _, ?_⟩
  have y2 := ((h.rzip_gives (gives_logistic (3.9 : ℝ) 0.1)).rzip_gives (gives_logistic (3.9 : ℝ) 0.15)).rmap
    (fun p : (ℝ × ℝ) × ℝ => Flt.lt (Flt.abs (p.1.1 - p.1.2)) (Flt.abs (p.1.1 - p.2)))
  rw [mapIdx_mapIdx', map_mapIdx'] at y2
  have hrx : rxCsk (F := ℝ) s = pure (rmap (rzip (rzip s ⟨3.9, 0.1⟩) ⟨3.9, 0.15⟩)
    (fun p : (ℝ × ℝ) × ℝ => Flt.lt (Flt.abs (p.1.1 - p.1.2)) (Flt.abs (p.1.1 - p.2)))) := by
    unfold rxCsk; simp only [lit39, lit1, lit15, h1, h2, pure_bind]
  rw [hrx, pure_bind, collect_of_yields y2]
  rfl

/-- Two samples. -/
example : ∃ r1 r2 g1 g2, LogisticMap.new (3.9 : ℝ) 0.1 = pure r1 ∧ LogisticMap.new (3.9 : ℝ) 0.15 = pure r2 ∧ Gives r1 g1 ∧ Gives r2 g2 ∧
    (do let rx ← rxCsk (F := ℝ) (ofList [0.3, 0.9]); collect rx)
      = pure [decide (|0.3 - g1 0| < |0.3 - g2 0|), decide (|0.9 - g1 1| < |0.9 - g2 1|)] :=
  C93_csk_any (yields_ofList [0.3, 0.9])

/-- Three samples: the pair `(-2, -3)` has the same sign, the odd one is ignored. -/
example : collect (rxDcsk (F := ℝ) (ofList [(-2 : ℝ), -3, 5])) = pure [true] := by
  rw [C93_dcsk_any (yields_ofList _)]
  norm_num [List.range_succ]

/-- A message of any length, every sample moved by 0.09. -/
example (msg : List Bool) : ∃ l : List ℝ, (do let tx ← txDcsk ℝ (ofList msg); collect tx) = pure l ∧
    collect (rxDcsk (F := ℝ) (ofList (l.map (· + 0.09)))) = pure msg := by
  obtain ⟨-, ref, g, -, -, hb, he⟩ := C45_roundtrip (yields_ofList msg)
  refine ⟨_, he, C93_dcsk_noise (yields_ofList msg) he (yields_ofList _) (List.length_map _) fun i hi => ?_⟩
  generalize (msg.mapIdx (fun i b => [g i, if b then g i else -g i])).flatten = l at *
  rw [List.getD_eq_getElem?_getD, List.getD_eq_getElem?_getD, List.getElem?_map, List.getElem?_eq_getElem hi]
  simp only [Option.map_some, Option.getD_some, add_sub_cancel_left]
  rw [abs_of_pos (by norm_num)]
  norm_num

open F64 in
/-- The undisturbed recording in doubles meets the hypotheses, whatever the message. -/
example (msg : List Bool) : ∃ l : List Float, (do let tx ← txDcsk Float (ofList msg); collect tx) = pure l ∧
    collect (rxDcsk (F := Float) (ofList l)) = pure msg := by
  obtain ⟨tx, t1, t2, -⟩ := C45_decision (yields_ofList msg) csk_ref1 (gives_logistic _ _)
  have he := show (do let tx ← txDcsk Float (ofList msg); collect tx) = pure (msg.mapIdx (fun i b =>
      [orbit (logisticMap (F64.lit 39 1)) (F64.lit 1 1) i,
        orbit (logisticMap (F64.lit 39 1)) (F64.lit 1 1) i * bitToNrz b])).flatten by
    rw [t1, pure_bind, collect_of_yields t2]
  refine ⟨_, he, C93_dcsk_noise_ieee (yields_ofList msg) he (yields_ofList _) rfl (fun i hi => ?_) (fun i _ => by norm_num)⟩
  have hmem : ∀ x ∈ (msg.mapIdx (fun i b => [orbit (logisticMap (F64.lit 39 1)) (F64.lit 1 1) i,
      orbit (logisticMap (F64.lit 39 1)) (F64.lit 1 1) i * bitToNrz b])).flatten, Fin x := by
    intro x hx
    obtain ⟨p, hp, hx⟩ := List.mem_flatten.mp hx
    obtain ⟨j, hj, rfl⟩ := List.mem_mapIdx.mp hp
    obtain ⟨f, -, -⟩ := orbit_39_ieee fin_lit1 val_lit1.1 val_lit1.2 j
    generalize orbit (logisticMap (F64.lit 39 1)) (F64.lit 1 1) j = o at *
    rcases List.mem_cons.mp hx with rfl | hx
    · exact f
    · rw [List.mem_singleton.mp hx]
      cases msg[j]
      · rw [show o * bitToNrz false = -o from mul_neg_one_eq o]; exact neg_fin.mpr f
      · rw [show o * bitToNrz true = o from mul_one_eq o]; exact f
  rw [List.getD_eq_getElem?_getD, List.getElem?_eq_getElem hi]
  exact hmem _ (List.getElem_mem hi)

end Verif.Props
