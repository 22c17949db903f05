import Verif.Lemmas.Flips
import Verif.Lemmas.Bch
import Verif.Lemmas.Symbols
import Mathlib.Data.Finset.Powerset

/-! # Byte errors of a memoryless bit channel -/
set_option linter.unusedSectionVars false
namespace Verif
open Spec MeasureTheory ProbabilityTheory
variable {Ω : Type} [MeasurableSpace Ω] {P : Measure Ω} [IsProbabilityMeasure P] {msg : List Bool} {bits : Ω → List Bool} {p : ℕ → ℝ}

/-- Some bits, all right. -/
theorem Spec.Flips.right (h : Flips P msg bits p) (S : Finset ℕ) (hS : ∀ n ∈ S, n < msg.length) :
    P.real {ω | ∀ n ∈ S, (bits ω)[n]? = msg[n]?} = ∏ n ∈ S, (1 - p n) := by
  have := h.real_subset S hS (fun n => msg.getD n false)
  have e : ∀ n ∈ S, some (msg.getD n false) = msg[n]? := by
    intro n hn
    rw [List.getElem?_eq_getElem (hS n hn)]
    simp [List.getD, hS n hn]
  rw [Finset.prod_congr rfl (fun n hn => by unfold factor; rw [if_pos (e n hn)] :
    ∀ n ∈ S, factor msg p n (msg.getD n false) = 1 - p n)] at this
  rw [← this]
  congr 1
  ext ω
  simp only [Set.mem_ofPred_eq]
  exact forall₂_congr fun n hn => by rw [e n hn]

/-- Byte `b` is right. -/
def byteRight (msg : List Bool) (l : List Bool) (b : ℕ) : Prop := ∀ j < 8, l[b * 8 + j]? = msg[b * 8 + j]?

open Classical in
/-- The indicator of a right byte. -/
noncomputable def rightByte (msg : List Bool) (l : List Bool) (b : ℕ) : ℝ := if byteRight msg l b then 1 else 0

theorem Spec.Flips.rightBytes (h : Flips P msg bits p) (S : Finset ℕ) (hS : ∀ b ∈ S, b * 8 + 8 ≤ msg.length) :
    Integrable (fun ω => ∏ b ∈ S, rightByte msg (bits ω) b) P ∧
    ∫ ω, ∏ b ∈ S, rightByte msg (bits ω) b ∂P = ∏ b ∈ S, ∏ j ∈ Finset.range 8, (1 - p (b * 8 + j)) := by
  classical
  refine ⟨(h.integral (fun l => ∏ b ∈ S, rightByte msg l b)).1, ?_⟩
  have hr := h.right ((S ×ˢ Finset.range 8).image (fun x => x.1 * 8 + x.2)) (by
    intro n hn
    obtain ⟨⟨b, j⟩, hx, rfl⟩ := Finset.mem_image.mp hn
    have h1 := hS b (Finset.mem_product.mp hx).1
    have h2 := Finset.mem_range.mp (Finset.mem_product.mp hx).2
    simp only
    simp only at h2
    omega)
  rw [Finset.prod_image (by
    rintro ⟨b, j⟩ hx ⟨b', j'⟩ hx' e
    have h1 := Finset.mem_range.mp (Finset.mem_product.mp hx).2
    have h2 := Finset.mem_range.mp (Finset.mem_product.mp hx').2
    simp only at e h1 h2
    rw [Prod.mk.injEq]
    omega), Finset.prod_product] at hr
  rw [← hr]
  have hset : {ω | ∀ n ∈ (S ×ˢ Finset.range 8).image (fun x => x.1 * 8 + x.2), (bits ω)[n]? = msg[n]?}
      = {ω | ∀ b ∈ S, byteRight msg (bits ω) b} := by
    ext ω
    simp only [Set.mem_ofPred_eq, Finset.mem_image, Finset.mem_product, Finset.mem_range, Prod.exists, byteRight]
    constructor
    · intro hh b hb j hj
      exact hh _ ⟨b, j, ⟨hb, hj⟩, rfl⟩
    · rintro hh n ⟨b, j, ⟨hb, hj⟩, rfl⟩
      exact hh b hb j hj
  rw [hset]
  have e : (fun ω => ∏ b ∈ S, rightByte msg (bits ω) b) = Set.indicator {ω | ∀ b ∈ S, byteRight msg (bits ω) b} (fun _ => 1) := by
    funext ω
    unfold rightByte
    by_cases hc : ∀ b ∈ S, byteRight msg (bits ω) b
    · rw [Set.indicator_of_mem (by exact hc), Finset.prod_congr rfl (fun b hb => if_pos (hc b hb))]
      simp
    · rw [Set.indicator_of_notMem (by exact hc)]
      push Not at hc
      obtain ⟨b, hb, hc⟩ := hc
      exact Finset.prod_eq_zero hb (if_neg hc)
  rw [e, integral_indicator₀ (h.nullMeas (fun l => ∀ b ∈ S, byteRight msg l b))]
  simp [measureReal_def]

/-- Some bytes, all wrong. -/
theorem Spec.Flips.wrongBytes (h : Flips P msg bits p) (S : Finset ℕ) (hS : ∀ b ∈ S, b * 8 + 8 ≤ msg.length) :
    P.real {ω | ∀ b ∈ S, ¬ byteRight msg (bits ω) b} = ∏ b ∈ S, (1 - ∏ j ∈ Finset.range 8, (1 - p (b * 8 + j))) := by
  classical
  have e : (fun ω => ∏ b ∈ S, (-rightByte msg (bits ω) b + 1)) = Set.indicator {ω | ∀ b ∈ S, ¬ byteRight msg (bits ω) b} (fun _ => 1) := by
    funext ω
    unfold rightByte
    by_cases hc : ∀ b ∈ S, ¬ byteRight msg (bits ω) b
    · rw [Set.indicator_of_mem (by exact hc), Finset.prod_congr rfl (fun b hb => by rw [if_neg (hc b hb)])]
      simp
    · rw [Set.indicator_of_notMem (by exact hc)]
      push Not at hc
      obtain ⟨b, hb, hc⟩ := hc
      exact Finset.prod_eq_zero hb (by rw [if_pos hc]; ring)
  have hi : ∫ ω, ∏ b ∈ S, (-rightByte msg (bits ω) b + 1) ∂P = P.real {ω | ∀ b ∈ S, ¬ byteRight msg (bits ω) b} := by
    rw [e, integral_indicator₀ (h.nullMeas (fun l => ∀ b ∈ S, ¬ byteRight msg l b))]
    simp [measureReal_def]
  rw [← hi]
  have hsub : ∀ t ∈ S.powerset, ∀ b ∈ t, b * 8 + 8 ≤ msg.length := fun t ht b hb => hS b (Finset.mem_powerset.mp ht hb)
  have ex : ∀ r : ℕ → ℝ, ∏ b ∈ S, (-r b + 1) = ∑ t ∈ S.powerset, (-1) ^ t.card * ∏ b ∈ t, r b := by
    intro r
    rw [Finset.prod_add]
    refine Finset.sum_congr rfl fun t _ => ?_
    rw [Finset.prod_neg]
    simp
  simp only [ex (fun b => rightByte msg _ b)]
  rw [integral_finsetSum _ (fun t ht => ((h.rightBytes t (hsub t ht)).1).const_mul _),
    Finset.sum_congr rfl (fun t ht => by rw [integral_const_mul, (h.rightBytes t (hsub t ht)).2] :
      ∀ t ∈ S.powerset, ∫ ω, (-1) ^ t.card * ∏ b ∈ t, rightByte msg (bits ω) b ∂P
        = (-1) ^ t.card * ∏ b ∈ t, ∏ j ∈ Finset.range 8, (1 - p (b * 8 + j))),
    ← ex (fun b => ∏ j ∈ Finset.range 8, (1 - p (b * 8 + j)))]
  exact Finset.prod_congr rfl fun b _ => by ring

/-- Bytes of two equally long words. -/
theorem byte_diff {a b : List Bool} (hl : a.length = b.length) {i : ℕ} (h : (diffs (blocks 8 a) (blocks 8 b))[i]? = some true) :
    i * 8 < a.length ∧ ¬ byteRight a b i := by
  unfold diffs at h
  rw [List.getElem?_zipWith, blocks_getElem?' (by norm_num), blocks_getElem?' (by norm_num), ← hl] at h
  by_cases hi : i * 8 < a.length
  · refine ⟨hi, fun hr => ?_⟩
    simp only [if_pos hi, Option.some.injEq, bne_iff_ne, ne_eq] at h
    apply h
    apply List.ext_getElem?
    intro j
    rw [List.getElem?_take, List.getElem?_take, List.getElem?_drop, List.getElem?_drop]
    by_cases hj : j < 8
    · rw [if_pos hj, if_pos hj, hr j hj]
    · rw [if_neg hj, if_neg hj]
  · simp [if_neg hi] at h

theorem three_wrong {a b : List Bool} (hl : a.length = b.length) (h : ¬ FrameErrors 12 2 a b) :
    ∃ f, f * 96 < a.length ∧ ∃ T ∈ Finset.powersetCard 3 (Finset.range 12), ∀ i ∈ T, (f * 12 + i) * 8 < a.length ∧ ¬ byteRight a b (f * 12 + i) := by
  classical
  unfold FrameErrors at h
  push Not at h
  obtain ⟨e, he, hc⟩ := h hl
  obtain ⟨f, hf⟩ := List.getElem?_of_mem he
  rw [blocks_getElem?' (by norm_num)] at hf
  split at hf
  case isFalse => exact absurd hf (by simp)
  case isTrue hlt =>
    have hfe := (Option.some.inj hf).symm
    have hlen : e.length ≤ 12 := by rw [hfe]; simp
    set U := (Finset.range 12).filter (fun i => e[i]? = some true) with hU
    have hcard : e.countP id ≤ U.card := by
      have h1 : e.countP id = ((List.range e.length).filter (fun i => decide (e[i]? = some true))).length := by
        rw [← List.countP_eq_length_filter]
        conv_lhs => rw [show e = (List.range e.length).map (fun i => e.getD i false) from by
          apply List.ext_getElem
          · simp
          · intro i h1 h2; simp [List.getD, h1]]
        rw [List.countP_map]
        apply List.countP_congr
        intro i hi
        have hi := List.mem_range.mp hi
        simp [List.getD, hi]
      rw [h1, ← List.toFinset_card_of_nodup (List.nodup_range.filter _)]
      apply Finset.card_le_card
      intro i hi
      rw [List.mem_toFinset, List.mem_filter, List.mem_range] at hi
      rw [hU, Finset.mem_filter, Finset.mem_range]
      exact ⟨by omega, by simpa using hi.2⟩
    obtain ⟨T, hT, hT3⟩ := Finset.exists_subset_card_eq (show 3 ≤ U.card by omega)
    have hall : ∀ i ∈ T, (f * 12 + i) * 8 < a.length ∧ ¬ byteRight a b (f * 12 + i) := by
      intro i hi
      have hi := (Finset.mem_filter.mp (hT hi))
      have h12 := Finset.mem_range.mp hi.1
      refine byte_diff hl ?_
      have := hi.2
      rw [hfe, List.getElem?_take, if_pos h12, List.getElem?_drop] at this
      exact this
    refine ⟨f, ?_, T, Finset.mem_powersetCard.mpr ⟨hT.trans (Finset.filter_subset _ _), hT3⟩, hall⟩
    obtain ⟨i, hi⟩ := Finset.card_pos.mp (show 0 < T.card by omega)
    have := (hall i hi).1
    omega

/-- More than two wrong bytes in some frame. -/
theorem Spec.Flips.frames (h : Flips P msg bits p) (h8 : 8 ∣ msg.length) {q : ℝ} (hq : q ≤ 1) (hp : ∀ n < msg.length, p n ≤ q) :
    P.real {ω | ¬ FrameErrors 12 2 msg (bits ω)} ≤ 220 * ((msg.length + 95) / 96 : ℕ) * (1 - (1 - q) ^ 8) ^ 3 := by
  classical
  set Q := 1 - (1 - q) ^ 8 with hQ
  have hsub : {ω | ¬ FrameErrors 12 2 msg (bits ω)} ⊆ ⋃ x ∈ (Finset.range ((msg.length + 95) / 96)) ×ˢ Finset.powersetCard 3 (Finset.range 12),
      {ω | (∀ b ∈ x.2, (x.1 * 12 + b) * 8 < msg.length) ∧ ∀ b ∈ x.2, ¬ byteRight msg (bits ω) (x.1 * 12 + b)} := by
    intro ω hω
    obtain ⟨f, h1, T, h2, h3⟩ := three_wrong (h.length ω).symm hω
    simp only [Set.mem_iUnion]
    refine ⟨(f, T), Finset.mem_product.mpr ⟨Finset.mem_range.mpr (by simp only; omega), h2⟩, fun b hb => (h3 b hb).1, fun b hb => (h3 b hb).2⟩
  have hone : ∀ x ∈ (Finset.range ((msg.length + 95) / 96)) ×ˢ Finset.powersetCard 3 (Finset.range 12),
      P.real {ω | (∀ b ∈ x.2, (x.1 * 12 + b) * 8 < msg.length) ∧ ∀ b ∈ x.2, ¬ byteRight msg (bits ω) (x.1 * 12 + b)} ≤ Q ^ 3 := by
    rintro ⟨f, T⟩ hx
    have hT := (Finset.mem_powersetCard.mp (Finset.mem_product.mp hx).2).2
    simp only at hT ⊢
    have hq0 : ∀ n < msg.length, 0 ≤ p n := fun n hn => by rw [← h.wrong hn]; exact measureReal_nonneg
    have hQ0 : 0 ≤ Q := by
      rcases Nat.eq_zero_or_pos msg.length with h0 | h0
      · have hq' := hx
        rw [h0] at hq'
        simp at hq'
      · have := (hq0 0 h0).trans (hp 0 h0)
        rw [hQ, sub_nonneg]
        exact pow_le_one₀ (by linarith) (by linarith)
    by_cases hb : ∀ b ∈ T, (f * 12 + b) * 8 < msg.length
    · have hw := h.wrongBytes (T.image (fun b => f * 12 + b)) (by
        intro b hb'
        obtain ⟨i, hi, rfl⟩ := Finset.mem_image.mp hb'
        have := hb i hi
        omega)
      rw [Finset.prod_image (by intro a _ b _ e; simp only at e; omega)] at hw
      have hs : {ω | (∀ b ∈ T, (f * 12 + b) * 8 < msg.length) ∧ ∀ b ∈ T, ¬ byteRight msg (bits ω) (f * 12 + b)}
          = {ω | ∀ b ∈ T.image (fun b => f * 12 + b), ¬ byteRight msg (bits ω) b} := by
        ext ω
        simp only [Set.mem_ofPred_eq, Finset.forall_mem_image]
        exact ⟨fun hh => hh.2, fun hh => ⟨hb, hh⟩⟩
      rw [hs, hw, ← hT, ← Finset.prod_const]
      refine Finset.prod_le_prod (fun b hb' => ?_) (fun b hb' => ?_)
      · have hlt := hb b hb'
        rw [sub_nonneg]
        refine Finset.prod_le_one (fun j hj => ?_) (fun j hj => ?_)
        · have := hp ((f * 12 + b) * 8 + j) (by have := Finset.mem_range.mp hj; omega)
          linarith
        · have := hq0 ((f * 12 + b) * 8 + j) (by have := Finset.mem_range.mp hj; omega)
          linarith
      · have hlt := hb b hb'
        have : (1 - q) ^ 8 ≤ ∏ j ∈ Finset.range 8, (1 - p ((f * 12 + b) * 8 + j)) := by
          rw [show (1 - q) ^ 8 = ∏ _j ∈ Finset.range 8, (1 - q) by simp]
          refine Finset.prod_le_prod (fun j _ => by linarith) (fun j hj => ?_)
          have := hp ((f * 12 + b) * 8 + j) (by have := Finset.mem_range.mp hj; omega)
          linarith
        rw [hQ]
        linarith
    · rw [show {ω | (∀ b ∈ T, (f * 12 + b) * 8 < msg.length) ∧ ∀ b ∈ T, ¬ byteRight msg (bits ω) (f * 12 + b)} = (∅ : Set Ω) by
        ext ω; simp only [Set.mem_ofPred_eq, Set.mem_empty_iff_false, iff_false]; exact fun hh => hb hh.1]
      simp only [measureReal_empty]
      positivity
  calc P.real {ω | ¬ FrameErrors 12 2 msg (bits ω)} ≤ _ := measureReal_mono hsub (measure_ne_top _ _)
    _ ≤ ∑ x ∈ (Finset.range ((msg.length + 95) / 96)) ×ˢ Finset.powersetCard 3 (Finset.range 12), _ := measureReal_biUnion_finset_le _ _
    _ ≤ ∑ _x ∈ (Finset.range ((msg.length + 95) / 96)) ×ˢ Finset.powersetCard 3 (Finset.range 12), Q ^ 3 := Finset.sum_le_sum hone
    _ = _ := by
      rw [Finset.sum_const, Finset.card_product, Finset.card_powersetCard, Finset.card_range, Finset.card_range, nsmul_eq_mul]
      push_cast
      rw [show Nat.choose 12 3 = 220 from rfl]
      push_cast
      ring

/-- Five check bytes for every seven bytes begun. -/
theorem encBytes_length {rs : RS} (hrs : rs.Contract) (D : List UInt8) : (encBytes rs D).length = D.length + 5 * ((D.length + 6) / 7) := by
  induction hn : D.length using Nat.strong_induction_on generalizing D with
  | _ n ih =>
    subst hn
    by_cases hD : D = []
    · subst hD; simp [encBytes, blocks]
    · have hpos := List.length_pos_iff.mpr hD
      rw [encBytes_cons hD, List.length_append, ih (D.drop 7).length (by simp; omega) (D.drop 7) rfl,
        (hrs.word_eq (d := D.take 7) (by simp; omega) (by rw [List.length_take]; omega)).2.1]
      simp only [List.length_take, List.length_drop]
      omega

theorem u8Bits_length (l : List UInt8) : (l.flatMap u8ToBools).length = l.length * 8 :=
  length_flatMap_const _ l (fun x _ => u8ToBools_length x)

/-- As many frames as begun pieces of 56 bits. -/
theorem enc_length [RIter ι Bool] {rs : RS} (hrs : rs.Contract) {src : ι} {msg enc : List Bool} (h : Yields src msg)
    (henc : Yields (bchStreamEncode rs src) enc) : 8 ∣ enc.length ∧ (enc.length + 95) / 96 = (msg.length + 55) / 56 := by
  have e := (bchEncode_yields hrs h).unique henc
  rw [← e, u8Bits_length, encBytes_length hrs, List.length_map, blocks_length 8 (by norm_num)]
  omega

end Verif
