import Verif.Props.IeeeNoise2
import Verif.Props.CodedNoise
import Verif.Lemmas.Memoryless
/-!
# Links in doubles against a memoryless channel, and the code behind them
-/
namespace Verif
open Spec F64 MeasureTheory ProbabilityTheory
variable {Ω : Type} [MeasurableSpace Ω] {P : Measure Ω} {z : ℕ → Ω → ℝ} {ι κ ν ρ : Type}

/-- Bit `n` of the comparison channel: wrong as soon as the correlation does not clear the margin. -/
noncomputable def shaky (k : ℕ) (g : ℕ → ℝ) (E : ℕ → ℝ) (D σ : ℝ) (msg : List Bool) (n : ℕ) (y : Fin k → ℝ) : Bool :=
  if Props.pm (msg.getD n false) * (E n * Props.pm (msg.getD n false) + σ * ∑ j : Fin k, g (n * k + j) * y j) ≤ D
  then !(msg.getD n false) else msg.getD n false

omit [MeasurableSpace Ω] in
theorem window_proj {k n : ℕ} (g : ℕ → ℝ) (ω : Ω) :
    proj (n * k + k) (fun i => if n * k ≤ i then g i else 0) z ω = ∑ j : Fin k, g (n * k + j) * noiseBlock k z n ω j := by
  rw [proj, Finset.sum_range_add, Finset.sum_eq_zero (s := Finset.range (n * k)), zero_add, Finset.sum_range]
  · refine Finset.sum_congr rfl fun j _ => ?_
    rw [if_pos (Nat.le_add_right _ _)]; rfl
  · intro i hi
    rw [if_neg (by rw [Finset.mem_range] at hi; omega), zero_mul]

/-- The comparison channel is memoryless. -/
theorem shaky_flips (hz : White P 1 z) {k : ℕ} {g : ℕ → ℝ} {E : ℕ → ℝ} {D σ : ℝ} (hσ : 0 < σ) {msg : List Bool}
    (hE : ∀ n < msg.length, 0 < E n ∧ D ≤ E n) (hg : ∀ n < msg.length, ∑ j ∈ Finset.range k, g (n * k + j) ^ 2 = E n) :
    Flips P msg (fun ω => (List.range msg.length).map (fun n => shaky k g E D σ msg n (noiseBlock k z n ω)))
      (fun n => bitError ((E n - D) ^ 2 / E n) σ) := by
  refine Spec.Flips.congr (memoryless hz.indep (fun i => (hz.gauss i).aemeasurable) (shaky k g E D σ msg) (fun n => ?_) (fun ω => by simp) (fun ω n hn => ?_)) fun n hn => ?_
  · unfold shaky
    refine Measurable.ite (measurableSet_le ?_ measurable_const) measurable_const measurable_const
    fun_prop
  · rw [List.getElem?_map, List.getElem?_range hn]; rfl
  · rw [← below_prob hz hσ (hE n hn).1 (M := n * k + k) (c := fun i => if n * k ≤ i then g i else 0)
      ((Props.window_energy g).trans (hg n hn)) (hE n hn).2 (msg.getD n false)]
    congr 1
    ext ω
    simp only [Set.mem_ofPred_eq, window_proj]
    unfold shaky
    split
    · rename_i h; simp only [h]; simp
    · rename_i h; simp only [h]; simp

theorem countP_mono {a b : List Bool} (h : List.Forall₂ (fun x y : Bool => x = true → y = true) a b) : a.countP id ≤ b.countP id := by
  induction h with
  | nil => simp
  | @cons x y a b hxy _ ih =>
    rw [List.countP_cons, List.countP_cons]
    cases x <;> cases y <;> simp_all
    omega

/-- Fewer wrong bits, no more wrong bytes. -/
theorem frameErrors_mono {n t : ℕ} (hn : 0 < n) {a b b' : List Bool} (hl : b.length = a.length)
    (h : ∀ i : ℕ, b'[i]? = a[i]? → b[i]? = a[i]?) (hf : FrameErrors n t a b') : FrameErrors n t a b := by
  obtain ⟨h1, h2⟩ := hf
  refine ⟨hl.symm, fun e he => ?_⟩
  have hd : List.Forall₂ (fun x y : Bool => x = true → y = true) (diffs (blocks 8 a) (blocks 8 b)) (diffs (blocks 8 a) (blocks 8 b')) := by
    have hlen : (diffs (blocks 8 a) (blocks 8 b)).length = (diffs (blocks 8 a) (blocks 8 b')).length := by
      unfold diffs
      rw [List.length_zipWith, List.length_zipWith, blocks_length 8 (by norm_num), blocks_length 8 (by norm_num), blocks_length 8 (by norm_num), hl, ← h1]
    refine List.forall₂_iff_get.mpr ⟨hlen, fun i k1 k2 hx => ?_⟩
    have hw := byte_diff hl.symm (i := i) (by rw [List.getElem?_eq_getElem k1]; exact congrArg some hx)
    rw [List.get_eq_getElem]
    have k3 : i < (blocks 8 a).length := by unfold diffs at k1; rw [List.length_zipWith] at k1; omega
    have k4 : i < (blocks 8 b').length := by unfold diffs at k2; rw [List.length_zipWith] at k2; omega
    simp only [diffs, List.getElem_zipWith, bne_iff_ne, ne_eq]
    intro heq
    refine hw.2 fun j hj => h _ ?_
    have e1 := blocks_getElem?' (show 0 < 8 by norm_num) a i
    have e2 := blocks_getElem?' (show 0 < 8 by norm_num) b' i
    rw [if_pos hw.1, List.getElem?_eq_getElem k3] at e1
    rw [if_pos (by rw [← h1]; exact hw.1), List.getElem?_eq_getElem k4] at e2
    have e3 := (Option.some.inj e1).symm.trans (heq.trans (Option.some.inj e2))
    have := congrArg (fun l : List Bool => l[j]?) e3
    simp only [List.getElem?_take, if_pos hj, List.getElem?_drop] at this
    exact this.symm
  obtain ⟨f, hf⟩ := List.getElem?_of_mem he
  rw [blocks_getElem?' hn] at hf
  split at hf
  · rename_i hlt
    rw [← Option.some.inj hf]
    refine (countP_mono (List.forall₂_take n (List.forall₂_drop (f * n) hd))).trans (h2 _ ?_)
    refine List.mem_of_getElem? (i := f) ?_
    rw [blocks_getElem?' hn, if_pos (by rw [← hd.length_eq]; exact hlt)]
  · exact absurd hf (by simp)
end Verif
