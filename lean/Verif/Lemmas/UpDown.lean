import Verif.Spec.UpDown
import Verif.Lemmas.Fading
import Verif.Lemmas.Symbols

/-! Mixing up and down, and sums over the blocks of a recording. -/
namespace Verif.Props
open Verif Spec
set_option linter.unusedSectionVars false
variable {ι : Type}

theorem phase_angle (fs : ℕ) (f : ℝ) (i : ℕ) : (phase fs f i : ℝ) = angle fs f i := by
  rw [phase_real, angle_dphi]

theorem upconvert_eq {k : ℕ} (hk : 0 < k) {fs : ℕ} {f : ℝ} {b : List (Cx ℝ)} {l : List ℝ}
    (h : ∀ i, l[i]? = b[i / k]?.map fun c => c.re * Real.cos (angle fs f i) - c.im * Real.sin (angle fs f i)) :
    l = upconvert fs k f b := by
  apply List.ext_getElem?
  intro i
  rw [h, upconvert, List.getElem?_map]
  by_cases hi : i < b.length * k
  · have hb : i / k < b.length := (Nat.div_lt_iff_lt_mul hk).mpr hi
    rw [List.getElem?_range hi, Option.map_some, List.getD_eq_getElem?_getD, List.getElem?_eq_getElem hb]
    rfl
  · have hb : b.length ≤ i / k := (Nat.le_div_iff_mul_le hk).mpr (by omega)
    rw [List.getElem?_eq_none_iff.mpr hb, List.getElem?_eq_none_iff.mpr (by simpa using hi)]
    rfl

theorem block_range {A : Type} (l : List A) (d : A) {a k : ℕ} (h : a + k ≤ l.length) :
    (l.drop a).take k = (List.range k).map fun j => l.getD (a + j) d := by
  apply List.ext_getElem?
  intro i
  rw [List.getElem?_take, List.getElem?_drop, List.getElem?_map]
  by_cases hi : i < k
  · rw [if_pos hi, List.getElem?_range hi, Option.map_some, List.getD_eq_getElem?_getD, List.getElem?_eq_getElem (show a + i < l.length by omega)]
    rfl
  · rw [if_neg hi, List.getElem?_eq_none_iff.mpr (by simpa using hi)]
    rfl

theorem block_le {k n N : ℕ} (hk : 0 < k) (h : n < N / k) : n * k + k ≤ N := by
  have := (Nat.le_div_iff_mul_le hk).mp h
  rwa [Nat.succ_mul] at this

theorem getD_mapIdx {A B : Type} {l : List A} {g : ℕ → A → B} {i : ℕ} (h : i < l.length) (d : A) (e : B) :
    (l.mapIdx g).getD i e = g i (l.getD i d) := by
  simp [List.getD_eq_getElem?_getD, List.getElem?_mapIdx, List.getElem?_eq_getElem h]

theorem downconvert_scale (fs k : ℕ) (fc g : ℝ) (l : List ℝ) :
    downconvert fs k fc (l.map (· * g)) = (downconvert fs k fc l).map fun c => ⟨c.re * g, c.im * g⟩ := by
  rw [downconvert, downconvert, List.map_map, List.length_map]
  refine List.map_congr_left fun n _ => ?_
  have e : ∀ i, (l.map (· * g)).getD i 0 = l.getD i 0 * g := fun i => by
    simp only [List.getD_eq_getElem?_getD, List.getElem?_map]
    cases l[i]? <;> simp
  simp only [Function.comp_apply, e]
  rw [neg_mul, Finset.sum_mul, Finset.sum_mul]
  congr 1
  · exact Finset.sum_congr rfl fun j _ => by ring
  · congr 1; exact Finset.sum_congr rfl fun j _ => by ring

end Verif.Props
