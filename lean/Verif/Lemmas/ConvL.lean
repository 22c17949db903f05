import Verif.Lemmas.Lanes
import Verif.Spec.Conv
import Mathlib.Algebra.BigOperators.Intervals
import Mathlib.Tactic.Ring

namespace Verif
open Spec Finset

variable {R : Type} [CommSemiring R]

theorem rsum_eq_sum (l : List R) : rsum l = l.sum := by
  unfold rsum; rw [List.sum_eq_foldl]

theorem sum_zip_mul (a b : List R) (m : ℕ) (hm : b.length ≤ m) :
    ((a.zip b).map (fun (x, y) => x * y)).sum = ∑ j ∈ range m, a.getD j 0 * b.getD j 0 := by
  induction b generalizing a m with
  | nil => simp
  | cons y b ih =>
    cases a with
    | nil => simp
    | cons x a =>
      obtain ⟨m, rfl⟩ : ∃ k, m = k + 1 := ⟨m - 1, by simp at hm; omega⟩
      rw [Finset.sum_range_succ']
      have := ih a m (by simpa using hm)
      simp only [List.zip_cons_cons, List.map_cons, List.sum_cons, this, List.getD_cons_succ, List.getD_cons_zero]
      ring

theorem convDot_eq (filter buf : List R) (m : ℕ) (hm : filter.length ≤ m) :
    convDot filter buf = ∑ j ∈ range m, buf.getD j 0 * filter.reverse.getD j 0 := by
  unfold convDot
  rw [rsum_eq_sum, sum_zip_mul _ _ m (by simpa using hm)]

theorem getD_ge {A : Type} (l : List A) (j : ℕ) (d : A) (h : l.length ≤ j) : l.getD j d = d := by
  simp [List.getD, List.getElem?_eq_none h]

theorem getD_take {A : Type} (l : List A) (n j : ℕ) (d : A) (h : j < n) : (l.take n).getD j d = l.getD j d := by
  simp [List.getD, h]

theorem getD_reverse_take (x : List R) (i j : ℕ) (hi : i < x.length) (hj : j ≤ i) :
    ((x.take (i + 1)).reverse).getD j 0 = x.getD (i - j) 0 := by
  simp only [List.getD]
  congr 1
  rw [List.getElem?_reverse (by simp; omega)]
  simp only [List.length_take]
  rw [Nat.min_eq_left (by omega), List.getElem?_take, if_pos (by omega)]
  congr 1

theorem convDot_take (filter buf : List R) : convDot filter (buf.take filter.length) = convDot filter buf := by
  rw [convDot_eq _ _ _ (le_refl _), convDot_eq _ _ _ (le_refl _)]
  apply Finset.sum_congr rfl
  intro j hj
  rw [getD_take _ _ _ _ (Finset.mem_range.mp hj)]

/-- While the signal lasts, the output is the convolution with the *reversed* filter. -/
theorem conv_body (x h : List R) (i : ℕ) (hi : i < x.length) :
    convDot h ((x.take (i + 1)).reverse.take h.length) = linConvAt x h.reverse i := by
  rw [convDot_take]
  unfold linConvAt
  rcases Nat.le_total h.length (i + 1) with hl | hl
  · rw [convDot_eq _ _ _ hl]
    apply Finset.sum_congr rfl
    intro j hj
    rw [getD_reverse_take x i j hi (by simp at hj; omega)]
  · rw [convDot_eq _ _ h.length (le_refl _)]
    symm
    rw [← Finset.sum_subset (Finset.range_subset_range.mpr hl)]
    · apply Finset.sum_congr rfl
      intro j hj
      rw [getD_reverse_take x i j hi (by simp at hj; omega)]
    · intro j _ hj
      have : (x.take (i + 1)).reverse.getD j 0 = 0 := by
        apply getD_ge
        simp at hj ⊢; omega
      rw [this, zero_mul]

theorem convOut_eq (x h : List R) :
    convRun h.length (convDot h) [] x =
      (List.range x.length).map (linConvAt x h.reverse) ++
      (List.range (min h.length x.length - 1)).map
        (fun t => convDot h ((x.reverse.take h.length).take (min h.length x.length - 1 - t))) := by
  have := convRun_eq h.length (convDot h) [] x
  simp only [List.take_nil, List.append_nil] at this
  rw [this]
  congr 1
  · apply List.map_congr_left
    intro i hi
    exact conv_body x h i (by simpa using hi)
  · rw [convTail_eq]
    simp

theorem convOut_length (x h : List R) :
    (convRun h.length (convDot h) [] x).length = x.length + (min h.length x.length - 1) := by
  rw [convOut_eq]; simp

/-- What remains after the end of the signal. -/
theorem convDot_tail (x h : List R) (d : ℕ) (hd : d ≤ min h.length x.length) :
    convDot h ((x.reverse.take h.length).take d) =
      ∑ j ∈ range d, x.getD (x.length - 1 - j) 0 * h.getD (h.length - 1 - j) 0 := by
  rw [convDot_eq _ _ _ (le_refl _), ← Finset.sum_subset (Finset.range_subset_range.mpr (show d ≤ h.length by omega))]
  · apply Finset.sum_congr rfl
    intro j hj
    have hj := Finset.mem_range.mp hj
    rw [getD_take _ _ _ _ hj, getD_take _ _ _ _ (by omega)]
    simp only [List.getD]
    rw [List.getElem?_reverse (by omega), List.getElem?_reverse (by omega)]
  · intro j _ hj
    have : ((x.reverse.take h.length).take d).getD j 0 = 0 := by
      apply getD_ge
      simp at hj ⊢; omega
    rw [this, zero_mul]

theorem linConvAt_replicate_tail (x : List R) (c : R) (L t : ℕ) (hL : L ≤ x.length) (_ht : t < L - 1) :
    convDot (List.replicate L c) ((x.reverse.take L).take (L - 1 - t)) =
      linConvAt x (List.replicate L c) (x.length + t) := by
  rw [convDot_eq _ _ L (by simp), linConvAt]
  have h1 : ∀ j ∈ range L, ((x.reverse.take L).take (L - 1 - t)).getD j 0 *
      (List.replicate L c).reverse.getD j 0 = if j < L - 1 - t then x.getD (x.length - 1 - j) 0 * c else 0 := by
    intro j hj
    simp only [Finset.mem_range] at hj
    split
    · next hlt =>
      rw [getD_take _ _ _ _ hlt, getD_take _ _ _ _ hj, List.reverse_replicate]
      congr 1
      · simp only [List.getD]
        rw [List.getElem?_reverse (by omega)]
      · simp [List.getD, hj]
    · next hlt =>
      rw [getD_ge, zero_mul]
      simp; omega
  rw [Finset.sum_congr rfl h1, Finset.sum_ite, Finset.sum_const_zero, add_zero]
  have h2 : ∀ j ∈ range (x.length + t + 1), x.getD (x.length + t - j) 0 * (List.replicate L c).getD j 0 =
      if t < j ∧ j < L then x.getD (x.length + t - j) 0 * c else 0 := by
    intro j hj
    split
    · next h => simp [List.getD, h.2]
    · next h =>
      by_cases h3 : j < L
      · rw [getD_ge, zero_mul]; omega
      · have : (List.replicate L c).getD j 0 = 0 := by
          apply getD_ge; simpa using h3
        rw [this, mul_zero]
  rw [Finset.sum_congr rfl h2, Finset.sum_ite, Finset.sum_const_zero, add_zero]
  refine Finset.sum_bij (fun j _ => t + 1 + j) ?_ ?_ ?_ ?_
  · intro j hj; simp at hj ⊢; omega
  · intro a _ b _ h; omega
  · intro b hb; simp at hb
    exact ⟨b - (t + 1), by simp; omega, by omega⟩
  · intro j hj
    congr 2; omega

end Verif
