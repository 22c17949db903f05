import Verif.Model.Lib
import Verif.Lemmas.Std
import Verif.Lemmas.ConvL
import Mathlib.Data.List.Rotate

/-! # Lemmas about the helper functions of lib.rs -/
namespace Verif

variable {T : Type}

theorem fftshift_eq_rotate (x : List T) : fftshift x = x.rotate ((x.length + 1) / 2) := by
  rw [List.rotate_eq_drop_append_take (by omega)]; rfl

theorem fftshift_length (x : List T) : (fftshift x).length = x.length := by
  rw [fftshift_eq_rotate, List.length_rotate]

theorem fftshift_fftshift (x : List T) : fftshift (fftshift x) = x.rotate ((x.length + 1) / 2 + (x.length + 1) / 2) := by
  rw [fftshift_eq_rotate (fftshift x), fftshift_length, fftshift_eq_rotate, List.rotate_rotate]

theorem fftshift_even (x : List T) (h : x.length % 2 = 0) : fftshift (fftshift x) = x := by
  rw [fftshift_fftshift, show (x.length + 1) / 2 + (x.length + 1) / 2 = x.length by omega, List.rotate_length]

theorem fftshift_getElem? (x : List T) (i : ℕ) (hi : i < x.length) :
    (fftshift x)[(i + x.length / 2) % x.length]? = x[i]? := by
  rw [fftshift_eq_rotate, List.getElem?_rotate (Nat.mod_lt _ (by omega))]
  congr 1
  rw [Nat.mod_add_mod, Nat.add_assoc, show x.length / 2 + (x.length + 1) / 2 = x.length by omega,
    Nat.add_mod_right, Nat.mod_eq_of_lt hi]

/-- The first loop of `fftshift_mut` leaves the length and everything from `pivot` on as it is. -/
theorem fftshiftMut_loop1 (x : List T) (p : ℕ) (k : ℕ) (hk : p + k ≤ x.length) (hp : k ≤ p) :
    ∃ y, (List.range k).foldlM (fun x i => do assignIdx x i (← index x (p + i))) x = pure y ∧
      y.length = x.length ∧ y.drop p = x.drop p := by
  induction k with
  | zero => exact ⟨x, rfl, rfl, rfl⟩
  | succ k ih =>
    obtain ⟨y, h1, h2, h3⟩ := ih (by omega) (by omega)
    refine ⟨y.set k (y[p + k]'(by omega)), ?_, by simp [h2], ?_⟩
    · rw [List.range_succ, List.foldlM_append, h1, pure_bind, List.foldlM_cons, index_lt (by omega : p + k < y.length),
        pure_bind]
      unfold assignIdx
      rw [if_pos (by omega)]; rfl
    · rw [List.drop_set_of_lt (by omega), h3]

/-- The second loop writes back the saved front. -/
theorem fftshiftMut_loop2 (x : List T) (v : List T) (s : ℕ) (hv : s + v.length ≤ x.length) :
    ((List.range' s v.length).zip v).foldlM (fun x (i, item) => assignIdx x i item) x
      = (pure (x.take s ++ v ++ x.drop (s + v.length)) : RM (List T)) := by
  induction v generalizing x s with
  | nil => simp
  | cons a v ih =>
    simp only [List.length_cons] at hv ⊢
    rw [List.range'_succ, List.zip_cons_cons, List.foldlM_cons]
    have h0 : assignIdx x s a = pure (x.set s a) := if_pos (by omega)
    change assignIdx x s a >>= _ = _
    rw [h0, pure_bind, ih (x.set s a) (s + 1) (by rw [List.length_set]; omega)]
    congr 1
    rw [List.take_set, List.drop_set_of_lt (by omega)]
    rw [show s + 1 + v.length = s + (v.length + 1) by omega]
    congr 1
    rw [List.take_succ_eq_append_getElem (by omega), List.set_append, if_neg (by rw [List.length_take]; omega),
      List.length_take, Nat.min_eq_left (by omega : s ≤ x.length), Nat.sub_self]
    simp

theorem fftshiftMut_eq (x : List T) : fftshiftMut x = pure x := by
  unfold fftshiftMut
  obtain ⟨y, h1, h2, h3⟩ := fftshiftMut_loop1 x ((x.length + 1) / 2) (x.length - (x.length + 1) / 2) (by omega)
    (by omega)
  simp only []
  rw [h1, pure_bind]
  have := fftshiftMut_loop2 y (x.take ((x.length + 1) / 2)) 0 (by simp; omega)
  rw [List.length_take, Nat.min_eq_left (by omega : (x.length + 1) / 2 ≤ x.length), ← List.range_eq_range'] at this
  rw [this]
  simp [h3]

end Verif
