import Verif.F64.Int

/-!
# Infinities and NaN stay

In IEEE-754 arithmetic the result of an addition, subtraction or multiplication is finite only if both operands are; that of
a division only if the numerator is.
-/
namespace Verif.F64
open Float.Model Float.Model.UnpackedFloat

/-- An infinity or NaN. -/
private def Bad (u : UnpackedFloat) : Prop := u = .notANumber ∨ ∃ s, u = .infinity s

private theorem not_fin_mk {u : UnpackedFloat} (h : Bad u) : ¬ Fin (mk u) := by
  rcases h with rfl | ⟨s, rfl⟩
  · have hc : Canon UnpackedFloat.notANumber := by trivial
    rw [fin_iff, up_mk hc]; simp [UnpackedFloat.isFinite]
  · have hc : Canon (UnpackedFloat.infinity s) := by trivial
    rw [fin_iff, up_mk hc]; simp [UnpackedFloat.isFinite]

private theorem bad_iff (u : UnpackedFloat) : Bad u ↔ u.isFinite = false := by
  cases u <;> simp [Bad, UnpackedFloat.isFinite]

private theorem bad_add (u v : UnpackedFloat) (h : Bad u ∨ Bad v) : Bad (UnpackedFloat.add Format.binary64 u v) := by
  rcases h with (rfl | ⟨s, rfl⟩) | (rfl | ⟨s, rfl⟩)
  · left; cases v <;> rfl
  · cases v with
    | infinity s' => cases s <;> cases s' <;> first | exact .inl rfl | exact .inr ⟨_, rfl⟩
    | notANumber => exact .inl rfl
    | zero => exact .inr ⟨_, rfl⟩
    | finite => exact .inr ⟨_, rfl⟩
  · left; cases u <;> rfl
  · cases u with
    | infinity s' => cases s <;> cases s' <;> first | exact .inl rfl | exact .inr ⟨_, rfl⟩
    | notANumber => exact .inl rfl
    | zero => exact .inr ⟨_, rfl⟩
    | finite => exact .inr ⟨_, rfl⟩

private theorem bad_sub (u v : UnpackedFloat) (h : Bad u ∨ Bad v) : Bad (UnpackedFloat.sub Format.binary64 u v) := by
  rcases h with (rfl | ⟨s, rfl⟩) | (rfl | ⟨s, rfl⟩)
  · left; cases v <;> rfl
  · cases v with
    | infinity s' => cases s <;> cases s' <;> first | exact .inl rfl | exact .inr ⟨_, rfl⟩
    | notANumber => exact .inl rfl
    | zero => exact .inr ⟨_, rfl⟩
    | finite => exact .inr ⟨_, rfl⟩
  · left; cases u <;> rfl
  · cases u with
    | infinity s' => cases s <;> cases s' <;> first | exact .inl rfl | exact .inr ⟨_, rfl⟩
    | notANumber => exact .inl rfl
    | zero => exact .inr ⟨_, rfl⟩
    | finite => exact .inr ⟨_, rfl⟩

private theorem bad_mul (u v : UnpackedFloat) (h : Bad u ∨ Bad v) : Bad (UnpackedFloat.mul Format.binary64 u v) := by
  rcases h with (rfl | ⟨s, rfl⟩) | (rfl | ⟨s, rfl⟩)
  · left; cases v <;> rfl
  · cases v with
    | infinity s' => exact .inr ⟨_, rfl⟩
    | notANumber => exact .inl rfl
    | zero => exact .inl rfl
    | finite => exact .inr ⟨_, rfl⟩
  · left; cases u <;> rfl
  · cases u with
    | infinity s' => exact .inr ⟨_, rfl⟩
    | notANumber => exact .inl rfl
    | zero => exact .inl rfl
    | finite => exact .inr ⟨_, rfl⟩

private theorem bad_div (u v : UnpackedFloat) (h : Bad u) : Bad (UnpackedFloat.div Format.binary64 u v) := by
  rcases h with rfl | ⟨s, rfl⟩
  · left; cases v <;> rfl
  · cases v with
    | infinity s' => exact .inl rfl
    | notANumber => exact .inl rfl
    | zero => exact .inr ⟨_, rfl⟩
    | finite => exact .inr ⟨_, rfl⟩

private theorem not_fin (x : Float) : ¬ Fin x ↔ Bad (up x) := by
  rw [bad_iff, fin_iff, Bool.not_eq_true]

theorem Fin.of_add {a b : Float} (h : Fin (a + b)) : Fin a ∧ Fin b := by
  by_contra hn
  refine not_fin_mk (bad_add (up a) (up b) ?_) (add_eq a b ▸ h)
  rwa [not_and_or, not_fin, not_fin] at hn

theorem Fin.of_sub {a b : Float} (h : Fin (a - b)) : Fin a ∧ Fin b := by
  by_contra hn
  refine not_fin_mk (bad_sub (up a) (up b) ?_) (sub_eq a b ▸ h)
  rwa [not_and_or, not_fin, not_fin] at hn

theorem Fin.of_mul {a b : Float} (h : Fin (a * b)) : Fin a ∧ Fin b := by
  by_contra hn
  refine not_fin_mk (bad_mul (up a) (up b) ?_) (mul_eq a b ▸ h)
  rwa [not_and_or, not_fin, not_fin] at hn

theorem Fin.of_div {a b : Float} (h : Fin (a / b)) : Fin a := by
  by_contra hn
  exact not_fin_mk (bad_div (up a) (up b) ((not_fin a).mp hn)) (div_eq a b ▸ h)

end Verif.F64
