import Verif.F64.Sign

/-! Multiplying by `±1` on the left, and a product of two levels, are exact in double precision. -/
namespace Verif.F64
open Float.Model Float.Model.UnpackedFloat

/-- `1 * x` is `x`, for every double. -/
theorem one_mul_eq (x : Float) : 1 * x = x := by
  obtain ⟨m₁, e₁, h₁, hu⟩ := up_one
  by_cases hx : Fin x ∧ val x ≠ 0
  · have hv : rnd (val 1 * val x) = val x := by rw [val_one, one_mul, rnd_val]
    obtain ⟨a, b⟩ := mul_val fin_one hx.1 (by rw [hv]; exact abs_val_lt x)
    rw [hv] at b
    exact eq_of_val a hx.1 b (by rw [b]; exact hx.2)
  · apply up_inj
    rw [mul_eq, hu]
    cases h : up x with
    | notANumber => exact unpack_pack_nan
    | infinity s => cases s <;> exact unpack_pack_infinity _
    | zero s => cases s <;> exact unpack_pack_zero _
    | finite s m e hm =>
      exfalso; apply hx
      refine ⟨by rw [fin_iff, h]; rfl, ?_⟩
      unfold val; rw [h]
      have := finite_pos hm e
      cases s <;> simp only [uval, sgn] <;> nlinarith

/-- `-1 * x` is `-x`, for every double. -/
theorem neg_one_mul_eq (x : Float) : -1 * x = -x := by
  obtain ⟨m₁, e₁, h₁, hu⟩ := up_one
  have hu' : up (-1 : Float) = .finite .negative m₁ e₁ h₁ := by rw [up_neg, hu]; rfl
  by_cases hx : Fin x ∧ val x ≠ 0
  · have hv : rnd (val (-1) * val x) = -val x := by rw [neg_val, val_one, neg_one_mul, rnd_neg, rnd_val]
    obtain ⟨a, b⟩ := mul_val (neg_fin.mpr fin_one) hx.1 (by rw [hv, abs_neg]; exact abs_val_lt x)
    rw [hv] at b
    refine eq_of_val a (neg_fin.mpr hx.1) (by rw [b, neg_val]) (by rw [b]; exact neg_ne_zero.mpr hx.2)
  · apply up_inj
    rw [mul_eq, hu', up_neg]
    cases h : up x with
    | notANumber => exact unpack_pack_nan
    | infinity s => cases s <;> exact unpack_pack_infinity _
    | zero s => cases s <;> exact unpack_pack_zero _
    | finite s m e hm =>
      exfalso; apply hx
      refine ⟨by rw [fin_iff, h]; rfl, ?_⟩
      unfold val; rw [h]
      have := finite_pos hm e
      cases s <;> simp only [uval, sgn] <;> nlinarith

theorem nrz_mul_nrz {L : Libm} (x : FloatL L) (a b : Bool) :
    (bitToNrz a : FloatL L) * x * bitToNrz b = bitToNrz (a == b) * x := by
  have h1 : ∀ x : Float, -1 * x * -1 = 1 * x := fun x => by rw [neg_one_mul_eq, mul_neg_one_eq, neg_neg', one_mul_eq]
  have h2 : ∀ x : Float, -1 * x * 1 = -1 * x := fun x => mul_one_eq _
  have h3 : ∀ x : Float, 1 * x * -1 = -1 * x := fun x => by rw [one_mul_eq, mul_neg_one_eq, neg_one_mul_eq]
  have h4 : ∀ x : Float, 1 * x * 1 = 1 * x := fun x => mul_one_eq _
  cases a <;> cases b
  · exact h1 x
  · exact h2 x
  · exact h3 x
  · exact h4 x

end Verif.F64
