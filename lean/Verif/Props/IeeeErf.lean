import Verif.Lemmas.IeeeErf
import Verif.Props.ErfAccuracy
import Verif.F64.Dft
/-!
# C142: `erf` and `erfc` in double precision
-/
namespace Verif.Props
open Verif Spec F64 Float.Model Float.Model.UnpackedFloat

/-- A library whose exponential is the exact one rounded once, with the limit at minus infinity. -/
noncomputable def expRounded : Libm :=
  { Libm.rounded with exp := fun x => if F64.Fin x then near (Real.exp (val x)) else 0 }

theorem accurate_expRounded : AccurateExp expRounded (1 / 2 ^ 40) := by
  constructor
  · intro a ha h4
    have h1 : Real.exp (val a) ≤ 64 := by
      refine (Real.exp_le_exp.mpr h4).trans ?_
      rw [show (4 : ℝ) = ((4 : ℕ) : ℝ) by norm_num, ← Real.exp_one_pow]
      have h3 : Real.exp 1 ^ 4 ≤ 2.75 ^ 4 := pow_le_pow_left₀ (Real.exp_pos 1).le (by linarith [Real.exp_one_lt_d9]) 4
      exact h3.trans (by norm_num)
    have h2 : expRounded.exp a = near (Real.exp (val a)) := if_pos ha
    rw [h2]
    exact (near_ap (B := 64) (by rwa [abs_of_pos (Real.exp_pos _)]) (by norm_num) (by norm_num)).mono (by norm_num)
  · intro a ha
    have h2 : expRounded.exp a = 0 := if_neg (by rw [fin_iff, ha]; decide)
    rw [h2]
    exact ⟨fin_zero, by rw [val_zero]; norm_num⟩

/-- The error function is almost one at 32 and beyond. -/
theorem Erfc_32 {x : ℝ} (h : 32 ≤ x) : 0 < Erfc x ∧ Erfc x ≤ 1e-9 :=
  ⟨Erfc_pos x, (Erfc_le (by linarith)).trans (exp_small (by nlinarith))⟩

theorem le_zero_inf : Float.le 0 F64.inf = true := by decide +kernel
theorem le_zero_negInf : Float.le 0 F64.negInf = false := by decide +kernel

theorem ap_shift {a : Float} {r s e d : ℝ} (h : Ap a r e) (hd : |r - s| ≤ d) : Ap a s (e + d) :=
  ⟨h.1, by
    have h1 := _root_.abs_le.mp h.2
    have h2 := _root_.abs_le.mp hd
    exact _root_.abs_le.mpr ⟨by linarith, by linarith⟩⟩

theorem erf_small {L : Libm} {ε : ℝ} (hL : AccurateExp L ε) (hε : ε ≤ 1 / 2 ^ 20) {x : Float} (hx : F64.Fin x)
    (h32 : |val x| ≤ 32) : Ap (erf (F := FloatL L) x) (1 - Erfc (val x)) (ε + 1.4e-7) := by
  have ht := tau_near hL hε hx h32
  have hc := (C111_absolute (val x)).2
  have p0 := erfTau_pos |val x| (abs_nonneg _)
  have p2 := erfTau_lt_two |val x| (abs_nonneg _)
  rw [erf_eq] at hc
  change Ap (if Float.le 0 x then (1 : Float) - erfT x * L.exp (erfArg x (erfT x)) else erfT x * L.exp (erfArg x (erfT x)) - 1 : Float) _ _
  have hone : Ap (1 : Float) 1 0 := by simpa [val_one] using Ap.exact fin_one
  by_cases hs : 0 ≤ val x
  · rw [if_pos hs] at hc
    have hf : Float.le 0 x = true := (le_iff fin_zero hx).mpr (by rw [val_zero]; exact hs)
    rw [if_pos hf]
    have k := hone.sub11 ht (_root_.abs_le.mpr ⟨by linarith, by linarith⟩) (by norm_num at hε ⊢; linarith)
    exact (ap_shift k hc).mono (by norm_num; linarith)
  · rw [if_neg hs] at hc
    have hf : ¬ Float.le 0 x = true := fun h => hs (by have := (le_iff fin_zero hx).mp h; rwa [val_zero] at this)
    rw [if_neg hf]
    have k := ht.sub11 hone (_root_.abs_le.mpr ⟨by linarith, by linarith⟩) (by norm_num at hε ⊢; linarith)
    exact (ap_shift k hc).mono (by norm_num; linarith)

/-- A large argument gives one with the sign the comparison sees. -/
theorem erf_large {L : Libm} {ε : ℝ} (hL : AccurateExp L ε) (hε : ε ≤ 1 / 2 ^ 20) {x : Float} (h : Large x) :
    Ap (erf (F := FloatL L) x) (if Float.le 0 x then 1 else -1) (ε + 3e-9) := by
  have ht := tau_large hL hε h
  have hone : Ap (1 : Float) 1 0 := by simpa [val_one] using Ap.exact fin_one
  change Ap (if Float.le 0 x then (1 : Float) - erfT x * L.exp (erfArg x (erfT x)) else erfT x * L.exp (erfArg x (erfT x)) - 1 : Float) _ _
  by_cases hf : Float.le 0 x = true
  · rw [if_pos hf, if_pos hf]
    have := hone.sub11 ht (by norm_num) (by norm_num at hε ⊢; linarith)
    rw [sub_zero] at this
    exact this.mono (by norm_num; linarith)
  · rw [if_neg hf, if_neg hf]
    have := ht.sub11 hone (by norm_num) (by norm_num at hε ⊢; linarith)
    rw [zero_sub] at this
    exact this.mono (by norm_num; linarith)

/-- **C142.** In double precision, with an exponential good to `ε`, `erf` of any finite number is within `ε + 1.4·10⁻⁷` of the
error function: the approximation of C111 loses next to nothing to rounding, whatever the magnitude of the argument. -/
theorem C142_erf {L : Libm} {ε : ℝ} (hL : AccurateExp L ε) (hε : ε ≤ 1 / 2 ^ 20) (x : Float) (hx : F64.Fin x) :
    Ap (erf (F := FloatL L) x) (1 - Erfc (val x)) (ε + 1.4e-7) := by
  by_cases h32 : |val x| ≤ 32
  · exact erf_small hL hε hx h32
  · have hl : 32 ≤ |val x| := (not_le.mp h32).le
    obtain ⟨k1, k2⟩ := erf_large hL hε (.inr ⟨hx, hl⟩)
    have k3 := _root_.abs_le.mp k2
    refine ⟨k1, ?_⟩
    have hiff : Float.le 0 x = true ↔ 0 ≤ val x := by rw [le_iff fin_zero hx, val_zero]
    by_cases hs : 0 ≤ val x
    · rw [abs_of_nonneg hs] at hl
      obtain ⟨e1, e2⟩ := Erfc_32 hl
      rw [if_pos (hiff.mpr hs)] at k3
      refine _root_.abs_le.mpr ⟨?_, ?_⟩ <;> norm_num at k3 e2 ⊢ <;> linarith
    · rw [abs_of_neg (not_le.mp hs)] at hl
      obtain ⟨e1, e2⟩ := Erfc_32 hl
      have e3 := Erfc_neg (val x)
      rw [if_neg (fun h => hs (hiff.mp h))] at k3
      refine _root_.abs_le.mpr ⟨?_, ?_⟩ <;> norm_num at k3 e2 ⊢ <;> linarith

example : Ap (erf (F := FloatL expRounded) (1 : Float)) (1 - Erfc 1) 1.5e-7 := by
  have := C142_erf accurate_expRounded (by norm_num) 1 fin_one
  rw [val_one] at this
  exact this.mono (by norm_num)

/-- The complementary function is as good, in absolute terms. -/
theorem C142_erfc {L : Libm} {ε : ℝ} (hL : AccurateExp L ε) (hε : ε ≤ 1 / 2 ^ 20) (x : Float) (hx : F64.Fin x) :
    Ap (erfc (F := FloatL L) x) (Erfc (val x)) (ε + 1.5e-7) := by
  have hone : Ap (1 : Float) 1 0 := by simpa [val_one] using Ap.exact fin_one
  have h2 : Erfc (val x) ≤ 2 := by have := Erfc_neg (val x); linarith [Erfc_pos (-val x)]
  have := hone.sub11 (C142_erf hL hε x hx) (by rw [sub_sub_cancel, abs_of_pos (Erfc_pos _)]; linarith) (by norm_num at hε ⊢; linarith)
  rw [sub_sub_cancel] at this
  exact this.mono (by norm_num; linarith)

example : Ap (erfc (F := FloatL expRounded) (1 : Float)) (Erfc 1) 1.6e-7 := by
  have := C142_erfc accurate_expRounded (by norm_num) 1 fin_one
  rw [val_one] at this
  exact this.mono (by norm_num)

/-- The two infinities give the two limits. -/
theorem C142_inf {L : Libm} {ε : ℝ} (hL : AccurateExp L ε) (hε : ε ≤ 1 / 2 ^ 20) :
    Ap (erf (F := FloatL L) F64.inf) 1 (ε + 3e-9) ∧ Ap (erf (F := FloatL L) F64.negInf) (-1) (ε + 3e-9) := by
  have h1 := erf_large hL hε (.inl ⟨_, up_inf⟩)
  have h2 := erf_large hL hε (.inl ⟨_, up_negInf⟩)
  rw [if_pos le_zero_inf] at h1
  rw [if_neg (by rw [le_zero_negInf]; decide)] at h2
  exact ⟨h1, h2⟩

example : Ap (erf (F := FloatL expRounded) F64.negInf) (-1) 4e-9 :=
  (C142_inf accurate_expRounded (by norm_num)).2.mono (by norm_num)

/-- NaN comes out as NaN, whatever the exponential does with it. -/
theorem C142_nan (L : Libm) (x : FloatL L) (hx : isMissing x = true) : isMissing (erf x) = true ∧ isMissing (erfc x) = true := by
  rw [isMissing_iff] at hx
  have ht : up (erfT x) = .notANumber := (nan_div (nan_add (nan_mul (nan_abs hx) _).2 _).2 _).2
  have he : up (erf (F := FloatL L) x) = .notANumber := by
    have := (nan_mul ht (L.exp (erfArg x (erfT x)))).1
    change up (if Float.le 0 x then (1 : Float) - erfT x * L.exp (erfArg x (erfT x)) else erfT x * L.exp (erfArg x (erfT x)) - 1 : Float) = _
    split
    · exact (nan_sub this _).2
    · exact (nan_sub this _).1
  exact ⟨(isMissing_iff _).mpr he, (isMissing_iff _).mpr (nan_sub he _).2⟩

example : isMissing (erf (F := FloatL Libm.rounded) (show Float from (0 : Float) / (0 : Float))) = true :=
  (C142_nan Libm.rounded (show Float from (0 : Float) / (0 : Float)) ((isMissing_iff _).mpr ((nan_iff ((0 : Float) / (0 : Float))).mp (by decide +kernel)))).1

/-- A double other than one is at least `2⁻⁵³` away from it. -/
theorem one_gap {e : ℝ} (h : IsF e) (h1 : e ≠ 1) : (2 : ℝ) ^ (-53 : ℤ) ≤ |1 - e| := by
  obtain ⟨m, k, hm, -, rfl⟩ := h
  have hm' : |(m : ℝ)| ≤ 2 ^ 53 := by exact_mod_cast hm
  rcases le_or_gt (-53 : ℤ) k with hk | hk
  · obtain ⟨j, rfl⟩ : ∃ j : ℕ, k = (j : ℤ) - 53 := ⟨(k + 53).toNat, by omega⟩
    have e1 : (m : ℝ) * 2 ^ ((j : ℤ) - 53) = (m * 2 ^ j : ℤ) * 2 ^ (-53 : ℤ) := by
      rw [sub_eq_add_neg, zpow_add₀ (by norm_num)]; push_cast; rw [zpow_natCast]; ring
    have e2 : (1 : ℝ) = (2 ^ 53 : ℤ) * 2 ^ (-53 : ℤ) := by norm_num
    rw [e1] at h1 ⊢
    have hne : (2 : ℤ) ^ 53 - m * 2 ^ j ≠ 0 := fun h => h1 (by rw [← sub_eq_zero.mp h, ← e2])
    have : (1 : ℝ) ≤ |(((2 : ℤ) ^ 53 - m * 2 ^ j : ℤ) : ℝ)| := by exact_mod_cast Int.one_le_abs hne
    have e3 : 1 - ((m * 2 ^ j : ℤ) : ℝ) * 2 ^ (-53 : ℤ) = (((2 : ℤ) ^ 53 - m * 2 ^ j : ℤ) : ℝ) * 2 ^ (-53 : ℤ) := by
      push_cast; norm_num; ring
    rw [e3, abs_mul, abs_of_pos (show (0 : ℝ) < 2 ^ (-53 : ℤ) by positivity)]
    exact le_mul_of_one_le_left (by positivity) this
  · have h2 : (2 : ℝ) ^ k ≤ 2 ^ (-54 : ℤ) := zpow_le_zpow_right₀ (by norm_num) (by omega)
    have h3 : |(m : ℝ) * 2 ^ k| ≤ 2 ^ 53 * 2 ^ (-54 : ℤ) := by
      rw [abs_mul, abs_of_pos (show (0 : ℝ) < 2 ^ k by positivity)]
      exact mul_le_mul hm' h2 (by positivity) (by positivity)
    have h4 := (_root_.abs_le.mp h3).2
    have h5 := le_abs_self (1 - (m : ℝ) * 2 ^ k)
    norm_num at h4 ⊢
    linarith

/-- Whatever the exponential, what `erfc` answers is zero or at least `2⁻⁵³` in magnitude: it subtracts from one. -/
theorem C142_granular (L : Libm) (x : FloatL L) (hf : F64.Fin (erfc (F := FloatL L) x)) :
    val (erfc (F := FloatL L) x) = 0 ∨ (2 : ℝ) ^ (-53 : ℤ) ≤ |val (erfc (F := FloatL L) x)| := by
  revert hf
  change F64.Fin ((1 : Float) - (show Float from erf (F := FloatL L) x)) → val ((1 : Float) - (show Float from erf (F := FloatL L) x)) = 0 ∨
    (2 : ℝ) ^ (-53 : ℤ) ≤ |val ((1 : Float) - (show Float from erf (F := FloatL L) x))|
  generalize (show Float from erf (F := FloatL L) x) = e
  intro hf
  have he : F64.Fin e := by
    by_contra hb
    have hu := (bad_iff e).mp (by simpa [F64.Fin] using hb)
    rw [fin_iff, sub_eq] at hf
    rcases hu with h | ⟨s, h⟩
    · have := (nan_sub h 1).2
      rw [sub_eq] at this
      rw [this] at hf; cases hf
    · rw [h] at hf
      cases s <;> exact absurd hf (by decide +kernel)
  have hgood := sub_good fin_one he
  by_cases hh : |rnd (val (1 : Float) - val e)| < huge
  · obtain ⟨-, h2⟩ := sub_val fin_one he hh
    rw [h2, val_one]
    by_cases h1 : val e = 1
    · left; rw [h1, sub_self, rnd_zero]
    · right
      rw [abs_rnd]
      exact le_rnd_of_le (isF_zpow (by norm_num)) (one_gap (isF_val e) h1)
  · have := mk_overflow hgood (not_lt.mp hh)
    rw [fin_iff, sub_eq, this] at hf
    cases hf

example : val (erfc (F := FloatL expRounded) (1 : Float)) = 0 ∨ (2 : ℝ) ^ (-53 : ℤ) ≤ |val (erfc (F := FloatL expRounded) (1 : Float))| :=
  C142_granular expRounded _ (C142_erfc accurate_expRounded (by norm_num) 1 fin_one).1

/-- So the relative accuracy of the formula (C111) does not survive: from seven on the answer is off by all of `erfc` or more. -/
theorem C142_relative_lost (L : Libm) (x : FloatL L) (hx : 7 ≤ val (x : Float)) (hf : F64.Fin (erfc (F := FloatL L) x)) :
    Erfc (val (x : Float)) ≤ |val (erfc (F := FloatL L) x) - Erfc (val (x : Float))| := by
  have h0 := Erfc_pos (val (x : Float))
  have h1 : Erfc (val (x : Float)) ≤ 2 ^ (-55 : ℤ) := by
    refine (Erfc_le (by linarith)).trans ?_
    have h2 : Real.exp (-(val (x : Float)) ^ 2) ≤ Real.exp (-(45 : ℕ)) := Real.exp_le_exp.mpr (by push_cast; nlinarith)
    refine h2.trans ?_
    rw [Real.exp_neg, ← Real.exp_one_pow]
    have : (2.7 : ℝ) ^ 45 ≤ Real.exp 1 ^ 45 := pow_le_pow_left₀ (by norm_num) (by linarith [Real.exp_one_gt_d9]) _
    rw [inv_le_comm₀ (by positivity) (by positivity)]
    refine le_trans ?_ this
    norm_num
  rcases C142_granular L x hf with h | h
  · rw [h, zero_sub, abs_neg]; exact le_abs_self _
  · have h3 := abs_sub_abs_le_abs_sub (val (erfc (F := FloatL L) x)) (Erfc (val (x : Float)))
    rw [abs_of_pos h0] at h3
    norm_num at h1 h
    linarith

/-- At eight, say. -/
example : Erfc 8 ≤ |val (erfc (F := FloatL expRounded) (Flt.ofNat 8 : Float)) - Erfc 8| := by
  obtain ⟨h1, h2⟩ := ofNat_exact (n := 8) (by norm_num)
  have hv : val (Flt.ofNat 8 : Float) = 8 := by rw [show val (Flt.ofNat 8 : Float) = _ from h2]; norm_num
  have := C142_relative_lost expRounded (Flt.ofNat 8 : Float) (by rw [hv]; norm_num) (C142_erfc accurate_expRounded (by norm_num) _ h1).1
  rwa [hv] at this
end Verif.Props
