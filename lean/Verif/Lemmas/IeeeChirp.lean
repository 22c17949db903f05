import Verif.F64.Phase
import Verif.F64.Maps
import Verif.F64.Libm
import Verif.F64.Int
import Verif.Lemmas.Fh
import Verif.Spec.Wave

/-!
Linear chirps in IEEE arithmetic: the phase with its error, and the length.

Errors are counted in units of `A / 2^52` where `A` bounds the exact result.
-/

namespace Verif
open F64

/-- A double within `c` units of `r`, which is at most `A`. -/
def Sc (x : Float) (r A c : ℝ) : Prop := F64.Fin x ∧ |r| ≤ A ∧ |val x - r| ≤ c * (A / 2 ^ 52)

/-- Sizes far from overflow and underflow. -/
def Sz (A : ℝ) : Prop := 1 / 2 ^ 100 ≤ A ∧ A ≤ 2 ^ 100

theorem Sz.pos {A : ℝ} (h : Sz A) : 0 < A := lt_of_lt_of_le (by positivity) h.1

theorem Sc.round {x : Float} {y r A c : ℝ} (hA : Sz A) (hr : |r| ≤ A) (hc : c ≤ 2 ^ 10)
    (hy : |y - r| ≤ c * (A / 2 ^ 52)) (hx : |rnd y| < huge → F64.Fin x ∧ val x = rnd y) : Sc x r A (c + 1) := by
  have h0 := hA.pos
  have e1 : c * (A / 2 ^ 52) ≤ 2 ^ 10 * (A / 2 ^ 52) := mul_le_mul_of_nonneg_right hc (by positivity)
  have hyA : |y| ≤ A + A / 2 ^ 42 := by
    have := abs_sub_abs_le_abs_sub y r
    have e2 : (2 : ℝ) ^ 10 * (A / 2 ^ 52) = A / 2 ^ 42 := by ring
    linarith
  have hb : |rnd y| < huge := rnd_lt_huge (le_big (k := 101) (by norm_num) (by
    have := hA.2
    have : A / 2 ^ 42 ≤ A := div_le_self h0.le (by norm_num)
    rw [pow_succ]
    linarith))
  obtain ⟨h1, h2⟩ := hx hb
  refine ⟨h1, hr, ?_⟩
  have h3 := abs_rnd_sub_le_abs y
  have h4 : max (|y| * 2 ^ (-53 : ℤ)) ((2 : ℝ) ^ (-1075 : ℤ)) ≤ A / 2 ^ 52 := by
    refine max_le ?_ ?_
    · have e3 : (2 : ℝ) ^ (-53 : ℤ) = 1 / 2 ^ 53 := by norm_num
      rw [e3]
      have : |y| ≤ 2 * A := by
        have : A / 2 ^ 42 ≤ A := div_le_self h0.le (by norm_num)
        linarith
      calc |y| * (1 / 2 ^ 53) ≤ 2 * A * (1 / 2 ^ 53) := mul_le_mul_of_nonneg_right this (by norm_num)
        _ = A / 2 ^ 52 := by ring
    · have h5 : (2 : ℝ) ^ (-1075 : ℤ) ≤ 1 / 2 ^ 200 := tiny_le (k := 200) (by norm_num)
      have h6 := hA.1
      have h7 : 1 / 2 ^ 100 / 2 ^ 52 ≤ A / 2 ^ 52 := div_le_div_of_nonneg_right h6 (by positivity)
      have h8 : (1 : ℝ) / 2 ^ 200 ≤ 1 / 2 ^ 100 / 2 ^ 52 := by norm_num
      linarith
  have h5 : val x - r = (rnd y - y) + (y - r) := by rw [h2]; ring
  rw [h5, add_mul, one_mul]
  have h34 := h3.trans h4
  have := abs_add_le (rnd y - y) (y - r)
  linarith

theorem Sc.mono {x : Float} {r A B c : ℝ} (h : Sc x r A c) (hc : 0 ≤ c) (hAB : A ≤ B) : Sc x r B c :=
  ⟨h.1, h.2.1.trans hAB, h.2.2.trans (mul_le_mul_of_nonneg_left (div_le_div_of_nonneg_right hAB (by positivity)) hc)⟩

theorem Sc.mono_c {x : Float} {r A c d : ℝ} (h : Sc x r A c) (hA : 0 ≤ A) (hc : c ≤ d) : Sc x r A d :=
  ⟨h.1, h.2.1, h.2.2.trans (mul_le_mul_of_nonneg_right hc (by positivity))⟩

theorem Sc.exact {x : Float} {r A : ℝ} (h : F64.Fin x) (hv : val x = r) (hr : |r| ≤ A) : Sc x r A 0 :=
  ⟨h, hr, by rw [hv]; simp⟩

theorem Sc.add {x y : Float} {r s A B c : ℝ} (hx : Sc x r A c) (hy : Sc y s B c) (hA : Sz (A + B)) (hc : c ≤ 2 ^ 10) :
    Sc (x + y) (r + s) (A + B) (c + 1) := by
  refine Sc.round (y := val x + val y) hA ((abs_add_le _ _).trans (add_le_add hx.2.1 hy.2.1)) hc ?_ (add_val hx.1 hy.1)
  rw [show val x + val y - (r + s) = (val x - r) + (val y - s) by ring]
  refine (abs_add_le _ _).trans ((add_le_add hx.2.2 hy.2.2).trans_eq (by ring))

theorem Sc.sub {x y : Float} {r s A B c : ℝ} (hx : Sc x r A c) (hy : Sc y s B c) (hA : Sz (A + B)) (hc : c ≤ 2 ^ 10) :
    Sc (x - y) (r - s) (A + B) (c + 1) := by
  refine Sc.round (y := val x - val y) hA ((abs_sub _ _).trans (add_le_add hx.2.1 hy.2.1)) hc ?_ (sub_val hx.1 hy.1)
  rw [show val x - val y - (r - s) = (val x - r) - (val y - s) by ring]
  refine (abs_sub _ _).trans ((add_le_add hx.2.2 hy.2.2).trans_eq (by ring))

theorem Sc.mul {x y : Float} {r s A B c d : ℝ} (hx : Sc x r A c) (hy : Sc y s B d) (hA : Sz (A * B)) (_hc0 : 0 ≤ c) (hd0 : 0 ≤ d)
    (hc : c ≤ 2 ^ 9) (hd : d ≤ 2 ^ 8) : Sc (x * y) (r * s) (A * B) (c + d + 1 + 1) := by
  have hA0 : 0 ≤ A := (abs_nonneg _).trans hx.2.1
  have hB0 : 0 ≤ B := (abs_nonneg _).trans hy.2.1
  refine Sc.round (y := val x * val y) hA ?_ (by norm_num at hc hd ⊢; linarith) ?_ (mul_val hx.1 hy.1)
  · rw [abs_mul]; exact mul_le_mul hx.2.1 hy.2.1 (abs_nonneg _) hA0
  · have h := abs_mul_sub_le hx.2.2 hy.2.2 hx.2.1 hy.2.1
    refine h.trans ?_
    have hcd : c * d ≤ 2 ^ 52 := by
      calc c * d ≤ 2 ^ 9 * 2 ^ 8 := mul_le_mul hc hd hd0 (by norm_num)
        _ ≤ 2 ^ 52 := by norm_num
    have hAB := hA.pos.le
    have e : A * (d * (B / 2 ^ 52)) + B * (c * (A / 2 ^ 52)) + c * (A / 2 ^ 52) * (d * (B / 2 ^ 52))
        = (c + d) * (A * B / 2 ^ 52) + (c * d / 2 ^ 52) * (A * B / 2 ^ 52) := by ring
    rw [e, add_mul, add_mul (c + d)]
    have : c * d / 2 ^ 52 * (A * B / 2 ^ 52) ≤ 1 * (A * B / 2 ^ 52) :=
      mul_le_mul_of_nonneg_right ((div_le_one (by positivity)).mpr hcd) (by positivity)
    linarith

/-- Division by a number known to relative precision. -/
theorem Sc.div {x y : Float} {r s A c d : ℝ} (hx : Sc x r A c) (hs : 0 < s) (hy : Sc y s s d) (hA : Sz (A / s)) (hc0 : 0 ≤ c)
    (hd0 : 0 ≤ d) (hc : c ≤ 2 ^ 8) (hd : d ≤ 2 ^ 7) : Sc (x / y) (r / s) (A / s) (c + 2 * d + 1 + 1) := by
  have hA0 : 0 ≤ A := (abs_nonneg _).trans hx.2.1
  have hyd : d / 2 ^ 52 ≤ 1 / 4 := by
    rw [div_le_iff₀ (by positivity)]; norm_num at hd ⊢; linarith
  have hyv : s * (1 - d / 2 ^ 52) ≤ val y := by
    have := (abs_le.mp hy.2.2).1
    have e : d * (s / 2 ^ 52) = s * (d / 2 ^ 52) := by ring
    rw [mul_sub]; linarith
  have hyp : s * (3 / 4) ≤ val y := (mul_le_mul_of_nonneg_left (by linarith) hs.le).trans hyv
  have hy0 : 0 < val y := lt_of_lt_of_le (by positivity) hyp
  refine Sc.round (y := val x / val y) hA ?_ (by norm_num at hc hd ⊢; linarith) ?_ (div_val hx.1 hy.1 hy0.ne')
  · rw [abs_div, abs_of_pos hs]; exact div_le_div_of_nonneg_right hx.2.1 hs.le
  · have e : val x / val y - r / s = ((val x - r) * s + r * (s - val y)) / (val y * s) := by
      field_simp; ring
    rw [e, abs_div, abs_of_pos (mul_pos hy0 hs), div_le_iff₀ (mul_pos hy0 hs)]
    have h1 : |(val x - r) * s + r * (s - val y)| ≤ c * (A / 2 ^ 52) * s + A * (d * (s / 2 ^ 52)) := by
      refine (abs_add_le _ _).trans (add_le_add ?_ ?_)
      · rw [abs_mul, abs_of_pos hs]; exact mul_le_mul_of_nonneg_right hx.2.2 hs.le
      · rw [abs_mul, abs_sub_comm]; exact mul_le_mul hx.2.1 hy.2.2 (abs_nonneg _) hA0
    refine h1.trans ?_
    have e2 : c * (A / 2 ^ 52) * s + A * (d * (s / 2 ^ 52)) = (c + d) * (A / 2 ^ 52) * s := by ring
    have e3 : (c + 2 * d + 1) * (A / s / 2 ^ 52) * (val y * s) = (c + 2 * d + 1) * (A / 2 ^ 52) * val y := by
      field_simp
    rw [e2, e3]
    have h2 : (c + d) * s ≤ (c + 2 * d + 1) * (s * (1 - d / 2 ^ 52)) := by
      have h3 : (c + 2 * d + 1) * (d / 2 ^ 52) ≤ d + 1 := by
        have : (c + 2 * d + 1) * (d / 2 ^ 52) ≤ 2 ^ 10 * (2 ^ 7 / 2 ^ 52) :=
          mul_le_mul (by norm_num at hc hd ⊢; linarith) (div_le_div_of_nonneg_right hd (by positivity)) (by positivity) (by positivity)
        have h4 : (2 : ℝ) ^ 10 * (2 ^ 7 / 2 ^ 52) ≤ 1 := by norm_num
        linarith
      have h5 : (c + 2 * d + 1) * (s * (1 - d / 2 ^ 52)) = s * (c + 2 * d + 1 - (c + 2 * d + 1) * (d / 2 ^ 52)) := by ring
      rw [h5, mul_comm]
      exact mul_le_mul_of_nonneg_left (by linarith) hs.le
    calc (c + d) * (A / 2 ^ 52) * s = (A / 2 ^ 52) * ((c + d) * s) := by ring
      _ ≤ (A / 2 ^ 52) * ((c + 2 * d + 1) * (s * (1 - d / 2 ^ 52))) := mul_le_mul_of_nonneg_left h2 (by positivity)
      _ ≤ (A / 2 ^ 52) * ((c + 2 * d + 1) * val y) :=
        mul_le_mul_of_nonneg_left (mul_le_mul_of_nonneg_left hyv (by positivity)) (by positivity)
      _ = _ := by ring

theorem sc_nat {n : ℕ} (hn : n ≤ 2 ^ 53) {A : ℝ} (h : (n : ℝ) ≤ A) : Sc (F64.ofNat n) n A 0 :=
  Sc.exact (ofNat_exact hn).1 (ofNat_exact hn).2 (by rw [abs_of_nonneg (by positivity)]; exact h)

theorem sc_pi : Sc (Flt.pi : Float) Real.pi 4 1 := by
  refine ⟨pi_rel.1, by rw [abs_of_pos Real.pi_pos]; exact Real.pi_le_four, pi_rel.2.trans ?_⟩
  rw [abs_of_pos Real.pi_pos, uu_eq]
  have := Real.pi_le_four
  norm_num
  linarith

/-- The time axis of a chirp of `n = fs/sym` samples. -/
theorem sc_time {sym n i : ℕ} (hs : 0 < sym) (hs' : sym ≤ 2 ^ 30) (hn : n ≤ 2 ^ 30) (hi : i < n) :
    Sc (0 + (1 / F64.ofNat sym - 0) / F64.ofNat n * F64.ofNat i) (i / (sym * n)) (1 / sym) 9 ∧
      Sc (1 / F64.ofNat sym) (1 / sym) (1 / sym) 2 := by
  have s0 : (1 : ℝ) ≤ sym := by exact_mod_cast hs
  have s1 : (sym : ℝ) ≤ 2 ^ 30 := by exact_mod_cast hs'
  have n0 : (1 : ℝ) ≤ n := by exact_mod_cast (by omega : 1 ≤ n)
  have n1 : (n : ℝ) ≤ 2 ^ 30 := by exact_mod_cast hn
  have hz1 : Sz (1 / sym) := by
    constructor
    · exact one_div_le_one_div_of_le (by linarith) (by norm_num at s1 ⊢; linarith)
    · rw [div_le_iff₀ (by linarith)]; exact one_le_mul_of_one_le_of_one_le (by norm_num) s0
  have hz2 : Sz (1 / sym / n) := by
    rw [div_div]
    have h1 : (sym : ℝ) * n ≤ 2 ^ 30 * 2 ^ 30 := mul_le_mul s1 n1 (by linarith) (by norm_num)
    have h2 : (1 : ℝ) ≤ sym * n := by nlinarith
    constructor
    · exact one_div_le_one_div_of_le (by linarith) (by norm_num at h1 ⊢; linarith)
    · rw [div_le_iff₀ (by linarith)]; exact one_le_mul_of_one_le_of_one_le (by norm_num) h2
  have hone : Sc (1 : Float) 1 1 0 := Sc.exact fin_one val_one (by norm_num)
  have hzero : ∀ c : ℝ, 0 ≤ c → Sc (0 : Float) 0 0 c := fun c _ => ⟨fin_zero, by simp, by rw [val_zero]; simp⟩
  have hT := hone.div (by linarith : (0 : ℝ) < sym) (sc_nat (n := sym) (by omega) le_rfl) hz1 le_rfl le_rfl (by norm_num) (by norm_num)
  have hT' : Sc (1 / F64.ofNat sym) (1 / sym) (1 / sym) 2 := hT.mono_c hz1.pos.le (by norm_num)
  refine ⟨?_, hT'⟩
  have h1 := hT'.sub (hzero 2 (by norm_num)) (by rw [add_zero]; exact hz1) (by norm_num)
  rw [add_zero, sub_zero] at h1
  have h2 := h1.div (by linarith : (0 : ℝ) < n) (sc_nat (n := n) (by omega) le_rfl) hz2 (by norm_num) le_rfl (by norm_num) (by norm_num)
  have hz3 : Sz (1 / sym / n * n) := by rw [div_mul_cancel₀ _ (by linarith)]; exact hz1
  have h3 := h2.mul (sc_nat (n := i) (A := n) (by omega) (by exact_mod_cast hi.le)) hz3 (by norm_num) le_rfl (by norm_num) (by norm_num)
  rw [div_mul_cancel₀ _ (by linarith : (n : ℝ) ≠ 0)] at h3
  have h4 := (hzero _ (by norm_num)).add h3 (by rw [zero_add]; exact hz1) (by norm_num)
  rw [zero_add, zero_add] at h4
  have e : (1 : ℝ) / sym / n * i = i / (sym * n) := by field_simp
  rw [e] at h4
  exact h4.mono_c hz1.pos.le (by norm_num)

/-- The phase of sample `i` of a chirp. -/
theorem sc_chirp {sym n i : ℕ} {f0 f1 : Float} {W : ℝ} (hs : 0 < sym) (hs' : sym ≤ 2 ^ 30) (hn : n ≤ 2 ^ 30) (hi : i < n)
    (hW : 1 ≤ W) (hW' : W ≤ 2 ^ 30) (h0 : F64.Fin f0 ∧ |val f0| ≤ W) (h1 : F64.Fin f1 ∧ |val f1| ≤ W) :
    Sc (F64.ofNat 2 * Flt.pi * (f0 + (f1 - f0) / (1 / F64.ofNat sym) * (0 + (1 / F64.ofNat sym - 0) / F64.ofNat n * F64.ofNat i)
        / F64.ofNat 2) * (0 + (1 / F64.ofNat sym - 0) / F64.ofNat n * F64.ofNat i))
      (2 * Real.pi * (val f0 + (val f1 - val f0) / (1 / sym) * (i / (sym * n)) / 2) * (i / (sym * n))) (16 * W / sym) 40 := by
  have s0 : (1 : ℝ) ≤ sym := by exact_mod_cast hs
  have s1 : (sym : ℝ) ≤ 2 ^ 30 := by exact_mod_cast hs'
  have hsz : ∀ A : ℝ, 1 / 2 ^ 100 ≤ A → A ≤ 2 ^ 100 → Sz A := fun A a b => ⟨a, b⟩
  obtain ⟨ht, hT⟩ := sc_time hs hs' hn hi
  have hT0 : (0 : ℝ) < 1 / sym := by positivity
  have e0 : Sc f0 (val f0) W 0 := Sc.exact h0.1 rfl h0.2
  have e1 : Sc f1 (val f1) W 0 := Sc.exact h1.1 rfl h1.2
  have zz : ∀ A : ℝ, 1 ≤ A → A ≤ 2 ^ 70 → Sz A := fun A a b =>
    ⟨le_trans (by norm_num) a, b.trans (by norm_num)⟩
  have d := e1.sub e0 (zz _ (by linarith) (by norm_num at hW' ⊢; linarith)) (by norm_num)
  have eW : (W + W) / (1 / sym) = 2 * W * sym := by field_simp; ring
  have hWs : W * sym ≤ 2 ^ 30 * 2 ^ 30 := mul_le_mul hW' s1 (by linarith) (by norm_num)
  have hWs1 : 1 ≤ W * sym := by nlinarith
  have k := d.div hT0 hT (by rw [eW]; exact zz _ (by linarith) (by norm_num at hWs ⊢; linarith)) (by norm_num) (by norm_num)
    (by norm_num) (by norm_num)
  rw [eW] at k
  have eW2 : 2 * W * sym * (1 / sym) = 2 * W := by field_simp
  have kt := k.mul ht (by rw [eW2]; exact zz _ (by linarith) (by norm_num at hW' ⊢; linarith)) (by norm_num) (by norm_num)
    (by norm_num) (by norm_num)
  rw [eW2] at kt
  have h2 : Sc (F64.ofNat 2) ((2 : ℕ) : ℝ) ((2 : ℕ) : ℝ) 0 := sc_nat (by norm_num) le_rfl
  have e2 : 2 * W / ((2 : ℕ) : ℝ) = W := by push_cast; ring
  have kt2 := kt.div (by norm_num) h2 (by rw [e2]; exact zz _ hW (by norm_num at hW' ⊢; linarith)) (by norm_num) le_rfl
    (by norm_num) (by norm_num)
  rw [e2] at kt2
  have kt3 := kt2.mono_c (d := 20) (by linarith) (by norm_num)
  have f := (e0.mono_c (d := 20) (by linarith) (by norm_num)).add kt3 (zz _ (by linarith) (by norm_num at hW' ⊢; linarith)) (by norm_num)
  have p := h2.mul sc_pi (zz _ (by norm_num) (by norm_num)) le_rfl (by norm_num) (by norm_num) (by norm_num)
  have pf := p.mul f (zz _ (by push_cast; linarith) (by push_cast; norm_num at hW' ⊢; linarith)) (by norm_num) (by norm_num)
    (by norm_num) (by norm_num)
  have eW3 : ((2 : ℕ) : ℝ) * 4 * (W + W) * (1 / sym) = 16 * W / sym := by push_cast; ring
  have hq : 16 * W / sym ≤ 2 ^ 70 := by
    rw [div_le_iff₀ (by linarith)]; norm_num at hW' ⊢; nlinarith
  have hq1 : 1 / 2 ^ 100 ≤ 16 * W / sym := by
    rw [div_le_div_iff₀ (by positivity) (by linarith)]; norm_num at s1 ⊢; nlinarith
  have r := pf.mul ht (by rw [eW3]; exact ⟨hq1, hq.trans (by norm_num)⟩) (by norm_num) (by norm_num) (by norm_num) (by norm_num)
  rw [eW3] at r
  have := r.mono_c (d := 40) (by positivity) (by norm_num)
  push_cast at this
  exact this

open Spec
variable {L : Libm}

/-- The number of samples of a chirp: exact when the rates divide. -/
theorem chirp_count {fs sym : ℕ} (hfs0 : 0 < fs) (hsym : 0 < sym) (hdvd : sym ∣ fs) (hfs : fs ≤ 2 ^ 30) :
    (Flt.toNat (F64.ofNat fs / F64.ofNat sym) : ℕ) = fs / sym := by
  have hle := Nat.le_of_dvd hfs0 hdvd
  have h1 := ofNat_exact (n := fs) (by omega)
  have h2 := ofNat_exact (n := sym) (by omega)
  have hs : (sym : ℝ) ≠ 0 := by exact_mod_cast hsym.ne'
  have hq : fs / sym ≤ 2 ^ 30 := (Nat.div_le_self _ _).trans hfs
  have e : val (F64.ofNat fs) / val (F64.ofNat sym) = ((fs / sym : ℕ) : ℝ) := by
    rw [h1.2, h2.2, Nat.cast_div hdvd hs]
  have hF := rnd_of_isF (isF_nat (n := fs / sym) (by omega))
  have hd := div_val h1.1 h2.1 (by rw [h2.2]; exact hs) (by
    rw [e]
    refine rnd_lt_huge (le_big (k := 30) (by norm_num) ?_)
    rw [abs_of_nonneg (by positivity)]
    exact_mod_cast hq)
  rw [e, hF] at hd
  show (F64.ofNat fs / F64.ofNat sym).toUInt64.toNat = _
  rw [toNat_val hd.1, hd.2, Nat.floor_natCast]
  omega

/-- One chirp sample, with the edges of the sweep known to `δ`. -/
theorem chirp_sample {ε : ℝ} (hL : Accurate L ε (2 ^ 40)) {sym n i : ℕ} {f0 f1 : Float} {W a b δ : ℝ} (hs : 0 < sym)
    (hs' : sym ≤ 2 ^ 30) (hn : n ≤ 2 ^ 30) (hi : i < n) (hW : 1 ≤ W) (hW' : W ≤ 2 ^ 30) (h0 : F64.Fin f0 ∧ |val f0| ≤ W)
    (h1 : F64.Fin f1 ∧ |val f1| ≤ W) (ha : |val f0 - a| ≤ δ) (hb : |val f1 - b| ≤ δ) :
    Ap (L.cos (F64.ofNat 2 * Flt.pi * (f0 + (f1 - f0) / (1 / F64.ofNat sym) * (0 + (1 / F64.ofNat sym - 0) / F64.ofNat n * F64.ofNat i)
        / F64.ofNat 2) * (0 + (1 / F64.ofNat sym - 0) / F64.ofNat n * F64.ofNat i)))
      (chirpSample a b (1 / sym) (i / (sym * n))) (ε + (640 * (W / sym) / 2 ^ 52 + 8 * δ / sym)) := by
  have s0 : (1 : ℝ) ≤ sym := by exact_mod_cast hs
  have n0 : (0 : ℝ) < n := by exact_mod_cast (by omega : 0 < n)
  have hin : (i : ℝ) ≤ n := by exact_mod_cast hi.le
  have hδ : 0 ≤ δ := (abs_nonneg _).trans ha
  have h := sc_chirp hs hs' hn hi hW hW' h0 h1
  have hWs : W / sym ≤ 2 ^ 30 := (div_le_self (by linarith) s0).trans hW'
  have e1 : (40 : ℝ) * (16 * W / sym / 2 ^ 52) = 640 * (W / sym) / 2 ^ 52 := by ring
  have e2 : 16 * W / sym = 16 * (W / sym) := by ring
  obtain ⟨g1, g2, g3⟩ := h
  rw [e1] at g3
  rw [e2] at g2
  have hsmall : 640 * (W / sym) / 2 ^ 52 ≤ 1 := by
    rw [div_le_one (by positivity)]
    norm_num at hWs ⊢
    linarith
  obtain ⟨c1, -⟩ := hL _ g1 (by
    have := abs_sub_abs_le_abs_sub (val (F64.ofNat 2 * Flt.pi * (f0 + (f1 - f0) / (1 / F64.ofNat sym) * (0 + (1 / F64.ofNat sym - 0) / F64.ofNat n * F64.ofNat i)
        / F64.ofNat 2) * (0 + (1 / F64.ofNat sym - 0) / F64.ofNat n * F64.ofNat i)))
      (2 * Real.pi * (val f0 + (val f1 - val f0) / (1 / sym) * (i / (sym * n)) / 2) * (i / (sym * n)))
    have h40 : (2 : ℝ) ^ 40 = 2 ^ 30 * 2 ^ 10 := by norm_num
    have h30 : (1 : ℝ) ≤ 2 ^ 30 := by norm_num
    rw [h40]
    linarith)
  refine ⟨c1.1, ?_⟩
  set p := F64.ofNat 2 * Flt.pi * (f0 + (f1 - f0) / (1 / F64.ofNat sym) * (0 + (1 / F64.ofNat sym - 0) / F64.ofNat n * F64.ofNat i)
        / F64.ofNat 2) * (0 + (1 / F64.ofNat sym - 0) / F64.ofNat n * F64.ofNat i)
  have k := c1.2
  unfold chirpSample
  set t : ℝ := (i : ℝ) / (sym * n) with ht
  have t0 : 0 ≤ t := by positivity
  have t1 : t ≤ 1 / sym := by
    rw [ht, div_le_div_iff₀ (by positivity) (by linarith)]
    nlinarith
  have hst : (sym : ℝ) * t ≤ 1 := by
    have := mul_le_mul_of_nonneg_left t1 (by linarith : (0 : ℝ) ≤ sym)
    rwa [mul_one_div_cancel (by linarith)] at this
  set c : ℝ := sym * t ^ 2 / 2 with hc
  have c0 : 0 ≤ c := by positivity
  have c1' : c ≤ t := by
    have : sym * t * t ≤ 1 * t := mul_le_mul_of_nonneg_right hst t0
    rw [hc]; nlinarith
  have eq1 : 2 * Real.pi * (val f0 + (val f1 - val f0) / (1 / sym) * t / 2) * t
      = 2 * Real.pi * (val f0 * (t - c) + val f1 * c) := by
    rw [hc, div_div_eq_mul_div, div_one]; ring
  have eq2 : 2 * Real.pi * (a * t + (b - a) / (1 / sym) * (t ^ 2 / 2)) = 2 * Real.pi * (a * (t - c) + b * c) := by
    rw [hc, div_div_eq_mul_div, div_one]; ring
  have hd : |2 * Real.pi * (val f0 * (t - c) + val f1 * c) - 2 * Real.pi * (a * (t - c) + b * c)| ≤ 8 * δ / sym := by
    have e : 2 * Real.pi * (val f0 * (t - c) + val f1 * c) - 2 * Real.pi * (a * (t - c) + b * c)
        = 2 * Real.pi * ((val f0 - a) * (t - c) + (val f1 - b) * c) := by ring
    rw [e, abs_mul, abs_of_pos (by positivity : 0 < 2 * Real.pi)]
    have i1 : |(val f0 - a) * (t - c) + (val f1 - b) * c| ≤ δ * t := by
      refine (abs_add_le _ _).trans ?_
      rw [abs_mul, abs_mul, abs_of_nonneg c0, abs_of_nonneg (by linarith : 0 ≤ t - c)]
      have := mul_le_mul_of_nonneg_right ha (by linarith : 0 ≤ t - c)
      have := mul_le_mul_of_nonneg_right hb c0
      nlinarith
    have i2 : δ * t ≤ δ * (1 / sym) := mul_le_mul_of_nonneg_left t1 hδ
    calc 2 * Real.pi * |(val f0 - a) * (t - c) + (val f1 - b) * c| ≤ 8 * (δ * (1 / sym)) :=
          mul_le_mul (by linarith [Real.pi_le_four]) (i1.trans i2) (abs_nonneg _) (by norm_num)
      _ = 8 * δ / sym := by ring
  rw [eq1] at g3
  rw [eq2]
  have k2 := abs_cos_sub_cos_le (val p) (2 * Real.pi * (a * (t - c) + b * c))
  have k3 := abs_sub_le (val p) (2 * Real.pi * (val f0 * (t - c) + val f1 * c)) (2 * Real.pi * (a * (t - c) + b * c))
  have k4 := abs_sub_le (val (L.cos p)) (Real.cos (val p)) (Real.cos (2 * Real.pi * (a * (t - c) + b * c)))
  linarith

/-- Edges of the band around a hop, in doubles: within `6·fs/2⁵²`, and not above `fs`. -/
theorem edge_ieee {fs n : ℕ} {low high x : Float} (hfs0 : 0 < fs) (hfs : fs ≤ 2 ^ 30) (hn : 2 ≤ n) (hn' : n ≤ 2 ^ 50)
    (fl : F64.Fin low) (fh : F64.Fin high) (h1 : 0 ≤ val low) (h2 : val low ≤ val high) (hhigh : val high ≤ fs / 2)
    (fx : F64.Fin x) (x1 : val low ≤ val x) (x2 : val x ≤ val high) :
    (F64.Fin (x - (high - low) / F64.ofNat n / F64.ofNat 2) ∧ |val (x - (high - low) / F64.ofNat n / F64.ofNat 2)| ≤ fs ∧
      |val (x - (high - low) / F64.ofNat n / F64.ofNat 2) - (val x - (val high - val low) / n / 2)| ≤ 6 * fs / 2 ^ 52) ∧
    (F64.Fin (x + (high - low) / F64.ofNat n / F64.ofNat 2) ∧ |val (x + (high - low) / F64.ofNat n / F64.ofNat 2)| ≤ fs ∧
      |val (x + (high - low) / F64.ofNat n / F64.ofNat 2) - (val x + (val high - val low) / n / 2)| ≤ 6 * fs / 2 ^ 52) := by
  have g0 : (1 : ℝ) ≤ fs := by exact_mod_cast hfs0
  have g1 : (fs : ℝ) ≤ 2 ^ 30 := by exact_mod_cast hfs
  have n0 : (2 : ℝ) ≤ n := by exact_mod_cast hn
  have n1 : (n : ℝ) ≤ 2 ^ 50 := by exact_mod_cast hn'
  have q1 : (fs : ℝ) / n ≤ fs / 2 := div_le_div_of_nonneg_left (by linarith) (by norm_num) n0
  have q0 : 1 / 2 ^ 50 ≤ (fs : ℝ) / n := div_le_div₀ (by linarith) g0 (by linarith) n1
  have c100 : (2 : ℝ) ^ 30 ≤ 2 ^ 100 := by norm_num
  have c100' : (1 : ℝ) / 2 ^ 100 ≤ 1 / 2 ^ 50 / 2 := by norm_num
  have c50 : (1 : ℝ) / 2 ^ 50 ≤ 1 / 2 := by norm_num
  have sh : Sc high (val high) (fs / 2) 0 := Sc.exact fh rfl (by rw [abs_of_nonneg (by linarith)]; exact hhigh)
  have sl : Sc low (val low) (fs / 2) 0 := Sc.exact fl rfl (by rw [abs_of_nonneg h1]; linarith)
  have sx : Sc x (val x) (fs / 2) 0 := Sc.exact fx rfl (by rw [abs_of_nonneg (by linarith)]; linarith)
  have d1 := Sc.sub sh sl ⟨by linarith, by linarith⟩ (by norm_num)
  rw [add_halves] at d1
  have d2 := Sc.div d1 (by linarith : (0 : ℝ) < n) (sc_nat (by omega) le_rfl) ⟨by linarith, by linarith⟩ (by norm_num) le_rfl
    (by norm_num) (by norm_num)
  have d3 := Sc.div d2 (by norm_num : (0 : ℝ) < (2 : ℕ)) (sc_nat (n := 2) (by norm_num) le_rfl)
    ⟨by push_cast; linarith, by push_cast; linarith⟩ (by norm_num) le_rfl (by norm_num) (by norm_num)
  push_cast at d3
  have d4 : Sc ((high - low) / F64.ofNat n / F64.ofNat 2) ((val high - val low) / n / 2) (fs / n / 2) 5 :=
    d3.mono_c (by linarith) (by norm_num)
  have sx' := sx.mono_c (d := 5) (by linarith) (by norm_num)
  have key : ∀ {y : Float} {r : ℝ}, Sc y r (fs / 2 + fs / n / 2) (5 + 1) →
      F64.Fin y ∧ |val y| ≤ fs ∧ |val y - r| ≤ 6 * fs / 2 ^ 52 := by
    rintro y r ⟨k1, k2, k3⟩
    have k4 : (5 + 1 : ℝ) * ((fs / 2 + fs / n / 2) / 2 ^ 52) ≤ 6 * (3 / 4 * fs) / 2 ^ 52 := by
      rw [← mul_div_assoc]
      refine div_le_div_of_nonneg_right ?_ (by positivity)
      linarith
    have k5 : 6 * (3 / 4 * (fs : ℝ)) / 2 ^ 52 ≤ 6 * fs / 2 ^ 52 := div_le_div_of_nonneg_right (by linarith) (by positivity)
    have k6 : 6 * (3 / 4 * (fs : ℝ)) / 2 ^ 52 ≤ fs / 4 := by
      rw [div_le_iff₀ (by positivity)]; norm_num; linarith
    have k7 := abs_sub_abs_le_abs_sub (val y) r
    exact ⟨k1, by linarith, by linarith⟩
  exact ⟨key (Sc.sub sx' d4 ⟨by linarith, by linarith⟩ (by norm_num)), key (Sc.add sx' d4 ⟨by linarith, by linarith⟩ (by norm_num))⟩

end Verif
