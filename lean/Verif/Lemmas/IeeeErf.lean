import Verif.Lemmas.Nan
import Verif.F64.Maps
import Verif.Props.Helpers

/-! `erf` in double precision: the steps of src/lib.rs:161-181 with their rounding errors. -/
namespace Verif
open Float.Model Float.Model.UnpackedFloat F64

namespace F64

theorem slack {R e δ : ℝ} (h1 : R * uu ≤ δ / 2) (h2 : 1 / 2 ^ 100 ≤ δ / 2) : e + R * uu + tiny ≤ e + δ := by
  have := tiny_le (k := 100) (by norm_num)
  linarith

theorem le_top {x : ℝ} (h : x ≤ 2 ^ 20) : x ≤ 2 ^ (1023 : ℤ) := le_big (k := 20) (by norm_num) h

/-- A sum below 2048. -/
theorem Ap.add11 {a b : Float} {r s ε δ : ℝ} (ha : Ap a r ε) (hb : Ap b s δ) (hR : |r + s| ≤ 2000) (h : ε + δ ≤ 1) :
    Ap (a + b) (r + s) (ε + δ + 1 / 2 ^ 41) :=
  (ha.add hb hR (le_top (by norm_num; linarith))).mono (slack (by rw [uu_eq]; norm_num at h ⊢; linarith) (by norm_num))

theorem Ap.sub11 {a b : Float} {r s ε δ : ℝ} (ha : Ap a r ε) (hb : Ap b s δ) (hR : |r - s| ≤ 2000) (h : ε + δ ≤ 1) :
    Ap (a - b) (r - s) (ε + δ + 1 / 2 ^ 41) :=
  (ha.sub hb hR (le_top (by norm_num; linarith))).mono (slack (by rw [uu_eq]; norm_num at h ⊢; linarith) (by norm_num))

/-- Powers of a number in the unit interval. -/
theorem Ap.powi {t : Float} {r e : ℝ} (ht : Ap t r e) (h0 : 0 ≤ r) (h1 : r ≤ 1) (he : e ≤ 1 / 2 ^ 42) :
    ∀ k : ℕ, k ≤ 9 → Ap (powi t (k + 1)) (r ^ (k + 1)) (((k : ℝ) + 1) * (1 / 2 ^ 41))
  | 0, _ => by
    show Ap t _ _
    rw [pow_one]
    exact ht.mono (by norm_num at he ⊢; linarith)
  | k + 1, hk => by
    have ih := Ap.powi ht h0 h1 he k (by omega)
    have hk' : (k : ℝ) + 1 ≤ 9 := by exact_mod_cast (by omega : k + 1 ≤ 9)
    have hk0 : (0 : ℝ) ≤ k := Nat.cast_nonneg k
    show Ap (Verif.powi t (k + 1) * t) _ _
    rw [pow_succ]
    have e0 := ht.nonneg
    have key := ih.mul (R := 1) (S := 1) ht (by rw [abs_of_nonneg (by positivity)]; exact pow_le_one₀ h0 h1)
      (by rw [abs_of_nonneg h0]; exact h1) (le_top (by norm_num at he ⊢; nlinarith))
    refine key.mono ?_
    have h3 : ((k : ℝ) + 1) * (1 / 2 ^ 41) * e ≤ 9 * (1 / 2 ^ 41) * (1 / 2 ^ 42) :=
      mul_le_mul (mul_le_mul_of_nonneg_right hk' (by norm_num)) he e0 (by norm_num)
    refine (slack (δ := 1 / 2 ^ 50) (by rw [uu_eq]; norm_num at he h3 ⊢; linarith) (by norm_num)).trans ?_
    push_cast
    norm_num at he h3 ⊢
    linarith

/-- One term of the polynomial. -/
theorem Ap.term {t : Float} {r e : ℝ} (ht : Ap t r e) (h0 : 0 ≤ r) (h1 : r ≤ 1) (he : e ≤ 1 / 2 ^ 42) {m : ℕ} (hm : 0 < m)
    (hm2 : m ≤ 15 * 10 ^ 7) {k : ℕ} (hk : k ≤ 9) :
    Ap (F64.lit m 8 * Verif.powi t (k + 1)) (m / 10 ^ 8 * r ^ (k + 1)) (1 / 2 ^ 36) := by
  have hm3 : (m : ℝ) ≤ 15 * 10 ^ 7 := by exact_mod_cast hm2
  have hl := ap_lit (m := m) (e := 8) hm (by norm_num) (by omega) (by norm_num) (by rw [div_le_iff₀ (by positivity)]; linarith)
  have hp := ht.powi h0 h1 he k hk
  have hk' : (k : ℝ) + 1 ≤ 10 := by exact_mod_cast (by omega : k + 1 ≤ 10)
  have hk0 : (0 : ℝ) ≤ k := Nat.cast_nonneg k
  have key := hl.mul (R := 2) (S := 1) hp (by rw [abs_of_nonneg (by positivity), div_le_iff₀ (by positivity)]; linarith)
    (by rw [abs_of_nonneg (by positivity)]; exact pow_le_one₀ h0 h1) (le_top (by norm_num; nlinarith))
  refine key.mono ((slack (δ := 1 / 2 ^ 50) (by rw [uu_eq]; norm_num; linarith) (by norm_num)).trans ?_)
  norm_num
  linarith

/-- The reciprocal of a number that is at least 1. -/
theorem Ap.recip {d : Float} {r e : ℝ} (hd : Ap d r e) (hr : 1 ≤ r) (he : e ≤ 1 / 2 ^ 44) : Ap (1 / d) (1 / r) (1 / 2 ^ 42) := by
  have h1 := _root_.abs_le.mp hd.2
  have hv : 1 / 2 ≤ val d := by norm_num at he; linarith
  have hg := div_good fin_one hd.1 (by linarith : val d ≠ 0)
  rw [val_one] at hg
  have hy : |1 / val d - 1 / r| ≤ 2 * e := by
    have hp : 1 / 2 ≤ val d * r := by nlinarith
    rw [div_sub_div _ _ (by linarith) (by linarith), abs_div, div_le_iff₀ (by rw [abs_of_pos (by linarith)]; linarith),
      abs_of_pos (by linarith : 0 < val d * r), show 1 * r - val d * 1 = -(val d - r) by ring, abs_neg]
    have e0 := hd.nonneg
    nlinarith [hd.2]
  have := Ap.of_good hg hy (R := 1) (by rw [abs_of_pos (by positivity), div_le_one (by linarith)]; exact hr)
    (le_top (by norm_num at he ⊢; linarith))
  exact this.mono ((slack (δ := 1 / 2 ^ 50) (by rw [uu_eq]; norm_num at he ⊢; linarith) (by norm_num)).trans
    (by norm_num at he ⊢; linarith))

end F64

/-- `t` of src/lib.rs:162. -/
def erfT (x : Float) : Float := 1 / (1 + F64.lit 5 1 * x.abs)

/-- The argument of the exponential, src/lib.rs:164-173. -/
def erfArg (x t : Float) : Float :=
  -(x * x) - F64.lit 126551223 8 + F64.lit 100002368 8 * t + F64.lit 37409196 8 * powi t 2 + F64.lit 9678418 8 * powi t 3
    - F64.lit 18628806 8 * powi t 4 + F64.lit 27886807 8 * powi t 5 - F64.lit 113520398 8 * powi t 6
    + F64.lit 148851587 8 * powi t 7 - F64.lit 82215223 8 * powi t 8 + F64.lit 17087277 8 * powi t 9

theorem erf_float (L : Libm) (x : FloatL L) : erf x =
    (if Float.le 0 x then (1 : Float) - erfT x * L.exp (erfArg x (erfT x)) else erfT x * L.exp (erfArg x (erfT x)) - 1 : Float) := rfl

/-- The exact argument. -/
noncomputable def argR (x t : ℝ) : ℝ :=
  -(x * x) - (126551223 : ℕ) / 10 ^ 8 + (100002368 : ℕ) / 10 ^ 8 * t ^ (0 + 1) + (37409196 : ℕ) / 10 ^ 8 * t ^ (1 + 1)
    + (9678418 : ℕ) / 10 ^ 8 * t ^ (2 + 1) - (18628806 : ℕ) / 10 ^ 8 * t ^ (3 + 1) + (27886807 : ℕ) / 10 ^ 8 * t ^ (4 + 1)
    - (113520398 : ℕ) / 10 ^ 8 * t ^ (5 + 1) + (148851587 : ℕ) / 10 ^ 8 * t ^ (6 + 1) - (82215223 : ℕ) / 10 ^ 8 * t ^ (7 + 1)
    + (17087277 : ℕ) / 10 ^ 8 * t ^ (8 + 1)

theorem erfTau_arg (x : ℝ) : Props.erfTau x = 1 / (1 + x / 2) * Real.exp (argR x (1 / (1 + x / 2))) := by
  unfold Props.erfTau argR
  dsimp only
  congr 2
  norm_num
  ring

/-- The argument for `|x| ≤ 32`. -/
theorem arg_near {x t : Float} {r : ℝ} (hx : F64.Fin x) (h32 : |val x| ≤ 32) (ht : Ap t r (1 / 2 ^ 42)) (h0 : 0 ≤ r) (h1 : r ≤ 1) :
    Ap (erfArg x t) (argR (val x) r) (1 / 2 ^ 32) := by
  have hq : |val x * val x| ≤ 1024 := by
    rw [abs_mul]
    calc |val x| * |val x| ≤ 32 * 32 := mul_le_mul h32 h32 (abs_nonneg _) (by norm_num)
      _ = 1024 := by norm_num
  have s0 : Ap (x * x) (val x * val x) (1 / 2 ^ 41) := by
    have := (Ap.exact hx).mul (Ap.exact hx) h32 h32 (le_top (by norm_num))
    exact this.mono ((slack (δ := 1 / 2 ^ 42) (by rw [uu_eq]; norm_num) (by norm_num)).trans (by norm_num))
  have l0 := ap_lit (m := 126551223) (e := 8) (by norm_num) (by norm_num) (by norm_num) (by norm_num) (by norm_num)
  have tm := fun (m : ℕ) (hm : 0 < m) (hm2 : m ≤ 15 * 10 ^ 7) (k : ℕ) (hk : k ≤ 9) => ht.term h0 h1 le_rfl hm hm2 hk
  have bd : ∀ (m k : ℕ), m ≤ 15 * 10 ^ 7 → 0 ≤ (m : ℝ) / 10 ^ 8 * r ^ (k + 1) ∧ (m : ℝ) / 10 ^ 8 * r ^ (k + 1) ≤ 2 := by
    intro m k hm
    have hm3 : (m : ℝ) ≤ 15 * 10 ^ 7 := by exact_mod_cast hm
    have : r ^ (k + 1) ≤ 1 := pow_le_one₀ h0 h1
    refine ⟨by positivity, ?_⟩
    calc (m : ℝ) / 10 ^ 8 * r ^ (k + 1) ≤ 2 * 1 := mul_le_mul (by rw [div_le_iff₀ (by positivity)]; linarith) this (by positivity) (by norm_num)
      _ = 2 := by norm_num
  have hqq := abs_le.mp hq
  obtain ⟨b1, c1⟩ := bd 100002368 0 (by norm_num)
  obtain ⟨b2, c2⟩ := bd 37409196 1 (by norm_num)
  obtain ⟨b3, c3⟩ := bd 9678418 2 (by norm_num)
  obtain ⟨b4, c4⟩ := bd 18628806 3 (by norm_num)
  obtain ⟨b5, c5⟩ := bd 27886807 4 (by norm_num)
  obtain ⟨b6, c6⟩ := bd 113520398 5 (by norm_num)
  obtain ⟨b7, c7⟩ := bd 148851587 6 (by norm_num)
  obtain ⟨b8, c8⟩ := bd 82215223 7 (by norm_num)
  obtain ⟨b9, c9⟩ := bd 17087277 8 (by norm_num)
  have b0 : (0 : ℝ) ≤ (126551223 : ℕ) / 10 ^ 8 := by positivity
  have c0 : ((126551223 : ℕ) : ℝ) / 10 ^ 8 ≤ 2 := by norm_num
  have t1 := tm 100002368 (by norm_num) (by norm_num) 0 (by norm_num)
  have t2 := tm 37409196 (by norm_num) (by norm_num) 1 (by norm_num)
  have t3 := tm 9678418 (by norm_num) (by norm_num) 2 (by norm_num)
  have t4 := tm 18628806 (by norm_num) (by norm_num) 3 (by norm_num)
  have t5 := tm 27886807 (by norm_num) (by norm_num) 4 (by norm_num)
  have t6 := tm 113520398 (by norm_num) (by norm_num) 5 (by norm_num)
  have t7 := tm 148851587 (by norm_num) (by norm_num) 6 (by norm_num)
  have t8 := tm 82215223 (by norm_num) (by norm_num) 7 (by norm_num)
  have t9 := tm 17087277 (by norm_num) (by norm_num) 8 (by norm_num)
  unfold erfArg argR
  generalize ((126551223 : ℕ) : ℝ) / 10 ^ 8 = v0 at *
  generalize ((100002368 : ℕ) : ℝ) / 10 ^ 8 * r ^ (0 + 1) = v1 at *
  generalize ((37409196 : ℕ) : ℝ) / 10 ^ 8 * r ^ (1 + 1) = v2 at *
  generalize ((9678418 : ℕ) : ℝ) / 10 ^ 8 * r ^ (2 + 1) = v3 at *
  generalize ((18628806 : ℕ) : ℝ) / 10 ^ 8 * r ^ (3 + 1) = v4 at *
  generalize ((27886807 : ℕ) : ℝ) / 10 ^ 8 * r ^ (4 + 1) = v5 at *
  generalize ((113520398 : ℕ) : ℝ) / 10 ^ 8 * r ^ (5 + 1) = v6 at *
  generalize ((148851587 : ℕ) : ℝ) / 10 ^ 8 * r ^ (6 + 1) = v7 at *
  generalize ((82215223 : ℕ) : ℝ) / 10 ^ 8 * r ^ (7 + 1) = v8 at *
  generalize ((17087277 : ℕ) : ℝ) / 10 ^ 8 * r ^ (8 + 1) = v9 at *
  have r0 := s0.neg.sub11 l0 (abs_le.mpr ⟨by linarith [hqq.1, hqq.2], by linarith [hqq.1, hqq.2]⟩) (by norm_num)
  have r1 := r0.add11 t1 (abs_le.mpr ⟨by linarith [hqq.1, hqq.2], by linarith [hqq.1, hqq.2]⟩) (by norm_num)
  have r2 := r1.add11 t2 (abs_le.mpr ⟨by linarith [hqq.1, hqq.2], by linarith [hqq.1, hqq.2]⟩) (by norm_num)
  have r3 := r2.add11 t3 (abs_le.mpr ⟨by linarith [hqq.1, hqq.2], by linarith [hqq.1, hqq.2]⟩) (by norm_num)
  have r4 := r3.sub11 t4 (abs_le.mpr ⟨by linarith [hqq.1, hqq.2], by linarith [hqq.1, hqq.2]⟩) (by norm_num)
  have r5 := r4.add11 t5 (abs_le.mpr ⟨by linarith [hqq.1, hqq.2], by linarith [hqq.1, hqq.2]⟩) (by norm_num)
  have r6 := r5.sub11 t6 (abs_le.mpr ⟨by linarith [hqq.1, hqq.2], by linarith [hqq.1, hqq.2]⟩) (by norm_num)
  have r7 := r6.add11 t7 (abs_le.mpr ⟨by linarith [hqq.1, hqq.2], by linarith [hqq.1, hqq.2]⟩) (by norm_num)
  have r8 := r7.sub11 t8 (abs_le.mpr ⟨by linarith [hqq.1, hqq.2], by linarith [hqq.1, hqq.2]⟩) (by norm_num)
  have r9 := r8.add11 t9 (abs_le.mpr ⟨by linarith [hqq.1, hqq.2], by linarith [hqq.1, hqq.2]⟩) (by norm_num)
  exact r9.mono (by norm_num)

theorem arg_le {x r : ℝ} (h0 : 0 ≤ r) (h1 : r ≤ 1) : argR x r ≤ 3 := by
  have q : ∀ n : ℕ, 0 ≤ r ^ n ∧ r ^ n ≤ 1 := fun n => ⟨pow_nonneg h0 n, pow_le_one₀ h0 h1⟩
  unfold argR
  have := mul_self_nonneg x
  norm_num
  linarith [q 1, q 2, q 3, q 4, q 5, q 6, q 7, q 8, q 9, (q 2).1, (q 3).1, (q 4).1, (q 5).1, (q 6).1, (q 7).1, (q 8).1, (q 9).1,
    (q 2).2, (q 3).2, (q 4).2, (q 5).2, (q 6).2, (q 7).2, (q 8).2, (q 9).2]

theorem exp_three : Real.exp 3 ≤ 21 := by
  have h := Real.exp_one_lt_d9
  have h0 := Real.exp_pos 1
  rw [show (3 : ℝ) = 1 + 1 + 1 by norm_num, Real.exp_add, Real.exp_add]
  have : Real.exp 1 * Real.exp 1 ≤ 2.75 * 2.75 := mul_le_mul (by linarith) (by linarith) h0.le (by norm_num)
  calc _ ≤ 2.75 * 2.75 * 2.75 := mul_le_mul this (by linarith) h0.le (by norm_num)
    _ ≤ 21 := by norm_num

theorem exp_close {a b : ℝ} (h : |b - a| ≤ 1 / 2 ^ 32) (ha : a ≤ 3) : |Real.exp b - Real.exp a| ≤ 42 / 2 ^ 32 := by
  have h1 : Real.exp b - Real.exp a = Real.exp a * (Real.exp (b - a) - 1) := by
    rw [mul_sub, ← Real.exp_add]; ring_nf
  have h2 := Real.abs_exp_sub_one_le (x := b - a) (h.trans (by norm_num))
  have h3 : Real.exp a ≤ 21 := (Real.exp_le_exp.mpr ha).trans exp_three
  rw [h1, abs_mul, abs_of_pos (Real.exp_pos a)]
  calc _ ≤ 21 * (2 * (1 / 2 ^ 32)) := mul_le_mul h3 (h2.trans (by linarith)) (abs_nonneg _) (by norm_num)
    _ = 42 / 2 ^ 32 := by norm_num

/-- The exponential of the library is accurate to `ε` up to 4, and at `-∞`. -/
def AccurateExp (L : Libm) (ε : ℝ) : Prop :=
  (∀ a, F64.Fin a → val a ≤ 4 → Ap (L.exp a) (Real.exp (val a)) ε) ∧ ∀ a, up a = .infinity .negative → Ap (L.exp a) 0 ε

theorem t_near {x : Float} (hx : F64.Fin x) (h32 : |val x| ≤ 32) : Ap (erfT x) (1 / (1 + |val x| / 2)) (1 / 2 ^ 42) := by
  have hl := ap_lit (m := 5) (e := 1) (by norm_num) (by norm_num) (by norm_num) (by norm_num) (by norm_num)
  have ha : Ap x.abs |val x| 0 := ⟨abs_fin.mpr hx, by rw [abs_val]; simp⟩
  have h1 := hl.mul (R := 1) (S := 32) ha (by norm_num) (by rwa [abs_abs]) (le_top (by norm_num))
  have h2 : Ap (F64.lit 5 1 * x.abs) (|val x| / 2) (1 / 2 ^ 45 + 1 / 2 ^ 46) := by
    have e : |val x| / 2 = ((5 : ℕ) : ℝ) / 10 ^ 1 * |val x| := by norm_num; ring
    rw [e]
    exact h1.mono ((slack (δ := 1 / 2 ^ 46) (by rw [uu_eq]; norm_num) (by norm_num)).trans (by norm_num))
  have h3 : Ap (1 : Float) 1 0 := ⟨fin_one, by rw [val_one]; simp⟩
  have h0 := abs_nonneg (val x)
  have h4 := h3.add h2 (R := 17) (by rw [abs_of_pos (by positivity)]; linarith) (le_top (by norm_num))
  refine F64.Ap.recip (h4.mono (slack (δ := 1 / 2 ^ 47) (by rw [uu_eq]; norm_num) (by norm_num))) (by linarith) (by norm_num)

/-- The correction term for `|x| ≤ 32`. -/
theorem tau_near {L : Libm} {ε : ℝ} (hL : AccurateExp L ε) (hε : ε ≤ 1 / 2 ^ 20) {x : Float} (hx : F64.Fin x) (h32 : |val x| ≤ 32) :
    Ap (erfT x * L.exp (erfArg x (erfT x))) (Props.erfTau |val x|) (ε + 1.1e-8) := by
  have h0 := abs_nonneg (val x)
  have ht := t_near hx h32
  set r := 1 / (1 + |val x| / 2) with hr
  have r0 : 0 ≤ r := by positivity
  have r1 : r ≤ 1 := by rw [hr, div_le_one (by positivity)]; linarith
  have ha := arg_near hx h32 ht r0 r1
  have hle := arg_le (x := val x) r0 r1
  have h4 := _root_.abs_le.mp ha.2
  have he := hL.1 _ ha.1 (by norm_num at h4; linarith [h4.2])
  have hc := exp_close ha.2 hle
  have he' : Ap (L.exp (erfArg x (erfT x))) (Real.exp (argR (val x) r)) (ε + 42 / 2 ^ 32) := by
    refine ⟨he.1, ?_⟩
    exact (abs_sub_le _ _ _).trans (add_le_add he.2 hc)
  have e0 := he.nonneg
  have key := ht.mul he' (R := 1) (S := 21) (by rw [abs_of_nonneg r0]; exact r1)
    (by rw [abs_of_pos (Real.exp_pos _)]; exact (Real.exp_le_exp.mpr hle).trans exp_three) (le_top (by norm_num at hε ⊢; linarith))
  have harg : argR |val x| r = argR (val x) r := by unfold argR; rw [abs_mul_abs_self]
  rw [erfTau_arg, ← hr, harg]
  refine key.mono ((slack (δ := 1 / 2 ^ 40) (by rw [uu_eq]; norm_num at hε ⊢; linarith) (by norm_num)).trans ?_)
  norm_num at hε ⊢
  linarith

/-! ## Large arguments -/

theorem eq_inf {x : Float} (h : up x = .infinity .positive) : x = F64.inf := by
  rw [← mk_up x, ← mk_up F64.inf, h, up_inf]

theorem eq_negInf {x : Float} (h : up x = .infinity .negative) : x = F64.negInf := by
  rw [← mk_up x, ← mk_up F64.negInf, h, up_negInf]

/-- Infinite, or at least 32 in magnitude. -/
def Large (x : Float) : Prop := (∃ s, up x = .infinity s) ∨ F64.Fin x ∧ 32 ≤ |val x|

theorem GE.neg {a : Float} {c : ℝ} (h : F64.GE c a) : F64.LE (-c) (-a) := by
  rcases h with h | ⟨h1, h2⟩
  · left; rw [up_neg, h]; rfl
  · right; exact ⟨neg_fin.mpr h1, by rw [neg_val]; linarith⟩

theorem LE.sub {a b : Float} {c e : ℝ} (ha : F64.LE c a) (hb : F64.Fin b) (he : IsF e) (h0 : e ≤ 0) (h : c - val b ≤ e) :
    F64.LE e (a - b) := by
  rcases ha with ha | ⟨fa, va⟩
  · left
    rw [sub_eq, ha]
    have hb' := hb
    rw [fin_iff] at hb'
    cases hu : up b with
    | notANumber => rw [hu] at hb'; cases hb'
    | infinity s => rw [hu] at hb'; cases hb'
    | zero s => exact unpack_pack_infinity .negative
    | finite s m e hm => exact unpack_pack_infinity .negative
  · exact F64.LE.of_good (sub_good fa hb) he h0 (by linarith)

theorem LE.add' {a b : Float} {c e : ℝ} (ha : F64.LE c a) (hb : F64.Fin b) (he : IsF e) (h0 : e ≤ 0) (h : c + val b ≤ e) :
    F64.LE e (a + b) := F64.LE.add ha (.inr ⟨hb, le_rfl⟩) he h0 h

theorem large_sq {x : Float} (h : Large x) : F64.GE 1024 (x * x) := by
  rcases h with ⟨s, h⟩ | ⟨h1, h2⟩
  · left
    cases s
    · rw [eq_negInf h, show F64.negInf * F64.negInf = F64.inf by decide +kernel]; exact up_inf
    · rw [eq_inf h, show F64.inf * F64.inf = F64.inf by decide +kernel]; exact up_inf
  · refine F64.GE.mul h1 h1 (by simpa using isF_nat (n := 1024) (by norm_num)) (by norm_num) ?_
    rw [← abs_mul_abs_self]
    calc (1024 : ℝ) = 32 * 32 := by norm_num
      _ ≤ _ := mul_le_mul h2 h2 (by norm_num) (abs_nonneg _)

/-- `t` of a large argument is a number of the unit interval. -/
theorem large_t {x : Float} (h : Large x) : F64.Fin (erfT x) ∧ 0 ≤ val (erfT x) ∧ val (erfT x) ≤ 1 := by
  have hl : F64.Fin (F64.lit 5 1) ∧ 0 ≤ val (F64.lit 5 1) := by
    obtain ⟨h1, h2⟩ := ap_lit (m := 5) (e := 1) (by norm_num) (by norm_num) (by norm_num) (by norm_num) (by norm_num)
    have := _root_.abs_le.mp h2
    norm_num at this
    exact ⟨h1, by linarith⟩
  have h1 : F64.GE 0 (F64.lit 5 1 * x.abs) := by
    rcases h with ⟨s, h⟩ | ⟨h1, h2⟩
    · left
      have : up x.abs = .infinity .positive := by rw [up_abs, h]; rfl
      rw [eq_inf this, show F64.lit 5 1 * F64.inf = F64.inf by decide +kernel]; exact up_inf
    · exact F64.GE.mul hl.1 (abs_fin.mpr h1) isF_zero le_rfl (by rw [abs_val]; exact mul_nonneg hl.2 (abs_nonneg _))
  have h2 : F64.GE 1 (1 + F64.lit 5 1 * x.abs) :=
    F64.GE.add (.inr ⟨fin_one, by rw [val_one]⟩) h1 isF_one (by norm_num) (by norm_num)
  unfold erfT
  rcases h2 with h2 | ⟨h2, h3⟩
  · rw [eq_inf h2, show (1 : Float) / F64.inf = 0 by decide +kernel]
    exact ⟨fin_zero, by rw [val_zero], by rw [val_zero]; norm_num⟩
  · have hp : 0 < val (1 + F64.lit 5 1 * x.abs) := by linarith
    have q0 : 0 ≤ 1 / val (1 + F64.lit 5 1 * x.abs) := by positivity
    have q1 : 1 / val (1 + F64.lit 5 1 * x.abs) ≤ 1 := by rw [div_le_one hp]; exact h3
    obtain ⟨g1, g2⟩ := div_val fin_one h2 hp.ne' (rnd_lt_huge (by rw [val_one, abs_of_nonneg q0]; exact le_top (q1.trans (by norm_num))))
    rw [val_one] at g2
    exact ⟨g1, by rw [g2]; exact rnd_nonneg q0, by rw [g2]; exact rnd_le_of_le isF_one q1⟩

theorem unit_mul {a b : Float} {A B : ℝ} (ha : F64.Fin a ∧ 0 ≤ val a ∧ val a ≤ A) (hb : F64.Fin b ∧ 0 ≤ val b ∧ val b ≤ B)
    (hAB : IsF (A * B)) (h : A * B ≤ 2 ^ 20) : F64.Fin (a * b) ∧ 0 ≤ val (a * b) ∧ val (a * b) ≤ A * B := by
  have q0 := mul_nonneg ha.2.1 hb.2.1
  have q1 : val a * val b ≤ A * B := mul_le_mul ha.2.2 hb.2.2 hb.2.1 (ha.2.1.trans ha.2.2)
  obtain ⟨g1, g2⟩ := mul_val ha.1 hb.1 (rnd_lt_huge (by rw [abs_of_nonneg q0]; exact le_top (q1.trans h)))
  exact ⟨g1, by rw [g2]; exact rnd_nonneg q0, by rw [g2]; exact rnd_le_of_le hAB q1⟩

theorem unit_powi {t : Float} (ht : F64.Fin t ∧ 0 ≤ val t ∧ val t ≤ 1) :
    ∀ k : ℕ, F64.Fin (powi t (k + 1)) ∧ 0 ≤ val (powi t (k + 1)) ∧ val (powi t (k + 1)) ≤ 1
  | 0 => ht
  | k + 1 => by
    have := unit_mul (unit_powi ht k) ht (by rw [one_mul]; exact isF_one) (by norm_num)
    rw [one_mul] at this
    exact this

theorem unit_term {t : Float} (ht : F64.Fin t ∧ 0 ≤ val t ∧ val t ≤ 1) {m : ℕ} (hm : 0 < m) (hm2 : m ≤ 15 * 10 ^ 7) (k : ℕ) :
    F64.Fin (F64.lit m 8 * powi t (k + 1)) ∧ 0 ≤ val (F64.lit m 8 * powi t (k + 1)) ∧ val (F64.lit m 8 * powi t (k + 1)) ≤ 2 := by
  have hm3 : (m : ℝ) ≤ 15 * 10 ^ 7 := by exact_mod_cast hm2
  obtain ⟨h1, h2⟩ := lit_val (m := m) (e := 8) hm (by norm_num) (by omega) (by norm_num)
  have hl : F64.Fin (F64.lit m 8) ∧ 0 ≤ val (F64.lit m 8) ∧ val (F64.lit m 8) ≤ 2 := by
    refine ⟨h1, ?_, ?_⟩
    · rw [h2]; exact rnd_nonneg (by positivity)
    · rw [h2]; exact rnd_le_of_le isF_two (by rw [div_le_iff₀ (by positivity)]; linarith)
  have := unit_mul hl (unit_powi ht k) (by rw [mul_one]; exact isF_two) (by norm_num)
  rw [mul_one] at this
  exact this

theorem isF_neg_nat {n : ℕ} (h : n ≤ 2 ^ 53) : IsF (-(n : ℝ)) := (isF_nat h).neg

/-- The argument of the exponential is below -1000. -/
theorem large_arg {x t : Float} (h : Large x) (ht : F64.Fin t ∧ 0 ≤ val t ∧ val t ≤ 1) : F64.LE (-1000) (erfArg x t) := by
  have l0 : F64.Fin (F64.lit 126551223 8) ∧ 0 ≤ val (F64.lit 126551223 8) := by
    obtain ⟨h1, h2⟩ := lit_val (m := 126551223) (e := 8) (by norm_num) (by norm_num) (by norm_num) (by norm_num)
    exact ⟨h1, by rw [h2]; exact rnd_nonneg (by positivity)⟩
  have t1 := unit_term ht (m := 100002368) (by norm_num) (by norm_num) 0
  have t2 := unit_term ht (m := 37409196) (by norm_num) (by norm_num) 1
  have t3 := unit_term ht (m := 9678418) (by norm_num) (by norm_num) 2
  have t4 := unit_term ht (m := 18628806) (by norm_num) (by norm_num) 3
  have t5 := unit_term ht (m := 27886807) (by norm_num) (by norm_num) 4
  have t6 := unit_term ht (m := 113520398) (by norm_num) (by norm_num) 5
  have t7 := unit_term ht (m := 148851587) (by norm_num) (by norm_num) 6
  have t8 := unit_term ht (m := 82215223) (by norm_num) (by norm_num) 7
  have t9 := unit_term ht (m := 17087277) (by norm_num) (by norm_num) 8
  have f : ∀ n : ℕ, n ≤ 2000 → IsF (-(n : ℝ)) := fun n hn => isF_neg_nat (by omega)
  have r0 := LE.sub (GE.neg (large_sq h)) l0.1 (f 1024 (by norm_num)) (by norm_num) (by push_cast; linarith [l0.2])
  have r1 := LE.add' r0 t1.1 (f 1022 (by norm_num)) (by norm_num) (by push_cast; linarith [t1.2.2])
  have r2 := LE.add' r1 t2.1 (f 1020 (by norm_num)) (by norm_num) (by push_cast; linarith [t2.2.2])
  have r3 := LE.add' r2 t3.1 (f 1018 (by norm_num)) (by norm_num) (by push_cast; linarith [t3.2.2])
  have r4 := LE.sub r3 t4.1 (f 1018 (by norm_num)) (by norm_num) (by push_cast; linarith [t4.2.1])
  have r5 := LE.add' r4 t5.1 (f 1016 (by norm_num)) (by norm_num) (by push_cast; linarith [t5.2.2])
  have r6 := LE.sub r5 t6.1 (f 1016 (by norm_num)) (by norm_num) (by push_cast; linarith [t6.2.1])
  have r7 := LE.add' r6 t7.1 (f 1014 (by norm_num)) (by norm_num) (by push_cast; linarith [t7.2.2])
  have r8 := LE.sub r7 t8.1 (f 1014 (by norm_num)) (by norm_num) (by push_cast; linarith [t8.2.1])
  have r9 := LE.add' r8 t9.1 (f 1012 (by norm_num)) (by norm_num) (by push_cast; linarith [t9.2.2])
  exact r9.mono (by norm_num)

theorem exp_small {c : ℝ} (h : c ≤ -1000) : Real.exp c ≤ 1e-9 := by
  have h1 : Real.exp c ≤ Real.exp (-(30 : ℕ)) := Real.exp_le_exp.mpr (by push_cast; linarith)
  refine h1.trans ?_
  rw [Real.exp_neg, ← Real.exp_one_pow]
  have : (2 : ℝ) ^ 30 ≤ Real.exp 1 ^ 30 := pow_le_pow_left₀ (by norm_num) (by linarith [Real.exp_one_gt_d9]) _
  rw [inv_le_comm₀ (by positivity) (by norm_num)]
  refine le_trans ?_ this
  norm_num

/-- The correction term of a large argument. -/
theorem tau_large {L : Libm} {ε : ℝ} (hL : AccurateExp L ε) (hε : ε ≤ 1 / 2 ^ 20) {x : Float} (h : Large x) :
    Ap (erfT x * L.exp (erfArg x (erfT x))) 0 (ε + 2e-9) := by
  have ht := large_t h
  have he : Ap (L.exp (erfArg x (erfT x))) 0 (ε + 1e-9) := by
    rcases large_arg h ht with ha | ⟨h1, h2⟩
    · exact (hL.2 _ ha).mono (by norm_num)
    · have := hL.1 _ h1 (by linarith)
      refine ⟨this.1, ?_⟩
      have e1 := exp_small h2
      have e2 := Real.exp_pos (val (erfArg x (erfT x)))
      have := _root_.abs_le.mp this.2
      rw [sub_zero]
      exact _root_.abs_le.mpr ⟨by linarith, by linarith⟩
  have key := (Ap.exact ht.1).mul he (R := 1) (S := 0) (by rw [abs_of_nonneg ht.2.1]; exact ht.2.2) (by simp)
    (le_top (by norm_num at hε ⊢; linarith))
  rw [mul_zero] at key
  exact key.mono ((slack (δ := 1 / 2 ^ 40) (by rw [uu_eq]; norm_num at hε ⊢; linarith) (by norm_num)).trans
    (by norm_num at hε ⊢; linarith))
end Verif
