import Verif.Lemmas.CskOrbit
import Verif.F64.Maps

/-!
# The integer orbits of `Verif.Lemmas.CskOrbit` are the double-precision orbits
-/
namespace Verif.CskOrbit
open Verif F64

/-- Rounding a fraction of integers to the nearest integer, ties to even, by an addition and a division. -/
theorem rne_div (P s : ℕ) (hs : 1 ≤ s) : rne ((P : ℝ) / 2 ^ s) = ((P + (2 ^ (s - 1) - 1) + P / 2 ^ s % 2) / 2 ^ s : ℕ) := by
  obtain ⟨t, rfl⟩ : ∃ t, s = t + 1 := ⟨s - 1, by omega⟩
  have hH : 0 < 2 ^ t := Nat.two_pow_pos t
  have hD : (2 : ℕ) ^ (t + 1) = 2 * 2 ^ t := by rw [pow_succ, mul_comm]
  have hDR : (2 : ℝ) ^ (t + 1) = ((2 ^ (t + 1) : ℕ) : ℝ) := by push_cast; rfl
  rw [Nat.add_sub_cancel, hDR]
  have hpos : 0 < 2 ^ (t + 1) := Nat.two_pow_pos _
  obtain ⟨q, hq⟩ : ∃ q, q = P / 2 ^ (t + 1) := ⟨_, rfl⟩
  obtain ⟨r, hr⟩ : ∃ r, r = P % 2 ^ (t + 1) := ⟨_, rfl⟩
  have hP : P = 2 ^ (t + 1) * q + r := by rw [hq, hr]; exact (Nat.div_add_mod _ _).symm
  have hrlt : r < 2 ^ (t + 1) := hr ▸ Nat.mod_lt _ hpos
  have hfl : ⌊(P : ℝ) / ((2 ^ (t + 1) : ℕ) : ℝ)⌋ = (q : ℤ) := by
    have hp : (0 : ℝ) < ((2 ^ (t + 1) : ℕ) : ℝ) := by exact_mod_cast hpos
    rw [Int.floor_eq_iff, le_div_iff₀ hp, div_lt_iff₀ hp]
    constructor
    · exact_mod_cast (by rw [hP, mul_comm]; exact Nat.le_add_right _ _ : q * 2 ^ (t + 1) ≤ P)
    · exact_mod_cast (by rw [hP, add_mul, one_mul, mul_comm]; omega : P < (q + 1) * 2 ^ (t + 1))
  have hposR : (0 : ℝ) < ((2 ^ (t + 1) : ℕ) : ℝ) := by exact_mod_cast hpos
  have hfr : Int.fract ((P : ℝ) / ((2 ^ (t + 1) : ℕ) : ℝ)) = r / ((2 ^ (t + 1) : ℕ) : ℝ) := by
    rw [Int.fract, hfl, hP]
    push_cast
    field_simp
    ring
  rw [← hq]
  generalize hDd : (2 : ℕ) ^ (t + 1) = D at *
  generalize (2 : ℕ) ^ t = H at *
  have hDH : (D : ℝ) = 2 * H := by exact_mod_cast hD
  unfold rne
  rw [hfr, hfl]
  have key : (P + (H - 1) + q % 2) / D = q + (r + (H - 1) + q % 2) / D := by
    rw [hP, show D * q + r + (H - 1) + q % 2 = r + (H - 1) + q % 2 + D * q by ring, Nat.add_mul_div_left _ _ hpos]
    ring
  rw [key]
  have c1 : (r : ℝ) / D < 1 / 2 ↔ r < H := by
    rw [div_lt_iff₀ hposR, hDH, show (1 : ℝ) / 2 * (2 * H) = H by ring]; exact_mod_cast Iff.rfl
  have c2 : (1 : ℝ) / 2 < (r : ℝ) / D ↔ H < r := by
    rw [lt_div_iff₀ hposR, hDH, show (1 : ℝ) / 2 * (2 * H) = H by ring]; exact_mod_cast Iff.rfl
  by_cases h1 : r < H
  · rw [if_pos (c1.mpr h1), Nat.div_eq_of_lt (by omega), add_zero]
  rw [if_neg (fun h => h1 (c1.mp h))]
  by_cases h2 : H < r
  · rw [if_pos (c2.mpr h2), show (r + (H - 1) + q % 2) / D = 1 from Nat.div_eq_of_lt_le (by omega) (by omega)]
    push_cast; rfl
  rw [if_neg (fun h => h2 (c2.mp h))]
  have hrH : r = H := by omega
  by_cases h3 : Even q
  · rw [if_pos (by exact_mod_cast h3), Nat.div_eq_of_lt (by rw [Nat.even_iff.mp h3]; omega), add_zero]
  · rw [if_neg (by exact_mod_cast h3)]
    have : q % 2 = 1 := Nat.not_even_iff.mp h3
    rw [show (r + (H - 1) + q % 2) / D = 1 from Nat.div_eq_of_lt_le (by omega) (by omega)]
    push_cast; rfl

theorem rsh_eq (P s : ℕ) : rsh P s = (P + (2 ^ (s - 1) - 1) + P / 2 ^ s % 2) / 2 ^ s * 2 ^ s := by
  show ((P + (2 ^ (s - 1) - 1) + (P >>> s) % 2) >>> s) <<< s = _
  rw [Nat.shiftLeft_eq, Nat.shiftRight_eq_div_pow, Nat.shiftRight_eq_div_pow]

/-- Rounding to binary64 is rounding the numerator to 53 bits. -/
theorem rnd_div {P k : ℕ} (hP : 2 ^ 53 ≤ P) (hk : k ≤ 1000) : rnd ((P : ℝ) / 2 ^ k) = (r53 P : ℝ) / 2 ^ k := by
  have hP0 : P ≠ 0 := by have := Nat.two_pow_pos 53; omega
  have hL : 53 ≤ P.log2 := (Nat.le_log2 hP0).mpr hP
  have e1 : (2 : ℝ) ^ P.log2 ≤ P := by exact_mod_cast Nat.log2_self_le hP0
  have e2 : (P : ℝ) < 2 ^ (P.log2 + 1) := by exact_mod_cast Nat.lt_log2_self
  have hx : |(P : ℝ) / 2 ^ k| = (P : ℝ) / 2 ^ k := abs_of_nonneg (by positivity)
  have hlog : Int.log 2 ((P : ℝ) / 2 ^ k) = (P.log2 : ℤ) - k := by
    have hpos : (0 : ℝ) < (P : ℝ) / 2 ^ k := by positivity
    apply le_antisymm
    · rw [← Int.lt_add_one_iff, ← Int.lt_zpow_iff_log_lt (by norm_num) hpos]
      rw [show (P.log2 : ℤ) - k + 1 = ((P.log2 + 1 : ℕ) : ℤ) - (k : ℤ) by push_cast; ring]
      push_cast
      rw [zpow_sub₀ two_ne_zero, zpow_natCast, div_lt_div_iff_of_pos_right (by positivity)]
      exact_mod_cast e2
    · rw [← Int.zpow_le_iff_le_log (by norm_num) hpos]
      push_cast
      rw [zpow_sub₀ two_ne_zero, zpow_natCast, zpow_natCast, div_le_div_iff_of_pos_right (by positivity)]
      exact e1
  obtain ⟨s, hs⟩ : ∃ s, P.log2 = s + 52 := ⟨P.log2 - 52, by omega⟩
  have ht : tgt ((P : ℝ) / 2 ^ k) = (s : ℤ) - k := by
    unfold tgt; rw [hx, hlog, hs, max_eq_left (by push_cast; omega)]; push_cast; ring
  unfold rnd
  rw [ht, zpow_sub₀ two_ne_zero, zpow_natCast, zpow_natCast]
  have hk2 : (2 : ℝ) ^ k ≠ 0 := by positivity
  have hs2 : (2 : ℝ) ^ s ≠ 0 := by positivity
  rw [show (P : ℝ) / 2 ^ k / (2 ^ s / 2 ^ k) = P / 2 ^ s by field_simp, rne_div P s (by omega),
    show r53 P = rsh P s by show rsh P (P.log2 - 52) = _; rw [hs, Nat.add_sub_cancel], rsh_eq, Int.cast_natCast]
  push_cast
  rw [mul_div_assoc]

/-- The fields of an unpacked positive number. -/
def hasFields : Float.Model.UnpackedFloat → ℕ → ℤ → Bool
  | .finite .positive m e _, m', e' => decide (m = m') && decide (e = e')
  | _, _, _ => false

theorem val_fields {x : Float} {m : ℕ} {e : ℤ} (h : hasFields (up x) m e = true) : val x = m * 2 ^ e := by
  unfold val
  unfold hasFields at h
  split at h
  · rename_i hu
    simp only [Bool.and_eq_true, decide_eq_true_eq] at h
    rw [hu]; simp [uval, sgn, h.1, h.2]
  · exact absurd h (by simp)

theorem val_39 : val (F64.lit 39 1) = 8782019273372467 / 2 ^ 51 := by
  rw [val_fields (m := 8782019273372467) (e := -51) (by decide +kernel)]; norm_num

theorem val_1 : val (F64.lit 1 1) = (115292150460684704 : ℕ) / 2 ^ 60 := by
  rw [val_fields (m := 7205759403792794) (e := -56) (by decide +kernel)]; norm_num

theorem val_15 : val (F64.lit 15 2) = (172938225691027040 : ℕ) / 2 ^ 60 := by
  rw [val_fields (m := 5404319552844595) (e := -55) (by decide +kernel)]; norm_num

/-- What a checked leg says. -/
theorem leg_spec {X' Y' : ℕ} : ∀ (n X Y : ℕ), leg X' Y' n X Y = true →
    stepN^[n] X = X' ∧ stepN^[n] Y = Y' ∧ ∀ j, 1 ≤ j → j ≤ n → stepN^[j] X ≠ stepN^[j] Y
  | 0, X, Y, h => by
    have h' : cond (Nat.beq X X') (Nat.beq Y Y') false = true := h
    rcases hb : Nat.beq X X' with _ | _
    · rw [hb] at h'; exact absurd h' (by simp)
    · rw [hb] at h'
      exact ⟨Nat.eq_of_beq_eq_true hb, Nat.eq_of_beq_eq_true h', fun j a b => by omega⟩
  | n + 1, X, Y, h => by
    have h' : cond (Nat.beq (stepN X) (stepN Y)) false (leg X' Y' n (stepN X) (stepN Y)) = true := h
    rcases hb : Nat.beq (stepN X) (stepN Y) with _ | _
    · rw [hb] at h'
      obtain ⟨a, b, c⟩ := leg_spec n _ _ h'
      refine ⟨a, b, fun j h1 h2 => ?_⟩
      rcases j with _ | j
      · omega
      · rcases j with _ | j
        · exact Nat.ne_of_beq_eq_false hb
        · exact c (j + 1) (by omega) (by omega)
    · rw [hb] at h'; exact absurd h' (by simp)

/-- The orbits from `X` and `Y` differ after each of the first `n` steps. -/
def Apart (n X Y : ℕ) : Prop := ∀ j, 1 ≤ j → j ≤ n → stepN^[j] X ≠ stepN^[j] Y

theorem Apart.leg {X Y X' Y' n m : ℕ} (h : leg X' Y' n X Y = true) (hm : Apart m X' Y') : Apart (m + n) X Y := by
  obtain ⟨a, b, c⟩ := leg_spec n X Y h
  intro j h1 h2
  rcases Nat.lt_or_ge n j with hj | hj
  · obtain ⟨i, rfl⟩ : ∃ i, j = i + n := ⟨j - n, by omega⟩
    rw [Function.iterate_add_apply, Function.iterate_add_apply, a, b]
    exact hm i (by omega) (by omega)
  · exact c j h1 hj

theorem apart_9001 : Apart 9001 115292150460684704 172938225691027040 := by
  have h18 : Apart 1 _ _ := (Apart.leg (m := 0) leg_18 (fun j h1 h2 => by omega))
  have h17 := h18.leg leg_17
  have h16 := h17.leg leg_16
  have h15 := h16.leg leg_15
  have h14 := h15.leg leg_14
  have h13 := h14.leg leg_13
  have h12 := h13.leg leg_12
  have h11 := h12.leg leg_11
  have h10 := h11.leg leg_10
  have h9 := h10.leg leg_9
  have h8 := h9.leg leg_8
  have h7 := h8.leg leg_7
  have h6 := h7.leg leg_6
  have h5 := h6.leg leg_5
  have h4 := h5.leg leg_4
  have h3 := h4.leg leg_3
  have h2 := h3.leg leg_2
  have h1 := h2.leg leg_1
  have h0 := h1.leg leg_0
  exact h0

/-- One step of the orbit in double precision. -/
theorem step_val {x : Float} {X : ℕ} (hx : Fin x) (h0 : 0.09 ≤ val x) (h1 : val x ≤ 0.976) (hv : val x = X / 2 ^ 60) :
    val (logisticMap (F64.lit 39 1) x) = stepN X / 2 ^ 60 := by
  have hX0 : 2 ^ 56 ≤ X := by
    rw [hv, le_div_iff₀ (by norm_num)] at h0
    have : (2 : ℝ) ^ 56 ≤ X := le_trans (by norm_num) h0
    exact_mod_cast this
  have hX1 : X + 2 ^ 54 ≤ 2 ^ 60 := by
    rw [hv, div_le_iff₀ (by norm_num)] at h1
    have : (X : ℝ) + 2 ^ 54 ≤ 2 ^ 60 := (add_le_add_left h1 _).trans (by norm_num)
    exact_mod_cast this
  have r1 : rnd (val (F64.lit 39 1) * val x) = (r53 (8782019273372467 * X) : ℝ) / 2 ^ 111 := by
    rw [val_39, hv, ← rnd_div (by omega) (by norm_num)]
    congr 1; push_cast; ring
  have r2 : rnd (val (1 : Float) - val x) = (r53 (1152921504606846976 - X) : ℝ) / 2 ^ 60 := by
    rw [val_one, hv, ← rnd_div (by omega) (by norm_num)]
    congr 1
    rw [Nat.cast_sub (by omega)]
    push_cast; norm_num
    ring
  have b1 : |val (F64.lit 39 1) * val x| ≤ 4 := by
    rw [val_39, abs_of_nonneg (by norm_num at h0 ⊢; linarith)]; norm_num at h1 ⊢; linarith
  have b2 : |val (1 : Float) - val x| ≤ 1 := by
    rw [val_one, abs_of_nonneg (by norm_num at h1 ⊢; linarith)]; norm_num at h0 ⊢; linarith
  obtain ⟨f1, v1⟩ := mul_val fin_lit39 hx (small_lt_huge b1)
  obtain ⟨f2, v2⟩ := sub_val fin_one hx (small_lt_huge (b2.trans (by norm_num)))
  obtain ⟨-, lo, -⟩ := logistic_39_ieee hx h0 h1
  obtain ⟨T, hT⟩ : ∃ T, T = r53 (8782019273372467 * X) := ⟨_, rfl⟩
  obtain ⟨A, hA⟩ : ∃ A, A = r53 (1152921504606846976 - X) := ⟨_, rfl⟩
  rw [r1, ← hT] at v1
  rw [r2, ← hA] at v2
  have i4 : IsF 4 := by exact_mod_cast isF_nat (n := 4) (by norm_num)
  have i1 : IsF 1 := by exact_mod_cast isF_nat (n := 1) (by norm_num)
  have c1 : (T : ℝ) / 2 ^ 111 ≤ 4 := by rw [hT, ← r1]; exact rnd_le_of_le i4 (le_trans (le_abs_self _) b1)
  have c2 : (A : ℝ) / 2 ^ 60 ≤ 1 := by rw [hA, ← r2]; exact rnd_le_of_le i1 (le_trans (le_abs_self _) b2)
  have hp : (T : ℝ) / 2 ^ 111 * (A / 2 ^ 60) = (T * A : ℕ) / 2 ^ 171 := by push_cast; ring
  have hv3 : val (logisticMap (F64.lit 39 1) x) = rnd ((T * A : ℕ) / 2 ^ 171) := by
    rw [← hp]
    refine (mul_val f1 f2 (small_lt_huge ?_)).2.trans (by rw [v1, v2])
    rw [v1, v2, abs_of_nonneg (by positivity)]
    exact (mul_le_mul c1 c2 (by positivity) (by norm_num)).trans (by norm_num)
  have hbig : 2 ^ 163 ≤ T * A := by
    by_contra hn
    have : ((T * A : ℕ) : ℝ) ≤ 2 ^ 163 := by exact_mod_cast (not_le.mp hn).le
    have h5 : ((T * A : ℕ) : ℝ) / 2 ^ 171 ≤ 2 ^ (-8 : ℤ) := by
      rw [div_le_iff₀ (by norm_num)]; exact this.trans (by norm_num)
    have h6 := rnd_le_of_le (isF_zpow (e := -8) (by norm_num)) h5
    rw [← hv3] at h6
    norm_num at h6 lo
    linarith
  have h53 : 2 ^ 53 ≤ T * A := le_trans (by norm_num) hbig
  rw [hv3, rnd_div h53 (by norm_num)]
  have hstep : stepN X = r53 (T * A) / 2 ^ 111 := by
    rw [hT, hA, ← Nat.shiftRight_eq_div_pow]; rfl
  have hdvd : 2 ^ 111 ∣ r53 (T * A) := by
    have h0 : T * A ≠ 0 := by have := Nat.two_pow_pos 163; omega
    have hL : 163 ≤ (T * A).log2 := (Nat.le_log2 h0).mpr hbig
    show 2 ^ 111 ∣ rsh (T * A) ((T * A).log2 - 52)
    rw [rsh_eq]
    exact Dvd.dvd.mul_left (pow_dvd_pow 2 (by omega)) _
  obtain ⟨c, hc⟩ := hdvd
  rw [hstep, hc, Nat.mul_div_cancel_left _ (Nat.two_pow_pos 111)]
  push_cast
  rw [div_eq_div_iff (by norm_num) (by norm_num)]
  ring

/-- The orbit in double precision. -/
theorem orbit_val {x : Float} {X : ℕ} (hx : Fin x) (h0 : 0.09 ≤ val x) (h1 : val x ≤ 0.976) (hv : val x = X / 2 ^ 60) :
    ∀ n, val (orbit (logisticMap (F64.lit 39 1)) x n) = (stepN^[n + 1] X : ℝ) / 2 ^ 60
  | 0 => step_val hx h0 h1 hv
  | n + 1 => by
    obtain ⟨a, b, c⟩ := orbit_39_ieee hx h0 h1 n
    rw [Function.iterate_succ_apply' stepN (n + 1) X]
    exact step_val a b c (orbit_val hx h0 h1 hv n)

/-- The two carriers differ at each of the first 9001 values. -/
theorem carriers_apart {n : ℕ} (hn : n < 9001) : orbit (logisticMap (F64.lit 39 1)) (F64.lit 1 1) n ≠
    orbit (logisticMap (F64.lit 39 1)) (F64.lit 15 2) n := by
  intro h
  have h' := congrArg val h
  rw [orbit_val fin_lit1 val_lit1.1 val_lit1.2 val_1 n, orbit_val fin_lit15 val_lit15.1 val_lit15.2 val_15 n,
    div_left_inj' (by norm_num)] at h'
  exact apart_9001 (n + 1) (by omega) (by omega) (by exact_mod_cast h')

end Verif.CskOrbit
