import Verif.F64.Carrier
import Verif.Lemmas.Cdma

/-! # Multiplication by `±1` is exact, and correlators of quadrature signals -/
namespace Verif.F64
open Float.Model Float.Model.UnpackedFloat

theorem up_one : ∃ m e, ∃ h : 0 < m, up (1 : Float) = .finite .positive m e h := by
  have hf := fin_one
  have hv := val_one
  unfold val at hv
  rw [fin_iff] at hf
  revert hf hv
  cases up (1 : Float) with
  | infinity | notANumber => intro h; simp [UnpackedFloat.isFinite] at h
  | zero s => intro _ h; simp [uval] at h
  | finite s m e hm =>
    intro _ h
    cases s
    · have := finite_pos hm e
      simp only [uval, sgn] at h
      linarith
    · exact ⟨m, e, hm, rfl⟩

/-- `x * 1` is `x`, for every double. -/
theorem mul_one_eq (x : Float) : x * 1 = x := by
  obtain ⟨m₁, e₁, h₁, hu⟩ := up_one
  by_cases hx : Fin x ∧ val x ≠ 0
  · have hv : rnd (val x * val 1) = val x := by rw [val_one, mul_one, rnd_val]
    obtain ⟨a, b⟩ := mul_val hx.1 fin_one (by rw [hv]; exact abs_val_lt x)
    rw [hv] at b
    exact eq_of_val a hx.1 b (by rw [b]; exact hx.2)
  · apply up_inj
    rw [mul_eq, hu]
    have hc := canon_up x
    cases h : up x with
    | notANumber => exact unpack_pack_nan
    | infinity s => cases s <;> exact unpack_pack_infinity _
    | zero s => cases s <;> exact unpack_pack_zero _
    | finite s m e hm =>
      exfalso; apply hx
      refine ⟨by rw [fin_iff, h]; rfl, ?_⟩
      unfold val; rw [h]
      have := finite_pos hm e
      cases s <;> simp only [uval, sgn] <;> nlinarith

/-- `x * -1` is `-x`, for every double. -/
theorem mul_neg_one_eq (x : Float) : x * -1 = -x := by
  obtain ⟨m₁, e₁, h₁, hu⟩ := up_one
  have hu' : up (-1 : Float) = .finite .negative m₁ e₁ h₁ := by rw [up_neg, hu]; rfl
  by_cases hx : Fin x ∧ val x ≠ 0
  · have hv : rnd (val x * val (-1)) = -val x := by rw [neg_val, val_one, mul_neg_one, rnd_neg, rnd_val]
    obtain ⟨a, b⟩ := mul_val hx.1 (neg_fin.mpr fin_one) (by rw [hv, abs_neg]; exact abs_val_lt x)
    rw [hv] at b
    refine eq_of_val a (neg_fin.mpr hx.1) (by rw [b, neg_val]) (by rw [b]; exact neg_ne_zero.mpr hx.2)
  · apply up_inj
    rw [mul_eq, hu', up_neg]
    cases h : up x with
    | notANumber => exact unpack_pack_nan
    | infinity s => cases s <;> exact unpack_pack_infinity _
    | zero s => cases s <;> exact unpack_pack_zero _
    | finite s m e hm =>
      exfalso; apply hx
      refine ⟨by rw [fin_iff, h]; rfl, ?_⟩
      unfold val; rw [h]
      have := finite_pos hm e
      cases s <;> simp only [uval, sgn] <;> nlinarith

/-- Spreading twice with the same key is the identity, bit for bit. -/
theorem mul_nrz_nrz {L : Libm} (x : FloatL L) (b : Bool) : x * bitToNrz b * bitToNrz b = x := by
  have h1 : ∀ x : Float, x * -1 * -1 = x := fun x => by rw [mul_neg_one_eq, mul_neg_one_eq, neg_neg']
  have h2 : ∀ x : Float, x * 1 * 1 = x := fun x => by rw [mul_one_eq, mul_one_eq]
  cases b
  · exact h1 x
  · exact h2 x

theorem despread_spread_ieee {L : Libm} (key : List Bool) (spc : ℕ) (l : List (FloatL L)) :
    (l.mapIdx (fun i x => x * bitToNrz (keyBit key spc i))).mapIdx (fun i x => x * bitToNrz (keyBit key spc i)) = l := by
  rw [mapIdx_mapIdx']
  apply mapIdx_eq_self
  intro i x _
  exact mul_nrz_nrz _ _

/-- The CDMA guards in IEEE arithmetic. -/
theorem cdmaOk_ieee {L : Libm} {fs sym k : ℕ} {fc : FloatL L} (hfs : fs < 2 ^ 53) (hf : Fin fc) :
    CdmaOk fs sym fc k ↔ 0 < sym ∧ 0 < k ∧ sym * k ∣ fs ∧ 2 * (sym * k) ≤ fs ∧ ⌊val fc⌋₊ ≤ fs / 2 := by
  have htn : Flt.toNat fc = min ⌊val fc⌋₊ (2 ^ 64 - 1) := toNat_val hf
  have hprod : ∀ {sym k : ℕ}, 0 < sym → 0 < k → sym * k < 2 ^ 53 → (Flt.ofNat sym * Flt.ofNat k : FloatL L) = Flt.ofNat (sym * k) := by
    intro sym k hs hk hlt
    have h1 : sym ≤ sym * k := Nat.le_mul_of_pos_right _ hk
    have h2 : k ≤ sym * k := Nat.le_mul_of_pos_left _ hs
    obtain ⟨fa, va⟩ := ofNat_exact (n := sym) (by omega)
    obtain ⟨fb, vb⟩ := ofNat_exact (n := k) (by omega)
    obtain ⟨fab, vab⟩ := ofNat_exact (n := sym * k) hlt.le
    have e : rnd (val (F64.ofNat sym) * val (F64.ofNat k)) = ((sym * k : ℕ) : ℝ) := by
      rw [va, vb, ← Nat.cast_mul]; exact rnd_of_isF (isF_nat hlt.le)
    obtain ⟨c1, c2⟩ := mul_val fa fb (by
      rw [e, ← vab]; exact abs_val_lt _)
    rw [e] at c2
    have h0 : val (F64.ofNat sym * F64.ofNat k) ≠ 0 := by
      rw [c2]
      have : 0 < sym * k := Nat.mul_pos hs hk
      exact_mod_cast this.ne'
    exact eq_of_val c1 fab (c2.trans vab.symm) h0
  constructor
  · intro h
    have h1 := h.nyq
    have h2 := h.car
    rw [htn] at h2
    have h4 := h.int2
    have hsl : 0 < sym * k := Nat.mul_pos h.sym_pos h.key_pos
    rw [Nat.mul_comm] at h1
    rw [hprod h.sym_pos h.key_pos (by omega)] at h4
    have h5 := (guard_iff hfs (show sym * k < 2 ^ 53 by omega)).mp h4
    exact ⟨h.sym_pos, h.key_pos, h5.2, by omega, by omega⟩
  · rintro ⟨h1, h2, h3, h4, h5⟩
    have hsl : 0 < sym * k := Nat.mul_pos h1 h2
    refine ⟨by rw [Nat.mul_comm]; omega, by rw [htn]; omega, ?_, ?_, h1, h2⟩
    · have : sym ≤ sym * k := Nat.le_mul_of_pos_right _ h2
      exact (guard_iff hfs (show sym < 2 ^ 53 by omega)).mpr ⟨h1.ne', Dvd.dvd.trans (Dvd.intro _ rfl) h3⟩
    · rw [hprod h1 h2 (by omega)]
      exact (guard_iff hfs (show sym * k < 2 ^ 53 by omega)).mpr ⟨hsl.ne', h3⟩

/-! ## Quadrature correlators -/

theorem Ap.nonneg_dec {x : Float} {r e : ℝ} (h : Ap x r e) (hr : e ≤ r) : Float.le 0 x = true := by
  rw [le_iff fin_zero h.1, val_zero]
  have := (_root_.abs_le.mp h.2).1
  linarith

theorem Ap.neg_dec {x : Float} {r e : ℝ} (h : Ap x r e) (hr : r < -e) : Float.le 0 x = false := by
  rw [← Bool.not_eq_true, le_iff fin_zero h.1, val_zero]
  have := (_root_.abs_le.mp h.2).2
  linarith

/-- The sign of a bit. -/
def sg (b : Bool) : ℝ := if b then 1 else -1

theorem abs_sg (b : Bool) : |sg b| = 1 := by cases b <;> simp [sg]

theorem Ap.nrz_mul {a : Float} {r ε : ℝ} (ha : Ap a r ε) (b : Bool) : Ap ((if b then 1 else -1) * a) (sg b * r) ε := by
  cases b
  · simpa [sg] using ha.neg_one_mul
  · simpa [sg] using ha.one_mul

theorem Ap.neg_nrz_mul {a : Float} {r ε : ℝ} (ha : Ap a r ε) (b : Bool) :
    Ap (-(if b then 1 else -1) * a) (-sg b * r) ε := by
  cases b
  · have : - (-1 : Float) = 1 := neg_neg' 1
    simpa [sg, this] using ha.one_mul
  · simpa [sg] using ha.neg_one_mul

/-- One transmitted QPSK sample. -/
theorem qpsk_sample {c s : Float} {C S : ℝ} (hc : Ap c C (1 / 2 ^ 9)) (hs : Ap s S (1 / 2 ^ 9)) (hC : |C| ≤ 1) (hS : |S| ≤ 1)
    (a b : Bool) : Ap ((if a then 1 else -1) * c + -(if b then 1 else -1) * s) (sg a * C + -sg b * S) (1 / 2 ^ 7) ∧
      |sg a * C + -sg b * S| ≤ 2 := by
  have h2 : |sg a * C + -sg b * S| ≤ 2 := by
    refine (abs_add_le _ _).trans ?_
    rw [abs_mul, abs_mul, abs_neg, abs_sg, abs_sg]; linarith
  refine ⟨?_, h2⟩
  have ht := tiny_le (k := 60) (by norm_num)
  refine ((hc.nrz_mul a).add (hs.neg_nrz_mul b) h2 (le_big (k := 3) (by norm_num) (by norm_num))).mono ?_
  rw [uu_eq]
  norm_num at ht ⊢
  linarith

/-- One product of the QPSK correlators. -/
theorem qpsk_product {x c : Float} {r C : ℝ} (hx : Ap x r (1 / 2 ^ 7)) (hr : |r| ≤ 2) (hc : Ap c C (1 / 2 ^ 9))
    (hC : |C| ≤ 1) : Ap (x * c) (r * C) (1 / 2 ^ 6) ∧ |r * C| ≤ 2 := by
  constructor
  · have ht := tiny_le (k := 60) (by norm_num)
    refine (hx.mul hc hr hC (le_big (k := 3) (by norm_num) (by norm_num))).mono ?_
    rw [uu_eq]
    norm_num at ht ⊢
    linarith
  · rw [abs_mul]; nlinarith [abs_nonneg r, abs_nonneg C]

/-- Correlation over at most `2^32` samples. -/
theorem correlate_ap {n : ℕ} (hn : n ≤ 2 ^ 32) {a : ℕ → Float} {r : ℕ → ℝ}
    (h : ∀ j < n, Ap (a j) (r j) (1 / 2 ^ 6) ∧ |r j| ≤ 2) :
    Ap (rsum ((List.range n).map a)) (∑ j ∈ Finset.range n, r j) (n / 32) := by
  have hn' : (n : ℝ) ≤ 4294967296 := by norm_num at hn; exact_mod_cast hn
  have hn0 : (0 : ℝ) ≤ n := by positivity
  have ht := tiny_le (k := 60) (by norm_num)
  refine (Ap.rsum (t := 1 / 2 ^ 18) (fun j hj => (h j hj).1) (fun j hj => (h j hj).2) (by norm_num)
    (le_big (k := 40) (by norm_num) ?_) ?_).mono ?_
  · norm_num; linarith
  · rw [uu_eq]; norm_num at ht ⊢; linarith
  · norm_num; linarith

end Verif.F64
