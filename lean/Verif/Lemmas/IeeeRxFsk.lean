import Verif.Lemmas.IeeeRx
import Verif.Lemmas.IeeeFsk

/-! The FSK receiver in IEEE arithmetic on arbitrary samples. -/
namespace Verif.F64

/-- Difference of two energies, each the sum of two squares of numbers known within `e` and of size at most `M`. -/
theorem energy_bound {M e : ℝ} (hM0 : 1 / 2 ^ 400 ≤ M) (hM : M ≤ 2 ^ 440) (he : M / 2 ^ 13 ≤ e) (he' : e ≤ 3 / 2 * M) {a b c d : Float}
    {A B C D : ℝ} (ha : Ap a A e ∧ |A| ≤ M) (hb : Ap b B e ∧ |B| ≤ M) (hc : Ap c C e ∧ |C| ≤ M) (hd : Ap d D e ∧ |D| ≤ M) :
    Ap ((a * a + b * b) - (c * c + d * d)) ((A ^ 2 + B ^ 2) - (C ^ 2 + D ^ 2)) (16 * (M * e)) := by
  have hMp : 0 < M := lt_of_lt_of_le (by positivity) hM0
  have hep : 0 < e := lt_of_lt_of_le (by positivity) he
  have hK2 : M ^ 2 ≤ 2 ^ 880 := by
    calc M ^ 2 ≤ (2 ^ 440) ^ 2 := pow_le_pow_left₀ hMp.le hM 2
      _ = 2 ^ 880 := by rw [← pow_mul]
  have hK1 : 1 / 2 ^ 800 ≤ M ^ 2 := by
    calc (1 : ℝ) / 2 ^ 800 = (1 / 2 ^ 400) ^ 2 := by rw [div_pow, ← pow_mul, one_pow]
      _ ≤ M ^ 2 := pow_le_pow_left₀ (by positivity) hM0 2
  have ht : tiny ≤ M ^ 2 / 2 ^ 100 := by
    refine (tiny_le (k := 900) (by norm_num)).trans ?_
    rw [le_div_iff₀ (by positivity)]
    refine le_trans (le_of_eq ?_) hK1
    rw [show (2 : ℝ) ^ 900 = 2 ^ 800 * 2 ^ 100 by rw [← pow_add]]
    field_simp
  have hQ1 : M ^ 2 ≤ 2 ^ 13 * (M * e) := by
    have : M * (M / 2 ^ 13) ≤ M * e := mul_le_mul_of_nonneg_left he hMp.le
    have h2 : M ^ 2 = 2 ^ 13 * (M * (M / 2 ^ 13)) := by ring
    rw [h2]; exact mul_le_mul_of_nonneg_left this (by positivity)
  have hQ2 : M * e ≤ 3 / 2 * M ^ 2 := by
    have : M * e ≤ M * (3 / 2 * M) := mul_le_mul_of_nonneg_left he' hMp.le
    linarith [show M * (3 / 2 * M) = 3 / 2 * M ^ 2 by ring]
  have hee : e * e ≤ 3 / 2 * (M * e) := by nlinarith
  have big : ∀ {x : ℝ}, x ≤ 64 * M ^ 2 → x ≤ 2 ^ (1023 : ℤ) := by
    intro x hx
    refine le_big (k := 886) (by norm_num) (hx.trans ?_)
    rw [show (2 : ℝ) ^ 886 = 64 * 2 ^ 880 by rw [show (64 : ℝ) = 2 ^ 6 by norm_num, ← pow_add]]
    exact mul_le_mul_of_nonneg_left hK2 (by norm_num)
  have sq : ∀ {x : Float} {X : ℝ}, Ap x X e ∧ |X| ≤ M → Ap (x * x) (X ^ 2) (18 / 5 * (M * e)) ∧ |X ^ 2| ≤ M ^ 2 := by
    intro x X h
    refine ⟨?_, by rw [abs_pow]; exact pow_le_pow_left₀ (abs_nonneg _) h.2 2⟩
    rw [pow_two X]
    refine (h.1.mul h.1 h.2 h.2 (big ?_)).mono ?_
    · nlinarith
    · rw [uu_eq]
      have h1 : M * M + (M * e + M * e + e * e) ≤ 2 ^ 14 * (M * e) := by nlinarith
      have h2 := mul_le_mul_of_nonneg_right h1 (show (0 : ℝ) ≤ 1 / 2 ^ 53 by positivity)
      generalize M * e = Q at *
      generalize M ^ 2 = K at *
      norm_num at ht hQ1 h2 ⊢
      linarith
  have sa := sq ha
  have sb := sq hb
  have sc := sq hc
  have sd := sq hd
  have hQp : 0 < M * e := by positivity
  generalize M * e = Q at *
  generalize M ^ 2 = K at *
  have add : ∀ {x y : Float} {X Y : ℝ}, Ap x X (18 / 5 * Q) ∧ |X| ≤ K → Ap y Y (18 / 5 * Q) ∧ |Y| ≤ K →
      Ap (x + y) (X + Y) (37 / 5 * Q) ∧ |X + Y| ≤ 2 * K := by
    intro x y X Y h h'
    have hb : |X + Y| ≤ 2 * K := (abs_add_le _ _).trans (by linarith [h.2, h'.2])
    refine ⟨(h.1.add h'.1 hb (big ?_)).mono ?_, hb⟩
    · linarith
    · rw [uu_eq]
      norm_num at ht hQ1 ⊢
      linarith
  have s1 := add sa sb
  have s2 := add sc sd
  have hb : |A ^ 2 + B ^ 2 - (C ^ 2 + D ^ 2)| ≤ 4 * K := (abs_sub _ _).trans (by linarith [s1.2, s2.2])
  refine (s1.1.sub s2.1 hb (big ?_)).mono ?_
  · linarith
  · rw [uu_eq]
    norm_num at ht hQ1 ⊢
    linarith

theorem close_order {p q P Q e : ℝ} (hV : 4 * e < |P - Q|) (h1 : |p - P| ≤ 3 / 2 * e) (h2 : |q - Q| ≤ 3 / 2 * e) : q ≤ p ↔ Q ≤ P := by
  rw [abs_le] at h1 h2
  constructor
  · intro h
    by_contra hc
    rw [abs_of_neg (by linarith)] at hV
    linarith
  · intro h
    rw [abs_of_nonneg (by linarith)] at hV
    linarith

/-- The sign of the computed difference of two energies is right as soon as the amplitudes differ by `4 e`. -/
theorem energy_sign {M e : ℝ} (hM0 : 1 / 2 ^ 400 ≤ M) (hM : M ≤ 2 ^ 440) (he : M / 2 ^ 13 ≤ e) (he' : e ≤ 3 / 2 * M) {a b c d : Float}
    {A B C D : ℝ} (ha : Ap a A e ∧ |A| ≤ M) (hb : Ap b B e ∧ |B| ≤ M) (hc : Ap c C e ∧ |C| ≤ M) (hd : Ap d D e ∧ |D| ≤ M)
    (hV : 4 * e < |√(A ^ 2 + B ^ 2) - √(C ^ 2 + D ^ 2)|) :
    ∃ (δ P Q : ℝ), Ap ((a * a + b * b) - (c * c + d * d)) (P - Q) δ ∧ δ < |P - Q| ∧ (Q ≤ P ↔ C ^ 2 + D ^ 2 ≤ A ^ 2 + B ^ 2) := by
  have hMp : 0 < M := lt_of_lt_of_le (by positivity) hM0
  have hep : 0 < e := lt_of_lt_of_le (by positivity) he
  have size : ∀ {x : Float} {X : ℝ}, Ap x X e ∧ |X| ≤ M → |val x| ≤ 5 / 2 * M := by
    intro x X h
    have := abs_sub_abs_le_abs_sub (val x) X
    linarith [h.1.2, h.2]
  have near : ∀ {x y : Float} {X Y : ℝ}, Ap x X e ∧ |X| ≤ M → Ap y Y e ∧ |Y| ≤ M → |√(val x ^ 2 + val y ^ 2) - √(X ^ 2 + Y ^ 2)| ≤ 3 / 2 * e := by
    intro x y X Y h h'
    have e1 : ∀ u v : ℝ, √(u ^ 2 + v ^ 2) = ‖(⟨u, v⟩ : ℂ)‖ := fun u v => by
      rw [Complex.norm_def, Complex.normSq_mk]; congr 1; ring
    rw [e1, e1]
    refine (abs_norm_sub_norm_le _ _).trans ?_
    rw [show (⟨val x, val y⟩ : ℂ) - ⟨X, Y⟩ = ⟨val x - X, val y - Y⟩ from rfl, ← e1]
    refine Real.sqrt_le_iff.mpr ⟨by positivity, ?_⟩
    have h1 := sq_le_sq' (abs_le.mp h.1.2).1 (abs_le.mp h.1.2).2
    have h2 := sq_le_sq' (abs_le.mp h'.1.2).1 (abs_le.mp h'.1.2).2
    nlinarith
  have n1 := near ha hb
  have n2 := near hc hd
  have ra := size ha
  have rb := size hb
  have rc := size hc
  have rd := size hd
  have hsq : ∀ x y : ℝ, √(x ^ 2 + y ^ 2) ^ 2 = x ^ 2 + y ^ 2 := fun x y => Real.sq_sqrt (by positivity)
  have hroot : ∀ x y : ℝ, |x| ≤ √(x ^ 2 + y ^ 2) ∧ |y| ≤ √(x ^ 2 + y ^ 2) := fun x y =>
    ⟨Real.abs_le_sqrt (by nlinarith), Real.abs_le_sqrt (by nlinarith)⟩
  have hcap : ∀ x y : ℝ, |x| ≤ 5 / 2 * M → |y| ≤ 5 / 2 * M → √(x ^ 2 + y ^ 2) ≤ 4 * M := fun x y hx hy => by
    refine Real.sqrt_le_iff.mpr ⟨by positivity, ?_⟩
    have h1 := sq_le_sq' (abs_le.mp hx).1 (abs_le.mp hx).2
    have h2 := sq_le_sq' (abs_le.mp hy).1 (abs_le.mp hy).2
    nlinarith
  obtain ⟨T, hT1, hT2, hT3, hT4⟩ : ∃ T, √(val a ^ 2 + val b ^ 2) ≤ T ∧ √(val c ^ 2 + val d ^ 2) ≤ T ∧ T ≤ 4 * M ∧
      T ≤ √(val a ^ 2 + val b ^ 2) + √(val c ^ 2 + val d ^ 2) :=
    ⟨max _ _, le_max_left _ _, le_max_right _ _, max_le (hcap _ _ ra rb) (hcap _ _ rc rd),
      max_le (by linarith [Real.sqrt_nonneg (val c ^ 2 + val d ^ 2)]) (by linarith [Real.sqrt_nonneg (val a ^ 2 + val b ^ 2)])⟩
  have hgap : e ≤ |√(val a ^ 2 + val b ^ 2) - √(val c ^ 2 + val d ^ 2)| := by
    have h1 : √(A ^ 2 + B ^ 2) - √(C ^ 2 + D ^ 2) = (√(val a ^ 2 + val b ^ 2) - √(val c ^ 2 + val d ^ 2))
      - (√(val a ^ 2 + val b ^ 2) - √(A ^ 2 + B ^ 2)) + (√(val c ^ 2 + val d ^ 2) - √(C ^ 2 + D ^ 2)) := by ring
    have h2 := abs_add_le ((√(val a ^ 2 + val b ^ 2) - √(val c ^ 2 + val d ^ 2)) - (√(val a ^ 2 + val b ^ 2) - √(A ^ 2 + B ^ 2)))
      (√(val c ^ 2 + val d ^ 2) - √(C ^ 2 + D ^ 2))
    have h3 := abs_sub (√(val a ^ 2 + val b ^ 2) - √(val c ^ 2 + val d ^ 2)) (√(val a ^ 2 + val b ^ 2) - √(A ^ 2 + B ^ 2))
    rw [← h1] at h2
    linarith
  have hTe : e ≤ T := by
    refine hgap.trans (abs_le.mpr ⟨?_, ?_⟩)
    · linarith [Real.sqrt_nonneg (val a ^ 2 + val b ^ 2)]
    · linarith [Real.sqrt_nonneg (val c ^ 2 + val d ^ 2)]
  have hTp : 0 < T := hep.trans_le hTe
  have hT2M : T ^ 2 ≤ 2 ^ 884 := by
    calc T ^ 2 ≤ (2 ^ 442) ^ 2 := pow_le_pow_left₀ hTp.le (hT3.trans (by
          rw [show (2 : ℝ) ^ 442 = 4 * 2 ^ 440 by rw [show (4 : ℝ) = 2 ^ 2 by norm_num, ← pow_add]]
          exact mul_le_mul_of_nonneg_left hM (by norm_num))) 2
      _ = 2 ^ 884 := by rw [← pow_mul]
  have hTe2 : T ^ 2 ≤ 2 ^ 15 * (e * T) := by
    have : T ≤ 2 ^ 15 * e := hT3.trans (by norm_num at he ⊢; linarith)
    nlinarith
  have ht : tiny ≤ e * T / 2 ^ 60 := by
    have h1 : (1 : ℝ) / 2 ^ 413 ≤ e := by
      refine le_trans ?_ he
      rw [show (2 : ℝ) ^ 413 = 2 ^ 400 * 2 ^ 13 by rw [← pow_add], ← div_div]
      exact div_le_div_of_nonneg_right hM0 (by positivity)
    refine (tiny_le (k := 886) (by norm_num)).trans ?_
    rw [le_div_iff₀ (by positivity)]
    calc (1 : ℝ) / 2 ^ 886 * 2 ^ 60 = 1 / 2 ^ 413 * (1 / 2 ^ 413) := by
          rw [show (2 : ℝ) ^ 886 = 2 ^ 413 * 2 ^ 413 * 2 ^ 60 by rw [← pow_add, ← pow_add]]; field_simp
      _ ≤ e * T := mul_le_mul h1 (h1.trans hTe) (by positivity) hep.le
  have big : ∀ {x : ℝ}, x ≤ 64 * T ^ 2 → x ≤ 2 ^ (1023 : ℤ) := by
    intro x hx
    refine le_big (k := 890) (by norm_num) (hx.trans ?_)
    rw [show (2 : ℝ) ^ 890 = 64 * 2 ^ 884 by rw [show (64 : ℝ) = 2 ^ 6 by norm_num, ← pow_add]]
    exact mul_le_mul_of_nonneg_left hT2M (by norm_num)
  have hQ : 0 < e * T := by positivity
  have hQ2 : e * T ≤ T ^ 2 := by nlinarith
  have sq : ∀ {x : Float} {X : ℝ}, Ap x X e → |val x| ≤ T → Ap (x * x) (val x ^ 2) (e * T / 2 ^ 37) ∧ |val x ^ 2| ≤ T ^ 2 := by
    intro x X h h'
    refine ⟨?_, by rw [abs_pow]; exact pow_le_pow_left₀ (abs_nonneg _) h' 2⟩
    rw [pow_two (val x)]
    refine ((Ap.exact h.1).mul (Ap.exact h.1) h' h' (big ?_)).mono ?_
    · nlinarith
    · rw [uu_eq]
      generalize e * T = K at *
      rw [← pow_two T]
      generalize T ^ 2 = Q at *
      norm_num at ht hTe2 ⊢
      linarith
  have sa := sq ha.1 ((hroot _ _).1.trans hT1)
  have sb := sq hb.1 ((hroot _ _).2.trans hT1)
  have sc := sq hc.1 ((hroot _ _).1.trans hT2)
  have sd := sq hd.1 ((hroot _ _).2.trans hT2)
  have add : ∀ {x y : Float} {X Y : ℝ}, Ap x X (e * T / 2 ^ 37) ∧ |X| ≤ T ^ 2 → Ap y Y (e * T / 2 ^ 37) ∧ |Y| ≤ T ^ 2 →
      Ap (x + y) (X + Y) (e * T / 2 ^ 33) ∧ |X + Y| ≤ 2 * T ^ 2 := by
    intro x y X Y h h'
    have hb : |X + Y| ≤ 2 * T ^ 2 := (abs_add_le _ _).trans (by linarith [h.2, h'.2])
    refine ⟨(h.1.add h'.1 hb (big ?_)).mono ?_, hb⟩
    · norm_num; linarith
    · rw [uu_eq]
      norm_num at ht hTe2 ⊢
      linarith
  have s1 := add sa sb
  have s2 := add sc sd
  have hb : |val a ^ 2 + val b ^ 2 - (val c ^ 2 + val d ^ 2)| ≤ 4 * T ^ 2 := (abs_sub _ _).trans (by linarith [s1.2, s2.2])
  refine ⟨e * T / 2, val a ^ 2 + val b ^ 2, val c ^ 2 + val d ^ 2, (s1.1.sub s2.1 hb (big ?_)).mono ?_, ?_, ?_⟩
  · norm_num; linarith
  · rw [uu_eq]
    norm_num at ht hTe2 ⊢
    linarith
  · have h1 : val a ^ 2 + val b ^ 2 - (val c ^ 2 + val d ^ 2) = (√(val a ^ 2 + val b ^ 2) - √(val c ^ 2 + val d ^ 2))
        * (√(val a ^ 2 + val b ^ 2) + √(val c ^ 2 + val d ^ 2)) := by
      linear_combination hsq (val c) (val d) - hsq (val a) (val b)
    rw [h1, abs_mul, abs_of_nonneg (add_nonneg (Real.sqrt_nonneg (val a ^ 2 + val b ^ 2)) (Real.sqrt_nonneg (val c ^ 2 + val d ^ 2)))]
    have := mul_le_mul hgap hT4 hTp.le (abs_nonneg _)
    linarith
  · rw [← Real.sqrt_le_sqrt_iff (by positivity), ← Real.sqrt_le_sqrt_iff (x := C ^ 2 + D ^ 2) (by positivity)]
    exact close_order hV n1 n2

end Verif.F64

namespace Verif
open Spec F64

/-- The four correlations of the FSK receiver on block number `n`, for arbitrary samples. -/
theorem rxFskChunk_corr {L : Libm} {ε : ℝ} (hε : ε ≤ 1 / 2 ^ 10) (hL : Accurate L ε (2 ^ 40)) {fs k n : ℕ} {fc : FloatL L}
    (hfs0 : 0 < fs) (hfs : fs < 2 ^ 53) (hk : 0 < k) (hlen : n + k ≤ 2 ^ 31) (hf : Fin fc) (hlo : 1 / 2 ^ 90 ≤ val fc)
    (hhi : val fc ≤ fs / 2) {w : Bool → ℝ} (hw : ∀ b, w b = 2 * Real.pi * (val fc * (if b then 1.025 else 0.975)) / fs)
    {x : ℕ → FloatL L} {X : ℕ → ℝ} {τ S : ℝ} (hS0 : 1 / 2 ^ 400 ≤ S) (hS1 : S ≤ 2 ^ 400) (hx : ∀ j < k, Ap (x j) (X j) τ)
    (hX : ∀ j < k, |X j| + τ ≤ S) :
    ∃ (a b c d : Float) (A B C D : ℝ), rxFskChunk fs fc n ((List.range k).map x) = Flt.le 0 ((a * a + b * b) - (c * c + d * d)) ∧
      A ^ 2 + B ^ 2 = toneEnergy (w true) k X ∧ C ^ 2 + D ^ 2 = toneEnergy (w false) k X ∧
      1 / 2 ^ 400 ≤ (k : ℝ) * S ∧ (k : ℝ) * S ≤ 2 ^ 440 ∧ (k : ℝ) * S / 2 ^ 13 ≤ k * (τ + S * (ε + 1 / 2 ^ 13)) ∧
      (k : ℝ) * (τ + S * (ε + 1 / 2 ^ 13)) ≤ 3 / 2 * (k * S) ∧
      (Ap a A (k * (τ + S * (ε + 1 / 2 ^ 13))) ∧ |A| ≤ k * S) ∧ (Ap b B (k * (τ + S * (ε + 1 / 2 ^ 13))) ∧ |B| ≤ k * S) ∧
      (Ap c C (k * (τ + S * (ε + 1 / 2 ^ 13))) ∧ |C| ≤ k * S) ∧ (Ap d D (k * (τ + S * (ε + 1 / 2 ^ 13))) ∧ |D| ≤ k * S) := by
  obtain ⟨g, rfl⟩ : ∃ g : Float, @Eq (FloatL L) g fc := ⟨fc, rfl⟩
  obtain ⟨y, rfl⟩ : ∃ y : ℕ → Float, @Eq (ℕ → FloatL L) y x := ⟨x, rfl⟩
  have hfsR : (0 : ℝ) < fs := by exact_mod_cast hfs0
  have hfs53 : (fs : ℝ) < 2 ^ 53 := by exact_mod_cast hfs
  have hv0 : 0 < val g := lt_of_lt_of_le (by norm_num) hlo
  have hhi90 : val g ≤ 2 ^ 90 := by
    refine hhi.trans ?_
    have : (2 : ℝ) ^ 53 ≤ 2 ^ 90 := by norm_num
    linarith
  obtain ⟨t1, t2, -, -⟩ := tone_rel hf hlo hhi90
  have fr : ∀ b : Bool, 1 / 2 ^ 100 ≤ (if b then 1.025 else 0.975) * val g ∧ (if b then 1.025 else 0.975) * val g ≤ 2 ^ 100 ∧
      (if b then 1.025 else 0.975) * val g ≤ 0.5125 * fs := by
    intro b
    norm_num at hlo hhi90
    cases b <;> norm_num <;> refine ⟨?_, ?_, ?_⟩ <;> linarith
  have tm : ∀ i : ℕ, i ≤ 2 ^ 31 → ((i : ℝ) / fs = 0 ∨ 1 / 2 ^ 100 ≤ (i : ℝ) / fs) ∧ (i : ℝ) / fs ≤ 2 ^ 100 ∧
      ∀ r : ℝ, r ≤ 0.5125 * fs → r * (i / fs) ≤ 2 ^ 31 := by
    intro i hi
    have hi32 : (i : ℝ) ≤ 2 ^ 31 := by exact_mod_cast hi
    have hfs1 : (1 : ℝ) ≤ fs := by exact_mod_cast hfs0
    refine ⟨?_, ?_, ?_⟩
    · rcases Nat.eq_zero_or_pos i with h | h
      · left; rw [h]; simp
      · right
        have h1 : (1 : ℝ) ≤ (i : ℝ) := by exact_mod_cast h
        rw [div_le_div_iff₀ (by norm_num) hfsR, one_mul]
        have : (2 : ℝ) ^ 53 ≤ 2 ^ 100 := by norm_num
        exact (hfs53.le.trans this).trans (le_mul_of_one_le_left (by norm_num) h1)
    · refine (div_le_self (by positivity) hfs1).trans (hi32.trans (by norm_num))
    · intro r hr
      rw [← mul_div_assoc, div_le_iff₀ hfsR]
      have : r * i ≤ 0.5125 * fs * i := mul_le_mul_of_nonneg_right hr (by positivity)
      have h2 : (fs : ℝ) * i ≤ fs * 2 ^ 31 := mul_le_mul_of_nonneg_left hi32 hfsR.le
      have h3 : 0 ≤ (fs : ℝ) * i := by positivity
      norm_num at h2 ⊢
      nlinarith
  have cs : ∀ (c : Bool) (f : Float), Rel f ((if c then 1.025 else 0.975) * val g) (8 * uu) → ∀ j < k,
      Ap (L.cos (F64.ofNat 2 * Flt.pi * f * (F64.ofNat n / F64.ofNat fs + F64.ofNat j / F64.ofNat fs)))
        (Real.cos (w c * n + w c * j)) (ε + 1 / 2 ^ 14) ∧
      Ap (L.sin (F64.ofNat 2 * Flt.pi * f * (F64.ofNat n / F64.ofNat fs + F64.ofNat j / F64.ofNat fs)))
        (Real.sin (w c * n + w c * j)) (ε + 1 / 2 ^ 14) := by
    intro c f hfr j hj
    obtain ⟨a1, a2, a3⟩ := tm (n + j) (by omega)
    obtain ⟨b1, b2, b3⟩ := fr c
    have h := osc_near hL hfr (time_rel (n := n) (j := j) hfs0 hfs (by omega) (by omega)) b1 b2 a1 a2 (a3 _ b3)
    rw [show 2 * Real.pi * ((if c then 1.025 else 0.975) * val g) * (((n + j : ℕ) : ℝ) / fs) = w c * n + w c * j by
      rw [hw]; push_cast; ring] at h
    exact h
  have ct := cs true _ t1
  have cf := cs false _ t2
  have hSp : 0 < S := lt_of_lt_of_le (by positivity) hS0
  have hk1 : (1 : ℝ) ≤ k := by exact_mod_cast hk
  have hk32 : (k : ℝ) ≤ 2 ^ 32 := by
    have : k ≤ 2 ^ 32 := by omega
    exact_mod_cast this
  have hτ : 0 ≤ τ := (hx 0 hk).nonneg
  have hτS : τ ≤ S := by have := hX 0 hk; have := abs_nonneg (X 0); linarith
  have hε0 : 0 ≤ ε + 1 / 2 ^ 14 := (ct 0 hk).1.nonneg
  have hη : ε + 1 / 2 ^ 14 ≤ 1 / 2 := by norm_num at hε ⊢; linarith
  have l900 : (1 : ℝ) / 2 ^ 900 ≤ S := by
    refine le_trans ?_ hS0
    exact one_div_le_one_div_of_le (by positivity) (pow_le_pow_right₀ (by norm_num) (by norm_num))
  have h900 : S ≤ 2 ^ 900 := hS1.trans (pow_le_pow_right₀ (by norm_num) (by norm_num))
  have k32 : k ≤ 2 ^ 32 := by omega
  -- the four correlations
  have corr : ∀ {c : ℕ → Float} {C : ℕ → ℝ}, (∀ j < k, Ap (c j) (C j) (ε + 1 / 2 ^ 14)) → (∀ j < k, |C j| ≤ 1) →
      Ap (rsum ((List.range k).map (fun j => y j * c j)) : Float) (∑ j ∈ Finset.range k, X j * C j)
        (k * (τ + S * (ε + 1 / 2 ^ 13))) ∧ |∑ j ∈ Finset.range k, X j * C j| ≤ k * S := by
    intro c C h1 h2
    constructor
    · refine (corr_bound k32 hη l900 h900 hX hx h1 h2).mono ?_
      apply mul_le_mul_of_nonneg_left _ (by positivity)
      have : S * (ε + 1 / 2 ^ 14 + 1 / 2 ^ 18) ≤ S * (ε + 1 / 2 ^ 13) := mul_le_mul_of_nonneg_left (by norm_num; linarith) hSp.le
      linarith
    · refine (Finset.abs_sum_le_sum_abs _ _).trans ((Finset.sum_le_sum (g := fun _ => S) fun j hj => ?_).trans (by simp))
      have hj := Finset.mem_range.mp hj
      rw [abs_mul]
      have a := hX j hj
      have b := h2 j hj
      calc |X j| * |C j| ≤ |X j| * 1 := mul_le_mul_of_nonneg_left b (abs_nonneg _)
        _ ≤ S := by linarith
  have s1 := corr (fun j hj => (ct j hj).1) (fun j _ => Real.abs_cos_le_one _)
  have s2 := corr (fun j hj => (ct j hj).2) (fun j _ => Real.abs_sin_le_one _)
  have s3 := corr (fun j hj => (cf j hj).1) (fun j _ => Real.abs_cos_le_one _)
  have s4 := corr (fun j hj => (cf j hj).2) (fun j _ => Real.abs_sin_le_one _)
  have hM0 : 1 / 2 ^ 400 ≤ (k : ℝ) * S := hS0.trans (le_mul_of_one_le_left hSp.le hk1)
  have hM : (k : ℝ) * S ≤ 2 ^ 440 := by
    calc (k : ℝ) * S ≤ 2 ^ 32 * 2 ^ 400 := mul_le_mul hk32 hS1 hSp.le (by positivity)
      _ = 2 ^ 432 := by rw [← pow_add]
      _ ≤ 2 ^ 440 := pow_le_pow_right₀ (by norm_num) (by norm_num)
  have he : (k : ℝ) * S / 2 ^ 13 ≤ k * (τ + S * (ε + 1 / 2 ^ 13)) := by
    rw [mul_div_assoc]
    apply mul_le_mul_of_nonneg_left _ (by positivity)
    have hε1 : 0 ≤ ε := (hL 0 fin_zero (by rw [val_zero]; norm_num)).1.nonneg
    have : S * (1 / 2 ^ 13) ≤ S * (ε + 1 / 2 ^ 13) := mul_le_mul_of_nonneg_left (by linarith) hSp.le
    linarith [show S * (1 / 2 ^ 13) = S / 2 ^ 13 by ring]
  have he' : (k : ℝ) * (τ + S * (ε + 1 / 2 ^ 13)) ≤ 3 / 2 * (k * S) := by
    have h1 : S * (ε + 1 / 2 ^ 13) ≤ S * (1 / 2) := mul_le_mul_of_nonneg_left (by norm_num at hε ⊢; linarith) hSp.le
    have : (k : ℝ) * (τ + S * (ε + 1 / 2 ^ 13)) ≤ k * (3 / 2 * S) := mul_le_mul_of_nonneg_left (by linarith) (by positivity)
    linarith
  refine ⟨_, _, _, _, _, _, _, _, rxFskChunk_range (F := FloatL L) fs g n k y, ?_, ?_, hM0, hM, he, he', s1, s2, s3, s4⟩
  · exact toneEnergy_shift (w true) (w true * n) k X
  · exact toneEnergy_shift (w false) (w false * n) k X

/-- Decision of the FSK receiver on block number `n`, for arbitrary samples. -/
theorem rxFskChunk_near {L : Libm} {ε : ℝ} (hε : ε ≤ 1 / 2 ^ 10) (hL : Accurate L ε (2 ^ 40)) {fs k n : ℕ} {fc : FloatL L}
    (hfs0 : 0 < fs) (hfs : fs < 2 ^ 53) (hk : 0 < k) (hlen : n + k ≤ 2 ^ 31) (hf : Fin fc) (hlo : 1 / 2 ^ 90 ≤ val fc)
    (hhi : val fc ≤ fs / 2) {w : Bool → ℝ} (hw : ∀ b, w b = 2 * Real.pi * (val fc * (if b then 1.025 else 0.975)) / fs)
    {x : ℕ → FloatL L} {X : ℕ → ℝ} {τ S : ℝ} (hS0 : 1 / 2 ^ 400 ≤ S) (hS1 : S ≤ 2 ^ 400) (hx : ∀ j < k, Ap (x j) (X j) τ)
    (hX : ∀ j < k, |X j| + τ ≤ S)
    (hE : 16 * (k : ℝ) ^ 2 * (S * (τ + S * (ε + 1 / 2 ^ 13))) < |toneEnergy (w true) k X - toneEnergy (w false) k X|) :
    rxFskChunk fs fc n ((List.range k).map x) = decide (toneEnergy (w false) k X ≤ toneEnergy (w true) k X) := by
  obtain ⟨a, b, c, d, A, B, C, D, e1, e2, e3, hM0, hM, he, he', s1, s2, s3, s4⟩ := rxFskChunk_corr (n := n) hε hL hfs0 hfs hk hlen hf hlo hhi hw hS0 hS1 hx hX
  have en := energy_bound hM0 hM he he' s1 s2 s3 s4
  rw [e2, e3,
    show 16 * ((k : ℝ) * S * (k * (τ + S * (ε + 1 / 2 ^ 13)))) = 16 * (k : ℝ) ^ 2 * (S * (τ + S * (ε + 1 / 2 ^ 13))) by ring] at en
  rw [e1]
  refine (en.le_decide hE).trans ?_
  rw [decide_eq_decide, sub_nonneg]

/-- The same with a margin for the amplitudes. -/
theorem rxFskChunk_amp {L : Libm} {ε : ℝ} (hε : ε ≤ 1 / 2 ^ 10) (hL : Accurate L ε (2 ^ 40)) {fs k n : ℕ} {fc : FloatL L}
    (hfs0 : 0 < fs) (hfs : fs < 2 ^ 53) (hk : 0 < k) (hlen : n + k ≤ 2 ^ 31) (hf : Fin fc) (hlo : 1 / 2 ^ 90 ≤ val fc)
    (hhi : val fc ≤ fs / 2) {w : Bool → ℝ} (hw : ∀ b, w b = 2 * Real.pi * (val fc * (if b then 1.025 else 0.975)) / fs)
    {x : ℕ → FloatL L} {X : ℕ → ℝ} {τ S : ℝ} (hS0 : 1 / 2 ^ 400 ≤ S) (hS1 : S ≤ 2 ^ 400) (hx : ∀ j < k, Ap (x j) (X j) τ)
    (hX : ∀ j < k, |X j| + τ ≤ S)
    (hE : 4 * (k * (τ + S * (ε + 1 / 2 ^ 13))) < |√(toneEnergy (w true) k X) - √(toneEnergy (w false) k X)|) :
    rxFskChunk fs fc n ((List.range k).map x) = decide (toneEnergy (w false) k X ≤ toneEnergy (w true) k X) := by
  obtain ⟨a, b, c, d, A, B, C, D, e1, e2, e3, hM0, hM, he, he', s1, s2, s3, s4⟩ := rxFskChunk_corr (n := n) hε hL hfs0 hfs hk hlen hf hlo hhi hw hS0 hS1 hx hX
  rw [← e2, ← e3] at hE ⊢
  obtain ⟨δ, P, Q, h1, h2, h3⟩ := energy_sign hM0 hM he he' s1 s2 s3 s4 hE
  rw [e1]
  refine (h1.le_decide h2).trans ?_
  rw [decide_eq_decide, sub_nonneg, h3]

end Verif
