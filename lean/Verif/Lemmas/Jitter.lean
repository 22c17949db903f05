import Verif.Lemmas.Fading

/-! # Correlating with a carrier whose phase wanders during the symbol -/
namespace Verif
open Spec
variable {κ : Type}

theorem trig_near {t τ : ℝ} (ht : |t| ≤ τ) (hτ : τ ≤ Real.pi / 2) :
    Real.cos τ ≤ Real.cos t ∧ |Real.sin t| ≤ Real.sin τ := by
  have hpi := Real.pi_pos
  have h0 : 0 ≤ |t| := abs_nonneg t
  constructor
  · rw [← Real.cos_abs t]
    exact Real.cos_le_cos_of_nonneg_of_le_pi h0 (by linarith) ht
  · rw [Real.abs_sin_eq_sin_abs_of_abs_le_pi (by linarith)]
    exact Real.sin_le_sin_of_le_of_le_pi_div_two (by linarith) hτ ht

theorem cos_sin_half (a : ℝ) : |Real.cos a * Real.sin a| ≤ 1 / 2 := by
  rw [abs_le]
  have := Real.sin_sq_add_cos_sq a
  constructor <;> nlinarith [sq_nonneg (Real.cos a + Real.sin a), sq_nonneg (Real.cos a - Real.sin a)]

/-- The phase error stays below an eighth of a turn. -/
theorem jitter_cos {k : ℕ} (hk : 0 < k) {d : ℝ} {p : ℤ} (hp : k * d = p * Real.pi) (hs : Real.sin d ≠ 0) {t : ℕ → ℝ} {τ : ℝ}
    (hτ : τ < Real.pi / 4) (ht : ∀ j < k, |t j| ≤ τ) (m : ℕ) :
    0 < ∑ j ∈ Finset.range k, Real.cos ((m + j : ℕ) * d + t j) * Real.cos ((m + j : ℕ) * d) := by
  have hpi := Real.pi_pos
  have h0 : 0 ≤ τ := (abs_nonneg _).trans (ht 0 hk)
  have e1 := sum_cos_sq_half hp hs m
  have hk' : (0 : ℝ) < k := by exact_mod_cast hk
  have hcs : Real.sin τ < Real.cos τ := by
    have : 0 < Real.cos (τ + Real.pi / 4) := Real.cos_pos_of_mem_Ioo ⟨by linarith, by linarith⟩
    rw [Real.cos_add, Real.sin_pi_div_four, Real.cos_pi_div_four] at this
    have h2 : (0 : ℝ) < √2 / 2 := by positivity
    nlinarith
  have hb : ∀ j ∈ Finset.range k, Real.cos τ * Real.cos ((m + j : ℕ) * d) ^ 2 - Real.sin τ / 2
      ≤ Real.cos ((m + j : ℕ) * d + t j) * Real.cos ((m + j : ℕ) * d) := by
    intro j hj
    obtain ⟨h1, h2⟩ := trig_near (ht j (Finset.mem_range.mp hj)) (by linarith)
    rw [Real.cos_add]
    set a := ((m + j : ℕ) : ℝ) * d
    have h3 : |Real.cos a * Real.sin a * Real.sin (t j)| ≤ Real.sin τ / 2 := by
      rw [abs_mul]
      calc _ ≤ 1 / 2 * Real.sin τ := mul_le_mul (cos_sin_half a) h2 (abs_nonneg _) (by norm_num)
        _ = _ := by ring
    have h4 := (abs_le.mp h3).2
    nlinarith [mul_le_mul_of_nonneg_right h1 (sq_nonneg (Real.cos a))]
  refine lt_of_lt_of_le ?_ (Finset.sum_le_sum hb)
  rw [Finset.sum_sub_distrib, ← Finset.mul_sum, e1, Finset.sum_const, Finset.card_range, nsmul_eq_mul]
  nlinarith

/-- The phase error is so small that neither quadrature component of a QPSK symbol changes sign. -/
theorem jitter_quad {k : ℕ} (hk : 0 < k) {d : ℝ} {p : ℤ} (hp : k * d = p * Real.pi) (hs : Real.sin d ≠ 0) {t : ℕ → ℝ} {τ : ℝ}
    (hτ : τ ≤ Real.pi / 2) (hcs : 2 * Real.sin τ + 1 < 2 * Real.cos τ) (ht : ∀ j < k, |t j| ≤ τ) (m : ℕ) {z : ℝ}
    (hz : |z| = 1) :
    0 < ∑ j ∈ Finset.range k, (Real.cos ((m + j : ℕ) * d + t j) - z * Real.sin ((m + j : ℕ) * d + t j))
      * Real.cos ((m + j : ℕ) * d) ∧
    0 < ∑ j ∈ Finset.range k, (Real.sin ((m + j : ℕ) * d + t j) - z * Real.cos ((m + j : ℕ) * d + t j))
      * Real.sin ((m + j : ℕ) * d) := by
  have hk' : (0 : ℝ) < k := by exact_mod_cast hk
  have e1 := sum_cos_sq_half hp hs m
  have e2 := sum_sin_sq_half hp hs m
  have e3 := sum_cos_sin_half hp hs m
  have hzz : ∀ x : ℝ, |z * x| = |x| := fun x => by rw [abs_mul, hz, one_mul]
  constructor
  · have hb : ∀ j ∈ Finset.range k, (Real.cos τ - Real.sin τ) * Real.cos ((m + j : ℕ) * d) ^ 2
        - (Real.sin τ + 1 - Real.cos τ) / 2 - z * (Real.cos ((m + j : ℕ) * d) * Real.sin ((m + j : ℕ) * d))
        ≤ (Real.cos ((m + j : ℕ) * d + t j) - z * Real.sin ((m + j : ℕ) * d + t j)) * Real.cos ((m + j : ℕ) * d) := by
      intro j hj
      obtain ⟨h1, h2⟩ := trig_near (ht j (Finset.mem_range.mp hj)) hτ
      rw [Real.cos_add, Real.sin_add]
      set a := ((m + j : ℕ) : ℝ) * d
      have g1 : Real.cos τ - Real.sin τ ≤ Real.cos (t j) - z * Real.sin (t j) := by
        have := (abs_le.mp ((hzz (Real.sin (t j))).trans_le h2)).2
        linarith
      have g2 : |Real.sin (t j) + z * (Real.cos (t j) - 1)| ≤ Real.sin τ + 1 - Real.cos τ := by
        refine (abs_add_le _ _).trans ?_
        rw [hzz, abs_sub_comm (Real.cos _), abs_of_nonneg (a := 1 - _) (by linarith [Real.cos_le_one (t j)])]
        linarith
      have g3 : |Real.cos a * Real.sin a * (Real.sin (t j) + z * (Real.cos (t j) - 1))| ≤ (Real.sin τ + 1 - Real.cos τ) / 2 := by
        rw [abs_mul]
        calc _ ≤ 1 / 2 * (Real.sin τ + 1 - Real.cos τ) := mul_le_mul (cos_sin_half a) g2 (abs_nonneg _) (by norm_num)
          _ = _ := by ring
      have g4 := (abs_le.mp g3).2
      nlinarith [mul_le_mul_of_nonneg_right g1 (sq_nonneg (Real.cos a))]
    refine lt_of_lt_of_le ?_ (Finset.sum_le_sum hb)
    rw [Finset.sum_sub_distrib, Finset.sum_sub_distrib, ← Finset.mul_sum, ← Finset.mul_sum, e1, e3, Finset.sum_const,
      Finset.card_range, nsmul_eq_mul]
    nlinarith
  · have hb : ∀ j ∈ Finset.range k, (Real.cos τ - Real.sin τ) * Real.sin ((m + j : ℕ) * d) ^ 2
        - (Real.sin τ + 1 - Real.cos τ) / 2 - z * (Real.cos ((m + j : ℕ) * d) * Real.sin ((m + j : ℕ) * d))
        ≤ (Real.sin ((m + j : ℕ) * d + t j) - z * Real.cos ((m + j : ℕ) * d + t j)) * Real.sin ((m + j : ℕ) * d) := by
      intro j hj
      obtain ⟨h1, h2⟩ := trig_near (ht j (Finset.mem_range.mp hj)) hτ
      rw [Real.cos_add, Real.sin_add]
      set a := ((m + j : ℕ) : ℝ) * d
      have g1 : Real.cos τ - Real.sin τ ≤ Real.cos (t j) + z * Real.sin (t j) := by
        have := (abs_le.mp ((hzz (Real.sin (t j))).trans_le h2)).1
        linarith
      have g2 : |Real.sin (t j) - z * (Real.cos (t j) - 1)| ≤ Real.sin τ + 1 - Real.cos τ := by
        refine (abs_sub _ _).trans ?_
        rw [hzz, abs_sub_comm (Real.cos _), abs_of_nonneg (a := 1 - _) (by linarith [Real.cos_le_one (t j)])]
        linarith
      have g3 : |Real.cos a * Real.sin a * (Real.sin (t j) - z * (Real.cos (t j) - 1))| ≤ (Real.sin τ + 1 - Real.cos τ) / 2 := by
        rw [abs_mul]
        calc _ ≤ 1 / 2 * (Real.sin τ + 1 - Real.cos τ) := mul_le_mul (cos_sin_half a) g2 (abs_nonneg _) (by norm_num)
          _ = _ := by ring
      have g4 := (abs_le.mp g3).1
      nlinarith [mul_le_mul_of_nonneg_right g1 (sq_nonneg (Real.sin a))]
    refine lt_of_lt_of_le ?_ (Finset.sum_le_sum hb)
    rw [Finset.sum_sub_distrib, Finset.sum_sub_distrib, ← Finset.mul_sum, ← Finset.mul_sum, e2, e3, Finset.sum_const,
      Finset.card_range, nsmul_eq_mul]
    nlinarith

/-- BPSK on any recording. -/
theorem rxBpsk_recording [RIter κ ℝ] {fs sym N : ℕ} {fc : ℝ} (hsps : 0 < fs / sym) {s : ℕ → ℕ → ℝ} {r : List ℝ}
    (h : Recording r N (fs / sym) s) {rcv : κ} (hr : Yields rcv r) :
    (do let rx ← rxBpsk rcv fs sym fc; collect rx) = pure ((List.range N).map (fun n =>
      decide (0 < ∑ j ∈ Finset.range (fs / sym), s n (n * (fs / sym) + j) * Real.cos ((n * (fs / sym) + j : ℕ) * dphi fs fc)))) := by
  obtain ⟨it, e1, e2⟩ := rxBpsk_wave (fc := fc) hsps (hr.of_eq (recording_wave hsps h))
  rw [e1, pure_bind, collect_of_yields e2, ← mapIdx_range_self]
  congr 1
  apply mapIdx_congr'
  intro n a _
  rw [rsum_range, Flt.lt_real]
  simp only [phase_real, Flt.cos_real]

/-- QPSK on any recording. -/
theorem rxQpsk_recording [RIter κ ℝ] {fs sym N : ℕ} {fc : ℝ} (hsps : 0 < fs / sym) {s : ℕ → ℕ → ℝ} {r : List ℝ}
    (h : Recording r N (fs / sym) s) {rcv : κ} (hr : Yields rcv r) :
    (do let rx ← rxQpsk rcv fs sym fc; collect rx) = pure ((List.range N).flatMap (fun n =>
      [decide (0 ≤ ∑ j ∈ Finset.range (fs / sym), s n (n * (fs / sym) + j) * Real.cos ((n * (fs / sym) + j : ℕ) * dphi fs fc)),
       decide (0 ≤ ∑ j ∈ Finset.range (fs / sym), s n (n * (fs / sym) + j) * -Real.sin ((n * (fs / sym) + j : ℕ) * dphi fs fc))])) := by
  obtain ⟨it, e1, e2⟩ := rxQpsk_wave (fc := fc) hsps (hr.of_eq (recording_wave hsps h))
  rw [e1, pure_bind, collect_of_yields e2, List.flatMap_def, ← mapIdx_range_self]
  congr 2
  apply mapIdx_congr'
  intro n a _
  rw [rsum_range, rsum_range, Flt.le_real, Flt.le_real]
  simp only [phase_real, Flt.cos_real, Flt.sin_real]

/-- Removing the chips from a recording. -/
theorem recording_despread {key : List Bool} {c N k : ℕ} {s : ℕ → ℕ → ℝ} {r : List ℝ}
    (h : Recording r N k (fun n i => s n i * (if key.getD (i / c % key.length) false then 1 else -1))) :
    Recording (r.mapIdx (fun i x => x * bitToNrz (keyBit key c i))) N k s := by
  refine ⟨by rw [List.length_mapIdx, h.1], ?_⟩
  intro i hi
  rw [List.getElem?_mapIdx, h.2 i hi, Option.map_some, Option.some.injEq]
  beta_reduce
  rw [show (if key.getD (i / c % key.length) false then (1 : ℝ) else -1)
    = bitToNrz (keyBit key c i) by rw [bitToNrz_real]; rfl, mul_assoc, bitToNrz_sq, mul_one]

end Verif
