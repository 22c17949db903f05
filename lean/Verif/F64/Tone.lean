import Verif.F64.Carrier
import Verif.F64.Sign
import Verif.Lemmas.Fsk

/-! # FSK tones and tone energies in IEEE arithmetic -/
namespace Verif.F64

theorem Rel.add_of {a b : Float} {r s α β γ : ℝ} (ha : Rel a r α) (hb : Rel b s β) (hγ : α * |r| + β * |s| ≤ γ * |r + s|)
    (hγ' : γ ≤ 1 / 2) (hlo : r + s = 0 ∨ (2 : ℝ) ^ (-1000 : ℤ) ≤ |r + s|) (hhi : |r + s| ≤ 2 ^ (1000 : ℤ)) :
    Rel (a + b) (r + s) (γ + (1 + γ) * uu) := by
  refine .of_good (add_good ha.1 hb.1) ?_ hγ' hlo hhi
  rw [show val a + val b - (r + s) = (val a - r) + (val b - s) by ring]
  exact (abs_add_le _ _).trans ((add_le_add ha.2 hb.2).trans hγ)

theorem Rel.sub_of {a b : Float} {r s α β γ : ℝ} (ha : Rel a r α) (hb : Rel b s β) (hγ : α * |r| + β * |s| ≤ γ * |r - s|)
    (hγ' : γ ≤ 1 / 2) (hlo : r - s = 0 ∨ (2 : ℝ) ^ (-1000 : ℤ) ≤ |r - s|) (hhi : |r - s| ≤ 2 ^ (1000 : ℤ)) :
    Rel (a - b) (r - s) (γ + (1 + γ) * uu) := by
  refine .of_good (sub_good ha.1 hb.1) ?_ hγ' hlo hhi
  rw [show val a - val b - (r - s) = (val a - r) - (val b - s) by ring]
  exact (abs_sub _ _).trans ((add_le_add ha.2 hb.2).trans hγ)

theorem Rel.div_nat {a : Float} {r α : ℝ} (ha : Rel a r α) {n : ℕ} (hn : 0 < n) (hn' : n ≤ 2 ^ 53) (hα : α ≤ 1 / 2)
    (hlo : r / n = 0 ∨ (2 : ℝ) ^ (-1000 : ℤ) ≤ |r / n|) (hhi : |r / n| ≤ 2 ^ (1000 : ℤ)) :
    Rel (a / F64.ofNat n) (r / n) (α + (1 + α) * uu) := by
  obtain ⟨fn, vn⟩ := ofNat_exact hn'
  have hnR : (0 : ℝ) < n := by exact_mod_cast hn
  refine .of_good (div_good ha.1 fn (by rw [vn]; exact hnR.ne')) ?_ hα hlo hhi
  rw [vn, ← sub_div, abs_div, abs_div, abs_of_pos hnR, ← mul_div_assoc]
  gcongr
  exact ha.2

/-- The literal `0.05`. -/
theorem lit05_rel : Rel (F64.lit 5 2) (5 / 100) (2 * uu) := by
  obtain ⟨h1, h2⟩ := lit_val (m := 5) (e := 2) (by norm_num) (by norm_num) (by norm_num) (by norm_num)
  refine ⟨h1, ?_⟩
  rw [h2, show ((5 : ℕ) : ℝ) / 10 ^ 2 = 5 / 100 by norm_num]
  refine (abs_rnd_sub_le_abs _).trans (max_le ?_ ?_)
  · rw [mul_comm, show (2 : ℝ) ^ (-53 : ℤ) = uu from rfl]
    exact mul_le_mul_of_nonneg_right (by linarith [uu_pos]) (abs_nonneg _)
  · refine (tiny_le (k := 100) (by norm_num)).trans ?_
    rw [uu_eq, abs_of_pos (by norm_num)]; norm_num

/-- Half the tone separation. -/
theorem halfSep_rel {fc : Float} (hf : Fin fc) (hlo : 1 / 2 ^ 90 ≤ val fc) (hhi : val fc ≤ 2 ^ 90) :
    Rel (F64.lit 5 2 * fc / F64.ofNat 2) (5 / 100 * val fc / (2 : ℕ)) (6 * uu) := by
  have hu := uu_eq
  have h0 : 0 < val fc := lt_of_lt_of_le (by norm_num) hlo
  have h1 := lit05_rel.mul (Rel.exact hf) (by rw [hu]; norm_num) (.inr (by
      refine (small_le (k := 100) (by norm_num)).trans ?_
      rw [abs_of_pos (by positivity)]
      norm_num at hlo ⊢; linarith)) (by
      refine le_thousand (k := 90) (by norm_num) ?_
      rw [abs_of_pos (by positivity)]; linarith)
  replace h1 := h1.mono (η' := 4 * uu) (by rw [hu]; norm_num)
  refine (h1.div_nat (n := 2) (by norm_num) (by norm_num) (by rw [hu]; norm_num) (.inr ?_) ?_).mono (by rw [hu]; norm_num)
  · refine (small_le (k := 100) (by norm_num)).trans ?_
    rw [abs_of_pos (by positivity)]
    norm_num at hlo ⊢; linarith
  · refine le_thousand (k := 90) (by norm_num) ?_
    rw [abs_of_pos (by positivity)]; norm_num at hhi ⊢; linarith

/-- The two tones. -/
theorem tone_rel {fc : Float} (hf : Fin fc) (hlo : 1 / 2 ^ 90 ≤ val fc) (hhi : val fc ≤ 2 ^ 90) :
    Rel (fc + F64.lit 5 2 * fc / F64.ofNat 2) (1.025 * val fc) (8 * uu) ∧
    Rel (fc - F64.lit 5 2 * fc / F64.ofNat 2) (0.975 * val fc) (8 * uu) ∧
    Rel (fc + 1 * (F64.lit 5 2 * fc / F64.ofNat 2)) (1.025 * val fc) (8 * uu) ∧
    Rel (fc + -1 * (F64.lit 5 2 * fc / F64.ofNat 2)) (0.975 * val fc) (8 * uu) := by
  have hu := uu_eq
  have hu0 := uu_pos
  have h0 : 0 < val fc := lt_of_lt_of_le (by norm_num) hlo
  have hs := halfSep_rel hf hlo hhi
  generalize F64.lit 5 2 * fc / F64.ofNat 2 = s at *
  have e : 5 / 100 * val fc / (2 : ℕ) = 0.025 * val fc := by norm_num; ring
  rw [e] at hs
  have s1 : Rel (1 * s) (0.025 * val fc) (6 * uu) := by
    obtain ⟨a, b⟩ := one_mul_val hs.1
    exact ⟨a, b ▸ hs.2⟩
  have s2 : Rel (-1 * s) (-(0.025 * val fc)) (6 * uu) := by
    obtain ⟨a, b⟩ := neg_one_mul_val hs.1
    refine ⟨a, ?_⟩
    rw [b, abs_neg, show -val s - -(0.025 * val fc) = -(val s - 0.025 * val fc) by ring, abs_neg]
    exact hs.2
  have e1 : val fc + 0.025 * val fc = 1.025 * val fc := by ring
  have e2 : val fc - 0.025 * val fc = 0.975 * val fc := by ring
  have e3 : val fc + -(0.025 * val fc) = 0.975 * val fc := by ring
  have a1 : |1.025 * val fc| = 1.025 * val fc := abs_of_pos (by positivity)
  have a2 : |0.975 * val fc| = 0.975 * val fc := abs_of_pos (by positivity)
  have a3 : |0.025 * val fc| = 0.025 * val fc := abs_of_pos (by positivity)
  have a4 : |val fc| = val fc := abs_of_pos h0
  have lo1 : (2 : ℝ) ^ (-1000 : ℤ) ≤ 1.025 * val fc := by
    refine (small_le (k := 100) (by norm_num)).trans ?_
    norm_num at hlo ⊢; linarith
  have lo2 : (2 : ℝ) ^ (-1000 : ℤ) ≤ 0.975 * val fc := by
    refine (small_le (k := 100) (by norm_num)).trans ?_
    norm_num at hlo ⊢; linarith
  have hi1 : 1.025 * val fc ≤ (2 : ℝ) ^ (1000 : ℤ) := by
    refine le_thousand (k := 100) (by norm_num) ?_
    norm_num at hhi ⊢; linarith
  have hi2 : 0.975 * val fc ≤ (2 : ℝ) ^ (1000 : ℤ) := by
    refine le_thousand (k := 100) (by norm_num) ?_
    norm_num at hhi ⊢; linarith
  have hfu : 0 < val fc * uu := by positivity
  refine ⟨?_, ?_, ?_, ?_⟩
  · rw [← e1]
    refine ((Rel.exact hf).add_of hs (γ := 5 * uu) ?_ (by rw [hu]; norm_num) (.inr ?_) ?_).mono (by rw [hu]; norm_num)
    · rw [e1, a1, a3]; nlinarith
    · rw [e1, a1]; exact lo1
    · rw [e1, a1]; exact hi1
  · rw [← e2]
    refine ((Rel.exact hf).sub_of hs (γ := 5 * uu) ?_ (by rw [hu]; norm_num) (.inr ?_) ?_).mono (by rw [hu]; norm_num)
    · rw [e2, a2, a3]; nlinarith
    · rw [e2, a2]; exact lo2
    · rw [e2, a2]; exact hi2
  · rw [← e1]
    refine ((Rel.exact hf).add_of s1 (γ := 5 * uu) ?_ (by rw [hu]; norm_num) (.inr ?_) ?_).mono (by rw [hu]; norm_num)
    · rw [e1, a1, a3]; nlinarith
    · rw [e1, a1]; exact lo1
    · rw [e1, a1]; exact hi1
  · rw [← e3]
    refine ((Rel.exact hf).add_of s2 (γ := 5 * uu) ?_ (by rw [hu]; norm_num) (.inr ?_) ?_).mono (by rw [hu]; norm_num)
    · rw [e3, a2, abs_neg, a3]; nlinarith
    · rw [e3, a2]; exact lo2
    · rw [e3, a2]; exact hi2

/-- `2·π·f·t` for approximate `f` and `t`. -/
theorem angle_rel {f t : Float} {r τ : ℝ} (hf : Rel f r (8 * uu)) (ht : Rel t τ (4 * uu)) (hr : 1 / 2 ^ 100 ≤ r)
    (hr' : r ≤ 2 ^ 100) (hτ : τ = 0 ∨ 1 / 2 ^ 100 ≤ τ) (hτ' : τ ≤ 2 ^ 100) :
    Rel (F64.ofNat 2 * Flt.pi * f * t) (2 * Real.pi * r * τ) (1 / 2 ^ 48) := by
  have hπ := Real.pi_pos
  have hπ3 := Real.pi_gt_three
  have hπ4 := Real.pi_le_four
  have hu := uu_eq
  have hr0 : 0 < r := lt_of_lt_of_le (by norm_num) hr
  have e2π : |((2 : ℕ) : ℝ) * Real.pi| = 2 * Real.pi := by
    rw [abs_of_pos (by positivity)]; norm_num
  have h1 : Rel (F64.ofNat 2 * Flt.pi) (((2 : ℕ) : ℝ) * Real.pi) (0 + uu + 0 * uu + (1 + (0 + uu + 0 * uu)) * uu) := by
    refine (ofNat_rel (by norm_num)).mul pi_rel ?_ (.inr ?_) ?_
    · rw [hu]; norm_num
    · rw [e2π]; refine (small_le (k := 0) (by norm_num)).trans ?_; norm_num; linarith
    · rw [e2π]; refine le_thousand (k := 4) (by norm_num) ?_; linarith
  replace h1 := h1.mono (η' := 3 * uu) (by rw [hu]; norm_num)
  have e3 : |((2 : ℕ) : ℝ) * Real.pi * r| = 2 * Real.pi * r := by
    rw [abs_mul, e2π, abs_of_pos hr0]
  have h2 := h1.mul hf (by rw [hu]; norm_num) (by
    right; rw [e3]
    refine (small_le (k := 100) (by norm_num)).trans ?_
    nlinarith) (by
    rw [e3]
    refine le_thousand (k := 103) (by norm_num) ?_
    calc 2 * Real.pi * r ≤ (2 * 4) * 2 ^ 100 := mul_le_mul (by linarith) hr' hr0.le (by norm_num)
      _ = 2 ^ 103 := by norm_num)
  replace h2 := h2.mono (η' := 13 * uu) (by rw [hu]; norm_num)
  have hτ0 : 0 ≤ τ := by
    rcases hτ with h | h
    · exact h.ge
    · exact le_trans (by norm_num) h
  have e4 : |((2 : ℕ) : ℝ) * Real.pi * r * τ| = 2 * Real.pi * r * τ := by
    rw [abs_mul, e3, abs_of_nonneg hτ0]
  have h4 := h2.mul ht (by rw [hu]; norm_num) (by
    rcases hτ with h | h
    · left; rw [h, mul_zero]
    · right; rw [e4]
      refine (small_le (k := 200) (by norm_num)).trans ?_
      calc (1 : ℝ) / 2 ^ 200 = 1 / 2 ^ 100 * (1 / 2 ^ 100) := by norm_num
        _ ≤ 2 * Real.pi * r * τ := by
          refine mul_le_mul ?_ h (by norm_num) (by positivity)
          nlinarith) (by
    rw [e4]
    refine le_thousand (k := 203) (by norm_num) ?_
    calc 2 * Real.pi * r * τ ≤ ((2 * 4) * 2 ^ 100) * 2 ^ 100 := by
          refine mul_le_mul (mul_le_mul (by linarith) hr' hr0.le (by norm_num)) hτ' hτ0 (by positivity)
      _ = 2 ^ 203 := by norm_num)
  rw [show 2 * Real.pi * r * τ = ((2 : ℕ) : ℝ) * Real.pi * r * τ by norm_num]
  exact h4.mono (by rw [hu]; norm_num)

/-- The oscillator at an approximate frequency and time. -/
theorem osc_near {L : Libm} {ε : ℝ} (hL : Accurate L ε (2 ^ 40)) {f t : Float} {r τ : ℝ} (hf : Rel f r (8 * uu))
    (ht : Rel t τ (4 * uu)) (hr : 1 / 2 ^ 100 ≤ r) (hr' : r ≤ 2 ^ 100) (hτ : τ = 0 ∨ 1 / 2 ^ 100 ≤ τ) (hτ' : τ ≤ 2 ^ 100)
    (hp : r * τ ≤ 2 ^ 31) :
    Ap (L.cos (F64.ofNat 2 * Flt.pi * f * t)) (Real.cos (2 * Real.pi * r * τ)) (ε + 1 / 2 ^ 14) ∧
      Ap (L.sin (F64.ofNat 2 * Flt.pi * f * t)) (Real.sin (2 * Real.pi * r * τ)) (ε + 1 / 2 ^ 14) := by
  have hπ := Real.pi_pos
  have hπ4 := Real.pi_le_four
  have hr0 : 0 < r := lt_of_lt_of_le (by norm_num) hr
  have hτ0 : 0 ≤ τ := by
    rcases hτ with h | h
    · exact h.ge
    · exact le_trans (by norm_num) h
  have hb : |2 * Real.pi * r * τ| ≤ 2 ^ 34 := by
    rw [abs_of_nonneg (by positivity), mul_assoc]
    calc 2 * Real.pi * (r * τ) ≤ 2 * 4 * 2 ^ 31 := mul_le_mul (by linarith) hp (by positivity) (by norm_num)
      _ = 2 ^ 34 := by norm_num
  refine carrier_ap hL ((angle_rel hf ht hr hr' hτ hτ').ap ?_) ?_
  · calc 1 / 2 ^ 48 * |2 * Real.pi * r * τ| ≤ 1 / 2 ^ 48 * 2 ^ 34 := mul_le_mul_of_nonneg_left hb (by norm_num)
      _ = 1 / 2 ^ 14 := by norm_num
  · calc |2 * Real.pi * r * τ| + 1 / 2 ^ 14 ≤ 2 ^ 34 + 1 / 2 ^ 14 := by linarith
      _ ≤ 2 ^ 40 := by norm_num

/-- One correlator sum. -/
theorem corr_near {k : ℕ} (hk : k ≤ 2 ^ 32) {x c : ℕ → Float} {X C : ℕ → ℝ}
    (hx : ∀ j < k, Ap (x j) (X j) (5 / 2 ^ 14) ∧ |X j| ≤ 1) (hc : ∀ j < k, Ap (c j) (C j) (5 / 2 ^ 14) ∧ |C j| ≤ 1) :
    Ap (rsum ((List.range k).map (fun j => x j * c j))) (∑ j ∈ Finset.range k, X j * C j) (k / 2 ^ 10) ∧
      |∑ j ∈ Finset.range k, X j * C j| ≤ k := by
  have hk' : (k : ℝ) ≤ 4294967296 := by norm_num at hk; exact_mod_cast hk
  have hk0 : (0 : ℝ) ≤ k := by positivity
  have ht := tiny_le (k := 60) (by norm_num)
  have hb : ∀ j < k, |X j * C j| ≤ 1 := by
    intro j hj
    rw [abs_mul]
    exact mul_le_one₀ (hx j hj).2 (abs_nonneg _) (hc j hj).2
  constructor
  · refine (Ap.rsum (e := 3 / 2 ^ 12) (t := 1 / 2 ^ 20) (B := 1) ?_ hb (by norm_num) ?_ ?_).mono ?_
    · intro j hj
      refine ((hx j hj).1.mul (hc j hj).1 (hx j hj).2 (hc j hj).2 (le_big (k := 3) (by norm_num) (by norm_num))).mono ?_
      rw [uu_eq]
      norm_num at ht ⊢
      linarith
    · refine le_big (k := 33) (by norm_num) ?_
      norm_num
      linarith
    · rw [uu_eq]
      norm_num at ht ⊢
      linarith
    · norm_num
      linarith
  · refine (Finset.abs_sum_le_sum_abs _ _).trans ?_
    refine (Finset.sum_le_sum (fun j hj => hb j (Finset.mem_range.mp hj))).trans ?_
    simp

/-- The comparison of two energies. -/
theorem energy_near {k : ℝ} (hk : 1 ≤ k) (hk' : k ≤ 2 ^ 32) {a b c d : Float} {A B C D : ℝ}
    (ha : Ap a A (k / 2 ^ 10) ∧ |A| ≤ k) (hb : Ap b B (k / 2 ^ 10) ∧ |B| ≤ k)
    (hc : Ap c C (k / 2 ^ 10) ∧ |C| ≤ k) (hd : Ap d D (k / 2 ^ 10) ∧ |D| ≤ k) :
    Ap ((a * a + b * b) - (c * c + d * d)) ((A ^ 2 + B ^ 2) - (C ^ 2 + D ^ 2)) (k ^ 2 / 64) := by
  have ht := tiny_le (k := 60) (by norm_num)
  have hk0 : 0 ≤ k := by linarith
  have hK1 : 1 ≤ k ^ 2 := one_le_pow₀ hk
  have hK2 : k ^ 2 ≤ 2 ^ 64 := by
    calc k ^ 2 ≤ (2 ^ 32) ^ 2 := pow_le_pow_left₀ hk0 hk' 2
      _ = 2 ^ 64 := by norm_num
  have sq : ∀ {x : Float} {X : ℝ}, Ap x X (k / 2 ^ 10) ∧ |X| ≤ k → Ap (x * x) (X ^ 2) (9 / 2 ^ 12 * k ^ 2) ∧ |X ^ 2| ≤ k ^ 2 := by
    intro x X h
    have e : ∀ a : ℝ, k * (k / a) = k ^ 2 / a := fun a => by ring
    refine ⟨?_, by rw [abs_pow]; exact pow_le_pow_left₀ (abs_nonneg _) h.2 2⟩
    rw [pow_two]
    have e1 : k * (k / 2 ^ 10) + k * (k / 2 ^ 10) + k / 2 ^ 10 * (k / 2 ^ 10) = (2 / 2 ^ 10 + 1 / 2 ^ 20) * k ^ 2 := by ring
    refine (h.1.mul h.1 h.2 h.2 ?_).mono ?_
    · rw [e1]
      refine le_big (k := 66) (by norm_num) ?_
      norm_num at hK2 ⊢
      nlinarith
    · rw [e1, uu_eq]
      generalize hK : k * k = K at *
      rw [pow_two, hK] at hK1 hK2 ⊢
      norm_num at ht ⊢
      linarith
  have sa := sq ha
  have sb := sq hb
  have sc := sq hc
  have sd := sq hd
  generalize k ^ 2 = K at *
  have add : ∀ {x y : Float} {X Y : ℝ}, Ap x X (9 / 2 ^ 12 * K) ∧ |X| ≤ K → Ap y Y (9 / 2 ^ 12 * K) ∧ |Y| ≤ K →
      Ap (x + y) (X + Y) (19 / 2 ^ 12 * K) ∧ |X + Y| ≤ 2 * K := by
    intro x y X Y h h'
    have hb : |X + Y| ≤ 2 * K := (abs_add_le _ _).trans (by linarith [h.2, h'.2])
    refine ⟨(h.1.add h'.1 hb ?_).mono ?_, hb⟩
    · refine le_big (k := 67) (by norm_num) ?_
      norm_num at hK2 ⊢
      linarith
    · rw [uu_eq]
      norm_num at ht ⊢
      linarith
  have s1 := add sa sb
  have s2 := add sc sd
  have hb : |A ^ 2 + B ^ 2 - (C ^ 2 + D ^ 2)| ≤ 4 * K := (abs_sub _ _).trans (by linarith [s1.2, s2.2])
  refine (s1.1.sub s2.1 hb ?_).mono ?_
  · refine le_big (k := 68) (by norm_num) ?_
    norm_num at hK2 ⊢
    linarith
  · rw [uu_eq]
    norm_num at ht ⊢
    linarith

end Verif.F64
