import Verif.F64.Phase

/-! # A symbol that spans part of a carrier period contains a large carrier sample -/
namespace Verif.F64

theorem exists_step {d : ℝ} {s : ℕ} (hlo : Real.pi / 8 ≤ (s : ℝ) * d) (hhi : d ≤ 7 * Real.pi / 8) :
    ∃ k ≤ s, Real.pi / 8 ≤ k * d ∧ k * d ≤ 7 * Real.pi / 8 := by
  have hπ := Real.pi_pos
  classical
  have hex : ∃ k : ℕ, Real.pi / 8 ≤ (k : ℝ) * d := ⟨s, hlo⟩
  refine ⟨Nat.find hex, Nat.find_min' hex hlo, Nat.find_spec hex, ?_⟩
  have hspec := Nat.find_spec hex
  have hpos : 0 < Nat.find hex := by
    rcases Nat.eq_zero_or_pos (Nat.find hex) with h | h
    · rw [h] at hspec; simp at hspec; linarith
    · exact h
  have hmin := Nat.find_min hex (m := Nat.find hex - 1) (by omega)
  generalize Nat.find hex = k at *
  obtain ⟨j, rfl⟩ : ∃ j, k = j + 1 := ⟨k - 1, by omega⟩
  rw [Nat.add_sub_cancel] at hmin
  push_neg at hmin
  push_cast at *
  rcases Nat.eq_zero_or_pos j with h | h
  · subst h; push_cast; linarith
  · have hj : (1 : ℝ) ≤ j := by exact_mod_cast h
    have hd0 : 0 < d := by
      by_contra hn
      push_neg at hn
      nlinarith
    nlinarith

theorem quarter_le_sin {x : ℝ} (h1 : Real.pi / 8 ≤ x) (h2 : x ≤ 7 * Real.pi / 8) : 1 / 4 ≤ Real.sin x := by
  have hπ := Real.pi_pos
  have key : ∀ y, Real.pi / 8 ≤ y → y ≤ Real.pi / 2 → 1 / 4 ≤ Real.sin y := by
    intro y h1 h2
    have := Real.mul_le_sin (x := y) (by linarith) h2
    refine le_trans ?_ this
    rw [show 2 / Real.pi * y = 2 * y / Real.pi by ring, le_div_iff₀ hπ]
    linarith
  rcases le_total x (Real.pi / 2) with h | h
  · exact key x h1 h
  · rw [← Real.sin_pi_sub]
    exact key _ (by linarith) (by linarith)

/-- Of two phases at least an eighth of a half turn apart (modulo a half turn) one has a large cosine. -/
theorem cos_or_cos {a x : ℝ} (h1 : Real.pi / 8 ≤ x) (h2 : x ≤ 7 * Real.pi / 8) :
    1 / 8 ≤ |Real.cos a| ∨ 1 / 8 ≤ |Real.cos (a + x)| := by
  by_contra hn
  push_neg at hn
  have hs := quarter_le_sin h1 h2
  have e : Real.sin x = Real.sin (a + x) * Real.cos a - Real.cos (a + x) * Real.sin a := by
    rw [← Real.sin_sub]; congr 1; ring
  have h3 : |Real.sin x| ≤ |Real.sin (a + x)| * |Real.cos a| + |Real.cos (a + x)| * |Real.sin a| := by
    rw [e]; refine (abs_sub _ _).trans ?_; rw [abs_mul, abs_mul]
  have h4 := Real.abs_sin_le_one (a + x)
  have h5 := Real.abs_sin_le_one a
  have h6 := le_abs_self (Real.sin x)
  have h7 : |Real.sin (a + x)| * |Real.cos a| ≤ |Real.cos a| := by nlinarith [abs_nonneg (Real.cos a)]
  have h8 : |Real.cos (a + x)| * |Real.sin a| ≤ |Real.cos (a + x)| := by nlinarith [abs_nonneg (Real.cos (a + x))]
  linarith [hn.1, hn.2]

theorem floor_le_half {x : ℝ} {n : ℕ} (h : x ≤ n / 2) : min ⌊x⌋₊ (2 ^ 64 - 1) ≤ n / 2 := by
  refine (min_le_left _ _).trans ?_
  have h1 : ⌊x⌋₊ ≤ ⌊(n : ℝ) / 2⌋₊ := Nat.floor_mono h
  have h2 : ⌊(n : ℝ) / 2⌋₊ = n / 2 := by
    have := Nat.floor_div_natCast (n : ℝ) 2
    simpa using this
  omega

/-- The computed carrier samples of `i < 2^32` samples, `0 < fc ≤ fs/2`: within `ε + 2^-15` of the exact ones. -/
theorem carrier_near {L : Libm} {ε : ℝ} (hL : Accurate L ε (2 ^ 40)) {fs i : ℕ} {fc : FloatL L} (hfs : 0 < fs)
    (hfs' : fs < 2 ^ 53) (hi : i ≤ 2 ^ 32) (hf : Fin fc) (hlo : 1 / 2 ^ 100 ≤ val fc) (hhi : val fc ≤ fs / 2) :
    Ap (L.cos (phase fs fc i)) (Real.cos (i * dphi fs (val fc))) (ε + 1 / 2 ^ 15) ∧
      Ap (L.sin (phase fs fc i)) (Real.sin (i * dphi fs (val fc))) (ε + 1 / 2 ^ 15) := by
  have hfsR : (0 : ℝ) < fs := by exact_mod_cast hfs
  have hfs53 : (fs : ℝ) < 2 ^ 53 := by exact_mod_cast hfs'
  have h0 : (0 : ℝ) < val fc := lt_of_lt_of_le (by norm_num) hlo
  have hd0 : 0 ≤ dphi fs (val fc) := by unfold dphi; have := Real.pi_pos; positivity
  have hd4 : dphi fs (val fc) ≤ 4 := by
    unfold dphi
    rw [div_le_iff₀ hfsR]
    have := Real.pi_le_four
    nlinarith [Real.pi_pos]
  have hi32 : (i : ℝ) ≤ 2 ^ 32 := by exact_mod_cast hi
  have hp : |(i : ℝ) * dphi fs (val fc)| ≤ 2 ^ 34 := by
    rw [abs_of_nonneg (by positivity)]
    calc (i : ℝ) * dphi fs (val fc) ≤ 2 ^ 32 * 4 := mul_le_mul hi32 hd4 hd0 (by norm_num)
      _ = 2 ^ 34 := by norm_num
  have hrel := phase_rel (L := L) (i := i) hfs hfs'.le (by omega) hf (.inr (by rwa [abs_of_pos h0]))
    (by rw [abs_of_pos h0]; linarith)
  refine carrier_ap hL (hrel.ap ?_) ?_
  · calc 1 / 2 ^ 50 * |(i : ℝ) * dphi fs (val fc)| ≤ 1 / 2 ^ 50 * 2 ^ 34 := mul_le_mul_of_nonneg_left hp (by norm_num)
      _ ≤ 1 / 2 ^ 15 := by norm_num
  · calc |(i : ℝ) * dphi fs (val fc)| + 1 / 2 ^ 15 ≤ 2 ^ 34 + 1 / 2 ^ 15 := by linarith
      _ ≤ 2 ^ 40 := by norm_num

/-- A symbol of at least a sixteenth of a carrier period contains a large computed carrier sample. -/
theorem exists_large {L : Libm} {ε : ℝ} (hε : ε ≤ 1 / 2 ^ 10) (hL : Accurate L ε (2 ^ 40)) {fs s i : ℕ} {fc : FloatL L}
    (hfs : 0 < fs) (hfs' : fs < 2 ^ 53) (hi : i + s ≤ 2 ^ 32) (hf : Fin fc) (hlo : 1 / 16 ≤ (s : ℝ) * (val fc / fs))
    (hhi : val fc ≤ 7 / 16 * fs) (hlo' : 1 / 2 ^ 100 ≤ val fc) :
    ∃ j ≤ s, 1 / 16 ≤ |val (L.cos (phase fs fc (i + j)))| := by
  have hfsR : (0 : ℝ) < fs := by exact_mod_cast hfs
  have hπ := Real.pi_pos
  have ed : dphi fs (val fc) = 2 * Real.pi * (val fc / fs) := by unfold dphi; ring
  obtain ⟨k, hk, h1, h2⟩ := exists_step (d := dphi fs (val fc)) (s := s) (by rw [ed]; nlinarith) (by
    unfold dphi; rw [div_le_iff₀ hfsR]; nlinarith)
  have near : ∀ j ≤ s, 1 / 8 ≤ |Real.cos ((i + j : ℕ) * dphi fs (val fc))| →
      1 / 16 ≤ |val (L.cos (phase fs fc (i + j)))| := by
    intro j hj hc
    have hn := (carrier_near hL (i := i + j) hfs hfs' (by omega) hf hlo' (by linarith)).1.2
    have := abs_sub_abs_le_abs_sub (Real.cos ((i + j : ℕ) * dphi fs (val fc))) (val (L.cos (phase fs fc (i + j))))
    rw [abs_sub_comm] at this
    have hc' : (1 : ℝ) / 2 ^ 10 + 1 / 2 ^ 15 ≤ 1 / 16 := by norm_num
    linarith
  rcases cos_or_cos (a := (i : ℝ) * dphi fs (val fc)) h1 h2 with h | h
  · exact ⟨0, Nat.zero_le _, near 0 (Nat.zero_le _) (by simpa using h)⟩
  · refine ⟨k, hk, near k hk ?_⟩
    rwa [Nat.cast_add, add_mul]

end Verif.F64
