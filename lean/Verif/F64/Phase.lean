import Verif.F64.Approx

/-! # The sample phases and an accurate mathematical library -/
namespace Verif.F64
open Float.Model Float.Model.UnpackedFloat

theorem small_le {k : ℕ} (h : k ≤ 1000) : (2 : ℝ) ^ (-1000 : ℤ) ≤ 1 / 2 ^ k := by
  rw [one_div, ← zpow_natCast, ← zpow_neg]
  exact zpow_le_zpow_right₀ (by norm_num) (by omega)

theorem le_thousand {x : ℝ} {k : ℕ} (hk : k ≤ 1000) (h : x ≤ 2 ^ k) : x ≤ 2 ^ (1000 : ℤ) := by
  refine h.trans ?_
  rw [← zpow_natCast]
  exact zpow_le_zpow_right₀ (by norm_num) (by omega)

theorem phase_rel {L : Libm} {fs i : ℕ} {fc : FloatL L} (hfs : 0 < fs) (hfs' : fs ≤ 2 ^ 53) (hi : i ≤ 2 ^ 53)
    (hf : Fin fc) (hlo : val fc = 0 ∨ 1 / 2 ^ 100 ≤ |val fc|) (hhi : |val fc| ≤ 2 ^ 100) :
    Rel (phase fs fc i) (i * dphi fs (val fc)) (1 / 2 ^ 50) := by
  have hπ := Real.pi_pos
  have hπ3 := Real.pi_gt_three
  have hπ4 := Real.pi_le_four
  have hfsR : (0 : ℝ) < fs := by exact_mod_cast hfs
  have hfs53 : (fs : ℝ) ≤ 2 ^ 53 := by exact_mod_cast hfs'
  have hi53 : (i : ℝ) ≤ 2 ^ 53 := by exact_mod_cast hi
  have hi0 : (0 : ℝ) ≤ i := by positivity
  have hu := uu_eq
  have e2π : |((2 : ℕ) : ℝ) * Real.pi| = 2 * Real.pi := by
    rw [abs_of_pos (by positivity)]; norm_num
  have h1 : Rel (F64.ofNat 2 * Flt.pi) (((2 : ℕ) : ℝ) * Real.pi) (0 + uu + 0 * uu + (1 + (0 + uu + 0 * uu)) * uu) := by
    refine (ofNat_rel (by norm_num)).mul pi_rel ?_ (.inr ?_) ?_
    · rw [hu]; norm_num
    · rw [e2π]; refine (small_le (k := 0) (by norm_num)).trans ?_; norm_num; linarith
    · rw [e2π]; refine le_thousand (k := 4) (by norm_num) ?_; linarith
  replace h1 := h1.mono (η' := 3 * uu) (by rw [hu]; norm_num)
  have e3 : |((2 : ℕ) : ℝ) * Real.pi * val fc| = 2 * Real.pi * |val fc| := by
    rw [abs_mul, e2π]
  have h2 := h1.mul (Rel.exact hf) (by rw [hu]; norm_num) (by
    rcases hlo with h | h
    · left; rw [h, mul_zero]
    · right; rw [e3]
      refine (small_le (k := 100) (by norm_num)).trans ?_
      nlinarith [abs_nonneg (val fc)]) (by
    rw [e3]
    refine le_thousand (k := 103) (by norm_num) ?_
    calc 2 * Real.pi * |val fc| ≤ (2 * 4) * 2 ^ 100 := mul_le_mul (by linarith) hhi (abs_nonneg _) (by norm_num)
      _ = 2 ^ 103 := by norm_num)
  replace h2 := h2.mono (η' := 5 * uu) (by rw [hu]; norm_num)
  have h3 := nat_div_rel hi hfs' hfs
  have e4 : |((2 : ℕ) : ℝ) * Real.pi * val fc * ((i : ℝ) / fs)| = 2 * Real.pi * |val fc| * ((i : ℝ) / fs) := by
    rw [abs_mul, e3, abs_of_nonneg (show (0 : ℝ) ≤ (i : ℝ) / fs by positivity)]
  have h4 := h2.mul h3 (by rw [hu]; norm_num) (by
    rcases hlo with h | h
    · left; rw [h, mul_zero, zero_mul]
    · rcases Nat.eq_zero_or_pos i with h0 | hp
      · left; rw [h0]; simp
      · right; rw [e4]
        refine (small_le (k := 153) (by norm_num)).trans ?_
        have hi1 : (1 : ℝ) ≤ i := by exact_mod_cast hp
        have hq : 1 / 2 ^ 53 ≤ (i : ℝ) / fs := by
          rw [div_le_div_iff₀ (by norm_num) hfsR]; nlinarith
        calc (1 : ℝ) / 2 ^ 153 ≤ 1 / 2 ^ 100 * (1 / 2 ^ 53) := by norm_num
          _ ≤ 2 * Real.pi * |val fc| * ((i : ℝ) / fs) := by
            refine mul_le_mul ?_ hq (by norm_num) (by positivity)
            nlinarith [abs_nonneg (val fc)]) (by
    rw [e4]
    refine le_thousand (k := 156) (by norm_num) ?_
    have hfs1 : (1 : ℝ) ≤ fs := by exact_mod_cast hfs
    have hq : (i : ℝ) / fs ≤ 2 ^ 53 := by rw [div_le_iff₀ hfsR]; nlinarith
    calc 2 * Real.pi * |val fc| * ((i : ℝ) / fs) ≤ ((2 * 4) * 2 ^ 100) * 2 ^ 53 := by
          refine mul_le_mul (mul_le_mul (by linarith) hhi (abs_nonneg _) (by norm_num)) hq (by positivity) (by positivity)
      _ = 2 ^ 156 := by norm_num)
  have e5 : (i : ℝ) * dphi fs (val fc) = ((2 : ℕ) : ℝ) * Real.pi * val fc * ((i : ℝ) / fs) := by
    unfold dphi; push_cast; ring
  rw [e5]
  exact h4.mono (by rw [hu]; norm_num)

/-- A library whose sine and cosine are finite and within `ε` of the exact values for arguments up to `X`. -/
def Accurate (L : Libm) (ε X : ℝ) : Prop :=
  ∀ x : Float, Fin x → |val x| ≤ X → Ap (L.cos x) (Real.cos (val x)) ε ∧ Ap (L.sin x) (Real.sin (val x)) ε

/-- Every representable number below the overflow threshold is the value of a double. -/
theorem exists_float {x : ℝ} (h : IsF x) (hx : |x| < huge) : ∃ f : Float, Fin f ∧ val f = x := by
  obtain ⟨m, e, h1, h2, rfl⟩ := id h
  obtain ⟨c1, c2, c3⟩ := normalize_spec m e .positive
  rw [rnd_of_isF h] at c3
  exact ⟨_, mk_good ⟨c1, c2, c3⟩ hx⟩

/-- The correctly rounded sine and cosine. -/
theorem exists_round (x : ℝ) (hx : |x| ≤ 1) : ∃ f : Float, Ap f x (1 / 2 ^ 52) := by
  have hb : |x| ≤ 2 ^ (1023 : ℤ) := le_big (k := 0) (by norm_num) (by simpa using hx)
  obtain ⟨f, h1, h2⟩ := exists_float (isF_rnd x) (rnd_lt_huge hb)
  refine ⟨f, h1, ?_⟩
  rw [h2]
  refine (abs_rnd_sub_le_abs x).trans (max_le ?_ ?_)
  · have := uu_eq
    unfold uu at this
    rw [this]
    norm_num at *
    linarith
  · exact (tiny_le (k := 52) (by norm_num))

/-- A library with correctly rounded sine and cosine. -/
noncomputable def Libm.rounded : Libm where
  sin x := (exists_round (Real.sin (val x)) (Real.abs_sin_le_one _)).choose
  cos x := (exists_round (Real.cos (val x)) (Real.abs_cos_le_one _)).choose
  exp x := x
  log10 x := x
  powf x _ := x

theorem accurate_rounded (X : ℝ) : Accurate Libm.rounded (1 / 2 ^ 52) X := fun x _ _ =>
  ⟨(exists_round (Real.cos (val x)) (Real.abs_cos_le_one _)).choose_spec,
    (exists_round (Real.sin (val x)) (Real.abs_sin_le_one _)).choose_spec⟩

theorem abs_cos_sub_cos_le (x y : ℝ) : |Real.cos x - Real.cos y| ≤ |x - y| := by
  rw [Real.cos_sub_cos, abs_mul, abs_mul, abs_neg, abs_two]
  have h1 : |Real.sin ((x + y) / 2)| ≤ 1 := Real.abs_sin_le_one _
  have h2 : |Real.sin ((x - y) / 2)| ≤ |(x - y) / 2| := Real.abs_sin_le_abs
  rw [abs_div, abs_two] at h2
  nlinarith [abs_nonneg (Real.sin ((x - y) / 2)), abs_nonneg (x - y)]

theorem abs_sin_sub_sin_le (x y : ℝ) : |Real.sin x - Real.sin y| ≤ |x - y| := by
  rw [Real.sin_sub_sin, abs_mul, abs_mul, abs_two]
  have h1 : |Real.cos ((x + y) / 2)| ≤ 1 := Real.abs_cos_le_one _
  have h2 : |Real.sin ((x - y) / 2)| ≤ |(x - y) / 2| := Real.abs_sin_le_abs
  rw [abs_div, abs_two] at h2
  nlinarith [abs_nonneg (Real.sin ((x - y) / 2)), abs_nonneg (x - y)]

/-- The computed carrier samples: with a library accurate to `ε` they are within `ε + θ` of the exact carrier, where
`θ` bounds the phase error. -/
theorem carrier_ap {L : Libm} {ε X : ℝ} (hL : Accurate L ε X) {x : Float} {p θ : ℝ} (hx : Ap x p θ) (hX : |p| + θ ≤ X) :
    Ap (L.cos x) (Real.cos p) (ε + θ) ∧ Ap (L.sin x) (Real.sin p) (ε + θ) := by
  obtain ⟨⟨c1, c2⟩, s1, s2⟩ := hL x hx.1 ((hx.abs_le le_rfl).trans hX)
  refine ⟨⟨c1, ?_⟩, s1, ?_⟩
  · have := abs_cos_sub_cos_le (val x) p
    have h3 := abs_sub_le (val (L.cos x)) (Real.cos (val x)) (Real.cos p)
    have := hx.2
    linarith
  · have := abs_sin_sub_sin_le (val x) p
    have h3 := abs_sub_le (val (L.sin x)) (Real.sin (val x)) (Real.sin p)
    have := hx.2
    linarith

theorem Rel.ap {x : Float} {r η e : ℝ} (h : Rel x r η) (he : η * |r| ≤ e) : Ap x r e := ⟨h.1, h.2.trans he⟩

end Verif.F64
