import Verif.F64.Tone

/-! The FSK receiver in IEEE arithmetic. -/
namespace Verif
open Spec F64

section anyF
variable {F : Type} [Add F] [Sub F] [Mul F] [Div F] [Neg F] [Zero F] [One F] [Flt F]

/-- The decision on a chunk given sample by sample. -/
theorem rxFskChunk_range (fs : ℕ) (fc : F) (idx k : ℕ) (x : ℕ → F) :
    rxFskChunk fs fc idx ((List.range k).map x) =
      Flt.le 0 ((powi (rsum ((List.range k).map (fun j => x j * Flt.cos (Flt.ofNat 2 * Flt.pi * (fc + fskSep fc / Flt.ofNat 2) * (Flt.ofNat idx / Flt.ofNat fs + Flt.ofNat j / Flt.ofNat fs))))) 2
        + powi (rsum ((List.range k).map (fun j => x j * Flt.sin (Flt.ofNat 2 * Flt.pi * (fc + fskSep fc / Flt.ofNat 2) * (Flt.ofNat idx / Flt.ofNat fs + Flt.ofNat j / Flt.ofNat fs))))) 2)
        - (powi (rsum ((List.range k).map (fun j => x j * Flt.cos (Flt.ofNat 2 * Flt.pi * (fc - fskSep fc / Flt.ofNat 2) * (Flt.ofNat idx / Flt.ofNat fs + Flt.ofNat j / Flt.ofNat fs))))) 2
        + powi (rsum ((List.range k).map (fun j => x j * Flt.sin (Flt.ofNat 2 * Flt.pi * (fc - fskSep fc / Flt.ofNat 2) * (Flt.ofNat idx / Flt.ofNat fs + Flt.ofNat j / Flt.ofNat fs))))) 2)) := by
  have key : ∀ (g : ℕ → F → F × F × F × F), ((List.range k).map x).mapIdx g = (List.range k).map (fun j => g j (x j)) := by
    intro g
    apply List.ext_getElem?
    intro i
    by_cases hi : i < k
    · simp [hi]
    · rw [List.getElem?_eq_none (by simp; omega), List.getElem?_eq_none (by simp; omega)]
  unfold rxFskChunk
  simp only
  rw [key, foldl_quad]
  rfl
end anyF

theorem rate_rel {fs i : ℕ} (hfs0 : 0 < fs) (hfs : fs < 2 ^ 53) (hi : i ≤ 2 ^ 53) :
    Rel (F64.ofNat i / F64.ofNat fs) ((i : ℝ) / fs) (4 * uu) :=
  (nat_div_rel hi hfs.le hfs0).mono (by have := uu_pos; linarith)

theorem time_rel {fs n j : ℕ} (hfs0 : 0 < fs) (hfs : fs < 2 ^ 53) (hn : n ≤ 2 ^ 40) (hj : j ≤ 2 ^ 40) :
    Rel (F64.ofNat n / F64.ofNat fs + F64.ofNat j / F64.ofNat fs) (((n + j : ℕ) : ℝ) / fs) (4 * uu) := by
  have hfsR : (0 : ℝ) < fs := by exact_mod_cast hfs0
  have hfs1 : (1 : ℝ) ≤ fs := by exact_mod_cast hfs0
  have hfs53 : (fs : ℝ) ≤ 2 ^ 53 := by exact_mod_cast hfs.le
  have e : ((n + j : ℕ) : ℝ) / fs = (n : ℝ) / fs + (j : ℝ) / fs := by push_cast; ring
  have h1 := nat_div_rel (a := n) (hn.trans (by norm_num)) hfs.le hfs0
  have h2 := nat_div_rel (a := j) (hj.trans (by norm_num)) hfs.le hfs0
  rw [e]
  refine (h1.add_of h2 (γ := uu) ?_ (by rw [uu_eq]; norm_num) ?_ ?_).mono (by rw [uu_eq]; norm_num)
  · rw [abs_of_nonneg (show (0 : ℝ) ≤ (n : ℝ) / fs by positivity), abs_of_nonneg (show (0 : ℝ) ≤ (j : ℝ) / fs by positivity),
      abs_of_nonneg (show (0 : ℝ) ≤ (n : ℝ) / fs + (j : ℝ) / fs by positivity)]
    linarith
  · rw [← e]
    rcases Nat.eq_zero_or_pos (n + j) with h | h
    · left; rw [h]; simp
    · right
      refine (small_le (k := 53) (by norm_num)).trans ?_
      have h1 : (1 : ℝ) ≤ ((n + j : ℕ) : ℝ) := by exact_mod_cast h
      rw [abs_of_nonneg (by positivity), div_le_div_iff₀ (by norm_num) hfsR, one_mul]
      exact hfs53.trans (le_mul_of_one_le_left (by norm_num) h1)
  · rw [← e, abs_of_nonneg (by positivity)]
    refine le_thousand (k := 41) (by norm_num) ((div_le_self (by positivity) hfs1).trans ?_)
    have : n + j ≤ 2 ^ 41 := by omega
    exact_mod_cast this

/-- Decision of the receiver on the transmitted block number `n`, given a margin between the tone energies. -/
theorem rxFskChunk_ieee {L : Libm} {ε : ℝ} (hε : ε ≤ 1 / 2 ^ 12) (hL : Accurate L ε (2 ^ 40)) {fs k n : ℕ} {fc : FloatL L}
    (hfs0 : 0 < fs) (hfs : fs < 2 ^ 53) (hk : 0 < k) (hlen : (n + 1) * k ≤ 2 ^ 31) (hf : Fin fc) (hlo : 1 / 2 ^ 90 ≤ val fc)
    (hhi : val fc ≤ fs / 2) (b : Bool) {w : Bool → ℝ} (hw : ∀ b, w b = 2 * Real.pi * (val fc * (if b then 1.025 else 0.975)) / fs)
    (hE : toneEnergy (w (!b)) k (fun j => Real.cos (w b * (n * k + j : ℕ))) + (k : ℝ) ^ 2 / 32
      ≤ toneEnergy (w b) k (fun j => Real.cos (w b * (n * k + j : ℕ)))) :
    rxFskChunk fs fc n ((List.range k).map (fun j =>
      Flt.cos (phase fs (fc + bitToNrz b * (fskSep fc / Flt.ofNat 2)) (n * k + j)))) = b := by
  obtain ⟨g, rfl⟩ : ∃ g : Float, @Eq (FloatL L) g fc := ⟨fc, rfl⟩
  have hfsR : (0 : ℝ) < fs := by exact_mod_cast hfs0
  have hfs53 : (fs : ℝ) < 2 ^ 53 := by exact_mod_cast hfs
  have hv0 : 0 < val g := lt_of_lt_of_le (by norm_num) hlo
  have hhi90 : val g ≤ 2 ^ 90 := by
    refine hhi.trans ?_
    have : (2 : ℝ) ^ 53 ≤ 2 ^ 90 := by norm_num
    linarith
  obtain ⟨t1, t2, t3, t4⟩ := tone_rel hf hlo hhi90
  have hkle : k ≤ 2 ^ 31 := le_trans (Nat.le_mul_of_pos_left _ (Nat.succ_pos n)) hlen
  have hnle : n + 1 ≤ 2 ^ 31 := le_trans (Nat.le_mul_of_pos_right _ hk) hlen
  have hnk : n * k + k ≤ 2 ^ 31 := by rw [Nat.add_mul, Nat.one_mul] at hlen; exact hlen
  have fr : ∀ b : Bool, 1 / 2 ^ 100 ≤ (if b then 1.025 else 0.975) * val g ∧ (if b then 1.025 else 0.975) * val g ≤ 2 ^ 100 ∧
      (if b then 1.025 else 0.975) * val g ≤ 0.5125 * fs := by
    intro b
    norm_num at hlo hhi90
    cases b <;> norm_num <;> refine ⟨?_, ?_, ?_⟩ <;> linarith
  have tm : ∀ i : ℕ, i ≤ 2 ^ 32 → ((i : ℝ) / fs = 0 ∨ 1 / 2 ^ 100 ≤ (i : ℝ) / fs) ∧ (i : ℝ) / fs ≤ 2 ^ 100 ∧
      ∀ r : ℝ, r ≤ 0.5125 * fs → 2 ^ 32 ≥ i → i ≤ 3 * 2 ^ 30 → r * (i / fs) ≤ 2 ^ 31 := by
    intro i hi
    have hi32 : (i : ℝ) ≤ 2 ^ 32 := by exact_mod_cast hi
    have hfs1 : (1 : ℝ) ≤ fs := by exact_mod_cast hfs0
    refine ⟨?_, ?_, ?_⟩
    · rcases Nat.eq_zero_or_pos i with h | h
      · left; rw [h]; simp
      · right
        have h1 : (1 : ℝ) ≤ (i : ℝ) := by exact_mod_cast h
        rw [div_le_div_iff₀ (by norm_num) hfsR, one_mul]
        have : (2 : ℝ) ^ 53 ≤ 2 ^ 100 := by norm_num
        exact (hfs53.le.trans this).trans (le_mul_of_one_le_left (by norm_num) h1)
    · refine (div_le_self (by positivity) hfs1).trans (hi32.trans (by norm_num))
    · intro r hr _ hi3
      have hi3' : (i : ℝ) ≤ 3 * 2 ^ 30 := by exact_mod_cast hi3
      rw [← mul_div_assoc, div_le_iff₀ hfsR]
      have : r * i ≤ 0.5125 * fs * i := mul_le_mul_of_nonneg_right hr (by positivity)
      have h2 : (fs : ℝ) * i ≤ fs * (3 * 2 ^ 30) := mul_le_mul_of_nonneg_left hi3' hfsR.le
      norm_num at h2 ⊢
      linarith
  have hεt : ε + 1 / 2 ^ 14 ≤ 5 / 2 ^ 14 := by norm_num at hε ⊢; linarith
  -- transmitted samples
  have ftx : Rel (g + (if b then (1 : Float) else -1) * (F64.lit 5 2 * g / F64.ofNat 2)) ((if b then 1.025 else 0.975) * val g) (8 * uu) := by
    cases b
    · exact t4
    · exact t3
  have xs : ∀ j < k, Ap (L.cos (F64.ofNat 2 * Flt.pi * (g + (if b then (1 : Float) else -1) * (F64.lit 5 2 * g / F64.ofNat 2))
      * (F64.ofNat (n * k + j) / F64.ofNat fs))) (Real.cos (w b * (n * k + j : ℕ))) (5 / 2 ^ 14) ∧
      |Real.cos (w b * (n * k + j : ℕ))| ≤ 1 := by
    intro j hj
    refine ⟨?_, Real.abs_cos_le_one _⟩
    obtain ⟨a1, a2, a3⟩ := tm (n * k + j) (by omega)
    obtain ⟨b1, b2, b3⟩ := fr b
    have h := (osc_near hL ftx (rate_rel (i := n * k + j) hfs0 hfs (by omega)) b1 b2 a1 a2 (a3 _ b3 (by omega) (by omega))).1.mono hεt
    rw [show 2 * Real.pi * ((if b then 1.025 else 0.975) * val g) * (((n * k + j : ℕ) : ℝ) / fs) = w b * (n * k + j : ℕ) by
      rw [hw]; ring] at h
    exact h
  -- correlators
  have cs : ∀ (c : Bool) (f : Float), Rel f ((if c then 1.025 else 0.975) * val g) (8 * uu) → ∀ j < k,
      Ap (L.cos (F64.ofNat 2 * Flt.pi * f * (F64.ofNat n / F64.ofNat fs + F64.ofNat j / F64.ofNat fs)))
        (Real.cos (w c * n + w c * j)) (5 / 2 ^ 14) ∧
      Ap (L.sin (F64.ofNat 2 * Flt.pi * f * (F64.ofNat n / F64.ofNat fs + F64.ofNat j / F64.ofNat fs)))
        (Real.sin (w c * n + w c * j)) (5 / 2 ^ 14) := by
    intro c f hfr j hj
    have hnj : n + j ≤ 3 * 2 ^ 30 := by
      have : n + j ≤ n * k + k := by
        have := Nat.le_mul_of_pos_right n hk
        omega
      omega
    obtain ⟨a1, a2, a3⟩ := tm (n + j) (by omega)
    obtain ⟨b1, b2, b3⟩ := fr c
    have h := osc_near hL hfr (time_rel (n := n) (j := j) hfs0 hfs (by omega) (by omega)) b1 b2 a1 a2 (a3 _ b3 (by omega) hnj)
    rw [show 2 * Real.pi * ((if c then 1.025 else 0.975) * val g) * (((n + j : ℕ) : ℝ) / fs) = w c * n + w c * j by
      rw [hw]; push_cast; ring] at h
    exact ⟨h.1.mono hεt, h.2.mono hεt⟩
  have ct := cs true _ t1
  have cf := cs false _ t2
  have k32 : k ≤ 2 ^ 32 := by omega
  have s1 := corr_near k32 xs (fun j hj => ⟨(ct j hj).1, Real.abs_cos_le_one _⟩)
  have s2 := corr_near k32 xs (fun j hj => ⟨(ct j hj).2, Real.abs_sin_le_one _⟩)
  have s3 := corr_near k32 xs (fun j hj => ⟨(cf j hj).1, Real.abs_cos_le_one _⟩)
  have s4 := corr_near k32 xs (fun j hj => ⟨(cf j hj).2, Real.abs_sin_le_one _⟩)
  have hk1 : (1 : ℝ) ≤ k := by exact_mod_cast hk
  have en := energy_near hk1 (by exact_mod_cast k32) s1 s2 s3 s4
  rw [toneEnergy_shift (w true) (w true * n) k (fun j => Real.cos (w b * (n * k + j : ℕ))),
    toneEnergy_shift (w false) (w false * n) k (fun j => Real.cos (w b * (n * k + j : ℕ)))] at en
  refine (rxFskChunk_range (F := FloatL L) fs g n k _).trans ?_
  have hK : (0 : ℝ) < (k : ℝ) ^ 2 := by positivity
  cases b
  · refine en.neg_dec ?_
    rw [Bool.not_false] at hE
    linarith
  · refine en.nonneg_dec ?_
    rw [Bool.not_true] at hE
    linarith

/-- The tones of a carrier that is an even multiple of ten symbol rates are orthogonal over a symbol. -/
theorem orthogonal_energies {fs sym c : ℕ} (hsym : 0 < sym) (hc : 0 < c) (hdvd : sym ∣ fs) (hny : (41 * c * sym : ℕ) < fs)
    {w : Bool → ℝ} (hw : ∀ b, w b = 2 * Real.pi * (((20 * c * sym : ℕ) : ℝ) * (if b then 1.025 else 0.975)) / fs) (b : Bool) (m : ℕ) :
    toneEnergy (w b) (fs / sym) (fun j => Real.cos (w b * (m + j : ℕ))) = (((fs / sym : ℕ) : ℝ) / 2) ^ 2 ∧
    toneEnergy (w (!b)) (fs / sym) (fun j => Real.cos (w b * (m + j : ℕ))) = 0 := by
  have hfs : 0 < fs := by omega
  have hsps : 0 < fs / sym := Nat.div_pos (Nat.le_of_dvd hfs hdvd) hsym
  have hk : ((fs / sym : ℕ) : ℝ) * sym = fs := by exact_mod_cast Nat.div_mul_cancel hdvd
  have hfsR : (0 : ℝ) < fs := by exact_mod_cast hfs
  have hsymR : (0 : ℝ) < sym := by exact_mod_cast hsym
  have hcR : (0 : ℝ) < c := by exact_mod_cast hc
  have hnyR : (41 : ℝ) * c * sym < fs := by exact_mod_cast hny
  have hkR : (0 : ℝ) < ((fs / sym : ℕ) : ℝ) := by exact_mod_cast hsps
  have hpi := Real.pi_pos
  have hwt : w true = 41 * Real.pi * (c * sym / fs) := by rw [hw]; simp; ring
  have hwf : w false = 39 * Real.pi * (c * sym / fs) := by rw [hw]; simp; ring
  have hr0 : 0 < (c : ℝ) * sym / fs := by positivity
  have hr1 : 41 * ((c : ℝ) * sym / fs) < 1 := by
    rw [← mul_div_assoc, div_lt_one hfsR]; linarith
  have hkr : ((fs / sym : ℕ) : ℝ) * (c * sym / fs) = c := by
    rw [show ((fs / sym : ℕ) : ℝ) * (c * sym / fs) = c * (((fs / sym : ℕ) : ℝ) * sym) / fs by ring, hk]
    field_simp
  generalize hrd : (c : ℝ) * sym / fs = r at *
  have hsin : ∀ x : ℝ, 0 < x → x < 1 → Real.sin (x * Real.pi) ≠ 0 := fun x h0 h1 =>
    (Real.sin_pos_of_pos_of_lt_pi (by positivity) (by nlinarith)).ne'
  have s1 : Real.sin (w true) ≠ 0 := by
    rw [hwt, show 41 * Real.pi * r = (41 * r) * Real.pi by ring]; exact hsin _ (by positivity) hr1
  have s2 : Real.sin (w false) ≠ 0 := by
    rw [hwf, show 39 * Real.pi * r = (39 * r) * Real.pi by ring]; exact hsin _ (by positivity) (by linarith)
  have s3 : Real.sin ((w true + w false) / 2) ≠ 0 := by
    rw [hwf, hwt, show (41 * Real.pi * r + 39 * Real.pi * r) / 2 = (40 * r) * Real.pi by ring]
    exact hsin _ (by positivity) (by linarith)
  have s4 : Real.sin ((w true - w false) / 2) ≠ 0 := by
    rw [hwf, hwt, show (41 * Real.pi * r - 39 * Real.pi * r) / 2 = r * Real.pi by ring]
    exact hsin _ (by positivity) (by linarith)
  have s5 : Real.sin ((w false + w true) / 2) ≠ 0 := by rw [add_comm]; exact s3
  have s6 : Real.sin ((w false - w true) / 2) ≠ 0 := by
    rw [show (w false - w true) / 2 = -((w true - w false) / 2) by ring, Real.sin_neg, neg_ne_zero]; exact s4
  have selfT := toneEnergy_self (w := w true) (k := fs / sym) (p := 41 * c) (by
    rw [hwt]; push_cast; linear_combination 41 * Real.pi * hkr) s1
  have selfF := toneEnergy_self (w := w false) (k := fs / sym) (p := 39 * c) (by
    rw [hwf]; push_cast; linear_combination 39 * Real.pi * hkr) s2
  have othT := toneEnergy_other (v := w true) (w := w false) (k := fs / sym) (p := 40 * c) (q := c) (by
    rw [hwt, hwf]; push_cast; linear_combination 80 * Real.pi * hkr) (by
    rw [hwt, hwf]; push_cast; linear_combination 2 * Real.pi * hkr) s3 s4
  have othF := toneEnergy_other (v := w false) (w := w true) (k := fs / sym) (p := 40 * c) (q := -c) (by
    rw [hwt, hwf]; push_cast; linear_combination 80 * Real.pi * hkr) (by
    rw [hwt, hwf]; push_cast; linear_combination -2 * Real.pi * hkr) s5 s6
  cases b
  · exact ⟨selfF m, othF m⟩
  · exact ⟨selfT m, othT m⟩

end Verif
