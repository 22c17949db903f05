import Verif.Lemmas.Psk
import Verif.Model.Fsk
import Verif.Spec.Wave

/-! Structure of the FSK and FM modulators, and tone energies. -/
namespace Verif
open Spec
set_option linter.unusedSectionVars false

variable {ι : Type}

section anyF
variable {F : Type} [Add F] [Sub F] [Mul F] [Div F] [Neg F] [Zero F] [One F] [Flt F]

theorem pos_of_sps {fs sym : ℕ} (hsps : 0 < fs / sym) : 0 < sym := by
  rcases Nat.eq_zero_or_pos sym with rfl | h
  · simp at hsps
  · exact h

theorem txBfsk_ok [RIter ι Bool] {m : ι} {msg : List Bool} (h : Yields m msg) {fs sym : ℕ} {lo hi : F}
    (hsps : 0 < fs / sym) (h1 : Flt.toNat hi ≤ fs / 2)
    (h2 : isInt (Flt.ofNat fs / Flt.ofNat sym : F) = true) :
    ∃ it, txBfsk m fs sym lo hi = pure it ∧
      Yields it (wave (fs / sym) (fun n b j => Flt.cos (phase fs (if b then hi else lo) (n * (fs / sym) + j))) msg) := by
  unfold txBfsk
  rw [udiv_pos (pos_of_sps hsps), pure_bind, rassert_pos (decide_eq_true h1), pure_bind, rassert_pos h2, pure_bind]
  refine ⟨_, rfl, ?_⟩
  have := (((h.rmap (fun bit => if bit then hi else lo)).inflate hsps).renumerate).rmap
    (fun p : ℕ × F => Flt.cos (phase fs p.2 p.1))
  rw [map_mapIdx', flatMap_replicate_eq_wave, mapIdx_wave, wave_map] at this
  exact this

theorem txFsk_ok [RIter ι Bool] {m : ι} {msg : List Bool} (h : Yields m msg) {fs sym : ℕ} {fc : F}
    (hsps : 0 < fs / sym) :
    ∃ it, txFsk m fs sym fc = pure it ∧
      Yields it (wave (fs / sym) (fun n b j =>
        Flt.cos (phase fs (fc + bitToNrz b * (fskSep fc / Flt.ofNat 2)) (n * (fs / sym) + j))) msg) := by
  unfold txFsk
  rw [udiv_pos (pos_of_sps hsps), pure_bind]
  refine ⟨_, rfl, ?_⟩
  have := (((h.rmap (bitToNrz (F := F))).inflate hsps).renumerate).rmap
    (fun p : ℕ × F => Flt.cos (phase fs (fc + p.2 * (fskSep fc / Flt.ofNat 2)) p.1))
  rw [map_mapIdx', flatMap_replicate_eq_wave, mapIdx_wave, wave_map] at this
  exact this

theorem rxFsk_wave [RIter ι F] {A : Type} {s : ι} {fs sym : ℕ} {fc : F} (hsps : 0 < fs / sym) {w : ℕ → A → ℕ → F}
    {msg : List A} (h : Yields s (wave (fs / sym) w msg)) :
    ∃ it, rxFsk s fs sym fc = pure it ∧
      Yields it (msg.mapIdx (fun n b => rxFskChunk fs fc n ((List.range (fs / sym)).map (w n b)))) := by
  unfold rxFsk
  rw [udiv_pos (pos_of_sps hsps), pure_bind]
  refine ⟨_, rfl, ?_⟩
  have := ((h.chunks (fs / sym)).renumerate).rmap (fun p : ℕ × List F => rxFskChunk fs fc p.1 p.2)
  rw [map_mapIdx', blocks_wave hsps, mapIdx_mapIdx'] at this
  exact this

theorem txFm_ok [RIter ι F] {m : ι} {msg : List F} (h : Yields m msg) {fs sym : ℕ} {fc : F} (hsps : 0 < fs / sym) :
    ∃ it, txFm m fs sym fc = pure it ∧
      Yields it ((runSums 0 (msg.flatMap (List.replicate (fs / sym)))).mapIdx (fun i c =>
        Flt.cos (Flt.ofNat 2 * Flt.pi * fc * (Flt.ofNat i / Flt.ofNat fs) + Flt.lit 5 2 * c))) := by
  unfold txFm
  rw [udiv_pos (pos_of_sps hsps)]
  refine ⟨_, by simp only [pure_bind]; rfl, ?_⟩
  have := (((h.inflate hsps).integrate).renumerate).rmap
    (fun p : ℕ × F => Flt.cos (Flt.ofNat 2 * Flt.pi * fc * (Flt.ofNat p.1 / Flt.ofNat fs) + Flt.lit 5 2 * p.2))
  rw [map_mapIdx'] at this
  exact this

/-- A fold of a quadruple is the quadruple of the sums. -/
theorem foldl_quad {T : Type} (l : List T) (f : T → F × F × F × F) (a : F × F × F × F) :
    (l.map f).foldl (fun (a : F × F × F × F) v => (a.1 + v.1, a.2.1 + v.2.1, a.2.2.1 + v.2.2.1, a.2.2.2 + v.2.2.2)) a
      = ((l.map (fun t => (f t).1)).foldl (· + ·) a.1, (l.map (fun t => (f t).2.1)).foldl (· + ·) a.2.1,
        (l.map (fun t => (f t).2.2.1)).foldl (· + ·) a.2.2.1, (l.map (fun t => (f t).2.2.2)).foldl (· + ·) a.2.2.2) := by
  induction l generalizing a with
  | nil => rfl
  | cons x l ih => simp only [List.map_cons, List.foldl_cons, ih]
end anyF

/-- The four sums of `rx_fsk`, exact arithmetic. -/
theorem rxFskChunk_real (fs : ℕ) (fc : ℝ) (idx : ℕ) (l : List ℝ) :
    rxFskChunk fs fc idx l = decide (
      (∑ j ∈ Finset.range l.length, l.getD j 0 * Real.cos (2 * Real.pi * (fc - 5 / 100 * fc / 2) * (idx / fs + j / fs))) ^ 2 +
      (∑ j ∈ Finset.range l.length, l.getD j 0 * Real.sin (2 * Real.pi * (fc - 5 / 100 * fc / 2) * (idx / fs + j / fs))) ^ 2 ≤
      (∑ j ∈ Finset.range l.length, l.getD j 0 * Real.cos (2 * Real.pi * (fc + 5 / 100 * fc / 2) * (idx / fs + j / fs))) ^ 2 +
      (∑ j ∈ Finset.range l.length, l.getD j 0 * Real.sin (2 * Real.pi * (fc + 5 / 100 * fc / 2) * (idx / fs + j / fs))) ^ 2) := by
  have key : ∀ (g : ℕ → ℝ → ℝ × ℝ × ℝ × ℝ), l.mapIdx g = (List.range l.length).map (fun j => g j (l.getD j 0)) := by
    intro g
    apply List.ext_getElem?
    intro i
    by_cases hi : i < l.length
    · simp [hi]
    · rw [List.getElem?_eq_none (by simp; omega), List.getElem?_eq_none (by simp; omega)]
  unfold rxFskChunk
  simp only
  rw [key, foldl_quad]
  simp only [Flt.cos_real, Flt.sin_real, Flt.ofNat_real, Flt.pi_real, Flt.le_real, powi_real, fskSep, Flt.lit_real]
  have hs : ∀ f : ℕ → ℝ, ((List.range l.length).map f).foldl (· + ·) 0 = ∑ j ∈ Finset.range l.length, f j :=
    fun f => rsum_range l.length f
  rw [hs, hs, hs, hs]
  norm_num [sub_nonneg]

/-- The energy does not depend on the phase of the correlators. -/
theorem toneEnergy_shift (w θ : ℝ) (k : ℕ) (x : ℕ → ℝ) :
    (∑ j ∈ Finset.range k, x j * Real.cos (θ + w * j)) ^ 2 + (∑ j ∈ Finset.range k, x j * Real.sin (θ + w * j)) ^ 2
      = toneEnergy w k x := by
  have h1 : ∑ j ∈ Finset.range k, x j * Real.cos (θ + w * j)
      = Real.cos θ * (∑ j ∈ Finset.range k, x j * Real.cos (w * j)) - Real.sin θ * (∑ j ∈ Finset.range k, x j * Real.sin (w * j)) := by
    rw [Finset.mul_sum, Finset.mul_sum, ← Finset.sum_sub_distrib]
    apply Finset.sum_congr rfl; intro j _; rw [Real.cos_add]; ring
  have h2 : ∑ j ∈ Finset.range k, x j * Real.sin (θ + w * j)
      = Real.sin θ * (∑ j ∈ Finset.range k, x j * Real.cos (w * j)) + Real.cos θ * (∑ j ∈ Finset.range k, x j * Real.sin (w * j)) := by
    rw [Finset.mul_sum, Finset.mul_sum, ← Finset.sum_add_distrib]
    apply Finset.sum_congr rfl; intro j _; rw [Real.sin_add]; ring
  rw [h1, h2, toneEnergy]
  have := Real.sin_sq_add_cos_sq θ
  linear_combination ((∑ j ∈ Finset.range k, x j * Real.cos (w * j)) ^ 2 + (∑ j ∈ Finset.range k, x j * Real.sin (w * j)) ^ 2) * this

/-- A tone with a whole number of half periods in the block has energy `k²/4` at its own frequency. -/
theorem toneEnergy_self {w : ℝ} {k : ℕ} {p : ℤ} (h : k * w = p * Real.pi) (hs : Real.sin w ≠ 0) (m : ℕ) :
    toneEnergy w k (fun j => Real.cos (w * (m + j : ℕ))) = (k / 2) ^ 2 := by
  rw [← toneEnergy_shift w (w * m)]
  have e1 := sum_cos_sq_half h hs m
  have e2 := sum_cos_sin_half h hs m
  have hj : ∀ j : ℕ, w * m + w * j = (m + j : ℕ) * w := by intro j; push_cast; ring
  have hj' : ∀ j : ℕ, w * (m + j : ℕ) = (m + j : ℕ) * w := by intro j; ring
  simp only [hj, hj', ← pow_two, e1, e2]
  ring

/-- Two tones whose sum and difference have whole numbers of periods in the block are orthogonal. -/
theorem toneEnergy_other {w v : ℝ} {k : ℕ} {p q : ℤ} (h1 : k * (v + w) = p * (2 * Real.pi))
    (h2 : k * (v - w) = q * (2 * Real.pi)) (s1 : Real.sin ((v + w) / 2) ≠ 0) (s2 : Real.sin ((v - w) / 2) ≠ 0) (m : ℕ) :
    toneEnergy w k (fun j => Real.cos (v * (m + j : ℕ))) = 0 := by
  have a1 := sum_cos_period (a := v * m) h1 s1
  have a2 := sum_cos_period (a := v * m) h2 s2
  have b1 := sum_sin_period (a := v * m) h1 s1
  have b2 := sum_sin_period (a := v * m) h2 s2
  have c1 : ∑ j ∈ Finset.range k, Real.cos (v * (m + j : ℕ)) * Real.cos (w * j) = 0 := by
    have : ∀ j : ℕ, Real.cos (v * (m + j : ℕ)) * Real.cos (w * j)
        = (Real.cos (v * m + j * (v + w)) + Real.cos (v * m + j * (v - w))) / 2 := by
      intro j
      rw [show v * (m : ℝ) + j * (v + w) = v * (m + j : ℕ) + w * j by push_cast; ring,
        show v * (m : ℝ) + j * (v - w) = v * (m + j : ℕ) - w * j by push_cast; ring, Real.cos_add, Real.cos_sub]
      ring
    simp only [this]
    rw [← Finset.sum_div, Finset.sum_add_distrib, a1, a2]; simp
  have c2 : ∑ j ∈ Finset.range k, Real.cos (v * (m + j : ℕ)) * Real.sin (w * j) = 0 := by
    have : ∀ j : ℕ, Real.cos (v * (m + j : ℕ)) * Real.sin (w * j)
        = (Real.sin (v * m + j * (v + w)) - Real.sin (v * m + j * (v - w))) / 2 := by
      intro j
      rw [show v * (m : ℝ) + j * (v + w) = v * (m + j : ℕ) + w * j by push_cast; ring,
        show v * (m : ℝ) + j * (v - w) = v * (m + j : ℕ) - w * j by push_cast; ring, Real.sin_add, Real.sin_sub]
      ring
    simp only [this]
    rw [← Finset.sum_div, Finset.sum_sub_distrib, b1, b2]; simp
  rw [toneEnergy, c1, c2]; simp

end Verif
