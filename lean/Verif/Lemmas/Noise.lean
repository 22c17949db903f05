import Verif.Lemmas.Symbols
import Mathlib.Algebra.Order.BigOperators.Ring.Finset

/-! Correlators over `ℝ` on arbitrary signals: linearity, gain, and noise. -/
namespace Verif
open Spec

/-- A correlator as a sum over the samples. -/
theorem rsum_mapIdx_real (b : List ℝ) (g : ℕ → ℝ → ℝ) :
    rsum (b.mapIdx g) = ∑ j ∈ Finset.range b.length, g j (b.getD j 0) := by
  have : b.mapIdx g = (List.range b.length).map (fun j => g j (b.getD j 0)) := by
    apply List.ext_getElem?; intro i
    by_cases h : i < b.length
    · simp [h]
    · simp [h]
  rw [this, rsum_range]

theorem fullBlocks_zipWith {A B C : Type} {k : ℕ} (f : A → B → C) (l : List A) (l' : List B) (h : l.length = l'.length) :
    fullBlocks k (List.zipWith f l l') = List.zipWith (List.zipWith f) (fullBlocks k l) (fullBlocks k l') := by
  unfold fullBlocks
  rw [List.length_zipWith, ← h, Nat.min_self, List.zipWith_map, List.zipWith_self]
  apply List.map_congr_left
  intro i _
  rw [List.drop_zipWith, List.take_zipWith]

theorem getD_zipWith {l l' : List ℝ} (h : l.length = l'.length) (j : ℕ) :
    (List.zipWith (· + ·) l l').getD j 0 = l.getD j 0 + l'.getD j 0 := by
  by_cases hj : j < l.length
  · have hj' : j < l'.length := h ▸ hj
    simp [List.getD_eq_getElem?_getD, hj, hj']
  · have hj' : ¬ j < l'.length := h ▸ hj
    simp [List.getD_eq_getElem?_getD, hj, hj']

theorem sum_sq_getD {k : ℕ} {e : List ℝ} (hel : e.length = k) :
    (e.map (· ^ 2)).sum = ∑ j ∈ Finset.range k, e.getD j 0 ^ 2 := by
  have h := rsum_mapIdx_real e (fun _ x => x ^ 2)
  rw [rsum_eq_sum, hel] at h
  rw [← h]
  congr 1
  apply List.ext_getElem?; intro i; simp

/-- Cauchy–Schwarz: noise with less energy than the pattern does not change the sign of its correlation. -/
theorem corr_lt {k : ℕ} (c e : ℕ → ℝ) (h : ∑ j ∈ Finset.range k, e j ^ 2 < ∑ j ∈ Finset.range k, c j ^ 2) :
    |∑ j ∈ Finset.range k, e j * c j| < ∑ j ∈ Finset.range k, c j ^ 2 := by
  have h0 : 0 ≤ ∑ j ∈ Finset.range k, e j ^ 2 := Finset.sum_nonneg fun _ _ => sq_nonneg _
  have hcs := Finset.sum_mul_sq_le_sq_mul_sq (Finset.range k) e c
  apply abs_lt_of_sq_lt_sq _ (by linarith)
  nlinarith

/-- The noise of a whole transmission, one symbol at a time. -/
theorem noise_core {k : ℕ} (hk : 0 < k) (c : ℕ → ℕ → ℝ) (D : ℕ → List ℝ → Bool)
    (hD : ∀ n (b : List ℝ), b.length = k → D n b = decide (0 < ∑ j ∈ Finset.range k, b.getD j 0 * c n j))
    {msg : List Bool} {tx noise : List ℝ} (htx : tx = wave k (fun n b j => bitToNrz b * c n j) msg)
    (hlen : noise.length = tx.length)
    (hE : ∀ n < msg.length, ((symbol k n noise).map (· ^ 2)).sum < ((symbol k n tx).map (· ^ 2)).sum) :
    (fullBlocks k (List.zipWith (· + ·) tx noise)).mapIdx D = msg := by
  have hlt : tx.length = msg.length * k := by rw [htx, wave_length]
  rw [fullBlocks_zipWith _ _ _ hlen.symm]
  apply List.ext_getElem?
  intro n
  rw [List.getElem?_mapIdx, List.getElem?_zipWith, fullBlocks_getElem? hk, fullBlocks_getElem? hk, hlen, hlt]
  by_cases hn : n < msg.length
  · have hn' : (n + 1) * k ≤ msg.length * k := Nat.mul_le_mul_right _ hn
    rw [if_pos hn', if_pos hn']
    have hs : (tx.drop (n * k)).take k = (List.range k).map (fun j => bitToNrz msg[n] * c n j) := by
      have := fullBlocks_getElem? hk tx n
      rw [if_pos (by rw [hlt]; exact hn'), htx, fullBlocks_wave hk, List.getElem?_mapIdx, List.getElem?_eq_getElem hn] at this
      rw [htx]
      exact (Option.some.inj this).symm
    have hel : ((noise.drop (n * k)).take k).length = k := by
      rw [List.length_take, List.length_drop, hlen, hlt]
      rw [Nat.add_mul] at hn'; omega
    have hE' := hE n hn
    unfold symbol at hE'
    rw [hs] at hE' ⊢
    generalize (noise.drop (n * k)).take k = e at hel hE'
    simp only [Option.map_some, List.getElem?_eq_getElem hn]
    congr 1
    rw [hD _ _ (by simp [hel])]
    have h1 : ∑ j ∈ Finset.range k, (List.zipWith (· + ·) ((List.range k).map (fun j => bitToNrz msg[n] * c n j)) e).getD j 0 * c n j
        = bitToNrz msg[n] * ∑ j ∈ Finset.range k, c n j ^ 2 + ∑ j ∈ Finset.range k, e.getD j 0 * c n j := by
      rw [Finset.mul_sum, ← Finset.sum_add_distrib]
      apply Finset.sum_congr rfl
      intro j hj
      rw [getD_zipWith (by simp [hel])]
      have hj' := Finset.mem_range.mp hj
      rw [List.getD_eq_getElem?_getD, List.getElem?_map, List.getElem?_range hj']
      simp only [Option.map_some, Option.getD_some]
      ring
    have h2 := sum_sq_getD hel
    have h3 : (((List.range k).map (fun j => (bitToNrz msg[n] : ℝ) * c n j)).map (· ^ 2)).sum = ∑ j ∈ Finset.range k, c n j ^ 2 := by
      rw [List.map_map, ← rsum_eq_sum, rsum_range]
      apply Finset.sum_congr rfl; intro j _
      simp only [Function.comp, mul_pow]
      rw [sq (bitToNrz msg[n]), bitToNrz_sq, one_mul]
    rw [h2, h3] at hE'
    have := abs_lt.mp (corr_lt (c n) (fun j => e.getD j 0) hE')
    rw [h1]
    cases hb : msg[n]
    · simp only [bitToNrz, Bool.false_eq_true, if_false, decide_eq_false_iff_not]; linarith
    · simp only [bitToNrz, if_true, decide_eq_true_eq]; linarith
  · have hn' : ¬ (n + 1) * k ≤ msg.length * k := by
      intro h
      have := Nat.le_of_mul_le_mul_right h hk
      omega
    rw [if_neg hn', if_neg hn', List.getElem?_eq_none (by omega)]
    rfl

/-- The same for any alphabet of symbols and any decision. -/
theorem noise_gen {A T : Type} {k : ℕ} (hk : 0 < k) (w : ℕ → A → ℕ → ℝ) (D : ℕ → List ℝ → T) (out : A → T)
    {syms : List A} {tx noise : List ℝ} (htx : tx = wave k w syms) (hlen : noise.length = tx.length)
    (hD : ∀ n a (e : List ℝ), syms[n]? = some a → e.length = k → e = symbol k n noise →
      (symbol k n tx) = (List.range k).map (w n a) →
      D n (List.zipWith (· + ·) ((List.range k).map (w n a)) e) = out a) :
    (fullBlocks k (List.zipWith (· + ·) tx noise)).mapIdx D = syms.map out := by
  have hlt : tx.length = syms.length * k := by rw [htx, wave_length]
  rw [fullBlocks_zipWith _ _ _ hlen.symm]
  apply List.ext_getElem?
  intro n
  rw [List.getElem?_mapIdx, List.getElem?_zipWith, fullBlocks_getElem? hk, fullBlocks_getElem? hk, hlen, hlt,
    List.getElem?_map]
  by_cases hn : n < syms.length
  · have hn' : (n + 1) * k ≤ syms.length * k := Nat.mul_le_mul_right _ hn
    rw [if_pos hn', if_pos hn']
    have hs : (tx.drop (n * k)).take k = (List.range k).map (w n syms[n]) := by
      have := fullBlocks_getElem? hk tx n
      rw [if_pos (by rw [hlt]; exact hn'), htx, fullBlocks_wave hk, List.getElem?_mapIdx, List.getElem?_eq_getElem hn] at this
      rw [htx]
      exact (Option.some.inj this).symm
    have hel : ((noise.drop (n * k)).take k).length = k := by
      rw [List.length_take, List.length_drop, hlen, hlt]
      rw [Nat.add_mul] at hn'; omega
    simp only [Option.map_some, List.getElem?_eq_getElem hn]
    congr 1
    rw [hs]
    exact hD n _ _ (List.getElem?_eq_getElem hn) hel rfl hs
  · have hn' : ¬ (n + 1) * k ≤ syms.length * k := fun h => hn (Nat.le_of_mul_le_mul_right h hk)
    rw [if_neg hn', if_neg hn', List.getElem?_eq_none (by omega)]
    rfl

theorem blocks_eq_fullBlocks {A : Type} {k : ℕ} (hk : 0 < k) (l : List A) (h : k ∣ l.length) :
    blocks k l = fullBlocks k l := by
  obtain ⟨rest, h1, -⟩ := blocks_eq_full hk l
  have h2 := congrArg List.length h1
  obtain ⟨q, hq⟩ := h
  rw [blocks_length k hk, List.length_append, fullBlocks, List.length_map, List.length_range, hq] at h2
  have h3 : (k * q + k - 1) / k = q := by
    rw [Nat.add_sub_assoc hk, Nat.mul_add_div hk, Nat.div_eq_of_lt (by omega), Nat.add_zero]
  rw [h3, Nat.mul_div_cancel_left _ hk] at h2
  rw [h1, List.length_eq_zero_iff.mp (by omega : rest.length = 0), List.append_nil]

/-- Correlation of a disturbed symbol. -/
theorem corr_zipWith {k : ℕ} (s : ℕ → ℝ) {e : List ℝ} (hel : e.length = k) (c : ℕ → ℝ) :
    ∑ j ∈ Finset.range k, (List.zipWith (· + ·) ((List.range k).map s) e).getD j 0 * c j
      = ∑ j ∈ Finset.range k, s j * c j + ∑ j ∈ Finset.range k, e.getD j 0 * c j := by
  rw [← Finset.sum_add_distrib]
  apply Finset.sum_congr rfl
  intro j hj
  rw [getD_zipWith (by simp [hel])]
  have hj' := Finset.mem_range.mp hj
  rw [List.getD_eq_getElem?_getD, List.getElem?_map, List.getElem?_range hj']
  simp only [Option.map_some, Option.getD_some]
  ring

theorem sum_sq_range (k : ℕ) (s : ℕ → ℝ) : (((List.range k).map s).map (· ^ 2)).sum = ∑ j ∈ Finset.range k, s j ^ 2 := by
  rw [List.map_map, ← rsum_eq_sum, rsum_range]; rfl

/-- A whole number of half periods per symbol, in terms of the phase step. -/
theorem half_periods {fs sym : ℕ} {fc : ℝ} (hsps : 0 < fs / sym) {p : ℤ} (hp : (fs / sym : ℕ) * (2 * fc) = p * fs)
    (hne : ∀ q : ℤ, 2 * fc ≠ q * fs) :
    ((fs / sym : ℕ) : ℝ) * dphi fs fc = p * Real.pi ∧ Real.sin (dphi fs fc) ≠ 0 := by
  have hfs : (fs : ℝ) ≠ 0 := by
    intro h0
    have : fs = 0 := by exact_mod_cast h0
    simp [this] at hsps
  constructor
  · unfold dphi
    field_simp
    linear_combination hp
  · intro h0
    obtain ⟨q, hq⟩ := Real.sin_eq_zero_iff.mp h0
    apply hne q
    unfold dphi at hq
    field_simp at hq
    exact hq.symm

/-- Two orthogonal patterns of equal energy. -/
theorem noise_quad {k : ℕ} (hk : 0 < k) (c s : ℕ → ℕ → ℝ) (D : ℕ → List ℝ → List Bool)
    (hD : ∀ n (b : List ℝ), b.length = k → D n b = [decide (0 ≤ ∑ j ∈ Finset.range k, b.getD j 0 * c n j),
      decide (0 ≤ ∑ j ∈ Finset.range k, b.getD j 0 * -s n j)])
    (hcc : ∀ n, ∑ j ∈ Finset.range k, c n j ^ 2 = k / 2) (hss : ∀ n, ∑ j ∈ Finset.range k, s n j ^ 2 = k / 2)
    (hcs : ∀ n, ∑ j ∈ Finset.range k, c n j * s n j = 0)
    {syms : List (Bool × Bool)} {tx noise : List ℝ}
    (htx : tx = wave k (fun n p j => bitToNrz p.1 * c n j + -(bitToNrz p.2) * s n j) syms)
    (hlen : noise.length = tx.length)
    (hE : ∀ n < syms.length, 2 * ((symbol k n noise).map (· ^ 2)).sum < ((symbol k n tx).map (· ^ 2)).sum) :
    (fullBlocks k (List.zipWith (· + ·) tx noise)).mapIdx D = syms.map (fun p => [p.1, p.2]) := by
  refine noise_gen hk _ D _ htx hlen ?_
  rintro n ⟨a, b⟩ e hn hel he hs
  have hlt : n < syms.length := by
    by_contra h
    rw [List.getElem?_eq_none (by omega)] at hn
    simp at hn
  have hE' := hE n hlt
  rw [← he, hs, sum_sq_getD hel, sum_sq_range] at hE'
  have hna : (bitToNrz a : ℝ) ^ 2 = 1 := by rw [sq, bitToNrz_sq]
  have hnb : (bitToNrz b : ℝ) ^ 2 = 1 := by rw [sq, bitToNrz_sq]
  have e1 : ∑ j ∈ Finset.range k, (bitToNrz a * c n j + -(bitToNrz b) * s n j) ^ 2 = (k : ℝ) := by
    have : ∀ j, (bitToNrz a * c n j + -(bitToNrz b) * s n j) ^ 2
        = (bitToNrz a : ℝ) ^ 2 * c n j ^ 2 + (bitToNrz b : ℝ) ^ 2 * s n j ^ 2
          + (-2 * bitToNrz a * bitToNrz b) * (c n j * s n j) := by intro j; ring
    simp only [this]
    rw [Finset.sum_add_distrib, Finset.sum_add_distrib, ← Finset.mul_sum, ← Finset.mul_sum, ← Finset.mul_sum, hcc, hss,
      hcs, hna, hnb]
    ring
  simp only [e1] at hE'
  have e2 : ∑ j ∈ Finset.range k, (bitToNrz a * c n j + -(bitToNrz b) * s n j) * c n j = bitToNrz a * ((k : ℝ) / 2) := by
    have : ∀ j, (bitToNrz a * c n j + -(bitToNrz b) * s n j) * c n j
        = (bitToNrz a : ℝ) * c n j ^ 2 + (-bitToNrz b) * (c n j * s n j) := by intro j; ring
    simp only [this]
    rw [Finset.sum_add_distrib, ← Finset.mul_sum, ← Finset.mul_sum, hcc, hcs]
    ring
  have e3 : ∑ j ∈ Finset.range k, (bitToNrz a * c n j + -(bitToNrz b) * s n j) * -s n j = bitToNrz b * ((k : ℝ) / 2) := by
    have : ∀ j, (bitToNrz a * c n j + -(bitToNrz b) * s n j) * -s n j
        = (bitToNrz b : ℝ) * s n j ^ 2 + (-bitToNrz a) * (c n j * s n j) := by intro j; ring
    simp only [this]
    rw [Finset.sum_add_distrib, ← Finset.mul_sum, ← Finset.mul_sum, hss, hcs]
    ring
  have c1 := abs_lt.mp (corr_lt (c n) (fun j => e.getD j 0) (k := k) (by rw [hcc]; linarith))
  have c2 := abs_lt.mp (corr_lt (fun j => -s n j) (fun j => e.getD j 0) (k := k) (by simp only [neg_sq]; rw [hss]; linarith))
  simp only [neg_sq] at c2
  rw [hcc] at c1
  rw [hss] at c2
  rw [hD _ _ (by simp [hel]), corr_zipWith _ hel, corr_zipWith _ hel, e2, e3]
  congr 1
  · cases a
    · simp only [bitToNrz, Bool.false_eq_true, if_false, decide_eq_false_iff_not]; linarith
    · simp only [bitToNrz, if_true, decide_eq_true_eq]; linarith
  · congr 1
    cases b
    · simp only [bitToNrz, Bool.false_eq_true, if_false, decide_eq_false_iff_not]; linarith
    · simp only [bitToNrz, if_true, decide_eq_true_eq]; linarith

/-! ### Bessel's inequality for the four correlators of FSK -/

theorem proj_step {k : ℕ} {N : ℝ} (hN : 0 < N) (e c : ℕ → ℝ) (hc : ∑ j ∈ Finset.range k, c j ^ 2 = N) :
    ∃ e' : ℕ → ℝ, ∑ j ∈ Finset.range k, e' j ^ 2 = ∑ j ∈ Finset.range k, e j ^ 2 - (∑ j ∈ Finset.range k, e j * c j) ^ 2 / N ∧
      ∀ d : ℕ → ℝ, ∑ j ∈ Finset.range k, c j * d j = 0 →
        ∑ j ∈ Finset.range k, e' j * d j = ∑ j ∈ Finset.range k, e j * d j := by
  set α := (∑ j ∈ Finset.range k, e j * c j) / N with hα
  refine ⟨fun j => e j - α * c j, ?_, ?_⟩
  · have : ∀ j, (e j - α * c j) ^ 2 = e j ^ 2 + (-2 * α) * (e j * c j) + α ^ 2 * c j ^ 2 := by intro j; ring
    simp only [this]
    rw [Finset.sum_add_distrib, Finset.sum_add_distrib, ← Finset.mul_sum, ← Finset.mul_sum, hc]
    rw [hα]; field_simp; ring
  · intro d hd
    have : ∀ j, (e j - α * c j) * d j = e j * d j + (-α) * (c j * d j) := by intro j; ring
    simp only [this]
    rw [Finset.sum_add_distrib, ← Finset.mul_sum, hd]; ring

theorem bessel4 {k : ℕ} {N : ℝ} (hN : 0 < N) (e a b c d : ℕ → ℝ)
    (ha : ∑ j ∈ Finset.range k, a j ^ 2 = N) (hb : ∑ j ∈ Finset.range k, b j ^ 2 = N)
    (hc : ∑ j ∈ Finset.range k, c j ^ 2 = N) (hd : ∑ j ∈ Finset.range k, d j ^ 2 = N)
    (hab : ∑ j ∈ Finset.range k, a j * b j = 0) (hac : ∑ j ∈ Finset.range k, a j * c j = 0)
    (had : ∑ j ∈ Finset.range k, a j * d j = 0) (hbc : ∑ j ∈ Finset.range k, b j * c j = 0)
    (hbd : ∑ j ∈ Finset.range k, b j * d j = 0) (hcd : ∑ j ∈ Finset.range k, c j * d j = 0) :
    (∑ j ∈ Finset.range k, e j * a j) ^ 2 + (∑ j ∈ Finset.range k, e j * b j) ^ 2
      + (∑ j ∈ Finset.range k, e j * c j) ^ 2 + (∑ j ∈ Finset.range k, e j * d j) ^ 2
      ≤ N * ∑ j ∈ Finset.range k, e j ^ 2 := by
  obtain ⟨e1, p1, q1⟩ := proj_step hN e a ha
  obtain ⟨e2, p2, q2⟩ := proj_step hN e1 b hb
  obtain ⟨e3, p3, q3⟩ := proj_step hN e2 c hc
  obtain ⟨e4, p4, q4⟩ := proj_step hN e3 d hd
  have h0 : 0 ≤ ∑ j ∈ Finset.range k, e4 j ^ 2 := Finset.sum_nonneg fun _ _ => sq_nonneg _
  rw [p4, p3, p2, p1, q3 d hcd, q2 d hbd, q1 d had, q2 c hbc, q1 c hac, q1 b hab] at h0
  generalize ∑ j ∈ Finset.range k, e j ^ 2 = E at h0 ⊢
  generalize ∑ j ∈ Finset.range k, e j * a j = A at h0 ⊢
  generalize ∑ j ∈ Finset.range k, e j * b j = B at h0 ⊢
  generalize ∑ j ∈ Finset.range k, e j * c j = C at h0 ⊢
  generalize ∑ j ∈ Finset.range k, e j * d j = D' at h0 ⊢
  have : E - A ^ 2 / N - B ^ 2 / N - C ^ 2 / N - D' ^ 2 / N = (N * E - (A ^ 2 + B ^ 2 + C ^ 2 + D' ^ 2)) / N := by
    field_simp; ring
  rw [this] at h0
  have := (div_nonneg_iff.mp h0)
  rcases this with ⟨h, _⟩ | ⟨_, h⟩ <;> linarith

/-- Two tones, each with a whole number of half periods in the block and orthogonal to each other: the four correlators. -/
theorem tone_bessel {w v : ℝ} {k : ℕ} (hk : 0 < k) {p q r t : ℤ} (hw : k * w = r * Real.pi) (hv : k * v = t * Real.pi)
    (h1 : k * (v + w) = p * (2 * Real.pi)) (h2 : k * (v - w) = q * (2 * Real.pi)) (sw : Real.sin w ≠ 0)
    (sv : Real.sin v ≠ 0) (s1 : Real.sin ((v + w) / 2) ≠ 0) (s2 : Real.sin ((v - w) / 2) ≠ 0) (e : ℕ → ℝ) :
    toneEnergy w k e + toneEnergy v k e ≤ k / 2 * ∑ j ∈ Finset.range k, e j ^ 2 := by
  have hN : (0 : ℝ) < k / 2 := by positivity
  have a1 := sum_cos_period (a := 0) h1 s1
  have a2 := sum_cos_period (a := 0) h2 s2
  have b1 := sum_sin_period (a := 0) h1 s1
  have b2 := sum_sin_period (a := 0) h2 s2
  have comm : ∀ (x : ℝ) (j : ℕ), x * (j : ℝ) = (0 + j : ℕ) * x := by intro x j; push_cast; ring
  have sq (x : ℝ) (y : ℤ) (hx : k * x = y * Real.pi) (sx : Real.sin x ≠ 0) :
      ∑ j ∈ Finset.range k, Real.cos (x * j) ^ 2 = k / 2 ∧ ∑ j ∈ Finset.range k, Real.sin (x * j) ^ 2 = k / 2 ∧
      ∑ j ∈ Finset.range k, Real.cos (x * j) * Real.sin (x * j) = 0 := by
    simp only [comm]
    exact ⟨sum_cos_sq_half hx sx 0, sum_sin_sq_half hx sx 0, sum_cos_sin_half hx sx 0⟩
  obtain ⟨w1, w2, w3⟩ := sq w r hw sw
  obtain ⟨v1, v2, v3⟩ := sq v t hv sv
  have half : ∀ (f g : ℕ → ℝ) (x y : ℕ → ℝ), (∑ j ∈ Finset.range k, x j = 0) → (∑ j ∈ Finset.range k, y j = 0) →
      (∀ j, f j * g j = (x j + y j) / 2) → ∑ j ∈ Finset.range k, f j * g j = 0 := by
    intro f g x y hx hy hfg
    simp only [hfg]
    rw [← Finset.sum_div, Finset.sum_add_distrib, hx, hy]; simp
  have neg : ∀ x : ℕ → ℝ, (∑ j ∈ Finset.range k, x j = 0) → ∑ j ∈ Finset.range k, -x j = 0 := by
    intro x hx; rw [Finset.sum_neg_distrib, hx, neg_zero]
  have ang1 : ∀ j : ℕ, (0 : ℝ) + j * (v + w) = v * j + w * j := by intro j; ring
  have ang2 : ∀ j : ℕ, (0 : ℝ) + j * (v - w) = v * j - w * j := by intro j; ring
  have c1 := half (fun j => Real.cos (w * j)) (fun j => Real.cos (v * j)) _ _ a1 a2 (by
    intro j; rw [ang1, ang2, Real.cos_add, Real.cos_sub]; ring)
  have c2 := half (fun j => Real.sin (w * j)) (fun j => Real.sin (v * j)) _ _ (neg _ a1) a2 (by
    intro j; rw [ang1, ang2, Real.cos_add, Real.cos_sub]; ring)
  have c3 := half (fun j => Real.cos (w * j)) (fun j => Real.sin (v * j)) _ _ b1 b2 (by
    intro j; rw [ang1, ang2, Real.sin_add, Real.sin_sub]; ring)
  have c4 := half (fun j => Real.sin (w * j)) (fun j => Real.cos (v * j)) _ _ b1 (neg _ b2) (by
    intro j; rw [ang1, ang2, Real.sin_add, Real.sin_sub]; ring)
  have := bessel4 hN e _ _ _ _ w1 w2 v1 v2 w3 c1 c3 c4 c2 v3
  unfold toneEnergy
  linarith

end Verif
