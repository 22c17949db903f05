import Verif.Lemmas.GaussRx
import Verif.Lemmas.Driven
import Verif.Lemmas.Users
import Verif.Lemmas.Fading
import Verif.Spec.Margin
import Verif.Lemmas.Flips

/-! # The receivers on an arbitrary recording with white Gaussian noise -/
namespace Verif
open Spec MeasureTheory ProbabilityTheory
variable {Ω : Type} [MeasurableSpace Ω] {P : Measure Ω} {σ : ℝ} {w : ℕ → Ω → ℝ}

theorem erfc_margin (hσ : 0 < σ) {K : ℝ} (hK : 0 < K) (s x : ℝ) :
    s * (K * x) / √(2 * (σ ^ 2 * K)) = s * x * √(K / (2 * σ ^ 2)) := by
  rw [← erfc_arg hσ hK]; ring

/-- A receiver of one bit per symbol, which answers with the sign of a correlation, on any recording with noise. -/
theorem gauss_one (hw : White P σ w) (hσ : 0 < σ) {k : ℕ} (hk : 0 < k) (c : ℕ → ℕ → ℝ) (dec : ℕ → List ℝ → Bool)
    (hdec : ∀ n (b : List ℝ), b.length = k → dec n b = decide (0 < ∑ j ∈ Finset.range k, b.getD j 0 * c n j))
    {msg : List Bool} {r : List ℝ} (hl : r.length = msg.length * k) {K : ℝ} (hK : 0 < K)
    (hc : ∀ n < msg.length, ∑ j ∈ Finset.range k, c n j ^ 2 = K) {X : ℕ → ℝ}
    (hX : ∀ n < msg.length, ∑ j ∈ Finset.range k, r.getD (n * k + j) 0 * c n j = K * X n) :
    Flips P msg (fun ω => (fullBlocks k (r.mapIdx (fun i x => x + w i ω))).mapIdx dec)
      (fun n => marginError ((if msg.getD n false then 1 else -1) * X n) K σ) := by
  have h := gauss_gen hw hσ (N := msg.length) (m := 1) hk one_pos (fun n _ j => c n j) (fun n b => [dec n b]) (fun _ _ => rfl) ?_ ?_
    (msg := msg) (by omega) hl ?_ ?_ (fun n => (if msg.getD n false then 1 else -1) * (K * X n)) ?_
  · simp only [flatten_mapIdx_singleton] at h
    refine h.congr fun n hn => ?_
    simp only [Nat.div_one]
    rw [hc n hn, erfc_margin hσ hK]
    rfl
  · intro n b t hb ht h0
    have : t = 0 := by omega
    subst this
    rw [hdec n b hb, decide_eq_true h0]; rfl
  · intro n b t hb ht h0
    have : t = 0 := by omega
    subst this
    rw [hdec n b hb, decide_eq_false h0.not_gt]; rfl
  · intro n hn _ _
    simp only [hc n hn]; exact hK
  · intro n hn t ht u hu htu; omega
  · intro n hn
    simp only [Nat.div_one]
    rw [hX n hn, List.getD_eq_getElem?_getD, List.getElem?_eq_getElem hn, Option.getD_some]
    split_ifs <;> ring

/-- A receiver of two bits per symbol, which answers with the signs of two orthogonal correlations, on any recording with noise. -/
theorem gauss_two (hw : White P σ w) (hσ : 0 < σ) {k : ℕ} (hk : 0 < k) (c s : ℕ → ℕ → ℝ) (dec : ℕ → List ℝ → List Bool)
    (hdec : ∀ n (b : List ℝ), b.length = k → dec n b = [decide (0 ≤ ∑ j ∈ Finset.range k, b.getD j 0 * c n j),
      decide (0 ≤ ∑ j ∈ Finset.range k, b.getD j 0 * s n j)]) (hlen : ∀ n b, (dec n b).length = 2)
    {msg : List Bool} {N : ℕ} (hm : msg.length = N * 2) {r : List ℝ} (hl : r.length = N * k) {K : ℝ} (hK : 0 < K)
    (hcc : ∀ n < N, ∑ j ∈ Finset.range k, c n j ^ 2 = K) (hss : ∀ n < N, ∑ j ∈ Finset.range k, s n j ^ 2 = K)
    (hcs : ∀ n < N, ∑ j ∈ Finset.range k, c n j * s n j = 0) {X Y : ℕ → ℝ}
    (hX : ∀ n < N, ∑ j ∈ Finset.range k, r.getD (n * k + j) 0 * c n j = K * X n)
    (hY : ∀ n < N, ∑ j ∈ Finset.range k, r.getD (n * k + j) 0 * s n j = K * Y n) :
    Flips P msg (fun ω => ((fullBlocks k (r.mapIdx (fun i x => x + w i ω))).mapIdx dec).flatten)
      (fun q => marginError ((if msg.getD q false then 1 else -1) * (if q % 2 = 0 then X (q / 2) else Y (q / 2))) K σ) := by
  have h := gauss_gen hw hσ (N := N) (m := 2) hk two_pos (fun n t j => if t = 0 then c n j else s n j) dec hlen ?_ ?_
    (msg := msg) hm hl ?_ ?_
    (fun q => (if msg.getD q false then 1 else -1) * (K * (if q % 2 = 0 then X (q / 2) else Y (q / 2)))) ?_
  · refine h.congr fun q hq => ?_
    have hqN : q / 2 < N := by omega
    have : ∑ j ∈ Finset.range k, (if q % 2 = 0 then c (q / 2) j else s (q / 2) j) ^ 2 = K := by
      split_ifs
      · exact hcc _ hqN
      · exact hss _ hqN
    simp only [this]
    rw [erfc_margin hσ hK]
    rfl
  · intro n b t hb ht h0
    rw [hdec n b hb]
    interval_cases t
    · simp only [if_true] at h0
      rw [decide_eq_true h0.le]; rfl
    · simp only [one_ne_zero, if_false] at h0
      rw [decide_eq_true h0.le (p := 0 ≤ ∑ j ∈ Finset.range k, b.getD j 0 * s n j)]; rfl
  · intro n b t hb ht h0
    rw [hdec n b hb]
    interval_cases t
    · simp only [if_true] at h0
      rw [decide_eq_false h0.not_ge]; rfl
    · simp only [one_ne_zero, if_false] at h0
      rw [decide_eq_false h0.not_ge (p := 0 ≤ ∑ j ∈ Finset.range k, b.getD j 0 * s n j)]; rfl
  · intro n hn t ht
    interval_cases t
    · simp only [if_true]; rw [hcc n hn]; exact hK
    · simp only [one_ne_zero, if_false]; rw [hss n hn]; exact hK
  · intro n hn t ht u hu htu
    interval_cases t <;> interval_cases u
    · omega
    · simpa using hcs n hn
    · have := hcs n hn
      simp only [one_ne_zero, if_false, if_true]
      rw [← this]; exact Finset.sum_congr rfl fun j _ => mul_comm _ _
    · omega
  · intro q hq
    have hqN : q / 2 < N := by omega
    rw [List.getD_eq_getElem?_getD, List.getElem?_eq_getElem hq, Option.getD_some]
    rcases Nat.mod_two_eq_zero_or_one q with h0 | h0
    · simp only [h0, if_true]
      rw [hX _ hqN]
      split_ifs <;> ring
    · simp only [h0, one_ne_zero, if_false]
      rw [hY _ hqN]
      split_ifs <;> ring

variable {ι ν : Type} [RIter ι ℝ] [RIter ν ℝ] {noise : Ω → ν}

/-- The BPSK receiver on any recording with noise. -/
theorem bpsk_rec (hw : White P σ w) (hσ : 0 < σ) (hn : ∀ ω, Drives σ (noise ω) (fun i => w i ω)) {src : ι} {r : List ℝ}
    (h : Yields src r) {fs sym : ℕ} {fc : ℝ} (hsps : 0 < fs / sym) {p : ℤ}
    (hp : ((fs / sym : ℕ) : ℝ) * dphi fs fc = p * Real.pi) (hs : Real.sin (dphi fs fc) ≠ 0) {msg : List Bool}
    (hl : r.length = msg.length * (fs / sym)) {X : ℕ → ℝ}
    (hX : ∀ n < msg.length, ∑ j ∈ Finset.range (fs / sym), r.getD (n * (fs / sym) + j) 0
      * Real.cos ((n * (fs / sym) + j : ℕ) * dphi fs fc) = (fs / sym : ℕ) / 2 * X n) :
    ∃ bits : Ω → List Bool, (∀ ω, (do
        let ch ← awgn src σ (noise ω)
        let rx ← rxBpsk ch fs sym fc
        collect rx) = pure (bits ω)) ∧
      Flips P msg bits (fun n => marginError ((if msg.getD n false then 1 else -1) * X n) ((fs / sym : ℕ) / 2) σ) := by
  have hK : (0 : ℝ) < (fs / sym : ℕ) / 2 := by have : (0 : ℝ) < (fs / sym : ℕ) := by exact_mod_cast hsps
                                               positivity
  refine ⟨_, ?_, gauss_one hw hσ hsps (fun n j => Real.cos ((n * (fs / sym) + j : ℕ) * dphi fs fc)) (decBpsk fs (fs / sym) fc)
    ?_ hl hK (fun n _ => sum_cos_sq_half hp hs _) hX⟩
  · intro ω
    obtain ⟨ch, c1, c2⟩ := awgn_driven h (hn ω)
    obtain ⟨rx, r1, r2⟩ := rxBpsk_sym c2 (fc := fc) hsps
    rw [c1, pure_bind, r1, pure_bind, collect_of_yields r2]
  · intro n b hb
    unfold decBpsk
    rw [rsum_mapIdx_real, hb, Flt.lt_real]
    simp only [phase_real, Flt.cos_real]

/-- The QPSK receiver on any recording with noise. -/
theorem qpsk_rec (hw : White P σ w) (hσ : 0 < σ) (hn : ∀ ω, Drives σ (noise ω) (fun i => w i ω)) {src : ι} {r : List ℝ}
    (h : Yields src r) {fs sym N : ℕ} {fc : ℝ} (hsps : 0 < fs / sym) {p : ℤ}
    (hp : ((fs / sym : ℕ) : ℝ) * dphi fs fc = p * Real.pi) (hs : Real.sin (dphi fs fc) ≠ 0) {msg : List Bool}
    (hm : msg.length = N * 2) (hl : r.length = N * (fs / sym)) {X Y : ℕ → ℝ}
    (hX : ∀ n < N, ∑ j ∈ Finset.range (fs / sym), r.getD (n * (fs / sym) + j) 0
      * Real.cos ((n * (fs / sym) + j : ℕ) * dphi fs fc) = (fs / sym : ℕ) / 2 * X n)
    (hY : ∀ n < N, ∑ j ∈ Finset.range (fs / sym), r.getD (n * (fs / sym) + j) 0
      * -Real.sin ((n * (fs / sym) + j : ℕ) * dphi fs fc) = (fs / sym : ℕ) / 2 * Y n) :
    ∃ bits : Ω → List Bool, (∀ ω, (do
        let ch ← awgn src σ (noise ω)
        let rx ← rxQpsk ch fs sym fc
        collect rx) = pure (bits ω)) ∧
      Flips P msg bits (fun q => marginError ((if msg.getD q false then 1 else -1)
        * (if q % 2 = 0 then X (q / 2) else Y (q / 2))) ((fs / sym : ℕ) / 2) σ) := by
  have hK : (0 : ℝ) < (fs / sym : ℕ) / 2 := by have : (0 : ℝ) < (fs / sym : ℕ) := by exact_mod_cast hsps
                                               positivity
  refine ⟨_, ?_, gauss_two hw hσ hsps (fun n j => Real.cos ((n * (fs / sym) + j : ℕ) * dphi fs fc))
    (fun n j => -Real.sin ((n * (fs / sym) + j : ℕ) * dphi fs fc)) (decQpsk fs (fs / sym) fc)
    ?_ (fun _ _ => rfl) hm hl hK (fun n _ => sum_cos_sq_half hp hs _) (fun n _ => ?_) (fun n _ => ?_) hX hY⟩
  · intro ω
    obtain ⟨ch, c1, c2⟩ := awgn_driven h (hn ω)
    obtain ⟨rx, r1, r2⟩ := rxQpsk_sym c2 (fc := fc) hsps
    rw [c1, pure_bind, r1, pure_bind, collect_of_yields r2]
  · intro n b hb
    unfold decQpsk
    rw [rsum_mapIdx_real, rsum_mapIdx_real, hb]
    simp only [Flt.le_real, phase_real, Flt.cos_real, Flt.sin_real]
  · simp only [neg_sq]; exact sum_sin_sq_half hp hs _
  · simp only [mul_neg, Finset.sum_neg_distrib, neg_eq_zero]; exact sum_cos_sin_half hp hs _

/-- The CDMA receivers on any recording with noise. -/
theorem cdma_rec (hw : White P σ w) (hσ : 0 < σ) (hn : ∀ ω, Drives σ (noise ω) (fun i => w i ω)) {src : ι} {r : List ℝ}
    (h : Yields src r) {fs sym : ℕ} {fc : ℝ} {key : List Bool} (hok : CdmaOk fs sym fc key.length) {p : ℤ}
    (hp : ((fs / sym : ℕ) : ℝ) * dphi fs fc = p * Real.pi) (hs : Real.sin (dphi fs fc) ≠ 0) {msg : List Bool}
    (hl : r.length = msg.length * (fs / sym)) {X : ℕ → ℝ}
    (hX : ∀ n < msg.length, ∑ j ∈ Finset.range (fs / sym), r.getD (n * (fs / sym) + j) 0
      * bitToNrz (keyBit key (fs / sym / key.length) (n * (fs / sym) + j))
      * Real.cos ((n * (fs / sym) + j : ℕ) * dphi fs fc) = (fs / sym : ℕ) / 2 * X n) :
    ∃ bits : Ω → List Bool, (∀ ω, (do
        let ch ← awgn src σ (noise ω)
        let rx ← rxCdmaBpsk ch fs sym fc key
        collect rx) = pure (bits ω)) ∧
      Flips P msg bits (fun n => marginError ((if msg.getD n false then 1 else -1) * X n) ((fs / sym : ℕ) / 2) σ) := by
  have hsps : 0 < fs / sym := by have := hok.sps; have := hok.key_pos; omega
  have hK : (0 : ℝ) < (fs / sym : ℕ) / 2 := by have : (0 : ℝ) < (fs / sym : ℕ) := by exact_mod_cast hsps
                                               positivity
  have hk2 : ∀ i, (bitToNrz (keyBit key (fs / sym / key.length) i) : ℝ) ^ 2 = 1 := by
    intro i; rw [sq, bitToNrz_sq]
  refine ⟨_, ?_, gauss_one hw hσ hsps (fun n j => bitToNrz (keyBit key (fs / sym / key.length) (n * (fs / sym) + j))
      * Real.cos ((n * (fs / sym) + j : ℕ) * dphi fs fc))
    (fun n b => decBpsk fs (fs / sym) fc n (despreadSym key (fs / sym / key.length) (fs / sym) n b))
    ?_ hl hK (fun n _ => ?_) (fun n hn => by rw [← hX n hn]; simp only [mul_assoc])⟩
  · intro ω
    obtain ⟨ch, c1, c2⟩ := awgn_driven h (hn ω)
    obtain ⟨rx, r1, r2⟩ := rxCdmaBpsk_sym c2 hok
    rw [c1, pure_bind, r1, pure_bind, collect_of_yields r2]
  · intro n b hb
    unfold decBpsk despreadSym
    rw [mapIdx_mapIdx', rsum_mapIdx_real, hb, Flt.lt_real]
    simp only [phase_real, Flt.cos_real, mul_assoc]
  · simp only [mul_pow, hk2, one_mul]; exact sum_cos_sq_half hp hs _

theorem cdma_qpsk_rec (hw : White P σ w) (hσ : 0 < σ) (hn : ∀ ω, Drives σ (noise ω) (fun i => w i ω)) {src : ι} {r : List ℝ}
    (h : Yields src r) {fs sym N : ℕ} {fc : ℝ} {key : List Bool} (hok : CdmaOk fs sym fc key.length) {p : ℤ}
    (hp : ((fs / sym : ℕ) : ℝ) * dphi fs fc = p * Real.pi) (hs : Real.sin (dphi fs fc) ≠ 0) {msg : List Bool}
    (hm : msg.length = N * 2) (hl : r.length = N * (fs / sym)) {X Y : ℕ → ℝ}
    (hX : ∀ n < N, ∑ j ∈ Finset.range (fs / sym), r.getD (n * (fs / sym) + j) 0
      * bitToNrz (keyBit key (fs / sym / key.length) (n * (fs / sym) + j))
      * Real.cos ((n * (fs / sym) + j : ℕ) * dphi fs fc) = (fs / sym : ℕ) / 2 * X n)
    (hY : ∀ n < N, ∑ j ∈ Finset.range (fs / sym), r.getD (n * (fs / sym) + j) 0
      * bitToNrz (keyBit key (fs / sym / key.length) (n * (fs / sym) + j))
      * -Real.sin ((n * (fs / sym) + j : ℕ) * dphi fs fc) = (fs / sym : ℕ) / 2 * Y n) :
    ∃ bits : Ω → List Bool, (∀ ω, (do
        let ch ← awgn src σ (noise ω)
        let rx ← rxCdmaQpsk ch fs sym fc key
        collect rx) = pure (bits ω)) ∧
      Flips P msg bits (fun q => marginError ((if msg.getD q false then 1 else -1)
        * (if q % 2 = 0 then X (q / 2) else Y (q / 2))) ((fs / sym : ℕ) / 2) σ) := by
  have hsps : 0 < fs / sym := by have := hok.sps; have := hok.key_pos; omega
  have hK : (0 : ℝ) < (fs / sym : ℕ) / 2 := by have : (0 : ℝ) < (fs / sym : ℕ) := by exact_mod_cast hsps
                                               positivity
  have hk2 : ∀ i, (bitToNrz (keyBit key (fs / sym / key.length) i) : ℝ) ^ 2 = 1 := by
    intro i; rw [sq, bitToNrz_sq]
  refine ⟨_, ?_, gauss_two hw hσ hsps (fun n j => bitToNrz (keyBit key (fs / sym / key.length) (n * (fs / sym) + j))
      * Real.cos ((n * (fs / sym) + j : ℕ) * dphi fs fc))
    (fun n j => bitToNrz (keyBit key (fs / sym / key.length) (n * (fs / sym) + j))
      * -Real.sin ((n * (fs / sym) + j : ℕ) * dphi fs fc))
    (fun n b => decQpsk fs (fs / sym) fc n (despreadSym key (fs / sym / key.length) (fs / sym) n b))
    ?_ (fun _ _ => rfl) hm hl hK (fun n _ => ?_) (fun n _ => ?_) (fun n _ => ?_)
    (fun n hn => by rw [← hX n hn]; simp only [mul_assoc]) (fun n hn => by rw [← hY n hn]; simp only [mul_assoc])⟩
  · intro ω
    obtain ⟨ch, c1, c2⟩ := awgn_driven h (hn ω)
    obtain ⟨rx, r1, r2⟩ := rxCdmaQpsk_sym c2 hok
    rw [c1, pure_bind, r1, pure_bind, collect_of_yields r2]
  · intro n b hb
    unfold decQpsk despreadSym
    rw [mapIdx_mapIdx', mapIdx_mapIdx', rsum_mapIdx_real, rsum_mapIdx_real, hb]
    simp only [Flt.le_real, phase_real, Flt.cos_real, Flt.sin_real, mul_assoc]
  · simp only [mul_pow, hk2, one_mul]; exact sum_cos_sq_half hp hs _
  · simp only [mul_pow, hk2, one_mul, neg_sq]; exact sum_sin_sq_half hp hs _
  · rw [← neg_eq_zero, ← sum_cos_sin_half hp hs (n * (fs / sym)), ← Finset.sum_neg_distrib]
    apply Finset.sum_congr rfl
    intro j _
    have := hk2 (n * (fs / sym) + j)
    linear_combination (Real.cos ((n * (fs / sym) + j : ℕ) * dphi fs fc) * Real.sin ((n * (fs / sym) + j : ℕ) * dphi fs fc)) * this

end Verif
