import Verif.Lemmas.RealDft
import Verif.Lemmas.Blocks
import Verif.Lemmas.Wave
import Verif.Lemmas.Crash

/-! Helper lemmas for the band-pass filter. -/
namespace Verif
open Spec
set_option linter.unusedSectionVars false

theorem blocks_append_dvd {A : Type} {n : ℕ} (hn : 0 < n) {l : List A} (h : n ∣ l.length) (r : List A) :
    blocks n (l ++ r) = blocks n l ++ blocks n r := by
  have hb := mem_blocks_full hn l h
  rw [← blocks_flatten n hn l, blocks_flatten_eq hn _ hb]
  generalize blocks n l = L at hb
  induction L with
  | nil => simp
  | cons b L ih =>
    rw [List.flatten_cons, List.append_assoc, blocks_append hn (hb b (by simp)), ih (fun c hc => hb c (by simp [hc]))]
    rfl

theorem blocks_small {A : Type} {n : ℕ} {r : List A} (h0 : 0 < r.length) (h : r.length ≤ n) : blocks n r = [r] := by
  rw [blocks_cons (by omega) (List.length_pos_iff.mp h0), List.take_of_length_le h, List.drop_of_length_le h, blocks_nil]

section anyF
variable {ι F : Type} [Add F] [Sub F] [Mul F] [Div F] [Neg F] [Zero F] [One F] [Flt F] [RealFft F]

theorem bpMask_length (lo hi : F) (fr : List F) (X : List (Cx F)) : (bpMask lo hi fr X).length = X.length := by
  simp [bpMask]

/-- The values of a full chunk after filtering. -/
def bpOut (lo hi : F) (fs n : ℕ) (c : List F) : List F :=
  (RealFft.irfft n (bpMask lo hi (bpFrequencies fs n) (RealFft.rfft c))).map (fun s => s / Flt.ofNat n)

theorem bpOut_length (lo hi : F) (fs n : ℕ) (c : List F) : (bpOut lo hi fs n c).length = n := by
  simp [bpOut, RealFft.length_irfft]

theorem bpMask_im (lo hi : F) (fr : List F) {X : List (Cx F)} {i : ℕ}
    (h : ∀ z, X[i]? = some z → Flt.eq z.im 0 = true) : ((bpMask lo hi fr X)[i]?.any (fun z => !Flt.eq z.im 0)) = false := by
  rw [bpMask, List.getElem?_mapIdx]
  cases hX : X[i]? with
  | none => rfl
  | some z =>
    have hz := h z hX
    simp only [Option.map_some, Option.any_some, Bool.not_eq_false']
    cases fr[i]? with
    | none => exact hz
    | some f =>
      simp only []
      split
      · exact RealFft.zero_eq
      · exact hz

theorem bpChunk_ok (lo hi : F) {fs n : ℕ} {c : List F} (hc : c.length = n) :
    ∃ k, bpChunk lo hi fs n c = pure k ∧ Yields k (bpOut lo hi fs n c) := by
  unfold bpChunk rfftProcess irfftProcess
  rw [rassert_pos (by simpa using hc), pure_bind, if_neg (by simpa using hc), pure_bind,
    if_neg (by rw [bpMask_length, RealFft.length_rfft, hc]; simp), if_neg, pure_bind]
  · exact ⟨_, rfl, (yields_ofList _).rmap _⟩
  · rw [bpMask_im _ _ _ (RealFft.rfft_first c), Bool.false_or, Bool.and_eq_true]
    rintro ⟨h1, h2⟩
    rw [bpMask_im _ _ _ (fun z => by
      have := RealFft.rfft_last c z (by rw [hc]; simpa using h1)
      rw [hc] at this
      exact this)] at h2
    exact Bool.noConfusion h2

theorem bpChunk_panics (lo hi : F) {fs n : ℕ} {c : List F} (hc : c.length ≠ n) : (bpChunk lo hi fs n c).Panics := by
  unfold bpChunk rassert
  rw [if_neg (by simpa using hc)]
  exact ⟨_, rfl⟩

theorem bandpass_ok [RIter ι F] (lo hi : F) {m : ι} {l : List F} (h : Yields m l) {fs n : ℕ} (hn : 0 < n)
    (hd : n ∣ l.length) : Yields (bandpass lo hi m fs n) ((blocks n l).flatMap (bpOut lo hi fs n)) :=
  (h.chunks n).rflatMap_mem (fun c hc => bpChunk_ok lo hi (mem_blocks_full hn l hd c hc))

theorem bandpass_crash [RIter ι F] (lo hi : F) {m : ι} {l r : List F} (h : Yields m (l ++ r)) {fs n : ℕ} (hn : 0 < n)
    (hd : n ∣ l.length) (h0 : 0 < r.length) (hr : r.length < n) :
    Crashes (bandpass lo hi m fs n) ((blocks n l).flatMap (bpOut lo hi fs n)) := by
  have := h.chunks n
  rw [blocks_append_dvd hn hd, blocks_small h0 hr.le] at this
  exact this.rflatMap_crash (fun c hc => bpChunk_ok lo hi (mem_blocks_full hn l hd c hc)) (bpChunk_panics lo hi (by omega))

end anyF

/-! ## Exact arithmetic -/

/-- Bin `k` is inside the pass band. -/
def inBand (lo hi : ℝ) (fs n k : ℕ) : Prop := lo ≤ (k : ℝ) * fs / n ∧ (k : ℝ) * fs / n ≤ hi

theorem bpMask_getElem? (lo hi : ℝ) (fs : ℕ) {n : ℕ} {X : List (Cx ℝ)} {k : ℕ} (hk : k < n) (hX : k < X.length) :
    (bpMask lo hi (bpFrequencies fs n) X)[k]?
      = some (open Classical in if inBand lo hi fs n k then X[k] else 0) := by
  rw [bpMask, List.getElem?_mapIdx, List.getElem?_eq_getElem hX]
  have hf : (bpFrequencies fs n : List ℝ)[k]? = some ((k : ℝ) * fs / n) := by simp [bpFrequencies, hk]
  simp only [Option.map_some, hf, Option.some.injEq, Flt.lt_real]
  by_cases h : inBand lo hi fs n k
  · rw [if_pos h, if_neg]
    obtain ⟨h1, h2⟩ := h
    simp only [Bool.or_eq_true, decide_eq_true_eq, not_or, not_lt]
    exact ⟨h1, h2⟩
  · rw [if_neg h, if_pos]
    simp only [Bool.or_eq_true, decide_eq_true_eq]
    by_contra h3
    push Not at h3
    exact h ⟨h3.1, h3.2⟩

theorem rfft_getElem? (x : List ℝ) {k : ℕ} (hk : k ≤ x.length / 2) :
    (RealFft.rfft x : List (Cx ℝ))[k]? = some (Cx.ofC (dftAt (-1) (toCs x) k)) := by
  rw [rfft_eq]; simp [Nat.lt_succ_of_le hk]

/-- Filtering keeps the bins of the pass band and removes the others. -/
theorem bpOut_spectrum (lo hi : ℝ) (fs : ℕ) {n : ℕ} (hn : 0 < n) {c : List ℝ} (hc : c.length = n) {k : ℕ}
    (hk : k ≤ n / 2) :
    dftAt (-1) (toCs (bpOut lo hi fs n c)) k
      = open Classical in if inBand lo hi fs n k then dftAt (-1) (toCs c) k else 0 := by
  set Y := bpMask lo hi (bpFrequencies fs n) (RealFft.rfft c) with hY
  have hYl : Y.length = n / 2 + 1 := by rw [hY, bpMask_length, RealFft.length_rfft, hc]
  have hYk : ∀ i, i ≤ n / 2 → Y.getD i 0 = open Classical in
      if inBand lo hi fs n i then Cx.ofC (dftAt (-1) (toCs c) i) else 0 := by
    intro i hi'
    have hlt : i < (RealFft.rfft c : List (Cx ℝ)).length := by rw [RealFft.length_rfft, hc]; omega
    have hg := rfft_getElem? c (k := i) (by rw [hc]; exact hi')
    rw [List.getElem?_eq_getElem hlt, Option.some.injEq] at hg
    rw [List.getD, hY, bpMask_getElem? lo hi fs (by omega) hlt, Option.getD_some, hg]
  have h0 : (Y.getD 0 0).im = 0 := by
    rw [hYk 0 (by omega)]
    split
    · exact dftAt_zero_im c
    · rfl
  have h2 : n % 2 = 0 → (Y.getD (n / 2) 0).im = 0 := by
    intro he
    rw [hYk _ le_rfl]
    split
    · rw [← hc] at he ⊢; exact dftAt_half_im he
    · rfl
  have hr := rfft_irfft hn hYl h0 h2
  have hb : bpOut lo hi fs n c = (RealFft.irfft n Y).map (fun r => (n : ℝ)⁻¹ * r) := by
    rw [bpOut, ← hY]
    refine List.map_congr_left fun r _ => ?_
    simp [div_eq_inv_mul]
  rw [hb, dftAt_smul_real]
  have e := congrArg (fun l : List (Cx ℝ) => l[k]?) hr
  rw [rfft_getElem? _ (by rw [RealFft.length_irfft]; exact hk), List.getElem?_map,
    List.getElem?_eq_getElem (by omega), Option.map_some, Option.some.injEq] at e
  have hg : Y[k] = Y.getD k 0 := by simp [List.getD, hYl, Nat.lt_succ_of_le hk]
  rw [hg, hYk k hk] at e
  have e' := congrArg Cx.toC e
  rw [Cx.toC_ofC] at e'
  rw [e']
  have hn' : (n : ℝ) ≠ 0 := by exact_mod_cast hn.ne'
  have hs : ∀ z : Cx ℝ, (Cx.smulR (n : ℝ) z).toC = (n : ℂ) * z.toC := by
    intro z; apply Complex.ext <;> simp [Cx.toC, Cx.smulR]
  rw [hs]
  have hnC : (n : ℂ) ≠ 0 := by exact_mod_cast hn.ne'
  push_cast
  rw [← mul_assoc, inv_mul_cancel₀ hnC, one_mul]
  split
  · rfl
  · rfl

/-- Real signals of the same length with the same spectrum are equal. -/
theorem spectrum_inj {x y : List ℝ} {n : ℕ} (hx : x.length = n) (hy : y.length = n)
    (h : ∀ k, k ≤ n / 2 → dftAt (-1) (toCs x) k = dftAt (-1) (toCs y) k) : x = y := by
  refine rfft_inj (hx.trans hy.symm) ?_
  rw [rfft_eq, rfft_eq, hx, hy]
  exact List.map_congr_left fun k hk => by rw [h k (by have := List.mem_range.mp hk; omega)]

theorem bpOut_idem (lo hi : ℝ) (fs : ℕ) {n : ℕ} (hn : 0 < n) {c : List ℝ} (hc : c.length = n) :
    bpOut lo hi fs n (bpOut lo hi fs n c) = bpOut lo hi fs n c := by
  refine spectrum_inj (bpOut_length _ _ _ _ _) (bpOut_length _ _ _ _ _) fun k hk => ?_
  rw [bpOut_spectrum lo hi fs hn (bpOut_length _ _ _ _ _) hk, bpOut_spectrum lo hi fs hn hc hk]
  split <;> rfl

theorem bpOut_allpass {lo hi : ℝ} {fs n : ℕ} (hn : 0 < n) {c : List ℝ} (hc : c.length = n)
    (h : ∀ k, k ≤ n / 2 → inBand lo hi fs n k) : bpOut lo hi fs n c = c := by
  refine spectrum_inj (bpOut_length _ _ _ _ _) hc fun k hk => ?_
  rw [bpOut_spectrum lo hi fs hn hc hk, if_pos (h k hk)]

theorem bpOut_smul (lo hi : ℝ) (fs : ℕ) {n : ℕ} (hn : 0 < n) {c : List ℝ} (hc : c.length = n) (a : ℝ) :
    bpOut lo hi fs n (c.map (fun r => a * r)) = (bpOut lo hi fs n c).map (fun r => a * r) := by
  refine spectrum_inj (bpOut_length _ _ _ _ _) (by simp [bpOut_length]) fun k hk => ?_
  rw [bpOut_spectrum lo hi fs hn (by simpa using hc) hk, dftAt_smul_real, dftAt_smul_real,
    bpOut_spectrum lo hi fs hn hc hk]
  split <;> simp

theorem bpOut_add (lo hi : ℝ) (fs : ℕ) {n : ℕ} (hn : 0 < n) {c d : List ℝ} (hc : c.length = n) (hd : d.length = n) :
    bpOut lo hi fs n (List.zipWith (· + ·) c d)
      = List.zipWith (· + ·) (bpOut lo hi fs n c) (bpOut lo hi fs n d) := by
  refine spectrum_inj (bpOut_length _ _ _ _ _) (by simp [bpOut_length]) fun k hk => ?_
  rw [bpOut_spectrum lo hi fs hn (by simp [hc, hd]) hk, dftAt_add_real (by rw [hc, hd]),
    dftAt_add_real (by rw [bpOut_length, bpOut_length]), bpOut_spectrum lo hi fs hn hc hk, bpOut_spectrum lo hi fs hn hd hk]
  split <;> simp

/-! ## Tones -/

/-- The samples of a tone of `k` cycles per `n` samples. -/
noncomputable def tone (n k : ℕ) (a φ : ℝ) : List ℝ :=
  (List.range n).map (fun j : ℕ => a * Real.cos (2 * Real.pi * ((k : ℝ) * (j : ℝ) / n) + φ))

theorem sum_unit_eq_zero {n : ℕ} (hn : 0 < n) {d : ℤ} (hd : ¬ (n : ℤ) ∣ d) :
    ∑ j ∈ Finset.range n, unit n (d * j) = 0 := by
  rw [← sum_exp_eq_zero hn hd]
  refine Finset.sum_congr rfl fun j _ => ?_
  unfold unit; congr 2; push_cast; ring

theorem tone_spectrum {n k k' : ℕ} (hn : 0 < n) (hk : k ≤ n / 2) (hk' : k' ≤ n / 2) (hne : k ≠ k') (a φ : ℝ) :
    dftAt (-1) (toCs (tone n k a φ)) k' = 0 := by
  rw [dftAt_unit, toCs_length]
  have hl : (tone n k a φ).length = n := by simp [tone]
  rw [hl]
  have h1 : ∀ j ∈ Finset.range n, (toCs (tone n k a φ)).getD j 0 * unit n (-1 * (j * k'))
      = a * Complex.exp (φ * Complex.I) / 2 * unit n (((k : ℤ) - k') * j)
        + a * Complex.exp (-φ * Complex.I) / 2 * unit n ((-(k : ℤ) - k') * j) := by
    intro j hj
    have hj := Finset.mem_range.mp hj
    have hg : (tone n k a φ).getD j 0 = a * Real.cos (2 * Real.pi * (k * j / n) + φ) := by
      simp [tone, List.getD, hj]
    rw [toCs_getD, hg, show ((k : ℤ) - k') * (j : ℤ) = k * j + -1 * (j * k') by ring,
      show (-(k : ℤ) - k') * (j : ℤ) = -(k * j) + -1 * (j * k') by ring, unit_add n ((k : ℤ) * j), unit_add n (-((k : ℤ) * j))]
    push_cast
    rw [Complex.cos]
    have e1 : Complex.exp ((2 * Real.pi * (k * j / n) + φ) * Complex.I)
        = Complex.exp (φ * Complex.I) * unit n (k * j) := by
      unfold unit; rw [← Complex.exp_add]; congr 1; push_cast; ring
    have e2 : Complex.exp (-(2 * Real.pi * (k * j / n) + φ) * Complex.I)
        = Complex.exp (-φ * Complex.I) * unit n (-(k * j)) := by
      unfold unit; rw [← Complex.exp_add]; congr 1; push_cast; ring
    rw [e1, e2]; ring
  rw [Finset.sum_congr rfl h1, Finset.sum_add_distrib, ← Finset.mul_sum, ← Finset.mul_sum, sum_unit_eq_zero hn,
    sum_unit_eq_zero hn, mul_zero, mul_zero, add_zero]
  · rintro ⟨c, hc⟩
    have hn' : (0 : ℤ) < n := by omega
    have h3 : c < 0 := by
      by_contra h; push Not at h
      have : 0 ≤ (n : ℤ) * c := by positivity
      omega
    have h4 : -1 < c := by
      by_contra h
      have : (n : ℤ) * c ≤ n * (-1) := by nlinarith
      omega
    omega
  · rintro ⟨c, hc⟩
    have hn' : (0 : ℤ) < n := by omega
    have h3 : c < 1 := by
      by_contra h
      have : (n : ℤ) * 1 ≤ n * c := by nlinarith
      omega
    have h4 : -1 < c := by
      by_contra h
      have : (n : ℤ) * c ≤ n * (-1) := by nlinarith
      omega
    have : c = 0 := by omega
    subst this; omega

theorem dftAt_zeros (n k : ℕ) : dftAt (-1) (toCs (List.replicate n (0 : ℝ))) k = 0 := by
  rw [dftAt]
  refine Finset.sum_eq_zero fun j _ => ?_
  rw [toCs_getD]
  simp [List.getD, List.getElem?_replicate]
  split <;> simp

theorem bpOut_tone (lo hi : ℝ) (fs : ℕ) {n k : ℕ} (hn : 0 < n) (hk : k ≤ n / 2) (a φ : ℝ) :
    bpOut lo hi fs n (tone n k a φ)
      = open Classical in if inBand lo hi fs n k then tone n k a φ else List.replicate n 0 := by
  have hl : (tone n k a φ).length = n := by simp [tone]
  refine spectrum_inj (n := n) (bpOut_length _ _ _ _ _) (by split <;> simp [hl]) fun k' hk' => ?_
  rw [bpOut_spectrum lo hi fs hn hl hk']
  by_cases hkk : k = k'
  · subst hkk
    split
    · rfl
    · rw [dftAt_zeros]
  · rw [tone_spectrum hn hk hk' hkk]
    split <;> split <;> simp [tone_spectrum hn hk hk' hkk, dftAt_zeros]

end Verif

namespace Verif
open Spec

theorem blocks_getElem? {A : Type} {n : ℕ} (hn : 0 < n) (l : List A) (b : ℕ) (h : b * n < l.length) :
    (blocks n l)[b]? = some ((l.drop (b * n)).take n) := by
  induction b generalizing l with
  | zero =>
    rw [blocks_cons hn (List.length_pos_iff.mp (by omega))]; simp
  | succ b ih =>
    rw [Nat.add_mul, Nat.one_mul] at h
    rw [blocks_cons hn (List.length_pos_iff.mp (by omega)), List.getElem?_cons_succ, ih _ (by rw [List.length_drop]; omega),
      List.drop_drop, Nat.add_mul, Nat.one_mul, Nat.add_comm n]

theorem map_range_blocks {A : Type} (g : ℕ → A) (n q : ℕ) :
    (List.range (q * n)).map g = (List.range q).flatMap (fun b => (List.range n).map (fun j => g (b * n + j))) := by
  induction q with
  | zero => simp
  | succ q ih =>
    rw [Nat.add_mul, Nat.one_mul, List.range_add, List.map_append, ih, List.range_succ, List.flatMap_append,
      List.flatMap_singleton, List.map_map]
    rfl

/-- The sum of the tones of a list at sample `j`. -/
noncomputable def tonesAt (n : ℕ) (ts : List (ℕ × ℝ × ℝ)) (j : ℕ) : ℝ :=
  (ts.map (fun p => p.2.1 * Real.cos (2 * Real.pi * ((p.1 : ℝ) * (j : ℝ) / n) + p.2.2))).sum

theorem tonesAt_period {n : ℕ} (hn : 0 < n) (ts : List (ℕ × ℝ × ℝ)) (b j : ℕ) :
    tonesAt n ts (b * n + j) = tonesAt n ts j := by
  unfold tonesAt
  congr 1
  refine List.map_congr_left fun p _ => ?_
  congr 1
  rw [← Real.cos_add_nat_mul_two_pi (2 * Real.pi * ((p.1 : ℝ) * (j : ℝ) / n) + p.2.2) (p.1 * b)]
  congr 1
  have : (n : ℝ) ≠ 0 := by exact_mod_cast hn.ne'
  push_cast; field_simp; ring

theorem bpOut_tones (lo hi : ℝ) (fs : ℕ) {n : ℕ} (hn : 0 < n) (ts : List (ℕ × ℝ × ℝ)) (hts : ∀ p ∈ ts, p.1 ≤ n / 2) :
    bpOut lo hi fs n ((List.range n).map (tonesAt n ts))
      = open Classical in (List.range n).map (tonesAt n (ts.filter (fun p => decide (inBand lo hi fs n p.1)))) := by
  classical
  have hz : (List.range n).map (tonesAt n []) = List.replicate n 0 := by
    have : tonesAt n [] = fun _ => (0 : ℝ) := by funext j; simp [tonesAt]
    rw [this, List.map_const']; simp
  induction ts with
  | nil =>
    rw [List.filter_nil, hz]
    refine spectrum_inj (n := n) (bpOut_length _ _ _ _ _) (by simp) fun k hk => ?_
    rw [bpOut_spectrum lo hi fs hn (by simp) hk, dftAt_zeros]
    split <;> rfl
  | cons p ts ih =>
    have hadd : ∀ ts, (List.range n).map (tonesAt n (p :: ts))
        = List.zipWith (· + ·) (tone n p.1 p.2.1 p.2.2) ((List.range n).map (tonesAt n ts)) := by
      intro ts
      rw [tone, List.zipWith_map, List.zipWith_self]
      refine List.map_congr_left fun j _ => ?_
      simp [tonesAt]
    rw [hadd, bpOut_add lo hi fs hn (by simp [tone]) (by simp), ih (fun q hq => hts q (by simp [hq])),
      bpOut_tone lo hi fs hn (hts p (by simp))]
    by_cases hb : inBand lo hi fs n p.1
    · rw [if_pos hb, List.filter_cons_of_pos (by simpa using hb), hadd]
    · rw [if_neg hb, List.filter_cons_of_neg (by simpa using hb)]
      apply List.ext_getElem
      · simp
      · intro i h1 h2
        simp

end Verif
