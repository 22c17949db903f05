import Verif.Lemmas.IeeeSsca
import Verif.Props.IeeeOfdmPass
import Verif.Props.Ssca

/-!
# C150: the spectral correlation and its detector in double precision
-/

namespace Verif
open F64 Spec
variable {L : Libm}

namespace Props

/-- The Hamming window in double precision: it has the given length, and every entry is finite and within `ε + 2⁻⁴⁶` of
`0.54 − 0.46 cos(2πi/n)`; the complex window has the same real parts and no imaginary parts. `ε` is the error of the cosine. -/
theorem C52_ieee {ε : ℝ} (hL : Accurate L ε (2 ^ 40)) (hε : ε ≤ 1) {n : ℕ} (hn : n ≤ 2 ^ 40) :
    (hammingWindow n : List (FloatL L)).length = n ∧ (hammingWindowComplex n : List (Cx (FloatL L))).length = n ∧
    ∀ i, i < n → ∃ w : FloatL L, (hammingWindow n : List (FloatL L))[i]? = some w ∧
      (hammingWindowComplex n : List (Cx (FloatL L)))[i]? = some ⟨w, 0⟩ ∧ F64.Fin w ∧
      |val w - (0.54 - 0.46 * Real.cos (2 * Real.pi * i / n))| ≤ ε + 1 / 2 ^ 46 := by
  refine ⟨by simp [hammingWindow], by simp [hammingWindowComplex], fun i hi => ⟨hammingAt n i, by simp [hammingWindow, hi],
    by simp [hammingWindowComplex, hi], ?_⟩⟩
  obtain ⟨h1, h2⟩ := hamming_ap (L := L) hL hε (by omega : 0 < n) hn hi.le
  exact ⟨h1, h2⟩

example : ∃ w : FloatL libm0, (hammingWindow 64 : List (FloatL libm0))[32]? = some w ∧ |val w - 1| ≤ 1 / 2 ^ 45 := by
  obtain ⟨w, h1, -, -, h2⟩ := (C52_ieee (ε := 1 / 2 ^ 52) accurate_libm0 (by norm_num) (n := 64) (by norm_num)).2.2 32 (by norm_num)
  refine ⟨w, h1, ?_⟩
  rw [show 2 * Real.pi * ((32 : ℕ) : ℝ) / ((64 : ℕ) : ℝ) = Real.pi by push_cast; ring, Real.cos_pi] at h2
  norm_num at h2 ⊢
  linarith

/-- The spectral correlation in double precision. On a recording of finite doubles of size at most `S`, at least `n + np − 1`
of them, `ssca_base` returns an `n × np` array; both components of every entry are finite and within an explicit bound of the
exact strip spectral correlation of the recording. `ε` and `δ` are the errors of the sine and cosine and of the transform. -/
theorem C150_entry [Fft (FloatL L)] {ε δ S : ℝ} (hL : Accurate L ε (2 ^ 40)) (hE : L.exp 0 = 1) (hε : ε ≤ 1 / 2 ^ 12)
    (hD : AccurateDft (Fft.dft (F := FloatL L)) δ) (hδ0 : 0 ≤ δ) (hδ : δ ≤ 1 / 2 ^ 12) {n np : ℕ} (hn : n ≤ 2 ^ 30)
    (hp : 0 < np) (hnp : np < n) (h2 : n % 2 = 0) (h2' : np % 2 = 0) {s : List (FloatL L)} (hlen : n + np - 1 ≤ s.length)
    (hS : 1 / 2 ^ 30 ≤ S) (hS' : S ≤ 2 ^ 30) (h : ∀ x ∈ s, F64.Fin x ∧ |val x| ≤ S) :
    ∃ M : Mat (FloatL L), sscaBase s n np = pure M ∧ M.length = n ∧ (∀ r ∈ M, r.length = np) ∧
      ∀ q k, q < n → k < np → ∃ row, M[q]? = some row ∧ ∃ z, row[k]? = some z ∧ F64.Fin z.re ∧ F64.Fin z.im ∧
        |val z.re - (ssca (fun i => val (s.getD i 0)) n np q k).re|
          ≤ n * (np * S ^ 2) * (110 * δ + 276 * ε + n / 2 ^ 37) ∧
        |val z.im - (ssca (fun i => val (s.getD i 0)) n np q k).im|
          ≤ n * (np * S ^ 2) * (110 * δ + 276 * ε + n / 2 ^ 37) := by
  refine ⟨_, sscaBase_ok hnp (by omega), by simp, fun r hr => ?_, fun q k hq hk => ⟨(List.range np).map (sscaVal s n np q), by simp [hq],
    sscaVal s n np q k, by simp only [List.getElem?_map, List.getElem?_range hk, Option.map_some], ?_⟩⟩
  · obtain ⟨q, _, rfl⟩ := List.mem_map.mp hr
    simp
  · obtain ⟨⟨⟨f1, e1⟩, ⟨f2, e2⟩⟩, -⟩ := ssca_cm hL hE hε hD hδ0 hδ hn hp (by omega) (getD_val s) hS hS' h hq hk
    rw [sscaVal_spec _ hq hk h2 h2'] at e1 e2
    simp only [getD_val] at e1 e2
    exact ⟨f1, f2, e1, e2⟩

/-- A real recording of 5 doubles, analysed with 4 x 2 points by a correctly rounded library: every entry is right to 2⁻³⁰. -/
example {s : List (FloatL libm0)} (hs : s.length = 5) (h : ∀ x ∈ s, F64.Fin x ∧ |val x| ≤ 1) :
    letI := fftRounded libm0
    ∃ M : Mat (FloatL libm0), sscaBase s 4 2 = pure M ∧ ∀ q k, q < 4 → k < 2 → ∃ row, M[q]? = some row ∧ ∃ z, row[k]? = some z ∧
        |val z.re - (ssca (fun i => val (s.getD i 0)) 4 2 q k).re| ≤ 1 / 2 ^ 30 := by
  let := fftRounded libm0
  obtain ⟨M, h1, -, -, h2⟩ := C150_entry (δ := 1 / 2 ^ 51) (ε := 1 / 2 ^ 52) (S := 1) accurate_libm0 rfl (by norm_num)
    accurate_roundedDft (by norm_num) (by norm_num) (n := 4) (np := 2) (by norm_num) (by norm_num) (by norm_num) (by norm_num)
    (by norm_num) (s := s) (by omega) (by norm_num) (by norm_num) h
  refine ⟨M, h1, fun q k hq hk => ?_⟩
  obtain ⟨row, e1, z, e2, -, -, e3, -⟩ := h2 q k hq hk
  exact ⟨row, e1, z, e2, e3.trans (by norm_num)⟩

/-- `max_cut_detector` in double precision: on a recording of finite doubles of size at most `S` it panics exactly when there
are fewer than 4159 of them. Otherwise it is `10 · log10 λ` for a finite `λ` within the stated bound of the largest squared
magnitude of the exact strip spectral correlation with 4096 x 64 points. -/
theorem C150_max [Fft (FloatL L)] {ε δ S : ℝ} (hL : Accurate L ε (2 ^ 40)) (hE : L.exp 0 = 1) (hε0 : 0 ≤ ε) (hε : ε ≤ 1 / 2 ^ 12)
    (hD : AccurateDft (Fft.dft (F := FloatL L)) δ) (hδ0 : 0 ≤ δ) (hδ : δ ≤ 1 / 2 ^ 12) {s : List (FloatL L)}
    (hS : 1 / 2 ^ 30 ≤ S) (hS' : S ≤ 2 ^ 30) (h : ∀ x ∈ s, F64.Fin x ∧ |val x| ≤ S) :
    ((maxCutDetector s).Panics ↔ s.length < 4159) ∧
    (4159 ≤ s.length → ∃ lam : FloatL L, maxCutDetector s = pure (Flt.ofNat 10 * Flt.log10 lam) ∧ F64.Fin lam ∧
      (∃ q k, q < 4096 ∧ k < 64 ∧ |val lam - Complex.normSq (ssca (fun i => val (s.getD i 0)) 4096 64 q k)|
        ≤ (2 ^ 18 * S ^ 2) ^ 2 * (660 * δ + 1656 * ε + 1 / 2 ^ 22)) ∧
      ∀ q k, q < 4096 → k < 64 → Complex.normSq (ssca (fun i => val (s.getD i 0)) 4096 64 q k)
        ≤ val lam + (2 ^ 18 * S ^ 2) ^ 2 * (660 * δ + 1656 * ε + 1 / 2 ^ 22)) := by
  have key : 4159 ≤ s.length → ∃ lam : FloatL L, maxCutDetector s = pure (Flt.ofNat 10 * Flt.log10 lam) ∧ F64.Fin lam ∧
      (∃ q k, q < 4096 ∧ k < 64 ∧ |val lam - Complex.normSq (ssca (fun i => val (s.getD i 0)) 4096 64 q k)|
        ≤ (2 ^ 18 * S ^ 2) ^ 2 * (660 * δ + 1656 * ε + 1 / 2 ^ 22)) ∧
      ∀ q k, q < 4096 → k < 64 → Complex.normSq (ssca (fun i => val (s.getD i 0)) 4096 64 q k)
        ≤ val lam + (2 ^ 18 * S ^ 2) ^ 2 * (660 * δ + 1656 * ε + 1 / 2 ^ 22) := by
    intro hlen
    have hS0 : 0 < S := lt_of_lt_of_le (by positivity) hS
    have hA : (1 : ℝ) / 2 ^ 400 ≤ (4096 : ℕ) * ((64 : ℕ) * S ^ 2) := by
      have h1 : ((1 : ℝ) / 2 ^ 30) ^ 2 ≤ S ^ 2 := pow_le_pow_left₀ (by positivity) hS 2
      have h2 : (1 : ℝ) / 2 ^ 400 ≤ (1 / 2 ^ 30) ^ 2 := by
        rw [div_pow, one_pow, ← pow_mul]
        exact one_div_le_one_div_of_le (by positivity) (pow_le_pow_right₀ (by norm_num) (by norm_num))
      have h3 : 0 ≤ S ^ 2 := by positivity
      push_cast; linarith
    have hA' : ((4096 : ℕ) : ℝ) * ((64 : ℕ) * S ^ 2) ≤ 2 ^ 400 := by
      have h1 : S ^ 2 ≤ (2 ^ 30) ^ 2 := pow_le_pow_left₀ hS0.le hS' 2
      have h2 : (4096 : ℝ) * (64 * (2 ^ 30) ^ 2) ≤ 2 ^ 400 := by
        have e : (4096 : ℝ) * (64 * (2 ^ 30) ^ 2) = 2 ^ 78 := by norm_num
        rw [e]
        exact pow_le_pow_right₀ (by norm_num) (by norm_num)
      refine le_trans ?_ h2
      push_cast
      exact mul_le_mul_of_nonneg_left (mul_le_mul_of_nonneg_left h1 (by norm_num)) (by norm_num)
    have hap : ∀ q k, q < 4096 → k < 64 → Ap (Cx.normSq (sscaVal s 4096 64 q k : Cx (FloatL L)))
        (Complex.normSq (ssca (fun i => val (s.getD i 0)) 4096 64 q k))
        ((2 ^ 18 * S ^ 2) ^ 2 * (660 * δ + 1656 * ε + 1 / 2 ^ 22)) := by
      intro q k hq hk
      have h1 := ssca_cm hL hE hε hD hδ0 hδ (n := 4096) (np := 64) (by norm_num) (by norm_num) (by norm_num)
        (getD_val s) hS hS' h hq hk
      rw [sscaVal_spec _ hq hk (by norm_num) (by norm_num)] at h1
      simp only [getD_val] at h1
      have h2 := normSq_cm (L := L) h1 hA hA' (by positivity) (by push_cast; norm_num at hε hδ ⊢; linarith)
      refine h2.mono ?_
      have e : ((4096 : ℕ) : ℝ) * ((64 : ℕ) * S ^ 2) = 2 ^ 18 * S ^ 2 := by push_cast; ring
      rw [e, ← sq]
      refine mul_le_mul_of_nonneg_left ?_ (by positivity)
      push_cast; norm_num; linarith
    have hmem : ∀ y, y ∈ (((List.range 4096).map (fun q => (List.range 64).map (sscaVal s 4096 64 q))).flatten.map Cx.normSq) ↔
        ∃ q k, q < 4096 ∧ k < 64 ∧ y = Cx.normSq (sscaVal s 4096 64 q k) := by
      intro y
      simp only [List.mem_map, List.mem_flatten, List.mem_range]
      constructor
      · rintro ⟨z, ⟨row, ⟨q, hq, rfl⟩, hz⟩, rfl⟩
        obtain ⟨k, hk, rfl⟩ := List.mem_map.mp hz
        exact ⟨q, k, hq, List.mem_range.mp hk, rfl⟩
      · rintro ⟨q, k, hq, hk, rfl⟩
        exact ⟨_, ⟨_, ⟨q, hq, rfl⟩, List.mem_map.mpr ⟨k, List.mem_range.mpr hk, rfl⟩⟩, rfl⟩
    unfold maxCutDetector maxCutSxf
    rw [sscaBase_ok (by norm_num) (by omega), pure_bind]
    generalize (((List.range 4096).map (fun q => (List.range 64).map (sscaVal s 4096 64 q))).flatten.map Cx.normSq) = l at hmem ⊢
    cases l with
    | nil => exact absurd ((hmem _).mpr ⟨0, 0, by norm_num, by norm_num, rfl⟩) (by simp)
    | cons x l =>
      obtain ⟨M, h1, h2, h3⟩ := maxBy_fin x l (fun y hy => by
        obtain ⟨q, k, hq, hk, rfl⟩ := (hmem y).mp hy
        exact (hap q k hq hk).1)
      obtain ⟨q, k, hq, hk, e⟩ := (hmem M).mp h2
      refine ⟨M, by rw [h1, pure_bind]; rfl, ?_, ⟨q, k, hq, hk, ?_⟩, ?_⟩
      · rw [e]; exact (hap q k hq hk).1
      · rw [e]; exact (hap q k hq hk).2
      · intro q' k' hq' hk'
        have h4 := h3 _ ((hmem _).mpr ⟨q', k', hq', hk', rfl⟩)
        have h5 := (abs_le.mp (hap q' k' hq' hk').2).1
        exact (neg_le_sub_iff_le_add.mp h5).trans (by gcongr; exact h4)
  refine ⟨⟨fun hp => ?_, fun hs => ?_⟩, key⟩
  · by_contra hc
    obtain ⟨lam, e, -⟩ := key (by omega)
    rw [e] at hp
    exact RM.not_panics_ok _ hp
  · obtain ⟨e, he⟩ := (C58_guard s 4096 64).mpr (.inr (by omega))
    exact ⟨e, by rw [maxCutDetector, he]; rfl⟩

/-- 5000 samples of size at most 1 and a correctly rounded library: the detector returns a value. -/
example {s : List (FloatL libm0)} (hs : s.length = 5000) (h : ∀ x ∈ s, F64.Fin x ∧ |val x| ≤ 1) :
    letI := fftRounded libm0
    ∃ lam : FloatL libm0, maxCutDetector s = pure (Flt.ofNat 10 * Flt.log10 lam) ∧ F64.Fin lam := by
  let := fftRounded libm0
  obtain ⟨-, h2⟩ := C150_max (δ := 1 / 2 ^ 51) (ε := 1 / 2 ^ 52) (S := 1) accurate_libm0 rfl (by norm_num) (by norm_num)
    accurate_roundedDft (by norm_num) (by norm_num) (s := s) (by norm_num) (by norm_num) h
  obtain ⟨lam, e, hf, -⟩ := h2 (by omega)
  exact ⟨lam, e, hf⟩

end Props
end Verif
