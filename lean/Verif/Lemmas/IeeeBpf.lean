import Verif.Lemmas.Bpf
import Verif.Lemmas.IeeeOfdmPass

/-! The band-pass filter in IEEE arithmetic: how far its output is from that of the same filter in exact arithmetic. -/
namespace Verif
open Spec F64

/-- Finite and at most `B`. -/
def RB (a : Float) (B : ℝ) : Prop := Fin a ∧ |val a| ≤ B

/-- The transforms of real signals of a floating point library are accurate to `δ`: each output is within `δ·n·B` of the
exact one when the inputs are at most `B`.  `R`: `n` reals to the bins `0 .. n/2`; `I n`: back, not normalised (the bins above
`n/2` are the conjugates of the ones below, and the imaginary parts of bin `0` and bin `n/2` are not used). -/
def AccurateRfft (R : List Float → List (Cx Float)) (I : ℕ → List (Cx Float) → List Float) (δ : ℝ) : Prop :=
  (∀ (x : List Float) (B : ℝ), x.length ≤ 2 ^ 40 → 1 / 2 ^ 100 ≤ B → B ≤ 2 ^ 100 → (∀ a ∈ x, RB a B) →
    ∀ (k : ℕ) (z : Cx Float), (R x)[k]? = some z → CAp z (dftAt (-1) (toCs (x.map val)) k) (δ * x.length * B)) ∧
  (∀ (n : ℕ) (X : List (Cx Float)) (B : ℝ), n ≤ 2 ^ 40 → X.length = n / 2 + 1 → 1 / 2 ^ 100 ≤ B → B ≤ 2 ^ 100 →
    (∀ z ∈ X, CB z B) → ∀ (j : ℕ) (a : Float), (I n X)[j]? = some a →
      Ap a (dftAt 1 (herm n (X.map valC)) j).re (δ * n * B))

theorem hermAt_sub {n : ℕ} {X Y : List ℂ} {M : ℝ} (h : ∀ k, k ≤ n / 2 → ‖X.getD k 0 - Y.getD k 0‖ ≤ M) {k : ℕ} (hk : k < n) :
    ‖hermAt n X k - hermAt n Y k‖ ≤ M := by
  unfold hermAt
  by_cases h1 : k = 0 ∨ 2 * k = n
  · rw [if_pos h1, if_pos h1, ← Complex.ofReal_sub, Complex.norm_real, Real.norm_eq_abs, ← Complex.sub_re]
    exact (Complex.abs_re_le_norm _).trans (h k (by omega))
  · rw [if_neg h1, if_neg h1]
    by_cases h2 : 2 * k < n
    · rw [if_pos h2, if_pos h2]
      exact h k (by omega)
    · rw [if_neg h2, if_neg h2, ← map_sub, Complex.norm_conj]
      exact h (n - k) (by omega)

theorem herm_dft_sub {n : ℕ} {X Y : List ℂ} {M : ℝ} (h : ∀ k, k ≤ n / 2 → ‖X.getD k 0 - Y.getD k 0‖ ≤ M) (j : ℕ) :
    ‖dftAt 1 (herm n X) j - dftAt 1 (herm n Y) j‖ ≤ n * M := by
  have := dftAt_sub_norm_le 1 (x := herm n X) (y := herm n Y) (M := M) (by rw [herm_length, herm_length]) (by
    intro i hi
    rw [herm_length] at hi
    rw [herm_getD X hi, herm_getD Y hi]
    exact hermAt_sub h hi) j
  rwa [herm_length] at this

theorem herm_dft_zero (n j : ℕ) : dftAt 1 (herm n []) j = 0 := by
  have h : ∀ k, hermAt n [] k = 0 := by intro k; simp [hermAt]
  unfold dftAt
  refine Finset.sum_eq_zero fun k hk => ?_
  rw [herm_length] at hk
  rw [herm_getD [] (Finset.mem_range.mp hk), h, zero_mul]

theorem herm_dft_norm {n : ℕ} {X : List ℂ} {M : ℝ} (h : ∀ k, k ≤ n / 2 → ‖X.getD k 0‖ ≤ M) (j : ℕ) :
    ‖dftAt 1 (herm n X) j‖ ≤ n * M := by
  have := herm_dft_sub (n := n) (X := X) (Y := []) (M := M) (by intro k hk; simpa using h k hk) j
  rwa [herm_dft_zero, sub_zero] at this

/-- The exact half spectrum after the mask. -/
noncomputable def maskR (lo hi : ℝ) (fs n : ℕ) (x : List ℝ) : List ℂ :=
  open Classical in (List.range (n / 2 + 1)).map (fun k => if inBand lo hi fs n k then dftAt (-1) (toCs x) k else 0)

theorem maskR_getD (lo hi : ℝ) (fs n : ℕ) (x : List ℝ) {k : ℕ} (hk : k ≤ n / 2) :
    (maskR lo hi fs n x).getD k 0 = open Classical in if inBand lo hi fs n k then dftAt (-1) (toCs x) k else 0 := by
  rw [List.getD, maskR, List.getElem?_map, List.getElem?_range (by omega), Option.map_some, Option.getD_some]

theorem bpOut_real (lo hi : ℝ) (fs : ℕ) {n : ℕ} (hn : 0 < n) {c : List ℝ} (hc : c.length = n) :
    bpOut lo hi fs n c = (List.range n).map (fun j => (dftAt 1 (herm n (maskR lo hi fs n c)) j).re / n) := by
  have hm : (bpMask lo hi (bpFrequencies fs n) (RealFft.rfft c) : List (Cx ℝ)).map Cx.toC = maskR lo hi fs n c := by
    apply List.ext_getElem?
    intro k
    by_cases hk : k ≤ n / 2
    · have hlt : k < (RealFft.rfft c : List (Cx ℝ)).length := by rw [RealFft.length_rfft, hc]; omega
      have hg := rfft_getElem? c (k := k) (by rw [hc]; exact hk)
      rw [List.getElem?_eq_getElem hlt, Option.some.injEq] at hg
      rw [List.getElem?_map, bpMask_getElem? lo hi fs (by omega) hlt, hg, maskR, List.getElem?_map,
        List.getElem?_range (by omega), Option.map_some, Option.map_some, Option.some.injEq]
      by_cases hb : inBand lo hi fs n k
      · rw [if_pos hb, if_pos hb, Cx.toC_ofC]
      · rw [if_neg hb, if_neg hb]; rfl
    · rw [List.getElem?_eq_none (by rw [List.length_map, bpMask_length, RealFft.length_rfft, hc]; omega),
        List.getElem?_eq_none (by simp [maskR]; omega)]
  rw [bpOut, irfft_eq, hm, List.map_map]
  rfl

theorem dft_real_norm {x : List ℝ} {B : ℝ} (h : ∀ a ∈ x, |a| ≤ B) (k : ℕ) : ‖dftAt (-1) (toCs x) k‖ ≤ x.length * B := by
  have := dftAt_norm_le (-1) (x := toCs x) (M := B) (by
    intro w hw
    obtain ⟨a, ha, rfl⟩ := List.mem_map.mp hw
    rw [Complex.norm_real]
    exact h a ha) k
  rwa [toCs_length] at this

/-- Size of the output. -/
theorem bpOut_abs (lo hi : ℝ) (fs : ℕ) {n : ℕ} (hn : 0 < n) {x : List ℝ} {B : ℝ} (hx : x.length = n) (hB : 0 ≤ B)
    (h : ∀ a ∈ x, |a| ≤ B) : ∀ b ∈ bpOut lo hi fs n x, |b| ≤ n * B := by
  classical
  have hnR : (0 : ℝ) < n := by exact_mod_cast hn
  rw [bpOut_real lo hi fs hn hx]
  intro b hb
  obtain ⟨j, _, rfl⟩ := List.mem_map.mp hb
  have hd := herm_dft_norm (n := n) (X := maskR lo hi fs n x) (M := n * B) (by
    intro k hk
    rw [maskR_getD lo hi fs n x hk]
    by_cases hb : inBand lo hi fs n k
    · rw [if_pos hb]
      have := dft_real_norm h k
      rwa [hx] at this
    · rw [if_neg hb, norm_zero]; positivity) j
  rw [abs_div, abs_of_pos hnR, div_le_iff₀ hnR]
  exact ((Complex.abs_re_le_norm _).trans hd).trans_eq (by ring)

/-- How much the output moves when the input moves. -/
theorem bpOut_close (lo hi : ℝ) (fs : ℕ) {n : ℕ} (hn : 0 < n) {x y : List ℝ} {η : ℝ} (hx : x.length = n) (hη : 0 ≤ η)
    (h : List.Forall₂ (fun a b => |a - b| ≤ η) x y) :
    List.Forall₂ (fun a b => |a - b| ≤ n * η) (bpOut lo hi fs n x) (bpOut lo hi fs n y) := by
  classical
  have hy : y.length = n := h.length_eq.symm.trans hx
  have hnR : (0 : ℝ) < n := by exact_mod_cast hn
  rw [bpOut_real lo hi fs hn hx, bpOut_real lo hi fs hn hy]
  have hbin : ∀ k, ‖dftAt (-1) (toCs x) k - dftAt (-1) (toCs y) k‖ ≤ n * η := by
    intro k
    have := dftAt_sub_norm_le (-1) (x := toCs x) (y := toCs y) (M := η) (by simp [hx, hy]) (by
      intro j hj
      rw [toCs_length] at hj
      rw [toCs_getD, toCs_getD, ← Complex.ofReal_sub, Complex.norm_real, Real.norm_eq_abs]
      have h1 : x[j]? = some (x.getD j 0) := by simp [List.getD, hj]
      have h2 : y[j]? = some (y.getD j 0) := by simp [List.getD, (by omega : j < y.length)]
      exact forall₂_get? h h1 h2) k
    rwa [toCs_length, hx] at this
  have hd : ∀ j, ‖dftAt 1 (herm n (maskR lo hi fs n x)) j - dftAt 1 (herm n (maskR lo hi fs n y)) j‖ ≤ n * (n * η) := by
    refine herm_dft_sub fun k hk => ?_
    rw [maskR_getD lo hi fs n x hk, maskR_getD lo hi fs n y hk]
    by_cases hb : inBand lo hi fs n k
    · rw [if_pos hb, if_pos hb]; exact hbin k
    · rw [if_neg hb, if_neg hb, sub_zero, norm_zero]; positivity
  rw [List.forall₂_map_left_iff, List.forall₂_map_right_iff, List.forall₂_same]
  intro j _
  rw [← sub_div, ← Complex.sub_re, abs_div, abs_of_pos hnR, div_le_iff₀ hnR]
  refine ((Complex.abs_re_le_norm _).trans (hd j)).trans_eq (by ring)

/-- Every bin is in the band `lo .. hi`, or outside by more than a rounding error of its frequency. -/
def ClearEdges (lo hi : ℝ) (fs n : ℕ) : Prop :=
  ∀ k : ℕ, k ≤ n / 2 → (lo ≤ (k : ℝ) * fs / n ∧ (k : ℝ) * fs / n ≤ hi) ∨ (k : ℝ) * fs / n * (1 + 1 / 2 ^ 52) < lo ∨
    hi < (k : ℝ) * fs / n * (1 - 1 / 2 ^ 52)

theorem freq_val {fs n k : ℕ} (hn : 0 < n) (hn' : n ≤ 2 ^ 40) (hk : k * fs ≤ 2 ^ 53) :
    Fin (F64.ofNat (k * fs) / F64.ofNat n) ∧ val (F64.ofNat (k * fs) / F64.ofNat n) = rnd ((k : ℝ) * fs / n) := by
  obtain ⟨f1, v1⟩ := ofNat_exact hk
  obtain ⟨f2, v2⟩ := ofNat_exact (hn'.trans (by norm_num) : n ≤ 2 ^ 53)
  have hnR : (1 : ℝ) ≤ n := by exact_mod_cast hn
  have hk' : ((k * fs : ℕ) : ℝ) ≤ 2 ^ 53 := by exact_mod_cast hk
  have hle : |((k * fs : ℕ) : ℝ) / n| ≤ 2 ^ (1023 : ℤ) := by
    refine le_big (k := 53) (by norm_num) ?_
    rw [abs_of_nonneg (by positivity)]
    exact (div_le_self (by positivity) hnR).trans hk'
  have := div_val f1 f2 (by rw [v2]; positivity) (by rw [v1, v2]; exact rnd_lt_huge hle)
  rw [v1, v2, Nat.cast_mul] at this
  exact this

theorem rnd_freq {fs n k : ℕ} (hn : 0 < n) (hn' : n ≤ 2 ^ 40) :
    |rnd ((k : ℝ) * fs / n) - (k : ℝ) * fs / n| ≤ (k : ℝ) * fs / n * (1 / 2 ^ 52) := by
  have hnR : (0 : ℝ) < n := by exact_mod_cast hn
  have hn2 : (n : ℝ) ≤ 2 ^ 40 := by exact_mod_cast hn'
  rcases Nat.eq_zero_or_pos (k * fs) with h0 | h0
  · have : (k : ℝ) * fs = 0 := by exact_mod_cast h0
    rw [this]; simp [rnd_zero]
  · have h1 : (1 : ℝ) ≤ (k : ℝ) * fs := by exact_mod_cast h0
    have h2 : 1 / 2 ^ 40 ≤ (k : ℝ) * fs / n := div_le_div₀ (by positivity) h1 hnR hn2
    refine (abs_rnd_sub_le_abs _).trans (max_le ?_ ?_)
    · rw [abs_of_nonneg (by positivity), show (2 : ℝ) ^ (-53 : ℤ) = 1 / 2 ^ 53 from uu_eq]
      exact mul_le_mul_of_nonneg_left (by norm_num) (by positivity)
    · refine (tiny_le (k := 92) (by norm_num)).trans ?_
      calc (1 : ℝ) / 2 ^ 92 = 1 / 2 ^ 40 * (1 / 2 ^ 52) := by norm_num
        _ ≤ _ := mul_le_mul_of_nonneg_right h2 (by norm_num)

/-- The comparisons of the filter decide as exact ones do. -/
theorem mask_decides {lo hi : Float} (flo : Fin lo) (fhi : Fin hi) {fs n k : ℕ} (hn : 0 < n) (hn' : n ≤ 2 ^ 40)
    (hk : k ≤ n / 2) (hfs : n / 2 * fs ≤ 2 ^ 53) (he : ClearEdges (val lo) (val hi) fs n) :
    ((Float.lt (F64.ofNat (k * fs) / F64.ofNat n) lo || Float.lt hi (F64.ofNat (k * fs) / F64.ofNat n)) = true)
      ↔ ¬ inBand (val lo) (val hi) fs n k := by
  obtain ⟨ff, vf⟩ := freq_val hn hn' ((Nat.mul_le_mul_right fs hk).trans hfs)
  rw [Bool.or_eq_true, lt_iff ff flo, lt_iff fhi ff, vf]
  have hr := abs_le.mp (rnd_freq (fs := fs) (k := k) hn hn')
  constructor
  · rintro (h | h) ⟨h1, h2⟩
    · exact absurd (le_rnd_of_le (isF_val lo) h1) (not_le.mpr h)
    · exact absurd (rnd_le_of_le (isF_val hi) h2) (not_le.mpr h)
  · intro h
    rcases he k hk with h1 | h1 | h1
    · exact absurd h1 h
    · left; linarith [hr.2]
    · right; linarith [hr.1]

theorem floatMask_getElem? {lo hi : Float} (flo : Fin lo) (fhi : Fin hi) {fs n k : ℕ} (hn : 0 < n) (hn' : n ≤ 2 ^ 40)
    (hk : k ≤ n / 2) (hfs : n / 2 * fs ≤ 2 ^ 53) (he : ClearEdges (val lo) (val hi) fs n) {X : List (Cx Float)} {z : Cx Float}
    (hz : X[k]? = some z) :
    (bpMask lo hi (bpFrequencies fs n) X)[k]? = some (open Classical in if inBand (val lo) (val hi) fs n k then z else 0) := by
  have hd := mask_decides flo fhi hn hn' hk hfs he
  rw [bpMask, List.getElem?_mapIdx, hz]
  have hf : (bpFrequencies fs n : List Float)[k]? = some (F64.ofNat (k * fs) / F64.ofNat n) := by
    rw [bpFrequencies, List.getElem?_map, List.getElem?_range (by omega)]; rfl
  simp only [Option.map_some, hf, Option.some.injEq]
  by_cases hb : inBand (val lo) (val hi) fs n k
  · rw [if_pos hb]
    split
    · next h => exact absurd hb (hd.mp h)
    · rfl
  · rw [if_neg hb]
    split
    · rfl
    · next h => exact absurd (hd.mpr hb) h

theorem valC_zero : valC 0 = 0 := by
  apply Complex.ext
  · exact val_zero
  · exact val_zero

theorem cap_zero_zero {e : ℝ} (he : 0 ≤ e) : CAp 0 0 e := by
  have : Ap (0 : Float) 0 e := ⟨fin_zero, by rw [val_zero, sub_zero, abs_zero]; exact he⟩
  exact ⟨this, this⟩

/-- A filtered block of doubles against the same block filtered exactly. -/
theorem bpOut_near [RealFft Float] {δ : ℝ} (hR : AccurateRfft RealFft.rfft RealFft.irfft δ) (hδ0 : 0 ≤ δ) (hδ : δ ≤ 1 / 8)
    {lo hi : Float} (flo : Fin lo) (fhi : Fin hi) {fs n : ℕ} (hn : 0 < n) (hn' : n ≤ 2 ^ 40) (hfs : n / 2 * fs ≤ 2 ^ 53)
    (he : ClearEdges (val lo) (val hi) fs n) {c : List Float} (hc : c.length = n) {B : ℝ} (hB0 : 1 / 2 ^ 90 ≤ B)
    (hB1 : B ≤ 2 ^ 50) (hcB : ∀ a ∈ c, RB a B) :
    List.Forall₂ (fun a b => Ap a b (n * B * (4 * δ + 2 * uu))) (bpOut lo hi fs n c)
      (bpOut (val lo) (val hi) fs n (c.map val)) := by
  classical
  have hBp : 0 < B := lt_of_lt_of_le (by norm_num) hB0
  have hnR : (0 : ℝ) < n := by exact_mod_cast hn
  have hn1 : (1 : ℝ) ≤ n := by exact_mod_cast hn
  have hn2 : (n : ℝ) ≤ 2 ^ 40 := by exact_mod_cast hn'
  have hnB : n * B ≤ 2 ^ 90 := by
    calc (n : ℝ) * B ≤ 2 ^ 40 * 2 ^ 50 := mul_le_mul hn2 hB1 hBp.le (by norm_num)
      _ = 2 ^ 90 := by norm_num
  have hnBl : B ≤ n * B := by nlinarith
  have hnBp : 0 < n * B := by positivity
  have hcl : (c.map val).length = n := by rw [List.length_map, hc]
  have hD : ∀ k, ‖dftAt (-1) (toCs (c.map val)) k‖ ≤ n * B := by
    intro k
    have := dft_real_norm (x := c.map val) (B := B) (by
      intro a ha
      obtain ⟨b, hb, rfl⟩ := List.mem_map.mp ha
      exact (hcB b hb).2) k
    rwa [hcl] at this
  set Y := bpMask lo hi (bpFrequencies fs n) (RealFft.rfft c) with hY
  have hYl : Y.length = n / 2 + 1 := by rw [hY, bpMask_length, RealFft.length_rfft, hc]
  -- the masked bins
  have hbin : ∀ k, k ≤ n / 2 → ∃ y, Y[k]? = some y ∧ CAp y ((maskR (val lo) (val hi) fs n (c.map val)).getD k 0) (δ * n * B) := by
    intro k hk
    have hlt : k < (RealFft.rfft c : List (Cx Float)).length := by rw [RealFft.length_rfft, hc]; omega
    obtain ⟨z, hz⟩ : ∃ z, (RealFft.rfft c : List (Cx Float))[k]? = some z := ⟨_, List.getElem?_eq_getElem hlt⟩
    refine ⟨_, floatMask_getElem? flo fhi hn hn' hk hfs he hz, ?_⟩
    rw [maskR_getD _ _ _ _ _ hk]
    have h1 := hR.1 c B (hc ▸ hn') (le_trans (by norm_num) hB0) (hB1.trans (by norm_num)) hcB k z hz
    rw [hc] at h1
    by_cases hb : inBand (val lo) (val hi) fs n k
    · rw [if_pos hb, if_pos hb]; exact h1
    · rw [if_neg hb, if_neg hb]; exact cap_zero_zero (by positivity)
  have hmn : ∀ k, k ≤ n / 2 → ‖(maskR (val lo) (val hi) fs n (c.map val)).getD k 0‖ ≤ n * B := by
    intro k hk
    rw [maskR_getD _ _ _ _ _ hk]
    by_cases hb : inBand (val lo) (val hi) fs n k
    · rw [if_pos hb]; exact hD k
    · rw [if_neg hb, norm_zero]; exact hnBp.le
  have hYB : ∀ z ∈ Y, CB z (2 * (n * B)) := by
    intro z hz
    obtain ⟨k, hk⟩ := List.mem_iff_getElem?.mp hz
    have hk' : k ≤ n / 2 := by
      by_contra hcon
      rw [List.getElem?_eq_none (by omega)] at hk
      simp at hk
    obtain ⟨y, hy, hca⟩ := hbin k hk'
    rw [hk, Option.some.injEq] at hy
    subst hy
    have h := hca.cb ((Complex.abs_re_le_norm _).trans (hmn k hk')) ((Complex.abs_im_le_norm _).trans (hmn k hk'))
    have hle : n * B + δ * n * B ≤ 2 * (n * B) := by nlinarith
    exact ⟨⟨h.1.1, h.1.2.trans hle⟩, h.2.1, h.2.2.trans hle⟩
  have hsub : ∀ j, ‖dftAt 1 (herm n (Y.map valC)) j - dftAt 1 (herm n (maskR (val lo) (val hi) fs n (c.map val))) j‖
      ≤ n * (2 * (δ * n * B)) := by
    refine herm_dft_sub fun k hk => ?_
    obtain ⟨y, hy, hca⟩ := hbin k hk
    have : (Y.map valC).getD k 0 = valC y := by rw [List.getD, List.getElem?_map, hy]; rfl
    rw [this]
    exact hca.norm
  have hnorm : ∀ j, ‖dftAt 1 (herm n (maskR (val lo) (val hi) fs n (c.map val))) j‖ ≤ n * (n * B) := herm_dft_norm hmn
  rw [bpOut_real _ _ fs hn hcl]
  refine forall₂_of_get? (by rw [bpOut_length, List.length_map, List.length_range]) fun j a b ha hb => ?_
  rw [bpOut, ← hY, List.getElem?_map, Option.map_eq_some_iff] at ha
  obtain ⟨r, hr, rfl⟩ := ha
  rw [List.getElem?_map, Option.map_eq_some_iff] at hb
  obtain ⟨i, hi', rfl⟩ := hb
  have hij : i = j := by
    obtain ⟨h1, h2⟩ := List.getElem?_eq_some_iff.mp hi'
    rw [← h2, List.getElem_range]
  subst hij
  have h3 := hR.2 n Y (2 * (n * B)) hn' hYl (by linarith [show (1 : ℝ) / 2 ^ 100 ≤ 1 / 2 ^ 90 by norm_num])
    (by linarith [show (2 : ℝ) * 2 ^ 90 ≤ 2 ^ 100 by norm_num]) hYB i r hr
  have h4 : Ap r (dftAt 1 (herm n (maskR (val lo) (val hi) fs n (c.map val))) i).re (4 * δ * (n * B) * n) := by
    refine ⟨h3.1, ?_⟩
    have h5 := (Complex.abs_re_le_norm _).trans (hsub i)
    rw [Complex.sub_re] at h5
    have h6 := h3.2
    have := abs_sub_le (val r) (dftAt 1 (herm n (Y.map valC)) i).re
      (dftAt 1 (herm n (maskR (val lo) (val hi) fs n (c.map val))) i).re
    calc _ ≤ _ := this
      _ ≤ δ * n * (2 * (n * B)) + n * (2 * (δ * n * B)) := add_le_add h6 h5
      _ = 4 * δ * (n * B) * n := by ring
  have e1 : 4 * δ * (n * B) * n / n = 4 * δ * (n * B) := by field_simp
  have hM : n * B + 4 * δ * (n * B) * n / n ≤ 2 ^ (1023 : ℤ) := by
    rw [e1]
    refine le_big (k := 91) (by norm_num) ?_
    nlinarith
  have h7 := ap_div_nat h4 hn (hn'.trans (by norm_num)) (R := n * B)
    (((Complex.abs_re_le_norm _).trans (hnorm i)).trans_eq (by ring)) hM
  refine Ap.mono h7 ?_
  rw [e1]
  have hu := uu_eq
  have ht : tiny ≤ 1 / 2 ^ 90 * (1 / 2 ^ 54) := (tiny_le (k := 144) (by norm_num)).trans (by norm_num)
  have ht' : tiny ≤ n * B * uu / 2 := by
    have : (1 : ℝ) / 2 ^ 90 * (1 / 2 ^ 54) ≤ n * B * (1 / 2 ^ 54) :=
      mul_le_mul_of_nonneg_right (hB0.trans hnBl) (by norm_num)
    rw [hu]
    linarith
  have hup := uu_pos
  have h8 : 4 * δ * (n * B) * uu ≤ 1 / 2 * (n * B) * uu := by
    refine mul_le_mul_of_nonneg_right ?_ hup.le
    nlinarith
  nlinarith

end Verif
