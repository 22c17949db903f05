import Verif.F64.Phase
import Verif.Lemmas.Dft

/-!
# A Fourier transform with rounding errors

`AccurateDft D δ` is a bound of the usual kind for a floating point FFT: each component of the output is within `δ·n·B` of the
exact transform when the components of the input are at most `B` (and `B` is not extremely small or large, `n` not
extremely large).  For an FFT of `n` points `δ` is a small multiple of `log n` units in the last place.
-/
namespace Verif.F64
open Spec

/-- The complex number that a pair of doubles stands for. -/
noncomputable def valC (z : Cx Float) : ℂ := ⟨val z.re, val z.im⟩

/-- Both components finite and within `e` of those of `w`. -/
def CAp (z : Cx Float) (w : ℂ) (e : ℝ) : Prop := Ap z.re w.re e ∧ Ap z.im w.im e

/-- Both components finite and at most `B`. -/
def CB (z : Cx Float) (B : ℝ) : Prop := (Fin z.re ∧ |val z.re| ≤ B) ∧ Fin z.im ∧ |val z.im| ≤ B

/-- The transform `D` (`true`: inverse) is accurate to `δ`. -/
def AccurateDft (D : Bool → List (Cx Float) → List (Cx Float)) (δ : ℝ) : Prop :=
  ∀ (inv : Bool) (x : List (Cx Float)) (B : ℝ), x.length ≤ 2 ^ 40 → 1 / 2 ^ 100 ≤ B → B ≤ 2 ^ 100 → (∀ z ∈ x, CB z B) →
    ∀ (k : ℕ) (z : Cx Float), (D inv x)[k]? = some z →
      CAp z (dftAt (if inv then 1 else -1) (x.map valC) k) (δ * x.length * B)

theorem norm_le_two {w : ℂ} {B : ℝ} (h1 : |w.re| ≤ B) (h2 : |w.im| ≤ B) : ‖w‖ ≤ 2 * B := by
  have := Complex.norm_le_abs_re_add_abs_im w
  linarith

theorem CB.norm {z : Cx Float} {B : ℝ} (h : CB z B) : ‖valC z‖ ≤ 2 * B := norm_le_two h.1.2 h.2.2

theorem CAp.norm {z : Cx Float} {w : ℂ} {e : ℝ} (h : CAp z w e) : ‖valC z - w‖ ≤ 2 * e :=
  norm_le_two h.1.2 h.2.2

theorem CAp.cb {z : Cx Float} {w : ℂ} {e R : ℝ} (h : CAp z w e) (h1 : |w.re| ≤ R) (h2 : |w.im| ≤ R) : CB z (R + e) :=
  ⟨⟨h.1.1, h.1.abs_le h1⟩, h.2.1, h.2.abs_le h2⟩

/-- Shift of the reference point. -/
theorem CAp.shift {z : Cx Float} {w w' : ℂ} {e d : ℝ} (h : CAp z w e) (hd : ‖w - w'‖ ≤ d) : CAp z w' (e + d) := by
  have h1 := (Complex.abs_re_le_norm (w - w')).trans hd
  have h2 := (Complex.abs_im_le_norm (w - w')).trans hd
  rw [Complex.sub_re] at h1
  rw [Complex.sub_im] at h2
  refine ⟨⟨h.1.1, ?_⟩, h.2.1, ?_⟩
  · have := abs_sub_le (val z.re) w.re w'.re
    have := h.1.2
    linarith
  · have := abs_sub_le (val z.im) w.im w'.im
    have := h.2.2
    linarith

theorem CAp.mono {z : Cx Float} {w : ℂ} {e e' : ℝ} (h : CAp z w e) (he : e ≤ e') : CAp z w e' := ⟨h.1.mono he, h.2.mono he⟩

theorem norm_twiddle (σ : ℤ) (j k n : ℕ) : ‖Complex.exp (σ * (2 * Real.pi * Complex.I * (j * k / n)))‖ = 1 := by
  have : (σ * (2 * Real.pi * Complex.I * (j * k / n)) : ℂ) = ((σ * (2 * Real.pi * (j * k / n)) : ℝ) : ℂ) * Complex.I := by
    push_cast; ring
  rw [this, Complex.norm_exp_ofReal_mul_I]

theorem dftAt_sub_norm_le (σ : ℤ) {x y : List ℂ} {M : ℝ} (hl : x.length = y.length)
    (h : ∀ j < x.length, ‖x.getD j 0 - y.getD j 0‖ ≤ M) (k : ℕ) : ‖dftAt σ x k - dftAt σ y k‖ ≤ x.length * M := by
  unfold dftAt
  rw [← hl, ← Finset.sum_sub_distrib]
  refine (norm_sum_le _ _).trans ?_
  refine (Finset.sum_le_sum (fun j hj => ?_)).trans_eq (b := ∑ _j ∈ Finset.range x.length, M) (by simp)
  rw [← sub_mul, norm_mul, norm_twiddle, mul_one]
  exact h j (Finset.mem_range.mp hj)

theorem dftAt_norm_le (σ : ℤ) {x : List ℂ} {M : ℝ} (h : ∀ w ∈ x, ‖w‖ ≤ M) (k : ℕ) : ‖dftAt σ x k‖ ≤ x.length * M := by
  unfold dftAt
  refine (norm_sum_le _ _).trans ?_
  refine (Finset.sum_le_sum (fun j hj => ?_)).trans_eq (b := ∑ _j ∈ Finset.range x.length, M) (by simp)
  rw [norm_mul, norm_twiddle, mul_one]
  have hj := Finset.mem_range.mp hj
  apply h
  simp [List.getD, hj]

theorem ap_div_nat {a : Float} {r e R : ℝ} (ha : Ap a r e) {n : ℕ} (hn : 0 < n) (hn' : n ≤ 2 ^ 53) (hr : |r| ≤ R * n)
    (hM : R + e / n ≤ 2 ^ (1023 : ℤ)) : Ap (a / F64.ofNat n) (r / n) (e / n + (R + e / n) * uu + tiny) := by
  obtain ⟨fn, vn⟩ := ofNat_exact hn'
  have hnR : (0 : ℝ) < n := by exact_mod_cast hn
  refine Ap.of_good (y := val a / n) ?_ ?_ ?_ hM
  · have := div_good ha.1 fn (by rw [vn]; exact hnR.ne')
    rwa [vn] at this
  · rw [← sub_div, abs_div, abs_of_pos hnR]
    exact div_le_div_of_nonneg_right ha.2 hnR.le
  · rw [abs_div, abs_of_pos hnR, div_le_iff₀ hnR]; exact hr

/-- Inverse transform, division by the length, forward transform. -/
theorem dft_roundtrip_near {D : Bool → List (Cx Float) → List (Cx Float)} {δ : ℝ} (hD : AccurateDft D δ)
    (hlen : ∀ inv x, (D inv x).length = x.length) {x : List (Cx Float)} {B : ℝ} (hn0 : 0 < x.length)
    (hn : x.length ≤ 2 ^ 40) (hB0 : 1 / 2 ^ 90 ≤ B) (hB1 : B ≤ 2 ^ 90) (hx : ∀ z ∈ x, CB z B) (hδ0 : 0 ≤ δ)
    (hδ : δ ≤ 1 / 2) {k : ℕ} {z a : Cx Float}
    (hz : (D false ((D true x).map (fun z => Cx.divR z (F64.ofNat x.length))))[k]? = some z) (ha : x[k]? = some a) :
    CAp z (valC a) (x.length * B * (5 * δ + 10 * uu)) := by
  have hu := uu_eq
  have hup := uu_pos
  have htp := tiny_pos
  have hBp : 0 < B := lt_of_lt_of_le (by norm_num) hB0
  have hnR : (0 : ℝ) < x.length := by exact_mod_cast hn0
  set n := x.length with hnd
  -- the time signal
  have hY : ∀ (j : ℕ) (y : Cx Float), (D true x)[j]? = some y →
      CAp (Cx.divR y (F64.ofNat n)) (dftAt 1 (x.map valC) j / n) (B * (δ + 4 * uu)) ∧
      |(dftAt 1 (x.map valC) j / n).re| ≤ 2 * B ∧ |(dftAt 1 (x.map valC) j / n).im| ≤ 2 * B := by
    intro j y hy
    have h1 := hD true x B hn (le_trans (by norm_num) hB0) (hB1.trans (by norm_num)) hx j y hy
    simp only [if_true] at h1
    have h2 : ‖dftAt 1 (x.map valC) j‖ ≤ 2 * B * n := by
      have := dftAt_norm_le 1 (x := x.map valC) (M := 2 * B) (by
        intro w hw
        obtain ⟨z, hz, rfl⟩ := List.mem_map.mp hw
        exact (hx z hz).norm) j
      rw [List.length_map] at this
      linarith
    have hre := (Complex.abs_re_le_norm _).trans h2
    have him := (Complex.abs_im_le_norm _).trans h2
    have e1 : δ * n * B / n = δ * B := by field_simp
    have hM : 2 * B + δ * n * B / n ≤ 2 ^ (1023 : ℤ) := by
      rw [e1]
      refine le_big (k := 92) (by norm_num) ?_
      nlinarith
    have herr : δ * n * B / n + (2 * B + δ * n * B / n) * uu + tiny ≤ B * (δ + 4 * uu) := by
      rw [e1]
      have ht : tiny ≤ 1 / 2 ^ 90 * (1 / 2 ^ 53) := (tiny_le (k := 143) (by norm_num)).trans (by norm_num)
      have : tiny ≤ B * uu := by rw [hu]; exact ht.trans (mul_le_mul_of_nonneg_right hB0 (by norm_num))
      nlinarith [mul_pos hBp hup]
    refine ⟨⟨?_, ?_⟩, ?_, ?_⟩
    · rw [Complex.div_natCast_re]
      exact (ap_div_nat h1.1 hn0 (hn.trans (by norm_num)) hre hM).mono herr
    · rw [Complex.div_natCast_im]
      exact (ap_div_nat h1.2 hn0 (hn.trans (by norm_num)) him hM).mono herr
    · rw [Complex.div_natCast_re, abs_div, Nat.abs_cast, div_le_iff₀ hnR]; exact hre
    · rw [Complex.div_natCast_im, abs_div, Nat.abs_cast, div_le_iff₀ hnR]; exact him
  set Z := (D true x).map (fun z => Cx.divR z (F64.ofNat n)) with hZ
  have hZlen : Z.length = n := by rw [hZ, List.length_map, hlen]
  have hu4 : 4 * uu ≤ 1 / 2 := by rw [hu]; norm_num
  have hZB : ∀ z ∈ Z, CB z (3 * B) := by
    intro z hz
    obtain ⟨j, hj⟩ := List.mem_iff_getElem?.mp hz
    rw [hZ, List.getElem?_map, Option.map_eq_some_iff] at hj
    obtain ⟨y, hy, rfl⟩ := hj
    obtain ⟨c, r1, r2⟩ := hY j y hy
    have h := c.cb r1 r2
    have : 2 * B + B * (δ + 4 * uu) ≤ 3 * B := by nlinarith
    exact ⟨⟨h.1.1, h.1.2.trans this⟩, h.2.1, h.2.2.trans this⟩
  have h3 := hD false Z (3 * B) (hZlen ▸ hn) (le_trans (by norm_num) (le_trans hB0 (by linarith)))
    (by linarith [show (3 : ℝ) * 2 ^ 90 ≤ 2 ^ 100 by norm_num]) hZB k z hz
  simp only [Bool.false_eq_true, if_false, hZlen] at h3
  -- the exact way back
  have hexact : dftAt (-1) ((dft 1 (x.map valC)).map (((n : ℂ)⁻¹) * ·)) k = valC a := by
    have hk : k < n := by
      by_contra hc
      rw [List.getElem?_eq_none (by omega)] at ha
      simp at ha
    have h4 := dft_smul (-1) ((n : ℂ)⁻¹) (dft 1 (x.map valC))
    have h5 := dft_dft 1 (.inl rfl) (x.map valC)
    rw [h5] at h4
    have h6 := congrArg (fun l : List ℂ => l.getD k 0) h4
    simp only at h6
    rw [dft_getD _ _ (by rw [List.length_map, dft_length, List.length_map]; exact hk)] at h6
    rw [h6, List.map_map, List.map_map, List.getD, List.getElem?_map, ha]
    simp only [Option.map_some, Option.getD_some, Function.comp, List.length_map]
    rw [← mul_assoc, inv_mul_cancel₀ (by exact_mod_cast hnR.ne'), one_mul]
  have hsub := dftAt_sub_norm_le (-1) (x := Z.map valC) (y := (dft 1 (x.map valC)).map (((n : ℂ)⁻¹) * ·))
    (M := 2 * (B * (δ + 4 * uu))) (by simp [hZlen, dft_length, hnd]) (by
      intro j hj
      rw [List.length_map, hZlen] at hj
      obtain ⟨y, hy⟩ : ∃ y, (D true x)[j]? = some y := ⟨_, List.getElem?_eq_getElem (by rw [hlen]; exact hj)⟩
      have e1 : (Z.map valC).getD j 0 = valC (Cx.divR y (F64.ofNat n)) := by
        rw [List.getD, List.getElem?_map, hZ, List.getElem?_map, hy]; rfl
      have e2 : ((dft 1 (x.map valC)).map (((n : ℂ)⁻¹) * ·)).getD j 0 = dftAt 1 (x.map valC) j / n := by
        rw [List.getD, List.getElem?_map, dft, List.getElem?_map, List.length_map, List.getElem?_range hj]
        simp only [Option.map_some, Option.getD_some]
        rw [div_eq_inv_mul]
      rw [e1, e2]
      exact (hY j y hy).1.norm) k
  rw [hexact, List.length_map, hZlen] at hsub
  refine (h3.shift hsub).mono ?_
  have : 0 ≤ n * B * uu := by positivity
  nlinarith

theorem dft_roundtrip_near' {D : Bool → List (Cx Float) → List (Cx Float)} {δ : ℝ} (hD : AccurateDft D δ)
    (hlen : ∀ inv x, (D inv x).length = x.length) {x : List (Cx Float)} {B : ℝ} {n : ℕ} (hxl : x.length = n) (hn0 : 0 < n)
    (hn : n ≤ 2 ^ 40) (hB0 : 1 / 2 ^ 90 ≤ B) (hB1 : B ≤ 2 ^ 90) (hx : ∀ z ∈ x, CB z B) (hδ0 : 0 ≤ δ)
    (hδ : δ ≤ 1 / 2) {k : ℕ} {z a : Cx Float}
    (hz : (D false ((D true x).map (fun z => Cx.divR z (F64.ofNat n))))[k]? = some z) (ha : x[k]? = some a) :
    CAp z (valC a) (n * B * (5 * δ + 10 * uu)) := by
  subst hxl
  exact dft_roundtrip_near hD hlen hn0 hn hB0 hB1 hx hδ0 hδ hz ha

theorem exists_round' (x : ℝ) : ∃ f : Float, |x| ≤ 2 ^ 200 → Fin f ∧ val f = rnd x := by
  by_cases h : |x| ≤ 2 ^ 200
  · obtain ⟨f, hf⟩ := exists_float (isF_rnd x) (rnd_lt_huge (le_big (k := 200) (by norm_num) h))
    exact ⟨f, fun _ => hf⟩
  · exact ⟨0, fun h' => absurd h' h⟩

/-- The double nearest to a real number. -/
noncomputable def near (x : ℝ) : Float := (exists_round' x).choose

/-- The transform whose components are the exact ones, correctly rounded. -/
noncomputable def roundedDft (inv : Bool) (x : List (Cx Float)) : List (Cx Float) :=
  (dft (if inv then 1 else -1) (x.map valC)).map (fun w => ⟨near w.re, near w.im⟩)

theorem roundedDft_length (inv : Bool) (x : List (Cx Float)) : (roundedDft inv x).length = x.length := by
  simp [roundedDft, dft_length]

theorem near_ap {x B : ℝ} (hx : |x| ≤ B) (hB : B ≤ 2 ^ 200) (hB0 : 1 / 2 ^ 100 ≤ B) : Ap (near x) x (B / 2 ^ 52) := by
  obtain ⟨h1, h2⟩ := (exists_round' x).choose_spec (hx.trans hB)
  refine ⟨h1, ?_⟩
  show |val (near x) - x| ≤ _
  rw [show val (near x) = rnd x from h2]
  refine (abs_rnd_sub_le_abs x).trans (max_le ?_ ?_)
  · rw [show (2 : ℝ) ^ (-53 : ℤ) = 1 / 2 ^ 53 from uu_eq]
    have := abs_nonneg x
    norm_num at *
    linarith
  · refine (tiny_le (k := 152) (by norm_num)).trans ?_
    norm_num at *
    linarith

theorem accurate_roundedDft : AccurateDft roundedDft (1 / 2 ^ 51) := by
  intro inv x B hn hB0 hB1 hx k z hz
  have hn' : (x.length : ℝ) ≤ 2 ^ 40 := by exact_mod_cast hn
  have hkl : k < x.length := by
    by_contra hc
    rw [List.getElem?_eq_none (by rw [roundedDft_length]; omega)] at hz
    simp at hz
  have hn1 : (1 : ℝ) ≤ x.length := by exact_mod_cast (by omega : 1 ≤ x.length)
  rw [roundedDft, List.getElem?_map, dft, List.getElem?_map, List.length_map, List.getElem?_range hkl] at hz
  simp only [Option.map_some, Option.some.injEq] at hz
  subst hz
  have h2 := dftAt_norm_le (if inv then 1 else -1) (x := x.map valC) (M := 2 * B) (by
    intro w hw
    obtain ⟨z, hz, rfl⟩ := List.mem_map.mp hw
    exact (hx z hz).norm) k
  rw [List.length_map] at h2
  have hBp : 0 < B := lt_of_lt_of_le (by norm_num) hB0
  have a1 : (x.length : ℝ) * (2 * B) ≤ 2 ^ 200 := by
    calc (x.length : ℝ) * (2 * B) ≤ 2 ^ 40 * (2 * 2 ^ 100) :=
          mul_le_mul hn' (by linarith) (by positivity) (by norm_num)
      _ ≤ 2 ^ 200 := by norm_num
  have a2 : 1 / 2 ^ 100 ≤ (x.length : ℝ) * (2 * B) := by nlinarith
  have a3 : (x.length : ℝ) * (2 * B) / 2 ^ 52 = 1 / 2 ^ 51 * x.length * B := by ring
  exact ⟨(near_ap ((Complex.abs_re_le_norm _).trans h2) a1 a2).mono a3.le,
    (near_ap ((Complex.abs_im_le_norm _).trans h2) a1 a2).mono a3.le⟩

end Verif.F64
