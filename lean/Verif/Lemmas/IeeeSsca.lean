import Verif.F64.CMul
import Verif.Lemmas.Ssca

/-!
# The spectral correlation in double precision
-/

namespace Verif
open F64 Spec
set_option linter.unusedSectionVars false
variable {L : Libm}

theorem lit_ap {a b : ℕ} {f : Float} (h : f = F64.ofNat a / F64.ofNat b) (hb : 0 < b) (hab : a ≤ b) (hb' : b ≤ 2 ^ 53) :
    Ap f ((a : ℝ) / b) (2 / 2 ^ 53) := by
  obtain ⟨fa, va⟩ := ofNat_exact (hab.trans hb')
  have h1 := Ap.exact fa
  rw [va] at h1
  have hbR : (0 : ℝ) < b := by exact_mod_cast hb
  have h2 := ap_div_nat h1 hb hb' (R := 1) (by
    rw [abs_of_nonneg (by positivity), one_mul]; exact_mod_cast hab) (by
    rw [zero_div]; exact le_big (k := 1) (by norm_num) (by norm_num))
  rw [h]
  refine h2.mono ?_
  have ht : tiny ≤ 1 / 2 ^ 53 := tiny_le (by norm_num)
  rw [zero_div, uu_eq]
  linarith

/-- `2π` as computed. -/
theorem two_pi_ap : Ap (F64.ofNat 2 * (Flt.pi : Float)) (2 * Real.pi) (20 / 2 ^ 53) ∧
    Ap (-(F64.ofNat 2) * (Flt.pi : Float)) (-2 * Real.pi) (20 / 2 ^ 53) := by
  have hπ := Real.pi_pos
  have hπ4 := Real.pi_le_four
  have hp : Ap (Flt.pi : Float) Real.pi (4 / 2 ^ 53) := by
    refine ⟨pi_rel.1, pi_rel.2.trans ?_⟩
    rw [uu_eq, abs_of_pos hπ]; linarith
  obtain ⟨f2, v2⟩ := ofNat_exact (n := 2) (by norm_num)
  have h2 : Ap (F64.ofNat 2) 2 0 := by
    have := Ap.exact f2
    rwa [v2] at this
  have ht : tiny ≤ 1 / 2 ^ 53 := tiny_le (by norm_num)
  have hb : (2 : ℝ) * 4 + (2 * (4 / 2 ^ 53) + 4 * 0 + 0 * (4 / 2 ^ 53)) ≤ 2 ^ (1023 : ℤ) := le_big (k := 4) (by norm_num) (by norm_num)
  have he : (2 : ℝ) * (4 / 2 ^ 53) + 4 * 0 + 0 * (4 / 2 ^ 53) + (2 * 4 + (2 * (4 / 2 ^ 53) + 4 * 0 + 0 * (4 / 2 ^ 53))) * uu + tiny
      ≤ 20 / 2 ^ 53 := by
    rw [uu_eq]; linarith
  constructor
  · exact (h2.mul hp (R := 2) (S := 4) (by norm_num) (by rw [abs_of_pos hπ]; exact hπ4) hb).mono he
  · exact (h2.neg.mul hp (R := 2) (S := 4) (by norm_num) (by rw [abs_of_pos hπ]; exact hπ4) hb).mono he

/-- The library at an approximate argument. -/
theorem trig_ap {ε : ℝ} (hL : Accurate L ε (2 ^ 40)) {x : Float} {r e : ℝ} (h : Ap x r e) (hr : |r| + e ≤ 2 ^ 40) :
    Ap (L.cos x) (Real.cos r) (ε + e) ∧ Ap (L.sin x) (Real.sin r) (ε + e) := by
  obtain ⟨h1, h2⟩ := hL x h.1 ((h.abs_le le_rfl).trans hr)
  have c := (F64.abs_cos_sub_cos_le (val x) r).trans h.2
  have s := (F64.abs_sin_sub_sin_le (val x) r).trans h.2
  refine ⟨⟨h1.1, ?_⟩, h2.1, ?_⟩
  · exact (abs_sub_le _ (Real.cos (val x)) _).trans (add_le_add h1.2 c)
  · exact (abs_sub_le _ (Real.sin (val x)) _).trans (add_le_add h2.2 s)

theorem hammingW_abs (n i : ℕ) : |hammingW n i| ≤ 1 := by
  unfold hammingW
  have h1 := Real.neg_one_le_cos (2 * Real.pi * i / n)
  have h2 := Real.cos_le_one (2 * Real.pi * i / n)
  rw [abs_le]; constructor <;> norm_num <;> linarith

/-- The Hamming window in double precision. -/
theorem hamming_ap {ε : ℝ} (hL : Accurate L ε (2 ^ 40)) (hε : ε ≤ 1) {n i : ℕ} (hn : 0 < n) (hn' : n ≤ 2 ^ 40) (hi : i ≤ n) :
    Ap (hammingAt n i : FloatL L) (hammingW n i) (ε + 1 / 2 ^ 46) := by
  have hε0 : 0 ≤ ε := ((hL 0 fin_zero (by rw [val_zero]; norm_num)).1).nonneg
  have hπ := Real.pi_pos
  have hπ4 := Real.pi_le_four
  have ht : tiny ≤ 1 / 2 ^ 53 := tiny_le (by norm_num)
  have hnR : (1 : ℝ) ≤ n := by exact_mod_cast hn
  have hn2 : (n : ℝ) ≤ 2 ^ 40 := by exact_mod_cast hn'
  have hiR : (i : ℝ) ≤ n := by exact_mod_cast hi
  obtain ⟨fi, vi⟩ := ofNat_exact (n := i) (hi.trans (hn'.trans (by norm_num)))
  have hi0 : Ap (F64.ofNat i) i 0 := by
    have := Ap.exact fi
    rwa [vi] at this
  have a2 : |2 * Real.pi| ≤ 8 := by rw [abs_of_pos (by positivity)]; linarith
  have ai : |(i : ℝ)| ≤ n := by rw [abs_of_nonneg (by positivity)]; exact hiR
  have h1 := two_pi_ap.1.mul hi0 a2 ai (le_big (k := 50) (by norm_num) (by linarith))
  have h2 := ap_div_nat (R := 8) (h1.mono (e' := 30 * n / 2 ^ 53) (by rw [uu_eq]; linarith)) hn (hn'.trans (by norm_num)) (by
    rw [abs_mul]; exact mul_le_mul a2 ai (abs_nonneg _) (by norm_num)) (by
    rw [show 30 * (n : ℝ) / 2 ^ 53 / n = 30 / 2 ^ 53 by field_simp]
    exact le_big (k := 4) (by norm_num) (by norm_num))
  rw [show 30 * (n : ℝ) / 2 ^ 53 / n = 30 / 2 ^ 53 by field_simp] at h2
  have h3 := h2.mono (e' := 40 / 2 ^ 53) (by rw [uu_eq]; linarith)
  have ar : |2 * Real.pi * i / n| ≤ 8 := by
    rw [abs_div, abs_mul, abs_of_nonneg (show (0 : ℝ) ≤ n by positivity), div_le_iff₀ (by linarith)]
    exact mul_le_mul a2 ai (abs_nonneg _) (by norm_num)
  have h4 := (trig_ap hL h3 (by linarith)).1
  have l46 : Ap (Flt.lit 46 2 : Float) ((46 : ℕ) / (100 : ℕ)) (2 / 2 ^ 53) := lit_ap (by decide +kernel) (by norm_num) (by norm_num) (by norm_num)
  have l54 : Ap (Flt.lit 54 2 : Float) ((54 : ℕ) / (100 : ℕ)) (2 / 2 ^ 53) := lit_ap (by decide +kernel) (by norm_num) (by norm_num) (by norm_num)
  have h5 := l46.mul h4 (R := 1) (S := 1) (by norm_num) (Real.abs_cos_le_one _) (le_big (k := 4) (by norm_num) (by linarith))
  have h6 := l54.sub (h5.mono (e' := ε + 60 / 2 ^ 53) (by rw [uu_eq]; linarith)) (R := 1) (by
    have := hammingW_abs n i
    unfold hammingW at this
    norm_num at this ⊢
    exact this) (le_big (k := 4) (by norm_num) (by linarith))
  have h7 : Ap (hammingAt n i : FloatL L) (((54 : ℕ) : ℝ) / (100 : ℕ) - ((46 : ℕ) : ℝ) / (100 : ℕ) * Real.cos (2 * Real.pi * i / n)) (ε + 1 / 2 ^ 46) :=
    h6.mono (by rw [uu_eq]; linarith)
  have e : hammingW n i = ((54 : ℕ) : ℝ) / (100 : ℕ) - ((46 : ℕ) : ℝ) / (100 : ℕ) * Real.cos (2 * Real.pi * i / n) := by
    unfold hammingW; norm_num
  rw [e]; exact h7

/-- The argument of the phase factor of row `i`, column `k`. -/
theorem em_arg {n np i k : ℕ} (hn' : n ≤ 2 ^ 30) (hp : 0 < np) (hp' : np ≤ 2 ^ 30) (hi : i < n) (hk : k < np) :
    Ap (-(F64.ofNat 2) * (Flt.pi : Float) * (F64.ofNat k - F64.ofNat np / F64.ofNat 2) * F64.ofNat i / F64.ofNat np)
      (-2 * Real.pi * ((k : ℝ) - np / 2) * i / np) (n / 2 ^ 46) ∧ |-2 * Real.pi * ((k : ℝ) - np / 2) * i / np| ≤ 8 * n := by
  have hπ := Real.pi_pos
  have hπ4 := Real.pi_le_four
  have ht : tiny ≤ 1 / 2 ^ 60 := tiny_le (by norm_num)
  have hpR : (1 : ℝ) ≤ np := by exact_mod_cast hp
  have hp2 : (np : ℝ) ≤ 2 ^ 30 := by exact_mod_cast hp'
  have hnR : (1 : ℝ) ≤ n := by exact_mod_cast (by omega : 1 ≤ n)
  have hn2 : (n : ℝ) ≤ 2 ^ 30 := by exact_mod_cast hn'
  have hiR : (i : ℝ) ≤ n := by exact_mod_cast hi.le
  have hkR : (k : ℝ) ≤ np := by exact_mod_cast hk.le
  have hk0 : (0 : ℝ) ≤ k := by positivity
  obtain ⟨fi, vi⟩ := ofNat_exact (n := i) (by omega)
  obtain ⟨fk, vk⟩ := ofNat_exact (n := k) (by omega)
  obtain ⟨fp, vp⟩ := ofNat_exact (n := np) (by omega)
  have ei := Ap.exact fi
  have ek := Ap.exact fk
  have ep := Ap.exact fp
  rw [vi] at ei
  rw [vk] at ek
  rw [vp] at ep
  have d1 := ap_div_nat ep (n := 2) (by norm_num) (by norm_num) (R := np) (by
    rw [abs_of_nonneg (by positivity)]; push_cast; linarith) (le_big (k := 40) (by norm_num) (by push_cast; linarith))
  have d2 := d1.mono (e' := 2 * np / 2 ^ 53) (by rw [uu_eq]; push_cast; linarith)
  rw [Nat.cast_ofNat] at d2
  have akp : |(k : ℝ) - np / 2| ≤ np := by rw [abs_le]; constructor <;> linarith
  have d3 := (ek.sub d2 akp (le_big (k := 40) (by norm_num) (by linarith))).mono (e' := 4 * np / 2 ^ 53) (by rw [uu_eq]; linarith)
  have a2 : |-2 * Real.pi| ≤ 8 := by rw [neg_mul, abs_neg, abs_of_pos (by positivity)]; linarith
  have a3 : |-2 * Real.pi * ((k : ℝ) - np / 2)| ≤ 8 * np := by
    rw [abs_mul]; exact mul_le_mul a2 akp (abs_nonneg _) (by norm_num)
  have d4 := (two_pi_ap.2.mul d3 a2 akp (le_big (k := 40) (by norm_num) (by linarith))).mono (e' := 62 * np / 2 ^ 53) (by
    rw [uu_eq]; linarith)
  have ai : |(i : ℝ)| ≤ n := by rw [abs_of_nonneg (by positivity)]; exact hiR
  have hnp : (1 : ℝ) ≤ n * np := by nlinarith
  have hnp2 : (n : ℝ) * np ≤ 2 ^ 60 := by
    calc (n : ℝ) * np ≤ 2 ^ 30 * 2 ^ 30 := mul_le_mul hn2 hp2 (by positivity) (by positivity)
      _ = 2 ^ 60 := by norm_num
  have d5 := (d4.mul ei a3 ai (le_big (k := 80) (by norm_num) (by
    have : (8 * np * n + (8 * np * 0 + n * (62 * np / 2 ^ 53) + 62 * np / 2 ^ 53 * 0) : ℝ) = (8 + 62 / 2 ^ 53) * (n * np) := by ring
    rw [this]; linarith))).mono (e' := 72 * (n * np) / 2 ^ 53) (by
    have : (8 * np * 0 + n * (62 * np / 2 ^ 53) + 62 * np / 2 ^ 53 * 0 + (8 * np * n + (8 * np * 0 + n * (62 * np / 2 ^ 53) + 62 * np / 2 ^ 53 * 0)) * uu + tiny : ℝ)
      = (62 / 2 ^ 53 + (8 + 62 / 2 ^ 53) * uu) * (n * np) + tiny := by ring
    rw [this, uu_eq]; linarith)
  have a4 : |-2 * Real.pi * ((k : ℝ) - np / 2) * i| ≤ 8 * n * np := by
    rw [abs_mul]
    calc _ ≤ 8 * (np : ℝ) * n := mul_le_mul a3 ai (abs_nonneg _) (by positivity)
      _ = _ := by ring
  have ed : 72 * ((n : ℝ) * np) / 2 ^ 53 / np = 72 * n / 2 ^ 53 := by field_simp
  have d6 := ap_div_nat d5 hp (by omega) a4 (by rw [ed]; exact le_big (k := 80) (by norm_num) (by linarith))
  rw [ed] at d6
  refine ⟨d6.mono (by rw [uu_eq]; linarith), ?_⟩
  rw [abs_div, abs_of_nonneg (show (0 : ℝ) ≤ np by positivity), div_le_iff₀ (by linarith)]
  exact a4

theorem norm_cos_sin (x : ℝ) : ‖Cx.toC ⟨Real.cos x, Real.sin x⟩‖ = 1 := by
  have : Cx.toC ⟨Real.cos x, Real.sin x⟩ = Complex.exp ((x : ℂ) * Complex.I) := by
    rw [Complex.exp_mul_I, ← Complex.ofReal_cos, ← Complex.ofReal_sin]
    apply Complex.ext <;> simp [Cx.toC, Complex.cos_ofReal_re, Complex.sin_ofReal_re]
  rw [this, Complex.norm_exp_ofReal_mul_I]

/-- The phase factor in double precision. -/
theorem em_cm {ε : ℝ} (hL : Accurate L ε (2 ^ 40)) (hE : L.exp 0 = 1) {n np i k : ℕ} (hn' : n ≤ 2 ^ 30) (hp : 0 < np)
    (hp' : np ≤ 2 ^ 30) (hi : i < n) (hk : k < np) :
    CM (sscaEm np i k : Cx (FloatL L)) (sscaEm np i k : Cx ℝ).toC 1 (ε + n / 2 ^ 46) := by
  obtain ⟨h1, h2⟩ := em_arg hn' hp hp' hi hk
  have hn2 : (n : ℝ) ≤ 2 ^ 30 := by exact_mod_cast hn'
  obtain ⟨h3, h4⟩ := trig_ap hL h1 (by linarith)
  have er : ∀ x : ℝ, (Cx.exp ⟨0, x⟩ : Cx ℝ) = ⟨Real.cos x, Real.sin x⟩ := by
    intro x
    show (⟨Real.exp 0 * Real.cos x, Real.exp 0 * Real.sin x⟩ : Cx ℝ) = _
    rw [Real.exp_zero, one_mul, one_mul]
  have e : (sscaEm np i k : Cx ℝ) = ⟨Real.cos (-2 * Real.pi * ((k : ℝ) - np / 2) * i / np), Real.sin (-2 * Real.pi * ((k : ℝ) - np / 2) * i / np)⟩ := by
    unfold sscaEm
    rw [er]
    simp only [Flt.ofNat_real, Flt.pi_real]
    norm_num
  rw [e]
  set x : Float := -(F64.ofNat 2) * (Flt.pi : Float) * (F64.ofNat k - F64.ofNat np / F64.ofNat 2) * F64.ofNat i / F64.ofNat np
  have ef : (sscaEm np i k : Cx (FloatL L)) = (⟨L.exp 0 * L.cos x, L.exp 0 * L.sin x⟩ : Cx Float) := rfl
  have h5 := h3.one_mul
  have h6 := h4.one_mul
  refine ⟨⟨?_, ?_⟩, ?_⟩
  · rw [ef, hE, one_mul]; exact h5
  · rw [ef, hE, one_mul]; exact h6
  · exact (norm_cos_sin _).le

/-- A shifted transform of approximations. -/
theorem shift_cm [Fft (FloatL L)] {δ : ℝ} (hD : AccurateDft (Fft.dft (F := FloatL L)) δ) {n : ℕ} {x : List (Cx (FloatL L))}
    {y : List (Cx ℝ)} {A α : ℝ} (hn : n ≤ 2 ^ 40) (hx : x.length = n) (hy : y.length = n) (hA : 1 / 2 ^ 100 ≤ A)
    (hA' : A ≤ 2 ^ 99) (ha : α ≤ 1)
    (h : ∀ (i : ℕ) (z : Cx (FloatL L)) (w : Cx ℝ), x[i]? = some z → y[i]? = some w → CM z w.toC A α) {k : ℕ} (hk : k < n) :
    CM ((fftshift (Fft.dft false x)).getD k 0) ((fftshift (Fft.dft false y)).getD k 0).toC (n * A) (2 * δ + 2 * α) := by
  have hl : (Fft.dft false x).length = n := by rw [Fft.length_dft, hx]
  have hlt : (k + (n + 1) / 2) % n < n := Nat.mod_lt _ (by omega)
  obtain ⟨z, hz⟩ : ∃ z, (Fft.dft false x)[(k + (n + 1) / 2) % n]? = some z := ⟨_, List.getElem?_eq_getElem (hl ▸ hlt)⟩
  have e : (fftshift (Fft.dft false x)).getD k 0 = z := by
    rw [List.getD, fftshift_eq_rotate, List.getElem?_rotate (by omega), hl, hz]
    rfl
  have e2 : ((fftshift (Fft.dft false y)).getD k 0).toC = dftAt (-1) (y.map Cx.toC) ((k + (n + 1) / 2) % n) := by
    rw [fftshift_getD y hy hk, Cx.toC_ofC]
  rw [e2, e]
  refine CM.dft hD hx (by rw [List.length_map]; exact hy) hn hA hA' ha ?_ hz
  intro i z w hz hw
  rw [List.getElem?_map] at hw
  cases hyi : y[i]? with
  | none => rw [hyi] at hw; simp at hw
  | some v =>
    rw [hyi, Option.map_some, Option.some.injEq] at hw
    rw [← hw]
    exact h i z v hz hyi

theorem getD_val (s : List (FloatL L)) (i : ℕ) : (s.map (fun x : FloatL L => val x) : List ℝ).getD i 0 = val (s.getD i 0) := by
  rw [List.getD, List.getElem?_map, List.getD]
  cases s[i]? with
  | none => exact val_zero.symm
  | some x => rfl

theorem getD_fin {s : List (FloatL L)} {S : ℝ} (hS : 0 ≤ S) (h : ∀ x ∈ s, F64.Fin x ∧ |val x| ≤ S) (i : ℕ) :
    F64.Fin (s.getD i 0) ∧ |val (s.getD i 0)| ≤ S := by
  rw [List.getD]
  cases hi : s[i]? with
  | none =>
    refine ⟨fin_zero, ?_⟩
    have : |val (0 : Float)| ≤ S := by rw [val_zero, abs_zero]; exact hS
    exact this
  | some x => exact h x (List.mem_of_getElem? hi)

/-- The windowed segment. -/
theorem seg_cm [Fft (FloatL L)] {ε S : ℝ} (hL : Accurate L ε (2 ^ 40)) (hε : ε ≤ 1 / 2) {np : ℕ} (hp : 0 < np) (hp' : np ≤ 2 ^ 30) {s : List (FloatL L)} {σ : List ℝ}
    (hσ : ∀ i, σ.getD i 0 = val (s.getD i 0)) (hS : 1 / 2 ^ 40 ≤ S) (hS' : S ≤ 2 ^ 40) (h : ∀ x ∈ s, F64.Fin x ∧ |val x| ≤ S) (i : ℕ) (j : ℕ) (z : Cx (FloatL L)) (w : Cx ℝ)
    (hz : (sscaSeg s np i)[j]? = some z) (hw : (sscaSeg σ np i)[j]? = some w) :
    CM z w.toC S (2 * (ε + 1 / 2 ^ 46)) := by
  have hε0 : 0 ≤ ε := ((hL 0 fin_zero (by rw [val_zero]; norm_num)).1).nonneg
  have hS0 : 0 < S := lt_of_lt_of_le (by positivity) hS
  have ht : tiny ≤ 1 / 2 ^ 100 := tiny_le (by norm_num)
  have hj : j < np := by
    have := (List.getElem?_eq_some_iff.mp hz).1
    rwa [sscaSeg_length] at this
  rw [sscaSeg, List.getElem?_map, List.getElem?_range hj, Option.map_some, Option.some.injEq] at hz hw
  rw [hσ, hammingAt_real, zero_mul] at hw
  obtain ⟨f1, f2⟩ := getD_fin hS0.le h (i + j)
  have h1 := hamming_ap (L := L) hL (by linarith) hp (hp'.trans (by norm_num)) hj.le
  have hSη : S * (ε + 1 / 2 ^ 46) ≤ S := by
    have := mul_le_mul_of_nonneg_left (show ε + 1 / 2 ^ 46 ≤ 1 by linarith) hS0.le
    linarith
  have hSε : 0 ≤ S * ε := mul_nonneg hS0.le hε0
  have h2 := h1.mul (Ap.exact f1) (hammingW_abs np j) f2 (le_big (k := 50) (by norm_num) (by linarith))
  have h3 := (Ap.exact fin_zero).mul (Ap.exact f1) (R := 0) (by rw [val_zero, abs_zero]) f2 (le_big (k := 50) (by norm_num) (by linarith))
  rw [val_zero, zero_mul] at h3
  subst hw
  refine ⟨⟨?_, ?_⟩, ?_⟩
  · rw [← hz]
    refine h2.mono ?_
    rw [uu_eq]
    linarith
  · rw [← hz]
    refine h3.mono ?_
    rw [uu_eq]
    linarith
  · have e : Cx.toC ⟨hammingW np j * val (s.getD (i + j) 0), 0⟩ = ((hammingW np j * val (s.getD (i + j) 0) : ℝ) : ℂ) := rfl
    rw [e, Complex.norm_real, Real.norm_eq_abs, abs_mul]
    have := mul_le_mul (hammingW_abs np j) f2 (abs_nonneg _) zero_le_one
    linarith

theorem real_cm {x : Float} {r A α : ℝ} (h : Ap x r (A * α)) (hr : |r| ≤ A) (hA : 0 ≤ A * α) :
    CM ⟨x, 0⟩ ((r : ℝ) : ℂ) A α ∧ CM ⟨x, -0⟩ ((r : ℝ) : ℂ) A α := by
  have hn : ‖((r : ℝ) : ℂ)‖ ≤ A := by rw [Complex.norm_real]; exact hr
  have h0 := Ap.exact fin_zero
  rw [val_zero] at h0
  have h1 := h0.neg
  rw [neg_zero] at h1
  exact ⟨⟨⟨h, h0.mono hA⟩, hn⟩, ⟨h, h1.mono hA⟩, hn⟩

/-- One entry of the windowed products. -/
theorem xg_cm [Fft (FloatL L)] {ε δ S : ℝ} (hL : Accurate L ε (2 ^ 40)) (hE : L.exp 0 = 1) (hε : ε ≤ 1 / 2 ^ 12)
    (hD : AccurateDft (Fft.dft (F := FloatL L)) δ) (hδ0 : 0 ≤ δ) (hδ : δ ≤ 1 / 2 ^ 12) {n np : ℕ} (hn' : n ≤ 2 ^ 30) (hp : 0 < np)
    (hp' : np ≤ 2 ^ 30) {s : List (FloatL L)} {σ : List ℝ} (hσ : ∀ i, σ.getD i 0 = val (s.getD i 0)) (hS : 1 / 2 ^ 30 ≤ S)
    (hS' : S ≤ 2 ^ 30) (h : ∀ x ∈ s, F64.Fin x ∧ |val x| ≤ S) {i k : ℕ} (hi : i < n) (hk : k < np) :
    CM (sscaXg s n np i k : Cx (FloatL L)) (sscaXg σ n np i k).toC (np * S ^ 2) (54 * δ + 138 * ε + (27 * n + 115) / 2 ^ 46) := by
  have hε0 : 0 ≤ ε := ((hL 0 fin_zero (by rw [val_zero]; norm_num)).1).nonneg
  have hS0 : 0 < S := lt_of_lt_of_le (by positivity) hS
  have hpR : (1 : ℝ) ≤ np := by exact_mod_cast hp
  have hp2 : (np : ℝ) ≤ 2 ^ 30 := by exact_mod_cast hp'
  have hn0 : (0 : ℝ) ≤ n := by positivity
  have hn2 : (n : ℝ) ≤ 2 ^ 30 := by exact_mod_cast hn'
  obtain ⟨f1, f2⟩ := getD_fin hS0.le h (np / 2 + i)
  have lowS : (1 : ℝ) / 2 ^ 400 ≤ S := le_trans (one_div_le_one_div_of_le (by positivity) (pow_le_pow_right₀ (by norm_num) (by norm_num))) hS
  have highS : S ≤ 2 ^ 400 := hS'.trans (pow_le_pow_right₀ (by norm_num) (by norm_num))
  have one1 : (1 : ℝ) / 2 ^ 400 ≤ 1 := (div_le_one (by positivity)).mpr (one_le_pow₀ (by norm_num))
  have one2 : (1 : ℝ) ≤ 2 ^ 400 := one_le_pow₀ (by norm_num)
  have pS1 : S ≤ np * S := le_mul_of_one_le_left hS0.le hpR
  have pS2 : np * S ≤ 2 ^ 60 := by
    calc (np : ℝ) * S ≤ 2 ^ 30 * 2 ^ 30 := mul_le_mul hp2 hS' hS0.le (by positivity)
      _ = 2 ^ 60 := by norm_num
  have pS3 : np * S ≤ 2 ^ 400 := pS2.trans (pow_le_pow_right₀ (by norm_num) (by norm_num))
  have pSS1 : (1 : ℝ) / 2 ^ 400 ≤ np * S * S := by
    have : (1 : ℝ) / 2 ^ 30 * (1 / 2 ^ 30) ≤ np * S * S := mul_le_mul (hS.trans pS1) hS (by positivity) (by positivity)
    refine le_trans ?_ this
    rw [div_mul_div_comm, one_mul, ← pow_add]
    exact one_div_le_one_div_of_le (by positivity) (pow_le_pow_right₀ (by norm_num) (by norm_num))
  have pSS2 : np * S * S ≤ 2 ^ 400 := by
    calc (np : ℝ) * S * S ≤ 2 ^ 60 * 2 ^ 30 := mul_le_mul pS2 hS' hS0.le (by positivity)
      _ = 2 ^ 90 := by rw [← pow_add]
      _ ≤ 2 ^ 400 := pow_le_pow_right₀ (by norm_num) (by norm_num)
  have c1 := shift_cm hD (n := np) (hp'.trans (by norm_num)) (sscaSeg_length s np i) (sscaSeg_length σ np i)
    (A := S) (α := 2 * (ε + 1 / 2 ^ 46)) (le_trans (by norm_num) hS) (hS'.trans (by norm_num)) (by linarith)
    (fun j z w => seg_cm hL (by linarith) hp hp' hσ (le_trans (by norm_num) hS) (hS'.trans (by norm_num)) h i j z w) hk
  have c2 := c1.mul (em_cm hL hE hn' hp hp' hi hk) (lowS.trans pS1) pS3 one1 one2 (by positivity) (by linarith) (by positivity) (by linarith)
  rw [mul_one] at c2
  have e3 : Ap (s.getD (np / 2 + i) 0 : Float) (σ.getD (np / 2 + i) 0) (S * 0) := by
    rw [hσ, mul_zero]; exact Ap.exact f1
  have c3 := c2.mul (real_cm e3 (by rw [hσ]; exact f2) (by simp)).2 (lowS.trans pS1) pS3 lowS highS (by positivity) (by linarith) le_rfl zero_le_one
  have e4 : Ap (hammingAt n i : FloatL L) (hammingAt n i : ℝ) (1 * (ε + 1 / 2 ^ 46)) := by
    rw [hammingAt_real, one_mul]
    exact hamming_ap hL (by linarith) (by omega) (hn'.trans (by norm_num)) hi.le
  have c4 := c3.mul (real_cm e4 (by rw [hammingAt_real]; exact hammingW_abs n i) (by positivity)).1 pSS1 pSS2 one1 one2 (by positivity) (by linarith) (by positivity) (by linarith)
  rw [mul_one, show np * S * S = np * S ^ 2 by ring] at c4
  have c5 := c4.mono (β := 54 * δ + 138 * ε + (27 * n + 115) / 2 ^ 46) (by positivity) (by linarith)
  have e5 : (sscaXg σ n np i k).toC = ((fftshift (Fft.dft false (sscaSeg σ np i))).getD k 0).toC * (sscaEm np i k : Cx ℝ).toC
      * ((σ.getD (np / 2 + i) 0 : ℝ) : ℂ) * ((hammingAt n i : ℝ) : ℂ) := by
    rw [sscaXg, Cx.toC_mul, Cx.toC_mul, Cx.toC_mul]
    congr 2
    · apply Complex.ext <;> simp [Cx.toC, Cx.conj]
  rw [e5]
  exact c5

/-- One entry of the spectral correlation. -/
theorem ssca_cm [Fft (FloatL L)] {ε δ S : ℝ} (hL : Accurate L ε (2 ^ 40)) (hE : L.exp 0 = 1) (hε : ε ≤ 1 / 2 ^ 12)
    (hD : AccurateDft (Fft.dft (F := FloatL L)) δ) (hδ0 : 0 ≤ δ) (hδ : δ ≤ 1 / 2 ^ 12) {n np : ℕ} (hn' : n ≤ 2 ^ 30) (hp : 0 < np)
    (hp' : np ≤ 2 ^ 30) {s : List (FloatL L)} {σ : List ℝ} (hσ : ∀ i, σ.getD i 0 = val (s.getD i 0)) (hS : 1 / 2 ^ 30 ≤ S)
    (hS' : S ≤ 2 ^ 30) (h : ∀ x ∈ s, F64.Fin x ∧ |val x| ≤ S) {q k : ℕ} (hq : q < n) (hk : k < np) :
    CM (sscaVal s n np q k : Cx (FloatL L)) (sscaVal σ n np q k).toC (n * (np * S ^ 2)) (110 * δ + 276 * ε + n / 2 ^ 37) := by
  have hε0 : 0 ≤ ε := ((hL 0 fin_zero (by rw [val_zero]; norm_num)).1).nonneg
  have hS0 : 0 < S := lt_of_lt_of_le (by positivity) hS
  have hpR : (1 : ℝ) ≤ np := by exact_mod_cast hp
  have hp2 : (np : ℝ) ≤ 2 ^ 30 := by exact_mod_cast hp'
  have hn1 : (1 : ℝ) ≤ n := by exact_mod_cast (by omega : 1 ≤ n)
  have hn2 : (n : ℝ) ≤ 2 ^ 30 := by exact_mod_cast hn'
  have s2 : (1 / 2 ^ 30 : ℝ) ^ 2 ≤ S ^ 2 := pow_le_pow_left₀ (by positivity) hS 2
  have s3 : S ^ 2 ≤ (2 ^ 30 : ℝ) ^ 2 := pow_le_pow_left₀ hS0.le hS' 2
  have s4 : S ^ 2 ≤ np * S ^ 2 := le_mul_of_one_le_left (by positivity) hpR
  have s5 : np * S ^ 2 ≤ 2 ^ 30 * (2 ^ 30) ^ 2 := mul_le_mul hp2 s3 (by positivity) (by positivity)
  have c := shift_cm hD (n := n) (x := (List.range n).map (fun i => sscaXg s n np i k)) (y := (List.range n).map (fun i => sscaXg σ n np i k))
    (hn'.trans (by norm_num)) (by simp) (by simp) (A := np * S ^ 2)
    (α := 54 * δ + 138 * ε + (27 * n + 115) / 2 ^ 46) (le_trans (by norm_num) (s2.trans s4)) (s5.trans (by norm_num)) (by linarith) (by
      intro i z w hz hw
      have hi : i < n := by
        have := (List.getElem?_eq_some_iff.mp hz).1
        rwa [List.length_map, List.length_range] at this
      rw [List.getElem?_map, List.getElem?_range hi, Option.map_some, Option.some.injEq] at hz hw
      rw [← hz, ← hw]
      exact xg_cm hL hE hε hD hδ0 hδ hn' hp hp' hσ hS hS' h hi hk) hq
  exact c.mono (β := 110 * δ + 276 * ε + n / 2 ^ 37) (by positivity) (by linarith)

theorem maxStep_fin {a b : FloatL L} (ha : F64.Fin a) (hb : F64.Fin b) :
    (maxStep a b = pure a ∧ val b < val a) ∨ (maxStep a b = pure b ∧ val a ≤ val b) := by
  have h1 : Flt.le a b = true ↔ val a ≤ val b := le_iff ha hb
  have h2 : Flt.le b a = true ↔ val b ≤ val a := le_iff hb ha
  unfold maxStep partialCmp
  rcases lt_or_ge (val b) (val a) with h | h
  · left
    have e1 : Flt.le a b = false := by
      rw [Bool.eq_false_iff]; intro h'; exact absurd (h1.mp h') (not_le.mpr h)
    rw [e1, h2.mpr h.le]
    exact ⟨rfl, h⟩
  · right
    rw [h1.mpr h]
    cases Flt.le b a <;> exact ⟨rfl, h⟩

/-- The reduction of the standard library on numbers that are all finite: it never panics and finds a largest one. -/
theorem maxBy_fin (x : FloatL L) (l : List (FloatL L)) (h : ∀ y ∈ x :: l, F64.Fin y) :
    ∃ M, maxBy (x :: l) = pure (some M) ∧ M ∈ x :: l ∧ ∀ y ∈ x :: l, val y ≤ val M := by
  unfold maxBy
  have : ∀ l : List (FloatL L), ∀ x, (∀ y ∈ x :: l, F64.Fin y) →
      ∃ M, l.foldlM maxStep x = pure M ∧ M ∈ x :: l ∧ ∀ y ∈ x :: l, val y ≤ val M := by
    intro l
    induction l with
    | nil => intro x _; exact ⟨x, rfl, by simp, by simp⟩
    | cons z l ih =>
      intro x h
      rw [List.foldlM_cons]
      rcases maxStep_fin (h x (by simp)) (h z (by simp)) with ⟨e, hlt⟩ | ⟨e, hle⟩
      · rw [e, pure_bind]
        obtain ⟨M, h1, h2, h3⟩ := ih x (fun y hy => h y (by
          rcases List.mem_cons.mp hy with h | h <;> simp [h]))
        refine ⟨M, h1, ?_, ?_⟩
        · rcases List.mem_cons.mp h2 with h | h <;> simp [h]
        · intro y hy
          rcases List.mem_cons.mp hy with rfl | hy
          · exact h3 _ (by simp)
          · rcases List.mem_cons.mp hy with rfl | hy
            · exact hlt.le.trans (h3 _ (by simp))
            · exact h3 _ (by simp [hy])
      · rw [e, pure_bind]
        obtain ⟨M, h1, h2, h3⟩ := ih z (fun y hy => h y (by
          rcases List.mem_cons.mp hy with h | h <;> simp [h]))
        refine ⟨M, h1, ?_, ?_⟩
        · rcases List.mem_cons.mp h2 with h | h <;> simp [h]
        · intro y hy
          rcases List.mem_cons.mp hy with rfl | hy
          · exact hle.trans (h3 _ (by simp))
          · exact h3 _ hy
  obtain ⟨M, h1, h2, h3⟩ := this l x h
  exact ⟨M, by simp only [h1, pure_bind], h2, h3⟩

/-- The squared magnitude. -/
theorem normSq_cm {z : Cx (FloatL L)} {a : ℂ} {A α : ℝ} (h1 : CM z a A α) (hA : 1 / 2 ^ 400 ≤ A)
    (hA' : A ≤ 2 ^ 400) (ha0 : 0 ≤ α) (ha : α ≤ 1) :
    Ap (Cx.normSq z) (Complex.normSq a) (A * A * (6 * α + 1 / 2 ^ 48)) := by
  have hu := uu_pos
  have hu' : 32 * uu = 1 / 2 ^ 48 := by rw [uu_eq]; norm_num
  have hA0 : 0 < A := lt_of_lt_of_le (by positivity) hA
  have hP0 : 0 < A * A := mul_pos hA0 hA0
  have hP : 1 / 2 ^ 900 ≤ A * A := by
    have h3 : (1 : ℝ) / 2 ^ 400 * (1 / 2 ^ 400) ≤ A * A := mul_le_mul hA hA (by positivity) hA0.le
    refine le_trans ?_ h3
    rw [div_mul_div_comm, one_mul, ← pow_add]
    exact one_div_le_one_div_of_le (by positivity) (pow_le_pow_right₀ (by norm_num) (by norm_num))
  have hP' : A * A ≤ 2 ^ 800 := by
    have h3 : A * A ≤ 2 ^ 400 * 2 ^ 400 := mul_le_mul hA' hA' hA0.le (by positivity)
    rwa [← pow_add] at h3
  have a1 := (Complex.abs_re_le_norm a).trans h1.2
  have a2 := (Complex.abs_im_le_norm a).trans h1.2
  have hab : Complex.normSq a ≤ A * A := by
    rw [Complex.normSq_eq_norm_sq, sq]; exact mul_le_mul h1.2 h1.2 (norm_nonneg _) hA0.le
  set t : ℝ := 3 / 2 * (α + α) + 5 * uu with ht
  have hu1 : 10 * uu ≤ 1 := by rw [uu_eq]; norm_num
  have ht4 : t ≤ 4 := by rw [ht]; linarith
  have he := mul_err hA0 hA0 hP ha0 ha ha0 ha
  have hbig : A * A + (A * (A * α) + A * (A * α) + A * α * (A * α)) ≤ 2 ^ (1023 : ℤ) := by
    have h5 : A * (A * α) + A * (A * α) + A * α * (A * α) ≤ A * A * 3 := by
      have e : A * (A * α) + A * (A * α) + A * α * (A * α) = A * A * (α + α + α * α) := by ring
      rw [e]
      exact mul_le_mul_of_nonneg_left (by nlinarith) hP0.le
    exact big_of hP' (by linarith)
  have hbig2 : A * A + (A * A * t + A * A * t) ≤ 2 ^ (1023 : ℤ) := by
    have h5 : A * A * t ≤ A * A * 4 := mul_le_mul_of_nonneg_left ht4 hP0.le
    exact big_of hP' (by linarith)
  have hs := sum_err hP ht4
  have hfin : A * A * (2 * t + 10 * uu) ≤ A * A * (6 * α + 1 / 2 ^ 48) := by
    refine mul_le_mul_of_nonneg_left ?_ hP0.le
    rw [ht]; linarith
  have m1 := (h1.1.1.mul h1.1.1 a1 a1 hbig).mono he
  have m2 := (h1.1.2.mul h1.1.2 a2 a2 hbig).mono he
  rw [Complex.normSq_apply]
  refine (m1.add m2 (R := A * A) ?_ hbig2).mono (hs.trans hfin)
  rw [← Complex.normSq_apply, abs_of_nonneg (Complex.normSq_nonneg _)]; exact hab

end Verif
