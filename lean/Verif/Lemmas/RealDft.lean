import Verif.Model.Bpf
import Verif.Lemmas.DftLeak

/-! The transforms of real signals: half spectra, their Hermitian extension and inversion. -/
namespace Verif
open Spec

/-- Reals as complex numbers. -/
noncomputable def toCs (x : List ℝ) : List ℂ := x.map (fun r : ℝ => (r : ℂ))

@[simp] theorem toCs_length (x : List ℝ) : (toCs x).length = x.length := by simp [toCs]

theorem toCs_getD (x : List ℝ) (j : ℕ) : (toCs x).getD j 0 = ((x.getD j 0 : ℝ) : ℂ) := by
  simp only [toCs, List.getD, List.getElem?_map]
  cases x[j]? <;> simp

/-- Bin `k` of the spectrum with half `X`, of length `n`. -/
noncomputable def hermAt (n : ℕ) (X : List ℂ) (k : ℕ) : ℂ :=
  if k = 0 ∨ 2 * k = n then ((X.getD k 0).re : ℂ)
  else if 2 * k < n then X.getD k 0
  else (starRingEnd ℂ) (X.getD (n - k) 0)

/-- The full spectrum with half `X`. -/
noncomputable def herm (n : ℕ) (X : List ℂ) : List ℂ := (List.range n).map (hermAt n X)

theorem herm_length (n : ℕ) (X : List ℂ) : (herm n X).length = n := by simp [herm]

theorem herm_getD {n : ℕ} (X : List ℂ) {k : ℕ} (hk : k < n) : (herm n X).getD k 0 = hermAt n X k := by
  simp [herm, List.getD, hk]

theorem unit_neg_sub {n : ℕ} (hn : 0 < n) (a b : ℤ) : unit n (a * (n - b)) = unit n (-(a * b)) := by
  rw [show a * ((n : ℤ) - b) = a * n + -(a * b) by ring, unit_add, unit_mul_self hn, one_mul]

theorem conj_hermAt {n : ℕ} (X : List ℂ) {k : ℕ} (hk : k < n) :
    (starRingEnd ℂ) (hermAt n X k) = hermAt n X ((n - k) % n) := by
  rcases Nat.eq_zero_or_pos k with rfl | h0
  · rw [Nat.sub_zero, Nat.mod_self]
    simp [hermAt]
  · rw [Nat.mod_eq_of_lt (by omega)]
    unfold hermAt
    by_cases h2 : 2 * k = n
    · rw [if_pos (.inr h2), show n - k = k by omega, if_pos (.inr h2), Complex.conj_ofReal]
    · rw [if_neg (by omega), if_neg (by omega : ¬ (n - k = 0 ∨ 2 * (n - k) = n))]
      by_cases h3 : 2 * k < n
      · rw [if_pos h3, if_neg (by omega), Nat.sub_sub_self hk.le]
      · rw [if_neg h3, if_pos (by omega), Complex.conj_conj]

/-- The inverse transform of a Hermitian spectrum is real. -/
theorem herm_real (n : ℕ) (X : List ℂ) (j : ℕ) : (dftAt 1 (herm n X) j).im = 0 := by
  rcases Nat.eq_zero_or_pos n with rfl | hn
  · simp [dftAt, herm]
  rw [← Complex.conj_eq_iff_im, dftAt_unit, herm_length, map_sum]
  refine Finset.sum_bij' (fun k _ => (n - k) % n) (fun k _ => (n - k) % n) ?_ ?_ ?_ ?_ ?_
  · intro k _; exact Finset.mem_range.mpr (Nat.mod_lt _ hn)
  · intro k _; exact Finset.mem_range.mpr (Nat.mod_lt _ hn)
  all_goals
    intro k hk
    have hk := Finset.mem_range.mp hk
    rcases Nat.eq_zero_or_pos k with rfl | h0
  · simp
  · rw [Nat.mod_eq_of_lt (by omega : n - k < n), Nat.sub_sub_self hk.le, Nat.mod_eq_of_lt hk]
  · simp
  · rw [Nat.mod_eq_of_lt (by omega : n - k < n), Nat.sub_sub_self hk.le, Nat.mod_eq_of_lt hk]
  · rw [herm_getD X hk, herm_getD X (Nat.mod_lt _ hn), map_mul, conj_hermAt X hk, conj_unit]
    simp [unit_zero]
  · rw [herm_getD X hk, herm_getD X (Nat.mod_lt _ hn), map_mul, conj_hermAt X hk, conj_unit]
    congr 1
    rw [Nat.mod_eq_of_lt (by omega : n - k < n), one_mul, one_mul, mul_comm ((n - k : ℕ) : ℤ), Nat.cast_sub hk.le,
      unit_neg_sub hn, mul_comm]

/-- The spectrum of a real signal is Hermitian. -/
theorem dftAt_real {x : List ℝ} {k : ℕ} (hk : k ≤ x.length) :
    (starRingEnd ℂ) (dftAt (-1) (toCs x) (x.length - k)) = dftAt (-1) (toCs x) k := by
  rcases Nat.eq_zero_or_pos x.length with h0 | hn
  · have : k = 0 := by omega
    simp [dftAt, h0]
  rw [dftAt_unit, dftAt_unit, map_sum]
  refine Finset.sum_congr rfl fun j _ => ?_
  rw [map_mul, toCs_getD, Complex.conj_ofReal, conj_unit, toCs_length, Nat.cast_sub hk]
  congr 1
  rw [show -(-1 * ((j : ℤ) * (x.length - k))) = j * (x.length - k) by ring, unit_neg_sub hn]
  congr 1; ring

theorem dftAt_zero_im (x : List ℝ) : (dftAt (-1) (toCs x) 0).im = 0 := by
  have h : dftAt (-1) (toCs x) 0 = (∑ j ∈ Finset.range x.length, x.getD j 0 : ℝ) := by
    rw [dftAt_unit, toCs_length, Complex.ofReal_sum]
    refine Finset.sum_congr rfl fun j _ => ?_
    rw [toCs_getD]; simp [unit_zero]
  rw [h, Complex.ofReal_im]

theorem dftAt_half_im {x : List ℝ} (h2 : x.length % 2 = 0) : (dftAt (-1) (toCs x) (x.length / 2)).im = 0 := by
  have := dftAt_real (x := x) (k := x.length / 2) (by omega)
  rw [show x.length - x.length / 2 = x.length / 2 by omega] at this
  exact Complex.conj_eq_iff_im.mp this

/-- Exact arithmetic: the first half of the discrete Fourier transform, and the (unnormalised) inverse transform of the
spectrum with a given first half. -/
noncomputable instance : RealFft ℝ where
  rfft x := (List.range (x.length / 2 + 1)).map (fun k => Cx.ofC (dftAt (-1) (toCs x) k))
  irfft n X := (List.range n).map (fun j => (dftAt 1 (herm n (X.map Cx.toC)) j).re)
  length_rfft x := by simp
  length_irfft n X := by simp
  rfft_first x z h := by
    simp only [List.getElem?_map, List.getElem?_range (Nat.succ_pos _), Option.map_some, Option.some.injEq] at h
    rw [← h]; simpa [Cx.ofC] using dftAt_zero_im x
  rfft_last x z h2 h := by
    simp only [List.getElem?_map, List.getElem?_range (Nat.lt_succ_self _), Option.map_some, Option.some.injEq] at h
    rw [← h]; simpa [Cx.ofC] using dftAt_half_im h2
  zero_eq := by simp

theorem rfft_eq (x : List ℝ) :
    (RealFft.rfft x : List (Cx ℝ)) = (List.range (x.length / 2 + 1)).map (fun k => Cx.ofC (dftAt (-1) (toCs x) k)) := rfl

theorem irfft_eq (n : ℕ) (X : List (Cx ℝ)) :
    (RealFft.irfft n X : List ℝ) = (List.range n).map (fun j => (dftAt 1 (herm n (X.map Cx.toC)) j).re) := rfl

theorem toCs_irfft (n : ℕ) (X : List (Cx ℝ)) : toCs (RealFft.irfft n X) = dft 1 (herm n (X.map Cx.toC)) := by
  rw [irfft_eq, toCs, List.map_map, dft, herm_length]
  refine List.map_congr_left fun j _ => ?_
  exact Complex.ext (by simp) (by simp [herm_real])

/-- The full spectrum of a real signal from its half. -/
theorem herm_rfft (x : List ℝ) : herm x.length ((RealFft.rfft x).map Cx.toC) = dft (-1) (toCs x) := by
  rw [herm, dft, toCs_length]
  refine List.map_congr_left fun k hk => ?_
  have hk := List.mem_range.mp hk
  have hget : ∀ i, i ≤ x.length / 2 → ((RealFft.rfft x).map Cx.toC).getD i 0 = dftAt (-1) (toCs x) i := by
    intro i hi
    rw [rfft_eq]
    simp [List.getD, Nat.lt_succ_of_le hi]
  unfold hermAt
  split
  · next h =>
    rw [hget k (by omega)]
    refine Complex.ext (by simp) ?_
    rw [Complex.ofReal_im]
    rcases h with rfl | h
    · exact (dftAt_zero_im x).symm
    · rw [show k = x.length / 2 by omega]; exact (dftAt_half_im (by omega)).symm
  · split
    · exact hget k (by omega)
    · rw [hget _ (by omega), dftAt_real hk.le]

/-- The inverse transform undoes the forward one, times the length. -/
theorem irfft_rfft (x : List ℝ) : RealFft.irfft x.length (RealFft.rfft x) = x.map (fun r => (x.length : ℝ) * r) := by
  have h := toCs_irfft x.length (RealFft.rfft x)
  have h3 := dft_dft (-1) (.inr rfl) (toCs x)
  rw [neg_neg] at h3
  rw [herm_rfft, h3, toCs_length] at h
  have hinj : Function.Injective toCs := List.map_injective_iff.mpr Complex.ofReal_injective
  apply hinj
  rw [h, toCs, toCs, List.map_map, List.map_map]
  refine List.map_congr_left fun r _ => ?_
  simp

/-- The forward transform undoes the inverse one, times the length. -/
theorem rfft_irfft {n : ℕ} (hn : 0 < n) {X : List (Cx ℝ)} (hX : X.length = n / 2 + 1) (h0 : (X.getD 0 0).im = 0)
    (h2 : n % 2 = 0 → (X.getD (n / 2) 0).im = 0) :
    RealFft.rfft (RealFft.irfft n X) = X.map (Cx.smulR (n : ℝ)) := by
  have hl : (RealFft.irfft n X : List ℝ).length = n := RealFft.length_irfft n X
  have hd : dft (-1) (toCs (RealFft.irfft n X)) = (herm n (X.map Cx.toC)).map (fun z : ℂ => (n : ℂ) * z) := by
    rw [toCs_irfft, dft_dft 1 (.inl rfl), herm_length]
  rw [rfft_eq, hl]
  apply List.ext_getElem
  · simp [hX]
  intro k hk _
  have hk' : k < n / 2 + 1 := by simpa using hk
  rw [List.getElem_map, List.getElem_range, List.getElem_map]
  have hkX : k < X.length := by omega
  have hg : X[k] = X.getD k 0 := by simp [List.getD, hkX]
  have hkn : k < n ∨ n = 0 := by omega
  have hkn : k < n := by omega
  have e : dftAt (-1) (toCs (RealFft.irfft n X)) k = n * hermAt n (X.map Cx.toC) k := by
    have := congrArg (fun l => l.getD k 0) hd
    rw [dft_getD _ _ (by rw [toCs_length, hl]; exact hkn)] at this
    rw [this]
    simp [List.getD, herm, hkn]
  rw [e, hermAt]
  have hgC : (X.map Cx.toC).getD k 0 = (X[k]).toC := by simp [List.getD, hkX]
  split
  · next h =>
    rw [hgC]
    have him : X[k].im = 0 := by
      rw [hg]
      rcases h with rfl | h
      · exact h0
      · rw [show k = n / 2 by omega]; exact h2 (by omega)
    apply Cx.ext
    · simp [Cx.ofC, Cx.smulR, Cx.toC]
    · simp [Cx.ofC, Cx.smulR, him]
  · rw [if_pos (by omega), hgC]
    apply Cx.ext
    · simp [Cx.ofC, Cx.smulR, Cx.toC]
    · simp [Cx.ofC, Cx.smulR, Cx.toC]

theorem rfft_inj {x y : List ℝ} (hl : x.length = y.length) (h : (RealFft.rfft x : List (Cx ℝ)) = RealFft.rfft y) : x = y := by
  have h1 := irfft_rfft x
  rw [h, hl, irfft_rfft y] at h1
  rcases Nat.eq_zero_or_pos y.length with h0 | hn
  · rw [List.length_eq_zero_iff.mp h0, List.length_eq_zero_iff.mp (hl.trans h0)]
  have hn' : (y.length : ℝ) ≠ 0 := by exact_mod_cast hn.ne'
  exact (List.map_injective_iff.mpr (fun a b => mul_left_cancel₀ hn')) h1.symm

theorem dftAt_smul_real (c : ℝ) (x : List ℝ) (k : ℕ) :
    dftAt (-1) (toCs (x.map (fun r => c * r))) k = c * dftAt (-1) (toCs x) k := by
  rw [← dftAt_smul]
  congr 1
  simp [toCs, Function.comp_def]

theorem dftAt_add_real {x y : List ℝ} (h : x.length = y.length) (k : ℕ) :
    dftAt (-1) (toCs (List.zipWith (· + ·) x y)) k = dftAt (-1) (toCs x) k + dftAt (-1) (toCs y) k := by
  simp only [dftAt, toCs_length, List.length_zipWith, ← h, min_self]
  rw [← Finset.sum_add_distrib]
  refine Finset.sum_congr rfl fun j hj => ?_
  have hj := Finset.mem_range.mp hj
  rw [← add_mul, toCs_getD, toCs_getD, toCs_getD]
  congr 1
  have hj2 : j < y.length := by omega
  simp [List.getD, hj, hj2]

end Verif
