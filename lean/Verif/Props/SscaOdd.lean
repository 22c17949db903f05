import Verif.Props.Ssca
import Verif.Props.KomPySsca

/-!
# Property C105: the spectral correlation for sizes of any parity
-/
namespace Verif.Props
open Verif Spec
set_option linter.unusedSectionVars false

/-- With `d = ⌊np/2⌋` this is the textbook analysis. -/
theorem sscaOff_text (wn wp : ℕ → ℝ) (s : ℕ → ℝ) (n np q k : ℕ) :
    sscaOff wn wp ((np / 2 : ℕ) : ℝ) s n np q k = sscaWith wn wp s n np q k := by
  unfold sscaOff sscaWith
  refine Finset.sum_congr rfl fun i _ => Finset.sum_congr rfl fun j _ => ?_
  congr 3
  generalize np / 2 = h1
  push_cast
  ring

theorem unit_shift' {n k : ℕ} (hk : k < n) (j : ℕ) :
    unit n (-(j * ((k + (n + 1) / 2) % n : ℕ))) = unit n (-(j * ((k : ℤ) - (n / 2 : ℕ)))) := by
  refine unit_congr (by omega) ?_
  have h1 : (n : ℤ) ∣ ((k + (n + 1) / 2) % n : ℕ) - ((k : ℤ) - (n / 2 : ℕ)) := by
    refine ⟨1 - ((k + (n + 1) / 2) / n : ℕ), ?_⟩
    have h2 := Nat.mod_add_div (k + (n + 1) / 2) n
    have h3 : (k : ℤ) + ((n + 1) / 2 : ℕ) = ((k + (n + 1) / 2) % n : ℕ) + n * ((k + (n + 1) / 2) / n : ℕ) := by
      exact_mod_cast h2.symm
    have h4 : (((n + 1) / 2 : ℕ) : ℤ) + (n / 2 : ℕ) = n := by exact_mod_cast (by omega : (n + 1) / 2 + n / 2 = n)
    have h5 : (n : ℤ) * (1 - ((k + (n + 1) / 2) / n : ℕ)) = n - n * ((k + (n + 1) / 2) / n : ℕ) := by ring
    rw [h5]
    linarith
  rw [show -((j : ℤ) * ((k + (n + 1) / 2) % n : ℕ)) - -(j * ((k : ℤ) - (n / 2 : ℕ)))
    = -(j : ℤ) * (((k + (n + 1) / 2) % n : ℕ) - ((k : ℤ) - (n / 2 : ℕ))) by ring]
  exact Dvd.dvd.mul_left h1 _

theorem off_exp (n np i j q k : ℕ) (d : ℝ) : Complex.exp (-(2 * Real.pi * Complex.I
          * ((j : ℂ) * ((k : ℂ) - ((np / 2 : ℕ) : ℂ)) / np + (i : ℂ) * ((k : ℂ) - d) / np
            + (i : ℂ) * ((q : ℂ) - ((n / 2 : ℕ) : ℂ)) / n)))
      = unit np (-(j * ((k : ℤ) - (np / 2 : ℕ))))
        * Complex.exp (-(2 * Real.pi * Complex.I * ((i : ℂ) * ((k : ℂ) - d) / np)))
        * unit n (-(i * ((q : ℤ) - (n / 2 : ℕ)))) := by
  unfold unit
  rw [← Complex.exp_add, ← Complex.exp_add]
  congr 1
  generalize np / 2 = h1
  generalize n / 2 = h2
  push_cast
  ring

theorem sscaVal_any (s : List ℝ) {n np q k : ℕ} (hq : q < n) (hk : k < np) :
    (sscaVal s n np q k).toC = sscaOff (hammingW n) (hammingW np) ((np : ℝ) / 2) (fun i => s.getD i 0) n np q k := by
  rw [sscaVal_toC s hq hk, sscaOff]
  refine Finset.sum_congr rfl fun i _ => Finset.sum_congr rfl fun j _ => ?_
  rw [off_exp, unit_shift' hk, unit_shift' hq, sscaEm_toC]
  push_cast
  rfl

theorem npHamming_one {M i : ℕ} (h : i < M) : (KomPy.npHamming M : List ℝ).getD i 0 = hammingOne M i := by
  by_cases h1 : M = 1
  · subst h1
    have : i = 0 := by omega
    subst this
    simp [KomPy.npHamming, hammingOne]
  · rw [npHamming_real h h1, hammingOne, if_neg h1]

theorem sscaE_any (Np i k : ℕ) : (KomPy.sscaE Np i k : Cx ℝ).toC
    = Complex.exp (-(2 * Real.pi * Complex.I * ((i : ℂ) * ((k : ℂ) - ((((Np + 1) / 2 : ℕ) : ℝ) : ℂ)) / Np))) := by
  generalize hd : (((Np + 1) / 2 : ℕ) : ℝ) = d
  have : -(2 * Real.pi * Complex.I * ((i : ℂ) * ((k : ℂ) - (d : ℂ)) / Np))
      = ((-(2 * Real.pi * ((k : ℝ) - d) * i / Np) : ℝ) : ℂ) * Complex.I := by push_cast; ring
  rw [this]
  apply Complex.ext
  · rw [Complex.exp_ofReal_mul_I_re]
    simp only [KomPy.sscaE, Cx.exp, Cx.toC, Flt.exp_real, Flt.cos_real, Real.exp_zero, one_mul, Flt.ofNat_real, Flt.pi_real, hd]
    congr 1; push_cast; ring
  · rw [Complex.exp_ofReal_mul_I_im]
    simp only [KomPy.sscaE, Cx.exp, Cx.toC, Flt.exp_real, Flt.sin_real, Real.exp_zero, one_mul, Flt.ofNat_real, Flt.pi_real, hd]
    congr 1; push_cast; ring

theorem pyVal_any (s : List ℝ) {N Np q k : ℕ} (hq : q < N) (hk : k < Np) :
    (pyVal s N Np q k).toC
      = sscaOff (hammingOne N) (hammingOne Np) (((Np + 1) / 2 : ℕ) : ℝ) (fun i => s.getD i 0) N Np q k := by
  rw [pyVal, fftshift_getD _ (by simp) hq, Cx.toC_ofC, dftAt_unit, sscaOff]
  simp only [List.length_map, List.length_range]
  refine Finset.sum_congr rfl fun i hi => ?_
  have hi := Finset.mem_range.mp hi
  have hg : (((List.range N).map (fun i => pyXg s N Np i k)).map Cx.toC).getD i 0 = (pyXg s N Np i k).toC := by
    simp [List.getD, hi]
  have hlen : (pySeg s Np i).length = Np := by simp [pySeg]
  rw [hg, pyXg, Cx.toC_mul, Cx.toC_mul, Cx.toC_mul, fftshift_getD _ hlen hk, Cx.toC_ofC, dftAt_unit]
  simp only [List.length_map, hlen]
  rw [Finset.sum_mul, Finset.sum_mul, Finset.sum_mul, Finset.sum_mul]
  refine Finset.sum_congr rfl fun j hj => ?_
  have hj := Finset.mem_range.mp hj
  have hsj : ((pySeg s Np i).map Cx.toC).getD j 0 = ((s.getD (i + j) 0 * hammingOne Np j : ℝ) : ℂ) := by
    simp only [pySeg, List.getD, List.getElem?_map, List.getElem?_range hj, Option.map_some, Option.getD_some]
    rw [← npHamming_one hj]
    rfl
  have hc : (Cx.conj (⟨s.getD (Np / 2 + i) 0, 0⟩ : Cx ℝ)).toC = ((s.getD (i + Np / 2) 0 : ℝ) : ℂ) := by
    rw [Nat.add_comm]; apply Complex.ext <;> simp [Cx.toC, Cx.conj]
  have hh : (⟨(KomPy.npHamming N).getD i 0, 0⟩ : Cx ℝ).toC = ((hammingOne N i : ℝ) : ℂ) := by
    rw [npHamming_one hi]; rfl
  rw [hsj, hc, hh, neg_one_mul, neg_one_mul, unit_shift' hk, unit_shift' hq, sscaE_any, off_exp]
  push_cast
  ring

/-- The compiled function, all sizes: the channel is demodulated with `k - np/2`, which for odd `np` is half a channel away from the
channel `k - ⌊np/2⌋` that was filtered. -/
theorem C105_compiled {s : List ℝ} {n np : ℕ} (h1 : np < n) (h2 : n + np - 1 ≤ s.length) :
    ∃ M : Mat ℝ, sscaBase s n np = pure M ∧ ∀ q k, q < n → k < np →
      ∃ row, M[q]? = some row ∧ ∃ z, row[k]? = some z ∧
        (⟨z.re, z.im⟩ : ℂ) = sscaOff (hammingW n) (hammingW np) ((np : ℝ) / 2) (fun i => s.getD i 0) n np q k := by
  refine ⟨_, sscaBase_ok h1 (by omega), fun q k hq hk => ⟨(List.range np).map (sscaVal s n np q), by simp [hq], _, by
    simp only [List.getElem?_map, List.getElem?_range hk, Option.map_some], sscaVal_any s hq hk⟩⟩

example : ∃ M : Mat ℝ, sscaBase [1, 0, 2, 0, 3, 1, 1] 5 3 = pure M ∧ ∀ q k, q < 5 → k < 3 →
      ∃ row, M[q]? = some row ∧ ∃ z, row[k]? = some z ∧
        (⟨z.re, z.im⟩ : ℂ) = sscaOff (hammingW 5) (hammingW 3) (((3 : ℕ) : ℝ) / 2) (fun i => ([1, 0, 2, 0, 3, 1, 1] : List ℝ).getD i 0) 5 3 q k :=
  C105_compiled (by decide) (by simp)

/-- The Python function, all sizes: the channel is demodulated with `k - ⌈Np/2⌉`, for odd `Np` a whole channel away. -/
theorem C105_python {s : List ℝ} {n np : ℕ} (hn : 0 < n) (hnp : 0 < np) (h : n + np ≤ s.length) :
    ∃ M : Mat ℝ, KomPy.ssca s n np false = .ok M ∧ ∀ q k, q < n → k < np →
      ∃ row, M[q]? = some row ∧ ∃ z, row[k]? = some z ∧
        (⟨z.re, z.im⟩ : ℂ)
          = sscaOff (hammingOne n) (hammingOne np) (((np + 1) / 2 : ℕ) : ℝ) (fun i => s.getD i 0) n np q k := by
  refine ⟨_, (pySsca_unmapped s n np).trans (pyBase_ok hn hnp h), fun q k hq hk =>
    ⟨(List.range np).map (pyVal s n np q), by simp [hq], _, by
    simp only [List.getElem?_map, List.getElem?_range hk, Option.map_some], pyVal_any s hq hk⟩⟩

example : ∃ M : Mat ℝ, KomPy.ssca [(1 : ℝ), 0, 2, 0] 3 1 false = .ok M ∧ ∀ q k, q < 3 → k < 1 →
      ∃ row, M[q]? = some row ∧ ∃ z, row[k]? = some z ∧ (⟨z.re, z.im⟩ : ℂ)
          = sscaOff (hammingOne 3) (hammingOne 1) (((1 + 1) / 2 : ℕ) : ℝ) (fun i => [(1 : ℝ), 0, 2, 0].getD i 0) 3 1 q k :=
  C105_python (by decide) (by decide) (by simp)

/-- So for an even number of channels, and any other size, both are the textbook analysis. -/
theorem C105_even {s : List ℝ} {n np : ℕ} (h0 : 0 < np) (h1 : np < n) (h2 : n + np ≤ s.length) (hnp : np % 2 = 0) :
    ∃ P M : Mat ℝ, KomPy.ssca s n np false = .ok P ∧ sscaBase s n np = pure M ∧ ∀ q k, q < n → k < np →
      (∃ row, P[q]? = some row ∧ ∃ z, row[k]? = some z ∧
        (⟨z.re, z.im⟩ : ℂ) = sscaWith (hammingSym n) (hammingSym np) (fun i => s.getD i 0) n np q k) ∧
      ∃ row, M[q]? = some row ∧ ∃ z, row[k]? = some z ∧
        (⟨z.re, z.im⟩ : ℂ) = sscaWith (hammingW n) (hammingW np) (fun i => s.getD i 0) n np q k := by
  obtain ⟨P, p1, p2⟩ := C105_python (s := s) (n := n) (np := np) (by omega) h0 h2
  obtain ⟨M, m1, m2⟩ := C105_compiled (s := s) h1 (by omega)
  have e1 : hammingOne n = hammingSym n := by funext i; rw [hammingOne, if_neg (by omega)]
  have e2 : hammingOne np = hammingSym np := by funext i; rw [hammingOne, if_neg (by omega)]
  have e3 : (np : ℝ) / 2 = ((np / 2 : ℕ) : ℝ) := by
    have h : (np : ℝ) = 2 * ((np / 2 : ℕ) : ℝ) := by exact_mod_cast (by omega : np = 2 * (np / 2))
    linarith
  refine ⟨P, M, p1, m1, fun q k hq hk => ⟨?_, ?_⟩⟩
  · have := p2 q k hq hk
    rwa [e1, e2, show (np + 1) / 2 = np / 2 by omega, sscaOff_text] at this
  · have := m2 q k hq hk
    rwa [e3, sscaOff_text] at this

example : ∃ P M : Mat ℝ, KomPy.ssca [(1 : ℝ), 2, 3, 4, 5] 3 2 false = .ok P ∧ sscaBase [(1 : ℝ), 2, 3, 4, 5] 3 2 = pure M ∧
    ∃ row, P[1]? = some row ∧ ∃ z, row[1]? = some z ∧
      (⟨z.re, z.im⟩ : ℂ) = sscaWith (hammingSym 3) (hammingSym 2) (fun i => [(1 : ℝ), 2, 3, 4, 5].getD i 0) 3 2 1 1 := by
  obtain ⟨P, M, h1, h2, h3⟩ := C105_even (s := [(1 : ℝ), 2, 3, 4, 5]) (n := 3) (np := 2) (by decide) (by decide)
    (by simp) rfl
  exact ⟨P, M, h1, h2, (h3 1 1 (by decide) (by decide)).1⟩

/-- Demodulating `r` bins away moves the result by `r` rows. -/
theorem sscaOff_shift (wn wp : ℕ → ℝ) (s : ℕ → ℝ) {n np : ℕ} (hn : 0 < n) (hnp : 0 < np) (r q k : ℕ) {d : ℝ}
    (hd : d = ((np / 2 : ℕ) : ℝ) + r * np / n) :
    sscaOff wn wp d s n np ((q + r) % n) k = sscaWith wn wp s n np q k := by
  unfold sscaOff sscaWith
  refine Finset.sum_congr rfl fun i _ => Finset.sum_congr rfl fun j _ => ?_
  congr 1
  have hm : (((q + r) % n : ℕ) : ℂ) = (q : ℂ) + r - n * ((q + r) / n : ℕ) := by
    have := Nat.mod_add_div (q + r) n
    have h2 : (((q + r) % n : ℕ) : ℂ) + n * ((q + r) / n : ℕ) = (q : ℂ) + r := by exact_mod_cast this
    linear_combination h2
  have hn' : (n : ℂ) ≠ 0 := by exact_mod_cast hn.ne'
  have hnp' : (np : ℂ) ≠ 0 := by exact_mod_cast hnp.ne'
  rw [Complex.exp_eq_exp_iff_exists_int]
  refine ⟨(i : ℤ) * ((q + r) / n : ℕ), ?_⟩
  rw [hm, hd]
  generalize (q + r) / n = m
  generalize np / 2 = h1
  generalize n / 2 = h2
  push_cast
  field_simp
  ring

/-- The compiled function with an odd number of channels, `2 np` dividing `n`: every strip of the textbook analysis is there, but `n/(2np)`
rows (half a channel of cycle frequency) further on, cyclically. -/
theorem C105_compiled_odd {s : List ℝ} {n np : ℕ} (h1 : np < n) (h2 : n + np - 1 ≤ s.length) (hodd : np % 2 = 1) (hd : 2 * np ∣ n) :
    ∃ M : Mat ℝ, sscaBase s n np = pure M ∧ ∀ q k, q < n → k < np →
      ∃ row, M[(q + n / (2 * np)) % n]? = some row ∧ ∃ z, row[k]? = some z ∧
        (⟨z.re, z.im⟩ : ℂ) = sscaWith (hammingW n) (hammingW np) (fun i => s.getD i 0) n np q k := by
  obtain ⟨M, m1, m2⟩ := C105_compiled h1 h2
  refine ⟨M, m1, fun q k hq hk => ?_⟩
  have := m2 ((q + n / (2 * np)) % n) k (Nat.mod_lt _ (by omega)) hk
  rwa [sscaOff_shift _ _ _ (by omega) (by omega) (n / (2 * np)) q k] at this
  obtain ⟨c, rfl⟩ := hd
  have hnp : 0 < np := by omega
  have hc : 0 < c := Nat.pos_of_ne_zero (by rintro rfl; simp at h1)
  rw [Nat.mul_div_cancel_left _ (by omega)]
  have h : (np : ℝ) = 2 * ((np / 2 : ℕ) : ℝ) + 1 := by exact_mod_cast (by omega : np = 2 * (np / 2) + 1)
  have hnp' : (np : ℝ) ≠ 0 := by exact_mod_cast hnp.ne'
  have hc' : (c : ℝ) ≠ 0 := by exact_mod_cast hc.ne'
  have e : (c : ℝ) * np / ((2 * np * c : ℕ) : ℝ) = 1 / 2 := by push_cast; field_simp
  rw [e]; linarith

example : ∃ M : Mat ℝ, sscaBase [1, 2, 3, 4, 5, 6, 7, 8] 6 3 = pure M ∧ ∀ q k, q < 6 → k < 3 →
      ∃ row, M[(q + 6 / (2 * 3)) % 6]? = some row ∧ ∃ z, row[k]? = some z ∧
        (⟨z.re, z.im⟩ : ℂ) = sscaWith (hammingW 6) (hammingW 3) (fun i => ([1, 2, 3, 4, 5, 6, 7, 8] : List ℝ).getD i 0) 6 3 q k :=
  C105_compiled_odd (by decide) (by simp) rfl (by decide)

/-- The Python function with an odd number of channels dividing `N`: displaced by `N/Np` rows, a whole channel. -/
theorem C105_python_odd {s : List ℝ} {n np : ℕ} (hn : 0 < n) (h : n + np ≤ s.length) (hodd : np % 2 = 1) (hd : np ∣ n) :
    ∃ M : Mat ℝ, KomPy.ssca s n np false = .ok M ∧ ∀ q k, q < n → k < np →
      ∃ row, M[(q + n / np) % n]? = some row ∧ ∃ z, row[k]? = some z ∧
        (⟨z.re, z.im⟩ : ℂ) = sscaWith (hammingOne n) (hammingOne np) (fun i => s.getD i 0) n np q k := by
  obtain ⟨M, m1, m2⟩ := C105_python (np := np) hn (by omega) h
  refine ⟨M, m1, fun q k hq hk => ?_⟩
  have := m2 ((q + n / np) % n) k (Nat.mod_lt _ (by omega)) hk
  rwa [sscaOff_shift _ _ _ (by omega) (by omega) (n / np) q k] at this
  obtain ⟨c, rfl⟩ := hd
  have hnp : 0 < np := by omega
  have hc : 0 < c := Nat.pos_of_ne_zero (by rintro rfl; simp at hn)
  rw [Nat.mul_div_cancel_left _ hnp, show (np + 1) / 2 = np / 2 + 1 by omega]
  have hnp' : (np : ℝ) ≠ 0 := by exact_mod_cast hnp.ne'
  have hc' : (c : ℝ) ≠ 0 := by exact_mod_cast hc.ne'
  have e : (c : ℝ) * np / ((np * c : ℕ) : ℝ) = 1 := by push_cast; field_simp
  rw [e]; push_cast; ring

example : ∃ M : Mat ℝ, KomPy.ssca [(1 : ℝ), 2, 3, 4, 5, 6, 7, 8, 9] 6 3 false = .ok M ∧ ∀ q k, q < 6 → k < 3 →
      ∃ row, M[(q + 6 / 3) % 6]? = some row ∧ ∃ z, row[k]? = some z ∧
        (⟨z.re, z.im⟩ : ℂ) = sscaWith (hammingOne 6) (hammingOne 3) (fun i => [(1 : ℝ), 2, 3, 4, 5, 6, 7, 8, 9].getD i 0) 6 3 q k :=
  C105_python_odd (by decide) (by simp) rfl (by decide)

/-- With one channel, two rows. -/
theorem sscaOff_one (wn wp : ℕ → ℝ) (s : ℕ → ℝ) : sscaOff wn wp ((1 : ℕ) / 2 : ℝ) s 2 1 0 0
    = ((wn 0 * wp 0 * s 0 * s 0 + wn 1 * wp 0 * s 1 * s 1 : ℝ) : ℂ) := by
  unfold sscaOff
  rw [Finset.sum_range_succ, Finset.sum_range_one, Finset.sum_range_one, Finset.sum_range_one]
  have e0 : -(2 * Real.pi * Complex.I * (((0 : ℕ) : ℂ) * (((0 : ℕ) : ℂ) - ((1 / 2 : ℕ) : ℂ)) / (1 : ℕ) + ((0 : ℕ) : ℂ) * (((0 : ℕ) : ℂ) - (((1 : ℕ) / 2 : ℝ) : ℂ)) / (1 : ℕ)
    + ((0 : ℕ) : ℂ) * (((0 : ℕ) : ℂ) - ((2 / 2 : ℕ) : ℂ)) / (2 : ℕ))) = 0 := by simp
  have e1 : -(2 * Real.pi * Complex.I * (((0 : ℕ) : ℂ) * (((0 : ℕ) : ℂ) - ((1 / 2 : ℕ) : ℂ)) / (1 : ℕ) + ((1 : ℕ) : ℂ) * (((0 : ℕ) : ℂ) - (((1 : ℕ) / 2 : ℝ) : ℂ)) / (1 : ℕ)
    + ((1 : ℕ) : ℂ) * (((0 : ℕ) : ℂ) - ((2 / 2 : ℕ) : ℂ)) / (2 : ℕ))) = 2 * Real.pi * Complex.I := by
    push_cast; norm_num
  rw [e0, e1, Complex.exp_zero, Complex.exp_two_pi_mul_I]
  push_cast
  simp

theorem sscaWith_one (wn wp : ℕ → ℝ) (s : ℕ → ℝ) : sscaWith wn wp s 2 1 0 0
    = ((wn 0 * wp 0 * s 0 * s 0 - wn 1 * wp 0 * s 1 * s 1 : ℝ) : ℂ) := by
  unfold sscaWith
  rw [Finset.sum_range_succ, Finset.sum_range_one, Finset.sum_range_one, Finset.sum_range_one]
  have e0 : -(2 * Real.pi * Complex.I * (((0 + 0 : ℕ) : ℂ) * (((0 : ℕ) : ℂ) - ((1 / 2 : ℕ) : ℂ)) / (1 : ℕ)
    + ((0 : ℕ) : ℂ) * (((0 : ℕ) : ℂ) - ((2 / 2 : ℕ) : ℂ)) / (2 : ℕ))) = 0 := by simp
  have e1 : -(2 * Real.pi * Complex.I * (((1 + 0 : ℕ) : ℂ) * (((0 : ℕ) : ℂ) - ((1 / 2 : ℕ) : ℂ)) / (1 : ℕ)
    + ((1 : ℕ) : ℂ) * (((0 : ℕ) : ℂ) - ((2 / 2 : ℕ) : ℂ)) / (2 : ℕ))) = Real.pi * Complex.I := by
    push_cast; norm_num; ring
  rw [e0, e1, Complex.exp_zero, Complex.exp_pi_mul_I]
  push_cast
  simp
  ring

/-- For an odd number of channels the compiled function is not the textbook analysis: on the constant signal `1, 1`, sizes 2 and 1,
entry `(0, 0)` is `0.0864` where the textbook has `-0.0736`. -/
theorem C105_odd : ∃ M : Mat ℝ, sscaBase [1, 1] 2 1 = pure M ∧ M[0]?.bind (fun r => r[0]?) = some ⟨0.0864, 0⟩ ∧
    sscaWith (hammingW 2) (hammingW 1) (fun i => ([1, 1] : List ℝ).getD i 0) 2 1 0 0 = ((-0.0736 : ℝ) : ℂ) := by
  have w0 : hammingW 2 0 = 0.08 := by unfold hammingW; norm_num
  have w1 : hammingW 2 1 = 1 := by
    unfold hammingW
    rw [show 2 * Real.pi * ((1 : ℕ) : ℝ) / ((2 : ℕ) : ℝ) = Real.pi by push_cast; ring, Real.cos_pi]; norm_num
  have v0 : hammingW 1 0 = 0.08 := by unfold hammingW; norm_num
  obtain ⟨M, m1, m2⟩ := C105_compiled (s := [1, 1]) (n := 2) (np := 1) (by decide) (by simp)
  refine ⟨M, m1, ?_, ?_⟩
  · obtain ⟨row, h1, z, h2, h3⟩ := m2 0 0 (by decide) (by decide)
    rw [h1, Option.bind_some, h2, Option.some.injEq]
    rw [sscaOff_one, w0, w1, v0] at h3
    have hr := congrArg Complex.re h3
    have hi := congrArg Complex.im h3
    simp only [Complex.ofReal_re, Complex.ofReal_im] at hr hi
    obtain ⟨a, b⟩ := z
    simp only at hr hi
    rw [hr, hi]
    norm_num
  · rw [sscaWith_one, w0, w1, v0]
    norm_num

end Verif.Props
