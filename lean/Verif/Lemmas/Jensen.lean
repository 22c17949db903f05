import Verif.Lemmas.GaussEnd
import Verif.Lemmas.ErfAccuracy
import Mathlib.Analysis.Convex.Jensen
import Mathlib.Analysis.Convex.Deriv

/-!
Unequal symbol energies: the error rate is a strictly convex function of the energy, so their mean error rate is at least that of
the mean energy.
-/

namespace Verif
open Spec Set

/-- `erfc(√x)` is strictly convex. -/
theorem erfc_sqrt_strictConvex : StrictConvexOn ℝ (Ioi 0) (fun x => Erfc (√x)) := by
  have hd : ∀ x : ℝ, 0 < x → HasDerivAt (fun x => Erfc (√x)) (-(Real.exp (-x) / (√Real.pi * √x))) x := by
    intro x hx
    have h := (Erfc_hasDerivAt (√x)).comp x (Real.hasDerivAt_sqrt hx.ne')
    rw [Real.sq_sqrt hx.le] at h
    refine h.congr_deriv ?_
    have h1 : √x ≠ 0 := (Real.sqrt_pos.mpr hx).ne'
    have h2 : √Real.pi ≠ 0 := (Real.sqrt_pos.mpr Real.pi_pos).ne'
    field_simp
  refine StrictMonoOn.strictConvexOn_of_deriv (convex_Ioi 0) (fun x hx => (hd x hx).continuousAt.continuousWithinAt) ?_
  rw [interior_Ioi]
  intro x hx y hy hxy
  rw [(hd x hx).deriv, (hd y hy).deriv, neg_lt_neg_iff]
  have hx0 : 0 < √x := Real.sqrt_pos.mpr hx
  have hp : 0 < √Real.pi := Real.sqrt_pos.mpr Real.pi_pos
  have h1 : √x < √y := Real.sqrt_lt_sqrt (le_of_lt hx) hxy
  have h2 : Real.exp (-y) < Real.exp (-x) := Real.exp_lt_exp.mpr (by linarith)
  exact div_lt_div₀ h2 (mul_le_mul_of_nonneg_left h1.le hp.le) (Real.exp_pos _).le (by positivity)

theorem bitError_scaled {E eb snr : ℝ} (heb : 0 < eb) (hs : 0 < snr) :
    bitError E (√(2 * eb / snr) / 2) = Erfc (√(E * snr / eb)) / 2 := by
  unfold bitError
  rw [div_pow, Real.sq_sqrt (by positivity)]
  congr 3
  field_simp

/-- The mean error rate of symbols of different energies against that of their mean energy. -/
theorem bitError_jensen {N : ℕ} (hN : 0 < N) {E : ℕ → ℝ} (hE : ∀ n < N, 0 < E n) {snr σ : ℝ} (hs : 0 < snr)
    (hσ : σ = √(2 * ((∑ n ∈ Finset.range N, E n) / N) / snr) / 2) :
    Erfc (√snr) / 2 ≤ (∑ n ∈ Finset.range N, bitError (E n) σ) / N ∧
    (Erfc (√snr) / 2 = (∑ n ∈ Finset.range N, bitError (E n) σ) / N ↔ ∀ n < N, ∀ k < N, E n = E k) := by
  have hN' : (0 : ℝ) < N := by exact_mod_cast hN
  set eb := (∑ n ∈ Finset.range N, E n) / N with heb
  have hebp : 0 < eb := div_pos (Finset.sum_pos (fun n hn => hE n (Finset.mem_range.mp hn)) ⟨0, by simpa using hN⟩) hN'
  have hw : ∑ _n ∈ Finset.range N, (1 / N : ℝ) = 1 := by
    rw [Finset.sum_const, Finset.card_range, nsmul_eq_mul]; field_simp
  have hmem : ∀ n ∈ Finset.range N, E n * snr / eb ∈ Ioi (0 : ℝ) := fun n hn => by
    have := hE n (Finset.mem_range.mp hn)
    exact div_pos (mul_pos this hs) hebp
  have hmean : ∑ n ∈ Finset.range N, (1 / N : ℝ) • (E n * snr / eb) = snr := by
    have e : ∀ n, (1 / N : ℝ) • (E n * snr / eb) = E n * (snr / (N * eb)) := fun n => by
      rw [smul_eq_mul]; field_simp
    simp only [e]
    rw [← Finset.sum_mul]
    have : ∑ n ∈ Finset.range N, E n = N * eb := by rw [heb]; field_simp
    rw [this]
    field_simp
  have hf : ∑ n ∈ Finset.range N, (1 / N : ℝ) • Erfc (√(E n * snr / eb)) = 2 * ((∑ n ∈ Finset.range N, bitError (E n) σ) / N) := by
    rw [hσ]
    simp only [bitError_scaled hebp hs, smul_eq_mul]
    rw [← Finset.mul_sum, ← Finset.sum_div]
    ring
  have h1 := erfc_sqrt_strictConvex.convexOn.map_sum_le (t := Finset.range N) (w := fun _ => (1 / N : ℝ))
    (p := fun n => E n * snr / eb) (fun _ _ => by positivity) hw hmem
  have h2 := erfc_sqrt_strictConvex.map_sum_eq_iff (t := Finset.range N) (w := fun _ => (1 / N : ℝ))
    (p := fun n => E n * snr / eb) (fun _ _ => by positivity) hw hmem
  beta_reduce at h1 h2
  rw [hmean, hf] at h1 h2
  refine ⟨by linarith, ?_⟩
  have h3 : Erfc (√snr) / 2 = (∑ n ∈ Finset.range N, bitError (E n) σ) / N ↔
      Erfc (√snr) = 2 * ((∑ n ∈ Finset.range N, bitError (E n) σ) / N) := by constructor <;> intro h <;> linarith
  rw [h3, h2]
  have h4 : ∀ n, E n * snr / eb = snr ↔ E n = eb := fun n => by
    rw [div_eq_iff hebp.ne', mul_comm (E n)]
    exact mul_right_inj' hs.ne'
  simp only [h4, Finset.mem_range]
  constructor
  · intro h n hn k hk
    rw [h n hn, h k hk]
  · intro h n hn
    have : ∑ k ∈ Finset.range N, E k = ∑ k ∈ Finset.range N, E n :=
      Finset.sum_congr rfl fun k hk => h k (Finset.mem_range.mp hk) n hn
    rw [heb, this, Finset.sum_const, Finset.card_range, nsmul_eq_mul]
    field_simp

/-- The energies of the symbols add up to that of the recording. -/
theorem symbol_sum {k : ℕ} (N : ℕ) {tx : List ℝ} (h : tx.length = N * k) :
    (tx.map (· ^ 2)).sum = ∑ n ∈ Finset.range N, ((symbol k n tx).map (· ^ 2)).sum := by
  induction N generalizing tx with
  | zero =>
    have : tx = [] := List.eq_nil_of_length_eq_zero (by omega)
    simp [this]
  | succ N ih =>
    rw [Finset.sum_range_succ']
    have hl : (tx.drop k).length = N * k := by rw [List.length_drop, h, Nat.succ_mul]; omega
    have h1 := ih hl
    have h2 : ∀ n, symbol k n (tx.drop k) = symbol k (n + 1) tx := fun n => by
      unfold symbol; rw [List.drop_drop, Nat.succ_mul, Nat.add_comm]
    simp only [h2] at h1
    rw [← h1]
    have h3 : symbol k 0 tx = tx.take k := by unfold symbol; simp
    rw [h3]
    conv_lhs => rw [← List.take_append_drop k tx, List.map_append, List.sum_append]
    ring

end Verif
