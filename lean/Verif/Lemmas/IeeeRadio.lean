import Verif.F64.Sign
import Verif.Lemmas.Cdma

/-! BPSK and QPSK receivers in IEEE arithmetic. -/
namespace Verif
open Spec F64

theorem bpsk_params {L : Libm} {fs sym : ℕ} {fc : FloatL L} (hdvd : sym ∣ fs)
    (hlo : 1 / 16 ≤ (((fs / sym : ℕ) : ℝ) - 1) * (val fc / fs)) :
    0 < fs ∧ 0 < sym ∧ 0 < fs / sym ∧ 1 / 2 ^ 100 ≤ val fc := by
  have hfs0 : 0 < fs := by
    rcases Nat.eq_zero_or_pos fs with h | h
    · subst h; norm_num at hlo
    · exact h
  have hsym : 0 < sym := Nat.pos_of_dvd_of_pos hdvd hfs0
  have hsps : 0 < fs / sym := Nat.div_pos (Nat.le_of_dvd hfs0 hdvd) hsym
  refine ⟨hfs0, hsym, hsps, ?_⟩
  obtain ⟨s, hs⟩ : ∃ s, fs / sym = s + 1 := ⟨fs / sym - 1, by omega⟩
  have hfsR : (0 : ℝ) < fs := by exact_mod_cast hfs0
  have hsfs : s + 1 ≤ fs := hs ▸ Nat.div_le_self _ _
  have hsfsR : (s : ℝ) + 1 ≤ fs := by exact_mod_cast hsfs
  rw [hs] at hlo
  push_cast at hlo
  rw [add_sub_cancel_right] at hlo
  have hv0 : 0 < val fc / fs := by
    by_contra hn
    have : (s : ℝ) * (val fc / fs) ≤ 0 := mul_nonpos_of_nonneg_of_nonpos (by positivity) (not_lt.mp hn)
    linarith
  have hv : 1 / 16 ≤ val fc := by
    have e : val fc = fs * (val fc / fs) := by field_simp
    rw [e]
    exact hlo.trans (mul_le_mul_of_nonneg_right (by linarith) hv0.le)
  exact le_trans (by norm_num) hv

/-- The BPSK receiver on a noiseless signal. -/
theorem rxBpsk_ieee {ι : Type} {L : Libm} [RIter ι (FloatL L)] {ε : ℝ} (hε : ε ≤ 1 / 2 ^ 10) (hL : Accurate L ε (2 ^ 40))
    {s : ι} {msg : List Bool} {fs sym : ℕ} {fc : FloatL L} (hfs : fs < 2 ^ 53) (hdvd : sym ∣ fs)
    (hlen : msg.length * (fs / sym) ≤ 2 ^ 32) (hf : Fin fc) (hhi : val fc ≤ 7 / 16 * fs)
    (hlo : 1 / 16 ≤ (((fs / sym : ℕ) : ℝ) - 1) * (val fc / fs))
    (h : Yields s (wave (fs / sym) (fun n b j => bitToNrz b * Flt.cos (phase fs fc (n * (fs / sym) + j))) msg)) :
    ∃ it, rxBpsk s fs sym fc = pure it ∧ Yields it msg := by
  obtain ⟨hfs0, hsym, hsps, hv'⟩ := bpsk_params hdvd hlo
  have hfsR : (0 : ℝ) < fs := by exact_mod_cast hfs0
  obtain ⟨it, e1, e2⟩ := rxBpsk_wave (fc := fc) hsps h
  refine ⟨it, e1, e2.of_eq ?_⟩
  apply mapIdx_eq_self
  intro n b hn
  have hlt : n < msg.length := by
    rcases Nat.lt_or_ge n msg.length with h | h
    · exact h
    · rw [List.getElem?_eq_none h] at hn; cases hn
  obtain ⟨s', hs⟩ : ∃ s, fs / sym = s + 1 := ⟨fs / sym - 1, by omega⟩
  have hle : n * (fs / sym) + fs / sym ≤ 2 ^ 32 := by
    have : (n + 1) * (fs / sym) ≤ msg.length * (fs / sym) := Nat.mul_le_mul_right _ hlt
    rw [Nat.add_mul, Nat.one_mul] at this
    omega
  obtain ⟨j, hj, hjb⟩ := exists_large hε hL (i := n * (fs / sym)) (s := s') hfs0 hfs (by omega) hf (by
    rw [hs] at hlo; push_cast at hlo; rwa [add_sub_cancel_right] at hlo) hhi hv'
  refine correlate_sign (a := fun j => L.cos (phase fs fc (n * (fs / sym) + j))) (c := 2 ^ (-8 : ℤ)) ?_
    (isF_zpow (by norm_num)) (two_zpow_pos _) ⟨j, by omega, ?_⟩ b
  · intro j hj
    exact (carrier_near hL hfs0 hfs (by omega) hf hv' (by linarith)).1.1
  · rw [← sq_abs, show (2 : ℝ) ^ (-8 : ℤ) = (1 / 16) ^ 2 by norm_num [zpow_neg]]
    exact pow_le_pow_left₀ (by norm_num) hjb 2

/-- The QPSK receiver on a noiseless signal whose quadrature carriers are sufficiently orthogonal on each symbol. -/
theorem rxQpsk_ieee {ι : Type} {L : Libm} [RIter ι (FloatL L)] {ε : ℝ} (hε : ε ≤ 1 / 2 ^ 10) (hL : Accurate L ε (2 ^ 40))
    {s : ι} {ps : List (Bool × Bool)} {fs sym : ℕ} {fc : FloatL L} (hfs : fs < 2 ^ 53) (hsps : 0 < fs / sym)
    (hlen : ps.length * (fs / sym) ≤ 2 ^ 32) (hf : Fin fc) (hlo : 1 / 2 ^ 100 ≤ val fc) (hhi : val fc ≤ fs / 2)
    (hcc : ∀ n < ps.length, |∑ j ∈ Finset.range (fs / sym), Real.cos ((n * (fs / sym) + j : ℕ) * dphi fs (val fc))
        * Real.sin ((n * (fs / sym) + j : ℕ) * dphi fs (val fc))| + ((fs / sym : ℕ) : ℝ) / 16
      ≤ ∑ j ∈ Finset.range (fs / sym), Real.cos ((n * (fs / sym) + j : ℕ) * dphi fs (val fc)) ^ 2)
    (hss : ∀ n < ps.length, |∑ j ∈ Finset.range (fs / sym), Real.cos ((n * (fs / sym) + j : ℕ) * dphi fs (val fc))
        * Real.sin ((n * (fs / sym) + j : ℕ) * dphi fs (val fc))| + ((fs / sym : ℕ) : ℝ) / 16
      ≤ ∑ j ∈ Finset.range (fs / sym), Real.sin ((n * (fs / sym) + j : ℕ) * dphi fs (val fc)) ^ 2)
    (h : Yields s (wave (fs / sym) (fun n (p : Bool × Bool) j =>
        bitToNrz p.1 * Flt.cos (phase fs fc (n * (fs / sym) + j))
          + -(bitToNrz p.2) * Flt.sin (phase fs fc (n * (fs / sym) + j))) ps)) :
    ∃ it, rxQpsk s fs sym fc = pure it ∧ Yields it (ps.flatMap (fun p => [p.1, p.2])) := by
  have hfs0 : 0 < fs := by
    rcases Nat.eq_zero_or_pos fs with h | h
    · subst h; simp at hsps
    · exact h
  obtain ⟨it, e1, e2⟩ := rxQpsk_wave (fc := fc) hsps h
  refine ⟨it, e1, e2.of_eq ?_⟩
  rw [List.flatMap]
  congr 1
  rw [← mapIdx_const (fun p : Bool × Bool => [p.1, p.2])]
  apply mapIdx_congr'
  rintro n ⟨a, b⟩ hn
  have hlt : n < ps.length := by
    rcases Nat.lt_or_ge n ps.length with h | h
    · exact h
    · rw [List.getElem?_eq_none h] at hn; cases hn
  have hle : n * (fs / sym) + fs / sym ≤ 2 ^ 32 := by
    have : (n + 1) * (fs / sym) ≤ ps.length * (fs / sym) := Nat.mul_le_mul_right _ hlt
    rw [Nat.add_mul, Nat.one_mul] at this
    omega
  set k := fs / sym with hk
  have hkpos : (0 : ℝ) < k := by exact_mod_cast hsps
  set θ : ℕ → ℝ := fun j => (n * k + j : ℕ) * dphi fs (val fc) with hθ
  have near : ∀ j < k, Ap (L.cos (phase fs fc (n * k + j))) (Real.cos (θ j)) (1 / 2 ^ 9) ∧
      Ap (L.sin (phase fs fc (n * k + j))) (Real.sin (θ j)) (1 / 2 ^ 9) := by
    intro j hj
    have hn := carrier_near hL (i := n * k + j) hfs0 hfs (by omega) hf hlo hhi
    have : ε + 1 / 2 ^ 15 ≤ 1 / 2 ^ 9 := by norm_num at hε ⊢; linarith
    exact ⟨hn.1.mono this, hn.2.mono this⟩
  have hsmp : ∀ j < k, _ := fun j hj =>
    qpsk_sample (near j hj).1 (near j hj).2 (Real.abs_cos_le_one _) (Real.abs_sin_le_one _) a b
  have c1 := correlate_ap (n := k) (by omega) (fun j hj =>
    qpsk_product (hsmp j hj).1 (hsmp j hj).2 (near j hj).1 (Real.abs_cos_le_one _))
  have c2 := correlate_ap (n := k) (by omega) (fun j hj =>
    qpsk_product (hsmp j hj).1 (hsmp j hj).2 (near j hj).2.neg (by rw [abs_neg]; exact Real.abs_sin_le_one _))
  have v1 : ∑ j ∈ Finset.range k, (sg a * Real.cos (θ j) + -sg b * Real.sin (θ j)) * Real.cos (θ j)
      = sg a * ∑ j ∈ Finset.range k, Real.cos (θ j) ^ 2 - sg b * ∑ j ∈ Finset.range k, Real.cos (θ j) * Real.sin (θ j) := by
    rw [Finset.mul_sum, Finset.mul_sum, ← Finset.sum_sub_distrib]
    exact Finset.sum_congr rfl (fun j _ => by ring)
  have v2 : ∑ j ∈ Finset.range k, (sg a * Real.cos (θ j) + -sg b * Real.sin (θ j)) * -Real.sin (θ j)
      = sg b * ∑ j ∈ Finset.range k, Real.sin (θ j) ^ 2 - sg a * ∑ j ∈ Finset.range k, Real.cos (θ j) * Real.sin (θ j) := by
    rw [Finset.mul_sum, Finset.mul_sum, ← Finset.sum_sub_distrib]
    exact Finset.sum_congr rfl (fun j _ => by ring)
  rw [v1] at c1
  rw [v2] at c2
  have m1 := hcc n hlt
  have m2 := hss n hlt
  change |∑ j ∈ Finset.range k, Real.cos (θ j) * Real.sin (θ j)| + _ ≤ ∑ j ∈ Finset.range k, Real.cos (θ j) ^ 2 at m1
  change |∑ j ∈ Finset.range k, Real.cos (θ j) * Real.sin (θ j)| + _ ≤ ∑ j ∈ Finset.range k, Real.sin (θ j) ^ 2 at m2
  have p1 := le_abs_self (∑ j ∈ Finset.range k, Real.cos (θ j) * Real.sin (θ j))
  have p2 := neg_abs_le (∑ j ∈ Finset.range k, Real.cos (θ j) * Real.sin (θ j))
  generalize ∑ j ∈ Finset.range k, Real.cos (θ j) * Real.sin (θ j) = X at *
  generalize ∑ j ∈ Finset.range k, Real.cos (θ j) ^ 2 = Y at *
  generalize ∑ j ∈ Finset.range k, Real.sin (θ j) ^ 2 = Z at *
  have d1 : Float.le 0 (rsum ((List.range k).map fun j => ((if a then (1 : Float) else -1) * L.cos (phase fs fc (n * k + j))
      + -(if b then 1 else -1) * L.sin (phase fs fc (n * k + j))) * L.cos (phase fs fc (n * k + j)))) = a := by
    cases a <;> cases b <;> simp only [sg, Bool.false_eq_true, if_true, if_false] at c1 ⊢
    · exact c1.neg_dec (by linarith)
    · exact c1.neg_dec (by linarith)
    · exact c1.nonneg_dec (by linarith)
    · exact c1.nonneg_dec (by linarith)
  have d2 : Float.le 0 (rsum ((List.range k).map fun j => ((if a then (1 : Float) else -1) * L.cos (phase fs fc (n * k + j))
      + -(if b then 1 else -1) * L.sin (phase fs fc (n * k + j))) * -L.sin (phase fs fc (n * k + j)))) = b := by
    cases a <;> cases b <;> simp only [sg, Bool.false_eq_true, if_true, if_false] at c2 ⊢
    · exact c2.neg_dec (by linarith)
    · exact c2.nonneg_dec (by linarith)
    · exact c2.neg_dec (by linarith)
    · exact c2.nonneg_dec (by linarith)
  show [_, _] = [a, b]
  congr 1
  congr 1

/-- Whole number of half-periods per symbol: the quadrature carriers are orthogonal. -/
theorem qpsk_margins {fs k : ℕ} {fc : ℝ} (hfs : 0 < fs) (hk : 0 < k) {p : ℤ} (hp : (k : ℝ) * (2 * fc) = p * fs) (h0 : 0 < fc)
    (hhi : fc < fs / 2) (n : ℕ) :
    |∑ j ∈ Finset.range k, Real.cos ((n * k + j : ℕ) * dphi fs fc) * Real.sin ((n * k + j : ℕ) * dphi fs fc)| + (k : ℝ) / 16
      ≤ ∑ j ∈ Finset.range k, Real.cos ((n * k + j : ℕ) * dphi fs fc) ^ 2 ∧
    |∑ j ∈ Finset.range k, Real.cos ((n * k + j : ℕ) * dphi fs fc) * Real.sin ((n * k + j : ℕ) * dphi fs fc)| + (k : ℝ) / 16
      ≤ ∑ j ∈ Finset.range k, Real.sin ((n * k + j : ℕ) * dphi fs fc) ^ 2 := by
  have hfsR : (0 : ℝ) < fs := by exact_mod_cast hfs
  have hkR : (0 : ℝ) < k := by exact_mod_cast hk
  have hπ := Real.pi_pos
  have hs : Real.sin (dphi fs fc) ≠ 0 := by
    refine (Real.sin_pos_of_pos_of_lt_pi ?_ ?_).ne'
    · unfold dphi; positivity
    · unfold dphi; rw [div_lt_iff₀ hfsR]; nlinarith
  have hkd : (k : ℝ) * dphi fs fc = p * Real.pi := by
    unfold dphi
    field_simp
    linear_combination hp
  rw [sum_cos_sq_half hkd hs, sum_sin_sq_half hkd hs, sum_cos_sin_half hkd hs, abs_zero]
  constructor <;> linarith

end Verif
