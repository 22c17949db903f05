import Verif.Lemmas.Fsk
import Verif.F64.Tone
import Verif.F64.Carrier

/-!
Frequency modulation in IEEE arithmetic: the phase with its error.
-/

namespace Verif
open F64
variable {L : Libm}

/-- One sample of the modulator, the running sum being known to `δ`. -/
theorem fm_sample {ε : ℝ} (hL : Accurate L ε (2 ^ 40)) {fs i : ℕ} {fc c : Float} {s δ N S : ℝ} (hfs : 0 < fs)
    (hfs' : fs ≤ 2 ^ 53) (hi : (i : ℝ) ≤ N) (hN : 1 ≤ N) (hS : 1 ≤ S) (hNS : N * S ≤ 2 ^ 36) (hf : F64.Fin fc)
    (hlo : val fc = 0 ∨ 1 / 2 ^ 100 ≤ |val fc|) (hhi : |val fc| ≤ fs / 2) (hc : Ap c s δ) (hs : |s| ≤ N * S) (hδ : δ ≤ N * S) :
    Ap (L.cos (F64.ofNat 2 * Flt.pi * fc * (F64.ofNat i / F64.ofNat fs) + F64.lit 5 2 * c))
      (Real.cos (2 * Real.pi * val fc * i / fs + 5 / 100 * s)) (ε + (δ / 16 + 512 * (N * S) / 2 ^ 56)) := by
  have hfsR : (0 : ℝ) < fs := by exact_mod_cast hfs
  have hfs53 : (fs : ℝ) ≤ 2 ^ 53 := by exact_mod_cast hfs'
  have hNle : N ≤ N * S := le_mul_of_one_le_right (by linarith) hS
  have hδ0 := hc.nonneg
  have hu := uu_eq
  have hiN : i ≤ 2 ^ 53 := by
    have : (i : ℝ) ≤ 2 ^ 53 := (hi.trans (hNle.trans hNS)).trans (by norm_num)
    exact_mod_cast this
  have hrel := phase_rel (L := L) (i := i) hfs hfs' hiN hf hlo (hhi.trans (by
    have : (2 : ℝ) ^ 53 ≤ 2 ^ 100 := by norm_num
    linarith))
  have hd : |dphi fs (val fc)| ≤ 4 := by
    unfold dphi
    rw [abs_div, abs_of_pos hfsR, div_le_iff₀ hfsR, abs_mul, abs_of_pos (by positivity)]
    have := Real.pi_le_four
    calc 2 * Real.pi * |val fc| ≤ 2 * 4 * (fs / 2) := mul_le_mul (by linarith) hhi (abs_nonneg _) (by norm_num)
      _ = 4 * fs := by ring
  have hp : |(i : ℝ) * dphi fs (val fc)| ≤ 4 * (N * S) := by
    rw [abs_mul, abs_of_nonneg (by positivity)]
    calc (i : ℝ) * |dphi fs (val fc)| ≤ N * 4 := mul_le_mul hi hd (abs_nonneg _) (by linarith)
      _ ≤ 4 * (N * S) := by linarith
  set A := N * S with hA
  have hA1 : 1 ≤ A := hN.trans hNle
  have ht : tiny ≤ A / 2 ^ 60 := (tiny_le (k := 60) (by norm_num)).trans (div_le_div_of_nonneg_right hA1 (by positivity))
  have a1 : Ap (F64.ofNat 2 * Flt.pi * fc * (F64.ofNat i / F64.ofNat fs)) (i * dphi fs (val fc)) (4 * A / 2 ^ 50) := hrel.ap (by
    rw [div_mul_eq_mul_div, one_mul]
    exact div_le_div_of_nonneg_right hp (by positivity))
  have l05 : Ap (F64.lit 5 2) (5 / 100) (1 / 2 ^ 56) := lit05_rel.ap (by
    rw [hu, abs_of_pos (by norm_num)]; norm_num)
  have big : (2 : ℝ) ^ 36 * 4 ≤ 2 ^ 39 := by norm_num
  have e1 : A * (1 / 2 ^ 56) ≤ A := by
    rw [mul_one_div]; exact div_le_self (by linarith) (by norm_num)
  have e2 : 1 / 2 ^ 56 * δ ≤ A / 2 ^ 56 := by
    rw [div_mul_eq_mul_div, one_mul]; exact div_le_div_of_nonneg_right hδ (by positivity)
  have e2' : A / 2 ^ 56 ≤ A := div_le_self (by linarith) (by norm_num)
  have m1 := l05.mul hc (R := 5 / 100) (S := A) (by rw [abs_of_pos (by norm_num)]) hs
    (le_big (k := 39) (by norm_num) (by linarith))
  have m2 : Ap (F64.lit 5 2 * c) (5 / 100 * s) (δ / 16 + 24 * A / 2 ^ 56) := m1.mono (by
    rw [hu]
    have q : (5 / 100 * A + (5 / 100 * δ + A * (1 / 2 ^ 56) + 1 / 2 ^ 56 * δ)) * (1 / 2 ^ 53) ≤ 2 * A / 2 ^ 53 := by
      rw [mul_one_div]
      refine div_le_div_of_nonneg_right ?_ (by positivity)
      have : A * (1 / 2 ^ 56) ≤ A / 2 := by
        rw [mul_one_div]; exact div_le_div_of_nonneg_left (by linarith) (by norm_num) (by norm_num)
      have : A / 2 ^ 56 ≤ A / 2 := div_le_div_of_nonneg_left (by linarith) (by norm_num) (by norm_num)
      linarith
    have q2 : 2 * A / 2 ^ 53 = 16 * A / 2 ^ 56 := by ring
    have q3 : A / 2 ^ 60 ≤ A / 2 ^ 56 := div_le_div_of_nonneg_left (by linarith) (by norm_num) (by norm_num)
    have q4 : A * (1 / 2 ^ 56) = A / 2 ^ 56 := by ring
    have q5 : 24 * A / 2 ^ 56 = 24 * (A / 2 ^ 56) := by ring
    have q6 : 16 * A / 2 ^ 56 = 16 * (A / 2 ^ 56) := by ring
    have : 0 ≤ A / 2 ^ 56 := by positivity
    linarith)
  have hs' : |5 / 100 * s| ≤ A / 16 := by
    rw [abs_mul, abs_of_pos (by norm_num)]; linarith
  have r56 : 24 * A / 2 ^ 56 ≤ A / 4 := by
    rw [div_le_div_iff₀ (by positivity) (by norm_num)]; norm_num; linarith
  have r50 : 4 * A / 2 ^ 50 ≤ A / 4 := by
    rw [div_le_div_iff₀ (by positivity) (by norm_num)]; norm_num; linarith
  have hR : |(i : ℝ) * dphi fs (val fc) + 5 / 100 * s| ≤ 5 * A := (abs_add_le _ _).trans (by linarith)
  have p1 := a1.add m2 hR (le_big (k := 40) (by norm_num) (by linarith))
  have p2 : Ap (F64.ofNat 2 * Flt.pi * fc * (F64.ofNat i / F64.ofNat fs) + F64.lit 5 2 * c) (i * dphi fs (val fc) + 5 / 100 * s) (δ / 16 + 512 * A / 2 ^ 56) := p1.mono (by
    rw [hu]
    have q : (5 * A + (4 * A / 2 ^ 50 + (δ / 16 + 24 * A / 2 ^ 56))) * (1 / 2 ^ 53) ≤ 6 * A / 2 ^ 53 := by
      rw [mul_one_div]
      exact div_le_div_of_nonneg_right (by linarith) (by positivity)
    have q1 : 6 * A / 2 ^ 53 = 48 * (A / 2 ^ 56) := by ring
    have q2 : 4 * A / 2 ^ 50 = 256 * (A / 2 ^ 56) := by ring
    have q3 : A / 2 ^ 60 ≤ A / 2 ^ 56 := div_le_div_of_nonneg_left (by linarith) (by norm_num) (by norm_num)
    have q5 : 24 * A / 2 ^ 56 = 24 * (A / 2 ^ 56) := by ring
    have q6 : 512 * A / 2 ^ 56 = 512 * (A / 2 ^ 56) := by ring
    have : 0 ≤ A / 2 ^ 56 := by positivity
    linarith)
  have eqp : (i : ℝ) * dphi fs (val fc) + 5 / 100 * s = 2 * Real.pi * val fc * i / fs + 5 / 100 * s := by
    unfold dphi; ring
  rw [eqp] at p2 hR
  refine (carrier_ap hL p2 ?_).1
  have r9 : 512 * A / 2 ^ 56 ≤ A := by
    rw [div_le_iff₀ (by positivity)]; norm_num; linarith
  have : (2 : ℝ) ^ 36 * 8 ≤ 2 ^ 40 := by norm_num
  linarith

/-- A sum of doubles that are integers, as long as it stays below `2^53`, is exact. -/
theorem rsum_int {a : ℕ → Float} {n : ℕ} {z : ℕ → ℤ} {S : ℕ} (h : ∀ j < n, F64.Fin (a j) ∧ val (a j) = z j) (hz : ∀ j < n, |z j| ≤ S)
    (hn : n * S ≤ 2 ^ 53) : Ap (rsum ((List.range n).map a)) (∑ j ∈ Finset.range n, (z j : ℝ)) 0 := by
  have main : ∀ k ≤ n, Ap (rsum ((List.range k).map a)) (∑ j ∈ Finset.range k, (z j : ℝ)) 0 := by
    intro k
    induction k with
    | zero => intro _; exact ⟨fin_zero, by simp only [List.range_zero, List.map_nil, rsum, List.foldl_nil, Finset.sum_range_zero, sub_zero, abs_nonpos_iff]; exact val_zero⟩
    | succ k ih =>
      intro hk
      obtain ⟨i1, i2⟩ := ih (by omega)
      obtain ⟨j1, j2⟩ := h k (by omega)
      have hi : val (rsum ((List.range k).map a)) = ∑ j ∈ Finset.range k, (z j : ℝ) := by
        have := abs_nonpos_iff.mp i2; linarith
      have e : rsum ((List.range (k + 1)).map a) = rsum ((List.range k).map a) + a k := by
        unfold rsum; rw [List.range_succ, List.map_append, List.foldl_append]; rfl
      have hb : |∑ j ∈ Finset.range (k + 1), z j| ≤ 2 ^ 53 := by
        refine (Finset.abs_sum_le_sum_abs _ _).trans ((Finset.sum_le_card_nsmul _ _ (S : ℤ) fun j hj => ?_).trans ?_)
        · exact hz j (by have := Finset.mem_range.mp hj; omega)
        · rw [Finset.card_range, nsmul_eq_mul]
          have : (k + 1) * S ≤ n * S := Nat.mul_le_mul_right _ hk
          exact_mod_cast this.trans hn
      have hv : val (rsum ((List.range k).map a)) + val (a k) = ((∑ j ∈ Finset.range (k + 1), z j : ℤ) : ℝ) := by
        rw [hi, j2, Finset.sum_range_succ]; push_cast; rfl
      have hF := rnd_of_isF (isF_int hb)
      have hd := add_val i1 j1 (by
        rw [hv, hF]
        have : |((∑ j ∈ Finset.range (k + 1), z j : ℤ) : ℝ)| ≤ 2 ^ 53 := by exact_mod_cast hb
        rw [← hF]
        exact rnd_lt_huge (le_big (k := 53) (by norm_num) this))
      rw [hv, hF] at hd
      rw [e]
      refine ⟨hd.1, ?_⟩
      rw [hd.2]
      push_cast
      simp
  exact main n le_rfl

theorem fm_sum_list {T : Type} [Zero T] [Add T] {msg : List T} {k i : ℕ} (hk : 0 < k) (hi : i < msg.length * k) :
    ((msg.flatMap (List.replicate k)).take (i + 1)).foldl (· + ·) (0 : T)
      = rsum ((List.range (i + 1)).map (fun t => msg.getD (t / k) 0)) := by
  unfold rsum
  congr 1
  apply List.ext_getElem?
  intro j
  by_cases hj : j < i + 1
  · rw [List.getElem?_take_of_lt hj, List.getElem?_map, List.getElem?_range hj, flatMap_replicate_eq_wave,
      wave_getElem? hk, Option.map_some, List.getD_eq_getElem?_getD]
    have : j / k < msg.length := by rw [Nat.div_lt_iff_lt_mul hk]; omega
    rw [List.getElem?_eq_getElem this]
    rfl
  · rw [List.getElem?_eq_none (by simp; omega), List.getElem?_eq_none (by simp; omega)]

end Verif
