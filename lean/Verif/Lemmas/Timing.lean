import Verif.Lemmas.Jitter
import Verif.Lemmas.Symbols

/-! # Receivers started at another sample than the transmitter -/
namespace Verif
open Spec
variable {κ : Type}

/-- An incomplete last block plays no role. -/
theorem fullBlocks_whole {A : Type} {k : ℕ} (hk : 0 < k) (l : List A) :
    fullBlocks k (l.take (l.length / k * k)) = fullBlocks k l := by
  have hle : l.length / k * k ≤ l.length := Nat.div_mul_le_self _ _
  apply List.ext_getElem?
  intro n
  rw [fullBlocks_getElem? hk, fullBlocks_getElem? hk, List.length_take, Nat.min_eq_left hle]
  by_cases h : (n + 1) * k ≤ l.length
  · have h' : (n + 1) * k ≤ l.length / k * k := Nat.mul_le_mul_right k ((Nat.le_div_iff_mul_le hk).mpr h)
    rw [if_pos h, if_pos h', List.drop_take, List.take_take]
    rw [Nat.add_mul] at h'
    rw [Nat.min_eq_left (by omega)]
  · rw [if_neg h, if_neg (fun h' => h (h'.trans hle))]

theorem rxBpsk_whole (l : List ℝ) {fs sym : ℕ} (fc : ℝ) (hsps : 0 < fs / sym) :
    (do let rx ← rxBpsk (ofList l) fs sym fc; collect rx)
      = (do let rx ← rxBpsk (ofList (l.take (l.length / (fs / sym) * (fs / sym)))) fs sym fc; collect rx) := by
  obtain ⟨i1, a1, b1⟩ := rxBpsk_sym (yields_ofList l) (fc := fc) hsps
  obtain ⟨i2, a2, b2⟩ := rxBpsk_sym (yields_ofList (l.take (l.length / (fs / sym) * (fs / sym)))) (fc := fc) hsps
  rw [a1, a2, pure_bind, pure_bind, collect_of_yields b1, collect_of_yields b2, fullBlocks_whole hsps]

theorem rxQpsk_whole (l : List ℝ) {fs sym : ℕ} (fc : ℝ) (hsps : 0 < fs / sym) :
    (do let rx ← rxQpsk (ofList l) fs sym fc; collect rx)
      = (do let rx ← rxQpsk (ofList (l.take (l.length / (fs / sym) * (fs / sym)))) fs sym fc; collect rx) := by
  obtain ⟨i1, a1, b1⟩ := rxQpsk_sym (yields_ofList l) (fc := fc) hsps
  obtain ⟨i2, a2, b2⟩ := rxQpsk_sym (yields_ofList (l.take (l.length / (fs / sym) * (fs / sym)))) (fc := fc) hsps
  rw [a1, a2, pure_bind, pure_bind, collect_of_yields b1, collect_of_yields b2, fullBlocks_whole hsps]

theorem drop_symbol {k d e n j : ℕ} (hj : j < k) (he : e < k) :
    (n * k + j + (d * k + e)) / k = if j < k - e then n + d else n + d + 1 := by
  have hk : 0 < k := by omega
  rw [show n * k + j + (d * k + e) = (j + e) + (n + d) * k by ring, Nat.add_mul_div_right _ _ hk]
  split_ifs with h
  · rw [Nat.div_eq_of_lt (by omega)]; omega
  · rw [show j + e = (j + e - k) + 1 * k by omega, Nat.add_mul_div_right _ _ hk, Nat.div_eq_of_lt (by omega)]; omega

/-- A recording without its first `d * k + e` samples. -/
theorem recording_drop {r : List ℝ} {M k d e N : ℕ} {s : ℕ → ℕ → ℝ} (he : e < k) (h : Recording r M k s)
    (hN : N = (M * k - (d * k + e)) / k) :
    (r.drop (d * k + e)).length / k = N ∧
    Recording ((r.drop (d * k + e)).take (N * k)) N k
      (fun n i => s (if i % k < k - e then n + d else n + d + 1) (i + (d * k + e))) := by
  have hk : 0 < k := by omega
  have hle : N * k ≤ M * k - (d * k + e) := by rw [hN]; exact Nat.div_mul_le_self _ _
  refine ⟨by rw [List.length_drop, h.1, hN], ?_, ?_⟩
  · rw [List.length_take, List.length_drop, h.1]; omega
  · intro i hi
    rw [List.getElem?_take_of_lt hi, List.getElem?_drop, Nat.add_comm, h.2 _ (by omega), Option.some.injEq]
    have := drop_symbol (n := i / k) (d := d) (Nat.mod_lt i hk) he
    rw [Nat.mul_comm (i / k) k, Nat.div_add_mod] at this
    rw [this]

/-- A symbol whose amplitudes change after `k - e` samples. -/
theorem split_corr {k e : ℕ} (he : e < k) {δ : ℝ} {p q : ℤ} (hp : k * δ = p * Real.pi) (hq : e * δ = q * Real.pi)
    (hs : Real.sin δ ≠ 0) (X Y X' Y' : ℝ) (m : ℕ) :
    ∑ j ∈ Finset.range k, (if j < k - e then X * Real.cos ((m + j : ℕ) * δ) - Y * Real.sin ((m + j : ℕ) * δ)
        else X' * Real.cos ((m + j : ℕ) * δ) - Y' * Real.sin ((m + j : ℕ) * δ)) * Real.cos ((m + j : ℕ) * δ)
      = ((k - e : ℕ) * X + e * X') / 2 ∧
    ∑ j ∈ Finset.range k, (if j < k - e then X * Real.cos ((m + j : ℕ) * δ) - Y * Real.sin ((m + j : ℕ) * δ)
        else X' * Real.cos ((m + j : ℕ) * δ) - Y' * Real.sin ((m + j : ℕ) * δ)) * -Real.sin ((m + j : ℕ) * δ)
      = ((k - e : ℕ) * Y + e * Y') / 2 := by
  have h1 : ((k - e : ℕ) : ℝ) * δ = (p - q : ℤ) * Real.pi := by
    rw [Nat.cast_sub he.le]; push_cast; linear_combination hp - hq
  obtain ⟨a1, a2⟩ := quad_corr h1 hs X Y m
  obtain ⟨b1, b2⟩ := quad_corr hq hs X' Y' (m + (k - e))
  have split : ∀ f g : ℕ → ℝ, ∑ j ∈ Finset.range k, (if j < k - e then f j else g j)
      = ∑ j ∈ Finset.range (k - e), f j + ∑ j ∈ Finset.range e, g (k - e + j) := by
    intro f g
    conv_lhs => rw [show k = (k - e) + e by omega]
    rw [Finset.sum_range_add]
    congr 1
    · apply Finset.sum_congr rfl
      intro j hj
      rw [if_pos (by have := Finset.mem_range.mp hj; omega)]
    · apply Finset.sum_congr rfl
      intro j _
      rw [if_neg (by omega)]
  constructor
  · simp only [ite_mul]
    rw [split, a1]
    have := b1
    simp only [Nat.add_assoc] at this
    rw [this]; ring
  · simp only [ite_mul]
    rw [split, a2]
    have := b2
    simp only [Nat.add_assoc] at this
    rw [this]; ring

/-- A recording without its first `d` symbols. -/
theorem recording_drop_symbols {r : List ℝ} {M k d : ℕ} {s : ℕ → ℕ → ℝ} (hk : 0 < k) (h : Recording r M k s) :
    Recording (r.drop (d * k)) (M - d) k (fun n i => s (n + d) (i + d * k)) := by
  refine ⟨by rw [List.length_drop, h.1, Nat.sub_mul], fun i hi => ?_⟩
  rw [Nat.sub_mul] at hi
  rw [List.getElem?_drop, Nat.add_comm, h.2 _ (by omega), Nat.add_mul_div_right _ _ hk]

/-- A recording that begins with `d` symbols of silence. -/
theorem recording_silence {r : List ℝ} {M k d : ℕ} {s : ℕ → ℕ → ℝ} (hk : 0 < k) (h : Recording r M k s) :
    Recording (List.replicate (d * k) 0 ++ r) (d + M) k (fun n i => if n < d then 0 else s (n - d) (i - d * k)) := by
  refine ⟨by rw [List.length_append, List.length_replicate, h.1, Nat.add_mul], fun i hi => ?_⟩
  rw [Nat.add_mul] at hi
  beta_reduce
  by_cases hd : i < d * k
  · rw [if_pos ((Nat.div_lt_iff_lt_mul hk).mpr hd), List.getElem?_append_left (by simpa using hd), List.getElem?_replicate, if_pos hd]
  · rw [if_neg (fun h' => hd ((Nat.div_lt_iff_lt_mul hk).mp h')), List.getElem?_append_right (by simpa using hd),
      List.length_replicate, h.2 _ (by omega)]
    congr 2
    conv_rhs => rw [show i = i - d * k + d * k by omega, Nat.add_mul_div_right _ _ hk, Nat.add_sub_cancel]

/-- The chips repeat with every symbol. -/
theorem chip_index {k L d i : ℕ} (hk : 0 < k) (hL : L ∣ k) : (i + d * k) / (k / L) % L = i / (k / L) % L := by
  have hLpos : 0 < L := Nat.pos_of_dvd_of_pos hL hk
  have hc : 0 < k / L := Nat.div_pos (Nat.le_of_dvd hk hL) hLpos
  have he : d * k = d * L * (k / L) := by rw [Nat.mul_assoc, Nat.mul_div_cancel' hL]
  rw [he, Nat.add_mul_div_right _ _ hc, Nat.add_mul_mod_self_right]

end Verif
