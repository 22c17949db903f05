import Verif.Lemmas.Gauss
import Verif.Lemmas.Driven
import Verif.Lemmas.OfdmLin
import Verif.Lemmas.Ssca
import Verif.Lemmas.Bpf
import Verif.Spec.Carriers

/-! # Real Gaussian noise behind the discrete Fourier transform of the baseband OFDM receiver -/
set_option linter.unusedSectionVars false
namespace Verif
open Spec MeasureTheory ProbabilityTheory
variable {Ω : Type} [MeasurableSpace Ω] {P : Measure Ω} {σ : ℝ} {w : ℕ → Ω → ℝ}

/-- Bits that are the signs of `±D` plus orthogonal projections of equal length. -/
theorem flips_offset (hw : White P σ w) (hσ : 0 < σ) {bits : Ω → List Bool} {msg : List Bool} {M : ℕ} (a : ℕ → ℕ → ℝ) {K D : ℝ} (hK : 0 < K)
    (hD : 0 ≤ D) (hlen : ∀ ω, (bits ω).length = msg.length) (ha : ∀ n < msg.length, ∑ i ∈ Finset.range M, a n i ^ 2 = K)
    (ho : ∀ k < msg.length, ∀ l < msg.length, k ≠ l → ∑ i ∈ Finset.range M, a k i * a l i = 0)
    (hpos : ∀ ω n (hn : n < msg.length), 0 < (if msg[n] then 1 else -1) * D + proj M (a n) w ω → (bits ω)[n]? = some true)
    (hneg : ∀ ω n (hn : n < msg.length), (if msg[n] then 1 else -1) * D + proj M (a n) w ω < 0 → (bits ω)[n]? = some false) :
    Flips P msg bits (fun _ => bitError (D ^ 2 / K) σ) := by
  let A : ℕ → ℝ := fun n => (if msg.getD n false then 1 else -1) * D
  have hA : ∀ n (hn : n < msg.length), A n = (if msg[n] then 1 else -1) * D := fun n hn => by
    simp [A, List.getD, hn]
  let s : ℕ → ℝ := fun i => ∑ n ∈ Finset.range msg.length, A n / K * a n i
  have hs : ∀ k < msg.length, ∑ i ∈ Finset.range M, a k i * s i = A k := by
    intro k hk
    simp only [s, Finset.mul_sum]
    rw [Finset.sum_comm, Finset.sum_eq_single k]
    · rw [Finset.sum_congr rfl (g := fun i => A k / K * a k i ^ 2) (fun i _ => by ring), ← Finset.mul_sum, ha k hk]
      field_simp
    · intro l hl hkl
      rw [Finset.sum_congr rfl (g := fun i => A l / K * (a k i * a l i)) (fun i _ => by ring), ← Finset.mul_sum,
        ho k hk l (Finset.mem_range.mp hl) (Ne.symm hkl), mul_zero]
    · intro h; exact absurd (Finset.mem_range.mpr hk) h
  have hS : Signs bits msg.length M a s w := by
    refine ⟨hlen, fun ω n hn h0 => ?_, fun ω n hn h0 => ?_⟩
    · rw [stat_eq, hs n hn, hA n hn] at h0; exact hpos ω n hn h0
    · rw [stat_eq, hs n hn, hA n hn] at h0; exact hneg ω n hn h0
  have := hS.flips hw hσ (fun n hn => by rw [ha n hn]; exact hK) ho (fun _ => D) (fun n hn => by rw [hs n hn, hA n hn])
  refine ⟨this.length, this.event, fun e he => ?_⟩
  rw [this.pattern e he]
  refine Finset.prod_congr rfl fun n hn => ?_
  rw [ha n (Finset.mem_range.mp hn), bitError]
  have e1 : √(D ^ 2 / K / (2 * σ ^ 2)) = D / √(2 * (σ ^ 2 * K)) := by
    rw [div_div, Real.sqrt_div (sq_nonneg D), Real.sqrt_sq hD]
    congr 2; ring
  rw [e1]

/-! ### The rows of the transform -/

theorem unit_re (n : ℕ) (t : ℤ) : (unit n t).re = Real.cos (2 * Real.pi * t / n) := by
  unfold unit
  rw [show 2 * (Real.pi : ℂ) * Complex.I * (t / n) = ((2 * Real.pi * t / n : ℝ) : ℂ) * Complex.I by push_cast; ring,
    Complex.exp_ofReal_mul_I_re]

theorem unit_im (n : ℕ) (t : ℤ) : (unit n t).im = Real.sin (2 * Real.pi * t / n) := by
  unfold unit
  rw [show 2 * (Real.pi : ℂ) * Complex.I * (t / n) = ((2 * Real.pi * t / n : ℝ) : ℂ) * Complex.I by push_cast; ring,
    Complex.exp_ofReal_mul_I_im]

/-- The sum of a full turn of unit vectors. -/
theorem sum_unit {n : ℕ} (hn : 0 < n) (d : ℤ) : ∑ j ∈ Finset.range n, unit n (d * j) = if (n : ℤ) ∣ d then (n : ℂ) else 0 := by
  split_ifs with h
  · obtain ⟨c, rfl⟩ := h
    rw [Finset.sum_congr rfl (g := fun _ => (1 : ℂ)) (fun j _ => by
      rw [show (n : ℤ) * c * j = (c * j) * n by ring, unit_mul_self hn])]
    simp
  · exact sum_unit_eq_zero hn h

theorem sum_cos {n : ℕ} (hn : 0 < n) (d : ℤ) :
    ∑ j ∈ Finset.range n, Real.cos (2 * Real.pi * (d * j : ℤ) / n) = if (n : ℤ) ∣ d then (n : ℝ) else 0 := by
  have := congrArg Complex.re (sum_unit hn d)
  rw [Complex.re_sum] at this
  simp only [unit_re] at this
  rw [this]; split_ifs <;> simp

theorem sum_sin {n : ℕ} (hn : 0 < n) (d : ℤ) : ∑ j ∈ Finset.range n, Real.sin (2 * Real.pi * (d * j : ℤ) / n) = 0 := by
  have := congrArg Complex.im (sum_unit hn d)
  rw [Complex.im_sum] at this
  simp only [unit_im] at this
  rw [this]; split_ifs <;> simp

/-- The two rails of bin `κ`: the real and the imaginary part of the transform of real noise. -/
noncomputable def rail (n : ℕ) (q : Bool) (κ : ℤ) (j : ℕ) : ℝ :=
  if q then (unit n (-(j * κ))).im else (unit n (-(j * κ))).re

theorem rail_ortho {n : ℕ} (hn : 0 < n) (q r : Bool) (κ l : ℤ) :
    ∑ j ∈ Finset.range n, rail n q κ j * rail n r l j
      = if q = r then ((if (n : ℤ) ∣ κ - l then (n : ℝ) else 0) + (if q then -1 else 1) * (if (n : ℤ) ∣ κ + l then (n : ℝ) else 0)) / 2
        else 0 := by
  have h1 := sum_cos hn (κ - l)
  have h2 := sum_cos hn (κ + l)
  have h3 := sum_sin hn (κ + l)
  have h4 := sum_sin hn (κ - l)
  have ea : ∀ j : ℕ, (2 * Real.pi * ((-(j * κ) : ℤ) : ℝ) / n) = -(2 * Real.pi * (κ * j) / n) := fun j => by push_cast; ring
  have eb : ∀ j : ℕ, (2 * Real.pi * ((-(j * l) : ℤ) : ℝ) / n) = -(2 * Real.pi * (l * j) / n) := fun j => by push_cast; ring
  have em : ∀ j : ℕ, (2 * Real.pi * (((κ - l) * j : ℤ) : ℝ) / n) = 2 * Real.pi * (κ * j) / n - 2 * Real.pi * (l * j) / n := fun j => by
    push_cast; ring
  have ep : ∀ j : ℕ, (2 * Real.pi * (((κ + l) * j : ℤ) : ℝ) / n) = 2 * Real.pi * (κ * j) / n + 2 * Real.pi * (l * j) / n := fun j => by
    push_cast; ring
  simp only [em, ep, Real.cos_sub, Real.cos_add, Real.sin_add, Real.sin_sub] at h1 h2 h3 h4
  rw [Finset.sum_sub_distrib] at h2 h4
  rw [Finset.sum_add_distrib] at h1 h3
  cases q <;> cases r <;>
    simp only [rail, unit_re, unit_im, ea, eb, Real.cos_neg, Real.sin_neg, Bool.false_eq_true, if_true, if_false, reduceCtorEq, neg_mul, mul_neg, neg_neg,
      Finset.sum_neg_distrib]
  · linarith
  · have : ∑ j ∈ Finset.range n, Real.cos (2 * Real.pi * (κ * j) / n) * Real.sin (2 * Real.pi * (l * j) / n) = 0 := by linarith
    rw [this, neg_zero]
  · have : ∑ j ∈ Finset.range n, Real.sin (2 * Real.pi * (κ * j) / n) * Real.cos (2 * Real.pi * (l * j) / n) = 0 := by linarith
    rw [this, neg_zero]
  · linarith

/-! ### The noise of one received symbol -/

/-- A row of the transform, placed in the stream of samples. -/
noncomputable def row (n off : ℕ) (q : Bool) (κ : ℤ) (i : ℕ) : ℝ := if off ≤ i ∧ i < off + n then rail n q κ (i - off) else 0

theorem sum_window {M n off : ℕ} (h : off + n ≤ M) (f : ℕ → ℝ) :
    ∑ i ∈ Finset.range M, (if off ≤ i ∧ i < off + n then f i else 0) = ∑ j ∈ Finset.range n, f (off + j) := by
  obtain ⟨r, rfl⟩ := Nat.exists_eq_add_of_le h
  rw [Finset.sum_range_add, Finset.sum_range_add,
    Finset.sum_eq_zero (s := Finset.range off) (fun i hi => if_neg (by have := Finset.mem_range.mp hi; omega)),
    Finset.sum_eq_zero (s := Finset.range r) (fun i _ => if_neg (by omega)), zero_add, add_zero]
  exact Finset.sum_congr rfl fun j hj => if_pos (by have := Finset.mem_range.mp hj; omega)

theorem row_ortho {M n off : ℕ} (h : off + n ≤ M) (q r : Bool) (κ l : ℤ) :
    ∑ i ∈ Finset.range M, row n off q κ i * row n off r l i = ∑ j ∈ Finset.range n, rail n q κ j * rail n r l j := by
  rw [Finset.sum_congr rfl (g := fun i => if off ≤ i ∧ i < off + n then rail n q κ (i - off) * rail n r l (i - off) else 0)
    (fun i _ => by unfold row; split_ifs <;> simp), sum_window h]
  simp

theorem row_disjoint {M n off off' : ℕ} (h : off + n ≤ off' ∨ off' + n ≤ off) (q r : Bool) (κ l : ℤ) :
    ∑ i ∈ Finset.range M, row n off q κ i * row n off' r l i = 0 := by
  refine Finset.sum_eq_zero fun i _ => ?_
  unfold row
  split_ifs with h1 h2
  · omega
  all_goals simp

/-- The transform of the noise in one window. -/
theorem proj_row {M n off : ℕ} (h : off + n ≤ M) (q : Bool) (κ : ℤ) (ω : Ω) :
    proj M (row n off q κ) w ω = ∑ j ∈ Finset.range n, rail n q κ j * w (off + j) ω := by
  unfold proj
  rw [Finset.sum_congr rfl (g := fun i => if off ≤ i ∧ i < off + n then rail n q κ (i - off) * w i ω else 0)
    (fun i _ => by unfold row; split_ifs <;> simp), sum_window h]
  simp

/-- The number of the carrier of symbol `i`, as the receiver counts the outputs of its transform. -/
def binOf (n p i : ℕ) : ℤ := (((carriers n p).getD (i % (n - p)) 0 + (n + 1) / 2 : ℕ) : ℤ)

/-- The first sample of the body of the frame of symbol `i`. -/
def bodyAt (n p i : ℕ) : ℕ := i / (n - p) * (n + n / 4) + n / 4

theorem carriers_getD {n p j : ℕ} (h1 : 1 ≤ p) (h2 : p ≤ n) (hj : j < n - p) :
    (carriers n p).getD j 0 = if j < n / 2 - p / 2 then p / 2 + j else p / 2 + j + 1 := by
  unfold carriers
  rw [List.getD, List.getElem?_append, List.length_range']
  split_ifs with h
  · rw [List.getElem?_range' h]; simp
  · rw [List.getElem?_range' (by omega)]; simp; omega

/-- A frame of the transmitter with real noise, as the receiver sees it. -/
theorem noisy_symbol {n p i : ℕ} (h1 : 1 ≤ p) (h2 : p < n) (he : n % 2 = 0) (l : List (Cx ℝ)) (hi : i < l.length) (v : ℕ → ℝ) :
    bodyAt n p i + n ≤ ((blocks (n - p) l).flatMap (frameL (F := ℝ) n p)).length ∧
    ((deframeAll n p (((blocks (n - p) l).flatMap (frameL (F := ℝ) n p)).mapIdx (fun i c => ⟨c.re + v i, c.im⟩))).getD i 0).toC
      = (l.getD i 0).toC + ∑ j ∈ Finset.range n, (v (bodyAt n p i + j) : ℂ) * unit n (-(j * binOf n p i)) := by
  have hK : 0 < n - p := by omega
  have hL : 0 < n + n / 4 := by omega
  set tx := (blocks (n - p) l).flatMap (frameL (F := ℝ) n p) with htx
  have hd : n + n / 4 ∣ tx.length := by
    rw [htx, length_flatMap_const (k := n + n / 4) _ _ (fun b _ => frameL_length n p b)]; exact ⟨_, Nat.mul_comm _ _⟩
  have hround : ∃ c, deframeAll n p tx = l ++ List.replicate c 0 := by
    obtain ⟨c, _, _, hc3⟩ := blocks_pad hK l (0 : Cx ℝ)
    refine ⟨c, ?_⟩
    rw [← hc3, deframeAll, htx, blocks_flatMap (by omega) _ _ (fun b _ => frameL_length n p b), List.flatMap_map]
    exact List.flatMap_congr fun d hd => deframe_frame_even h1 h2.le he d (mem_blocks_length hd)
  obtain ⟨c, hc⟩ := hround
  have hi2 : i < (n - p) * (tx.length / (n + n / 4)) := by
    rw [← deframeAll_length h1 h2.le tx hd, hc, List.length_append]; omega
  have hb := (deframeAll_getElem? h1 h2.le tx hd hi2).1
  have hml : (tx.mapIdx (fun i c => (⟨c.re + v i, c.im⟩ : Cx ℝ))).length = tx.length := List.length_mapIdx
  refine ⟨by unfold bodyAt; omega, ?_⟩
  rw [deframeAll_getD h1 h2.le _ (by rw [hml]; exact hd) (by rw [hml]; exact hi2)]
  have h0 := deframeAll_getD h1 h2.le tx hd hi2
  rw [hc, show (l ++ List.replicate c (0 : Cx ℝ)).getD i 0 = l.getD i 0 by
    rw [List.getD, List.getElem?_append_left hi, List.getD]] at h0
  rw [h0, ← Finset.sum_add_distrib]
  refine Finset.sum_congr rfl fun j hj => ?_
  have hj := Finset.mem_range.mp hj
  have e1 : i / (n - p) * (n + n / 4) + (n / 4 + j) = bodyAt n p i + j := by unfold bodyAt; omega
  have hlt : bodyAt n p i + j < tx.length := by unfold bodyAt; omega
  unfold binOf
  rw [e1, ← add_mul]
  congr 1
  rw [List.getD, List.getD, List.getElem?_mapIdx, List.getElem?_eq_getElem hlt]
  apply Complex.ext <;> simp [Cx.toC]

/-- Its two rails. -/
theorem noisy_rails {n p i : ℕ} (h1 : 1 ≤ p) (h2 : p < n) (he : n % 2 = 0) (l : List (Cx ℝ)) (hi : i < l.length) (w : ℕ → Ω → ℝ) (ω : Ω) :
    ((deframeAll n p (((blocks (n - p) l).flatMap (frameL (F := ℝ) n p)).mapIdx (fun i c => ⟨c.re + w i ω, c.im⟩))).getD i 0).re
      = (l.getD i 0).re + proj ((blocks (n - p) l).flatMap (frameL (F := ℝ) n p)).length (row n (bodyAt n p i) false (binOf n p i)) w ω ∧
    ((deframeAll n p (((blocks (n - p) l).flatMap (frameL (F := ℝ) n p)).mapIdx (fun i c => ⟨c.re + w i ω, c.im⟩))).getD i 0).im
      = (l.getD i 0).im + proj ((blocks (n - p) l).flatMap (frameL (F := ℝ) n p)).length (row n (bodyAt n p i) true (binOf n p i)) w ω := by
  obtain ⟨hM, h⟩ := noisy_symbol h1 h2 he l hi (fun i => w i ω)
  constructor
  · have := congrArg Complex.re h
    rw [Complex.add_re, Complex.re_sum] at this
    refine this.trans ?_
    rw [proj_row hM]
    congr 1
    refine Finset.sum_congr rfl fun j _ => ?_
    rw [Complex.re_ofReal_mul, rail, if_neg (by simp)]; ring
  · have := congrArg Complex.im h
    rw [Complex.add_im, Complex.im_sum] at this
    refine this.trans ?_
    rw [proj_row hM]
    congr 1
    refine Finset.sum_congr rfl fun j _ => ?_
    rw [Complex.im_ofReal_mul, rail, if_pos rfl]; ring

theorem bin_facts {n p i : ℕ} (h1 : 2 ≤ p) (h2 : p < n) (he : n % 2 = 0) :
    ∃ c : ℕ, binOf n p i = c + (n / 2 : ℕ) ∧ 1 ≤ c ∧ c < n ∧ c ≠ n / 2 ∧
      c = carrierOf n p i := by
  have hj : i % (n - p) < n - p := Nat.mod_lt _ (by omega)
  refine ⟨(carriers n p).getD (i % (n - p)) 0, ?_, ?_⟩
  · unfold binOf; rw [show (n + 1) / 2 = n / 2 by omega]; push_cast; ring
  · unfold carrierOf
    rw [carriers_getD (by omega) h2.le hj]
    split_ifs <;> refine ⟨?_, ?_, ?_, ?_⟩ <;> omega

theorem dvd_small {n : ℕ} {x : ℤ} (h : (n : ℤ) ∣ x) (h1 : -(n : ℤ) < x) (h2 : x < 2 * n) : x = 0 ∨ x = n := by
  obtain ⟨c, rfl⟩ := h
  rcases lt_trichotomy c 0 with h | h | h
  · nlinarith
  · left; rw [h]; ring
  · have : c = 1 := by nlinarith
    right; rw [this]; ring

/-- Every rail of every data carrier collects half the noise energy of the window. -/
theorem row_energy {n p i M : ℕ} (h1 : 2 ≤ p) (h2 : p < n) (he : n % 2 = 0) (hM : bodyAt n p i + n ≤ M) (q : Bool) :
    ∑ t ∈ Finset.range M, row n (bodyAt n p i) q (binOf n p i) t ^ 2 = (n : ℝ) / 2 := by
  simp only [sq]
  rw [row_ortho hM, rail_ortho (by omega), if_pos rfl, sub_self, if_pos (dvd_zero _)]
  obtain ⟨c, e, c1, c2, c3, -⟩ := bin_facts (i := i) h1 h2 he
  have : ¬ (n : ℤ) ∣ binOf n p i + binOf n p i := by
    rw [e]
    intro hdv
    have hdv' : (n : ℤ) ∣ 2 * c := by
      have : (c : ℤ) + (n / 2 : ℕ) + (c + (n / 2 : ℕ)) = 2 * c + n := by omega
      rw [this] at hdv
      exact (Int.dvd_add_left (dvd_refl _)).mp hdv
    have := dvd_small hdv' (by omega) (by omega)
    omega
  rw [if_neg this]; simp

/-- Rails of distinct symbols that are not mirrored, and the two rails of one symbol, are orthogonal. -/
theorem row_rails {n p i j M : ℕ} (h1 : 2 ≤ p) (h2 : p < n) (he : n % 2 = 0) (hM : bodyAt n p i + n ≤ M) (q r : Bool)
    (h : q ≠ r ∨ (i ≠ j ∧ ¬ mirrored n p i j)) :
    ∑ t ∈ Finset.range M, row n (bodyAt n p i) q (binOf n p i) t * row n (bodyAt n p j) r (binOf n p j) t = 0 := by
  have hK : 0 < n - p := by omega
  by_cases hf : i / (n - p) = j / (n - p)
  · have hb : bodyAt n p j = bodyAt n p i := by unfold bodyAt; rw [hf]
    rw [hb, row_ortho hM, rail_ortho (by omega)]
    by_cases hqr : q = r
    · rw [if_pos hqr]
      obtain ⟨c, e, c1, c2, c3, c4⟩ := bin_facts (i := i) h1 h2 he
      obtain ⟨d, e', d1, d2, d3, d4⟩ := bin_facts (i := j) h1 h2 he
      have hij := h.resolve_left (fun hh => hh hqr)
      have hi := Nat.div_add_mod i (n - p)
      have hj := Nat.div_add_mod j (n - p)
      have hmod : i % (n - p) ≠ j % (n - p) := fun hh => hij.1 (by rw [hf, hh] at hi; omega)
      have hli := Nat.mod_lt i hK
      have hlj := Nat.mod_lt j hK
      have hnm : ¬ (c + d = n) := fun hh => hij.2 ⟨hf, by rw [← c4, ← d4, hh]⟩
      unfold carrierOf at c4 d4
      rw [e, e']
      have A : ¬ (n : ℤ) ∣ (c : ℤ) + (n / 2 : ℕ) - (d + (n / 2 : ℕ)) := by
        intro hdv
        rw [add_sub_add_right_eq_sub] at hdv
        have := dvd_small hdv (by omega) (by omega)
        split_ifs at c4 d4 <;> omega
      have B : ¬ (n : ℤ) ∣ (c : ℤ) + (n / 2 : ℕ) + (d + (n / 2 : ℕ)) := by
        intro hdv
        rw [show (c : ℤ) + (n / 2 : ℕ) + (d + (n / 2 : ℕ)) = (c + d) + n by omega] at hdv
        have := dvd_small ((Int.dvd_add_left (dvd_refl _)).mp hdv) (by omega) (by omega)
        omega
      rw [if_neg A, if_neg B]; simp
    · rw [if_neg hqr]
  · refine row_disjoint ?_ ..
    unfold bodyAt
    rcases lt_or_gt_of_ne hf with hh | hh
    · left
      have := Nat.mul_le_mul_right (n + n / 4) (Nat.succ_le_of_lt hh)
      rw [Nat.succ_mul] at this; omega
    · right
      have := Nat.mul_le_mul_right (n + n / 4) (Nat.succ_le_of_lt hh)
      rw [Nat.succ_mul] at this; omega

/-- Mirrored carriers hear the same noise in the real part and the opposite noise in the imaginary part. -/
theorem row_mirrored {n p i j : ℕ} (h1 : 2 ≤ p) (h2 : p < n) (he : n % 2 = 0) (h : mirrored n p i j) (t : ℕ) :
    row n (bodyAt n p j) false (binOf n p j) t = row n (bodyAt n p i) false (binOf n p i) t ∧
    row n (bodyAt n p j) true (binOf n p j) t = -row n (bodyAt n p i) true (binOf n p i) t := by
  have hK : 0 < n - p := by omega
  have hb : bodyAt n p j = bodyAt n p i := by unfold bodyAt; rw [h.1]
  obtain ⟨c, e, c1, c2, c3, c4⟩ := bin_facts (i := i) h1 h2 he
  obtain ⟨d, e', d1, d2, d3, d4⟩ := bin_facts (i := j) h1 h2 he
  have hli := Nat.mod_lt i hK
  have hlj := Nat.mod_lt j hK
  have hcd : c + d = n := by rw [c4, d4]; exact h.2
  have hu : ∀ s : ℕ, unit n (-(s * binOf n p j)) = (starRingEnd ℂ) (unit n (-(s * binOf n p i))) := by
    intro s
    rw [conj_unit]
    refine unit_congr (by omega) ⟨-(2 * s), ?_⟩
    rw [e, e']
    have h3 : (d : ℤ) = n - c := by omega
    have h4 : ((n / 2 : ℕ) : ℤ) * 2 = n := by omega
    rw [h3]; linear_combination (-(s : ℤ)) * h4
  unfold row rail
  rw [hb]
  by_cases ht : bodyAt n p i ≤ t ∧ t < bodyAt n p i + n
  · simp only [if_pos ht, hu, if_true, Bool.false_eq_true, if_false, Complex.conj_re, Complex.conj_im, and_self]
  · simp only [if_neg ht, neg_zero, and_self]

/-! ### Decisions -/

theorem atPositions_length {js : List ℕ} {l : List Bool} (h : ∀ j ∈ js, j < l.length) : (atPositions js l).length = js.length := by
  unfold atPositions
  induction js with
  | nil => rfl
  | cons j js ih =>
    rw [List.filterMap_cons, List.getElem?_eq_getElem (h j (by simp))]
    simp only [List.length_cons]
    rw [ih fun i hi => h i (by simp [hi])]

theorem atPositions_getElem? {js : List ℕ} {l : List Bool} (h : ∀ j ∈ js, j < l.length) (t : ℕ) (ht : t < js.length) :
    (atPositions js l)[t]? = l[js[t]]? := by
  unfold atPositions
  induction js generalizing t with
  | nil => simp at ht
  | cons j js ih =>
    rw [List.filterMap_cons, List.getElem?_eq_getElem (h j (by simp))]
    cases t with
    | zero => simp only [List.getElem?_cons_zero, List.getElem_cons_zero]; rw [List.getElem?_eq_getElem (h j (by simp))]
    | succ t =>
      simp only [List.getElem?_cons_succ, List.getElem_cons_succ]
      exact ih (fun i hi => h i (by simp [hi])) t (by simpa using ht)

/-- Bits decided by rails of symbols: on positions that do not share their noise, a memoryless channel. -/
theorem rails_flips (hw : White P σ w) (hσ : 0 < σ) {n p M : ℕ} (h1 : 2 ≤ p) (h2 : p < n) (he : n % 2 = 0) {msg : List Bool}
    {out : Ω → List Bool} {sym : ℕ → ℕ} {rl : ℕ → Bool} {D : ℝ} (hD : 0 < D)
    (hM : ∀ j < msg.length, bodyAt n p (sym j) + n ≤ M)
    (hget : ∀ ω j (hj : j < msg.length), (out ω)[j]?
      = some (decide (0 ≤ (if msg[j] then 1 else -1) * D + proj M (row n (bodyAt n p (sym j)) (rl j) (binOf n p (sym j))) w ω)))
    {js : List ℕ} (hjs : ∀ j ∈ js, j < msg.length)
    (hpw : js.Pairwise (fun i j => rl i ≠ rl j ∨ (sym i ≠ sym j ∧ ¬ mirrored n p (sym i) (sym j)))) :
    Flips P (atPositions js msg) (fun ω => atPositions js (out ω)) (fun _ => bitError (D ^ 2 / (n / 2)) σ) := by
  have hlen : ∀ ω, ∀ j ∈ js, j < (out ω).length := fun ω j hj => by
    have := hget ω j (hjs j hj)
    by_contra hc
    rw [List.getElem?_eq_none (by omega)] at this
    cases this
  have hml := atPositions_length hjs
  have hn0 : (0 : ℝ) < n := by exact_mod_cast (by omega : 0 < n)
  refine flips_offset hw hσ (M := M) (fun t => row n (bodyAt n p (sym (js.getD t 0))) (rl (js.getD t 0)) (binOf n p (sym (js.getD t 0))))
    (by positivity) hD.le (fun ω => by rw [hml, atPositions_length (hlen ω)]) ?_ ?_ ?_ ?_
  · intro t ht
    rw [hml] at ht
    refine row_energy h1 h2 he (hM _ ?_) _
    rw [show js.getD t 0 = js[t] by simp [List.getD, ht]]; exact hjs _ (List.getElem_mem ht)
  · intro t ht u hu htu
    rw [hml] at ht hu
    have et : js.getD t 0 = js[t] := by simp [List.getD, ht]
    have eu : js.getD u 0 = js[u] := by simp [List.getD, hu]
    rw [et, eu]
    refine row_rails h1 h2 he (hM _ (hjs _ (List.getElem_mem ht))) _ _ ?_
    rw [List.pairwise_iff_getElem] at hpw
    rcases lt_or_gt_of_ne htu with hh | hh
    · exact hpw t u ht hu hh
    · rcases hpw u t hu ht hh with h3 | h3
      · exact .inl h3.symm
      · exact .inr ⟨h3.1.symm, fun hm => h3.2 ⟨hm.1.symm, by rw [Nat.add_comm]; exact hm.2⟩⟩
  all_goals
    intro ω t ht h0
    have ht' : t < js.length := by rw [hml] at ht; exact ht
    have et : js.getD t 0 = js[t] := by simp [List.getD, ht']
    have hj := hjs _ (List.getElem_mem ht')
    have em : (atPositions js msg)[t] = msg[js[t]] := by
      have := atPositions_getElem? hjs t ht'
      rw [List.getElem?_eq_getElem ht, List.getElem?_eq_getElem hj] at this
      exact Option.some.inj this
    rw [em, et] at h0
    rw [atPositions_getElem? (hlen ω) t ht', hget ω _ hj]
    congr 1
  · rw [decide_eq_true_iff]; exact h0.le
  · rw [decide_eq_false_iff_not]; exact not_le.mpr h0

/-- The noise of mirrored symbols. -/
theorem proj_mirrored {n p i j M : ℕ} (h1 : 2 ≤ p) (h2 : p < n) (he : n % 2 = 0) (h : mirrored n p i j) (ω : Ω) :
    proj M (row n (bodyAt n p j) false (binOf n p j)) w ω = proj M (row n (bodyAt n p i) false (binOf n p i)) w ω ∧
    proj M (row n (bodyAt n p j) true (binOf n p j)) w ω = -proj M (row n (bodyAt n p i) true (binOf n p i)) w ω := by
  unfold proj
  constructor
  · exact Finset.sum_congr rfl fun t _ => by rw [(row_mirrored h1 h2 he h t).1]
  · rw [← Finset.sum_neg_distrib]
    exact Finset.sum_congr rfl fun t _ => by rw [(row_mirrored h1 h2 he h t).2]; ring

end Verif
