import Verif.Lemmas.OfdmNoise
import Verif.Lemmas.OfdmRx
import Verif.Lemmas.Cdma
import Verif.Lemmas.Erfc

/-! # Real Gaussian noise behind the passband OFDM receiver -/
set_option linter.unusedSectionVars false
namespace Verif
open Spec MeasureTheory ProbabilityTheory
variable {Ω : Type} [MeasurableSpace Ω] {P : Measure Ω} {σ : ℝ} {w : ℕ → Ω → ℝ}

/-- Bits that are the signs of `±D n` plus orthogonal projections of equal length. -/
theorem flips_offsets (hw : White P σ w) (hσ : 0 < σ) {bits : Ω → List Bool} {msg : List Bool} {M : ℕ} (a : ℕ → ℕ → ℝ) {K : ℝ} (D : ℕ → ℝ)
    (hK : 0 < K) (hlen : ∀ ω, (bits ω).length = msg.length) (ha : ∀ n < msg.length, ∑ i ∈ Finset.range M, a n i ^ 2 = K)
    (ho : ∀ k < msg.length, ∀ l < msg.length, k ≠ l → ∑ i ∈ Finset.range M, a k i * a l i = 0)
    (hget : ∀ ω n (hn : n < msg.length), (bits ω)[n]? = some (decide (0 ≤ (if msg[n] then 1 else -1) * D n + proj M (a n) w ω))) :
    Flips P msg bits (fun n => Erfc (D n / √(2 * (σ ^ 2 * K))) / 2) := by
  let A : ℕ → ℝ := fun n => (if msg.getD n false then 1 else -1) * D n
  have hA : ∀ n (hn : n < msg.length), A n = (if msg[n] then 1 else -1) * D n := fun n hn => by
    simp [A, List.getD, hn]
  let s : ℕ → ℝ := fun i => ∑ n ∈ Finset.range msg.length, A n / K * a n i
  have hs : ∀ k < msg.length, ∑ i ∈ Finset.range M, a k i * s i = A k := by
    intro k hk
    simp only [s, Finset.mul_sum]
    rw [Finset.sum_comm, Finset.sum_eq_single k]
    · rw [Finset.sum_congr rfl (g := fun i => A k / K * a k i ^ 2) (fun i _ => by ring), ← Finset.mul_sum, ha k hk]
      field_simp
    · intro l hl hkl
      rw [Finset.sum_congr rfl (g := fun i => A l / K * (a k i * a l i)) (fun i _ => by ring), ← Finset.mul_sum,
        ho k hk l (Finset.mem_range.mp hl) (Ne.symm hkl), mul_zero]
    · intro h; exact absurd (Finset.mem_range.mpr hk) h
  have hS : Signs bits msg.length M a s w := by
    refine ⟨hlen, fun ω n hn h0 => ?_, fun ω n hn h0 => ?_⟩
    · rw [stat_eq, hs n hn, hA n hn] at h0
      rw [hget ω n hn, decide_eq_true h0.le]
    · rw [stat_eq, hs n hn, hA n hn] at h0
      rw [hget ω n hn, decide_eq_false (by linarith)]
  have := hS.flips hw hσ (fun n hn => by rw [ha n hn]; exact hK) ho D (fun n hn => by rw [hs n hn, hA n hn])
  refine ⟨this.length, this.event, fun e he => ?_⟩
  rw [this.pattern e he]
  refine Finset.prod_congr rfl fun n hn => ?_
  rw [ha n (Finset.mem_range.mp hn)]

/-! ### What the receiver multiplies every sample by -/

/-- The rails of bin `κ` behind the mixer: sample `m` is turned by `m·φ` and, in window `j`, by `j` steps of the bin. -/
noncomputable def prail (φ : ℝ) (n : ℕ) (q : Bool) (κ : ℤ) (j m : ℕ) : ℝ :=
  if q then Real.sin (2 * Real.pi * (-(j * κ) : ℤ) / n - m * φ) else Real.cos (2 * Real.pi * (-(j * κ) : ℤ) / n - m * φ)

theorem prail_unit (φ : ℝ) (n : ℕ) (κ : ℤ) (j m : ℕ) :
    (⟨Real.cos (m * φ), -Real.sin (m * φ)⟩ : ℂ) * unit n (-(j * κ)) = ⟨prail φ n false κ j m, prail φ n true κ j m⟩ := by
  have h1 : prail φ n true κ j m = Real.sin (2 * Real.pi * (-(j * κ) : ℤ) / n - m * φ) := if_pos rfl
  have h2 : prail φ n false κ j m = Real.cos (2 * Real.pi * (-(j * κ) : ℤ) / n - m * φ) := if_neg (by simp)
  rw [h1, h2]
  apply Complex.ext
  · rw [Complex.mul_re, unit_re, unit_im, Real.cos_sub]; ring
  · rw [Complex.mul_im, unit_re, unit_im, Real.sin_sub]; ring

theorem prail_abs (φ : ℝ) (n : ℕ) (q : Bool) (κ : ℤ) (j m : ℕ) : |prail φ n q κ j m| ≤ 1 := by
  unfold prail
  split_ifs
  · exact Real.abs_sin_le_one _
  · exact Real.abs_cos_le_one _

/-- One window of the product of two rails. -/
theorem prail_window {φ : ℝ} {k : ℕ} {c : ℤ} (hc : k * φ = c * (2 * Real.pi)) (hs : Real.sin φ ≠ 0) (n : ℕ) (q r : Bool) (κ l : ℤ)
    (j o : ℕ) :
    ∑ s ∈ Finset.range k, prail φ n q κ j (o + s) * prail φ n r l j (o + s)
      = k / 2 * (if q = r then Real.cos (2 * Real.pi * ((κ - l) * j : ℤ) / n)
          else (if q then -1 else 1) * Real.sin (2 * Real.pi * ((κ - l) * j : ℤ) / n)) := by
  set A := 2 * Real.pi * (-(j * κ) : ℤ) / n with hA
  set B := 2 * Real.pi * (-(j * l) : ℤ) / n with hB
  have hC := sum_cos_period (a := A + B - 2 * (o * φ)) (β := -(2 * φ)) (k := k) (p := -(2 * c)) (by push_cast; linear_combination -2 * hc)
    (by rw [neg_div, mul_div_cancel_left₀ _ two_ne_zero, Real.sin_neg]; simpa using hs)
  have hS := sum_sin_period (a := A + B - 2 * (o * φ)) (β := -(2 * φ)) (k := k) (p := -(2 * c)) (by push_cast; linear_combination -2 * hc)
    (by rw [neg_div, mul_div_cancel_left₀ _ two_ne_zero, Real.sin_neg]; simpa using hs)
  have hBA : 2 * Real.pi * ((κ - l) * j : ℤ) / n = B - A := by rw [hA, hB]; push_cast; ring
  rw [hBA]
  have arg : ∀ s : ℕ, A + B - 2 * (o * φ) + s * -(2 * φ) = (A - (o + s : ℕ) * φ) + (B - (o + s : ℕ) * φ) := by
    intro s; push_cast; ring
  have dif : ∀ s : ℕ, B - A = (B - (o + s : ℕ) * φ) - (A - (o + s : ℕ) * φ) := by intro s; ring
  simp only [arg] at hC hS
  have cc : ∀ s : ℕ, Real.cos (A - (o + s : ℕ) * φ) * Real.cos (B - (o + s : ℕ) * φ)
      = Real.cos (B - A) / 2 + Real.cos ((A - (o + s : ℕ) * φ) + (B - (o + s : ℕ) * φ)) / 2 := by
    intro s; rw [dif s]; generalize A - (o + s : ℕ) * φ = x; generalize B - (o + s : ℕ) * φ = y; rw [Real.cos_sub, Real.cos_add]; ring
  have ss : ∀ s : ℕ, Real.sin (A - (o + s : ℕ) * φ) * Real.sin (B - (o + s : ℕ) * φ)
      = Real.cos (B - A) / 2 - Real.cos ((A - (o + s : ℕ) * φ) + (B - (o + s : ℕ) * φ)) / 2 := by
    intro s; rw [dif s]; generalize A - (o + s : ℕ) * φ = x; generalize B - (o + s : ℕ) * φ = y; rw [Real.cos_sub, Real.cos_add]; ring
  have cs : ∀ s : ℕ, Real.cos (A - (o + s : ℕ) * φ) * Real.sin (B - (o + s : ℕ) * φ)
      = Real.sin (B - A) / 2 + Real.sin ((A - (o + s : ℕ) * φ) + (B - (o + s : ℕ) * φ)) / 2 := by
    intro s; rw [dif s]; generalize A - (o + s : ℕ) * φ = x; generalize B - (o + s : ℕ) * φ = y; rw [Real.sin_sub, Real.sin_add]; ring
  have sc : ∀ s : ℕ, Real.sin (A - (o + s : ℕ) * φ) * Real.cos (B - (o + s : ℕ) * φ)
      = -Real.sin (B - A) / 2 + Real.sin ((A - (o + s : ℕ) * φ) + (B - (o + s : ℕ) * φ)) / 2 := by
    intro s; rw [dif s]; generalize A - (o + s : ℕ) * φ = x; generalize B - (o + s : ℕ) * φ = y; rw [Real.sin_sub, Real.sin_add]; ring
  cases q <;> cases r <;>
    simp only [prail, ← hA, ← hB, if_true, if_false, Bool.false_eq_true, reduceCtorEq, cc, ss, cs, sc]
  · rw [Finset.sum_add_distrib, ← Finset.sum_div, ← Finset.sum_div, hC]; simp; ring
  · rw [Finset.sum_add_distrib, ← Finset.sum_div, ← Finset.sum_div, hS]; simp; ring
  · rw [Finset.sum_add_distrib, ← Finset.sum_div, ← Finset.sum_div, hS]; simp; ring
  · rw [Finset.sum_sub_distrib, ← Finset.sum_div, ← Finset.sum_div, hC]; simp; ring

/-- All windows of a frame. -/
theorem prail_ortho {φ : ℝ} {k n : ℕ} (hn : 0 < n) {c : ℤ} (hc : k * φ = c * (2 * Real.pi)) (hs : Real.sin φ ≠ 0) (q r : Bool) (κ l : ℤ)
    (o : ℕ) :
    ∑ j ∈ Finset.range n, ∑ s ∈ Finset.range k, prail φ n q κ j (o + j * k + s) * prail φ n r l j (o + j * k + s)
      = if q = r ∧ (n : ℤ) ∣ κ - l then (n * k / 2 : ℝ) else 0 := by
  simp only [prail_window hc hs]
  rw [← Finset.mul_sum]
  by_cases h : q = r
  · simp only [h, if_true, true_and]
    rw [sum_cos hn]
    split_ifs <;> ring
  · simp only [h, if_false, false_and]
    rw [← Finset.mul_sum, sum_sin hn]; ring

/-- A rail as a function of the sample: the windows begin at sample `off·k + 1`. -/
noncomputable def prow (φ : ℝ) (k n off : ℕ) (q : Bool) (κ : ℤ) (m : ℕ) : ℝ :=
  if off * k + 1 ≤ m ∧ m < off * k + 1 + n * k then prail φ n q κ ((m - (off * k + 1)) / k) m else 0

theorem prow_sq (φ : ℝ) (k n off : ℕ) (q : Bool) (κ : ℤ) (m : ℕ) : prow φ k n off q κ m ^ 2 ≤ 1 := by
  unfold prow
  split_ifs
  · rw [sq_le_one_iff_abs_le_one]; exact prail_abs _ _ _ _ _ _
  · norm_num

/-- A sum over the samples of the windows of a frame. -/
theorem sum_windows {k n off M : ℕ} (hk : 0 < k) (hM : off * k + 1 + n * k ≤ M) (f : ℕ → ℕ → ℝ) :
    ∑ m ∈ Finset.range M, (if off * k + 1 ≤ m ∧ m < off * k + 1 + n * k then f ((m - (off * k + 1)) / k) m else 0)
      = ∑ j ∈ Finset.range n, ∑ s ∈ Finset.range k, f j (off * k + 1 + j * k + s) := by
  rw [sum_window hM (fun m => f ((m - (off * k + 1)) / k) m), sum_range_mul']
  refine Finset.sum_congr rfl fun j _ => Finset.sum_congr rfl fun s hs => ?_
  have hs := Finset.mem_range.mp hs
  rw [Nat.add_sub_cancel_left, ← Nat.add_assoc]
  congr 1
  rw [Nat.mul_comm j k, Nat.mul_add_div hk, Nat.div_eq_of_lt hs, Nat.add_zero]

theorem prow_ortho {φ : ℝ} {k n off M : ℕ} (hk : 0 < k) (hn : 0 < n) {c : ℤ} (hc : k * φ = c * (2 * Real.pi)) (hs : Real.sin φ ≠ 0)
    (hM : off * k + 1 + n * k ≤ M) (q r : Bool) (κ l : ℤ) :
    ∑ m ∈ Finset.range M, prow φ k n off q κ m * prow φ k n off r l m = if q = r ∧ (n : ℤ) ∣ κ - l then (n * k / 2 : ℝ) else 0 := by
  rw [← prail_ortho hn hc hs q r κ l (off * k + 1), ← sum_windows hk hM (fun j m => prail φ n q κ j m * prail φ n r l j m)]
  refine Finset.sum_congr rfl fun m _ => ?_
  unfold prow
  split_ifs <;> simp

theorem prow_disjoint {φ : ℝ} {k n off off' M : ℕ} (h : off + n ≤ off' ∨ off' + n ≤ off) (q r : Bool) (κ l : ℤ) :
    ∑ m ∈ Finset.range M, prow φ k n off q κ m * prow φ k n off' r l m = 0 := by
  refine Finset.sum_eq_zero fun m _ => ?_
  have h' : off * k + n * k ≤ off' * k ∨ off' * k + n * k ≤ off * k := by
    rcases h with h | h
    · left; rw [← Nat.add_mul]; exact Nat.mul_le_mul_right k h
    · right; rw [← Nat.add_mul]; exact Nat.mul_le_mul_right k h
  unfold prow
  split_ifs with h1 h2
  · omega
  all_goals simp

/-! ### What the receiver makes of a recording -/

/-- One recovered sample: the sum over its window, turned back by the carrier. -/
theorem ofdmRxSamples_getD {fs k S : ℕ} {fc : ℝ} (hk : 2 ≤ k) (l : List ℝ) {t : ℕ} (ht : t < S) :
    ((ofdmRxSamples fs k fc S l).getD t 0).toC
      = ∑ s ∈ Finset.range k, ((l.getD (t * k + 1 + s) 0 : ℝ) : ℂ)
          * ⟨Real.cos ((t * k + 1 + s : ℕ) * dphi fs fc), -Real.sin ((t * k + 1 + s : ℕ) * dphi fs fc)⟩ := by
  have hlane : ∀ (j : ℕ) (hj : j < 2), (nonvDot (List.replicate k (1 : ℝ)) ((((ofdmMix fs fc l).drop (t * k + 1)).take k).reverse))[j]
      = ∑ s ∈ Finset.range k, ((ofdmMix fs fc l).map (fun v : Vector ℝ 2 => v[j])).getD (t * k + 1 + s) 0 := by
    intro j hj
    rw [nonvDot_lane, convDot_ones _ _ (by rw [List.length_map, List.length_reverse, List.length_take]; omega),
      List.map_reverse, List.sum_reverse, List.map_take, List.map_drop, sum_take_drop]
  have h0 : ∀ m, ((ofdmMix fs fc l).map (fun v : Vector ℝ 2 => v[0])).getD m 0 = l.getD m 0 * Real.cos (m * dphi fs fc) := by
    intro m
    unfold ofdmMix
    rw [List.getD, List.getElem?_map, List.getElem?_mapIdx, List.getD]
    cases l[m]? <;> simp [phase_real]
  have h1 : ∀ m, ((ofdmMix fs fc l).map (fun v : Vector ℝ 2 => v[1])).getD m 0 = l.getD m 0 * -Real.sin (m * dphi fs fc) := by
    intro m
    unfold ofdmMix
    rw [List.getD, List.getElem?_map, List.getElem?_mapIdx, List.getD]
    cases l[m]? <;> simp [phase_real]
  unfold ofdmRxSamples
  rw [if_neg (by omega), List.getD, List.getElem?_map, List.getElem?_range ht]
  simp only [Option.map_some, Option.getD_some, hlane 0 (by omega), hlane 1 (by omega), h0, h1]
  apply Complex.ext
  · rw [Complex.re_sum]
    simp only [Complex.re_ofReal_mul]
    rfl
  · rw [Complex.im_sum]
    simp only [Complex.im_ofReal_mul]
    rfl

/-- Two recordings at once. -/
theorem ofdmRxSamples_add {fs k S : ℕ} {fc : ℝ} (hk : 2 ≤ k) (l : List ℝ) (v : ℕ → ℝ) {t : ℕ} (ht : t < S) :
    ((ofdmRxSamples fs k fc S (l.mapIdx (fun i x => x + v i))).getD t 0).toC
      = ((ofdmRxSamples fs k fc S l).getD t 0).toC
        + ∑ s ∈ Finset.range k, ((if t * k + 1 + s < l.length then v (t * k + 1 + s) else 0 : ℝ) : ℂ)
          * ⟨Real.cos ((t * k + 1 + s : ℕ) * dphi fs fc), -Real.sin ((t * k + 1 + s : ℕ) * dphi fs fc)⟩ := by
  rw [ofdmRxSamples_getD hk _ ht, ofdmRxSamples_getD hk _ ht, ← Finset.sum_add_distrib]
  refine Finset.sum_congr rfl fun s _ => ?_
  rw [← add_mul, ← Complex.ofReal_add]
  congr 2
  rw [List.getD, List.getElem?_mapIdx, List.getD]
  split_ifs with h
  · rw [List.getElem?_eq_getElem h]; rfl
  · rw [List.getElem?_eq_none (by omega)]; simp

/-- The noise of a received symbol. -/
theorem pass_noise {n p k S i fs : ℕ} {fc : ℝ} (h1 : 1 ≤ p) (h2 : p < n) (hk : 2 ≤ k) (hS : n + n / 4 ∣ S)
    (hi : i < (n - p) * (S / (n + n / 4))) (l : List ℝ) (hl : l.length = S * k) (v : ℕ → ℝ) :
    bodyAt n p i + n ≤ S ∧
    ((deframeAll n p (ofdmRxSamples fs k fc S (l.mapIdx (fun i x => x + v i)))).getD i 0).toC
      = ((deframeAll n p (ofdmRxSamples fs k fc S l)).getD i 0).toC
        + ⟨∑ m ∈ Finset.range (S * k), prow (dphi fs fc) k n (bodyAt n p i) false (binOf n p i) m * v m,
           ∑ m ∈ Finset.range (S * k), prow (dphi fs fc) k n (bodyAt n p i) true (binOf n p i) m * v m⟩ := by
  have hlen : ∀ x : List ℝ, (ofdmRxSamples fs k fc S x).length = S := fun x => by rw [ofdmRxSamples_length, if_neg (by omega)]
  have hb := (deframeAll_getElem? h1 h2.le (ofdmRxSamples fs k fc S l) (by rw [hlen]; exact hS) (by rw [hlen]; exact hi)).1
  rw [hlen] at hb
  have hbody : bodyAt n p i + n ≤ S := by unfold bodyAt; omega
  refine ⟨hbody, ?_⟩
  rw [deframeAll_getD h1 h2.le _ (by rw [hlen]; exact hS) (by rw [hlen]; exact hi),
    deframeAll_getD h1 h2.le _ (by rw [hlen]; exact hS) (by rw [hlen]; exact hi)]
  have e1 : ∀ j, i / (n - p) * (n + n / 4) + (n / 4 + j) = bodyAt n p i + j := fun j => by unfold bodyAt; omega
  simp only [e1]
  change ∑ j ∈ Finset.range n, _ * unit n (-(j * binOf n p i)) = ∑ j ∈ Finset.range n, _ * unit n (-(j * binOf n p i)) + _
  have hsum : ∑ j ∈ Finset.range n, ((ofdmRxSamples fs k fc S (l.mapIdx (fun i x => x + v i))).getD (bodyAt n p i + j) 0).toC
        * unit n (-(j * binOf n p i))
      = ∑ j ∈ Finset.range n, ((ofdmRxSamples fs k fc S l).getD (bodyAt n p i + j) 0).toC * unit n (-(j * binOf n p i))
        + ∑ j ∈ Finset.range n, ∑ s ∈ Finset.range k,
          ((if bodyAt n p i * k + 1 + j * k + s < S * k then v (bodyAt n p i * k + 1 + j * k + s) else 0 : ℝ) : ℂ)
            * ⟨prail (dphi fs fc) n false (binOf n p i) j (bodyAt n p i * k + 1 + j * k + s),
               prail (dphi fs fc) n true (binOf n p i) j (bodyAt n p i * k + 1 + j * k + s)⟩ := by
    rw [← Finset.sum_add_distrib]
    refine Finset.sum_congr rfl fun j hj => ?_
    have hj := Finset.mem_range.mp hj
    rw [ofdmRxSamples_add hk l v (by omega), add_mul, Finset.sum_mul, hl]
    congr 1
    refine Finset.sum_congr rfl fun s _ => ?_
    rw [show (bodyAt n p i + j) * k + 1 + s = bodyAt n p i * k + 1 + j * k + s by ring, mul_assoc, prail_unit]
  refine hsum.trans ?_
  congr 1
  have key : ∀ q : Bool, ∑ j ∈ Finset.range n, ∑ s ∈ Finset.range k,
        (if bodyAt n p i * k + 1 + j * k + s < S * k then v (bodyAt n p i * k + 1 + j * k + s) else 0)
          * prail (dphi fs fc) n q (binOf n p i) j (bodyAt n p i * k + 1 + j * k + s)
      = ∑ m ∈ Finset.range (S * k), prow (dphi fs fc) k n (bodyAt n p i) q (binOf n p i) m * v m := by
    intro q
    have hM : bodyAt n p i * k + 1 + n * k ≤ S * k + 1 := by
      have := Nat.mul_le_mul_right k hbody
      rw [Nat.add_mul] at this; omega
    rw [← sum_windows (by omega : 0 < k) hM
      (fun j m => (if m < S * k then v m else 0) * prail (dphi fs fc) n q (binOf n p i) j m), Finset.sum_range_succ]
    have hlast : (if bodyAt n p i * k + 1 ≤ S * k ∧ S * k < bodyAt n p i * k + 1 + n * k then
        (if S * k < S * k then v (S * k) else 0) * prail (dphi fs fc) n q (binOf n p i) ((S * k - (bodyAt n p i * k + 1)) / k) (S * k)
        else 0) = 0 := by
      rw [if_neg (lt_irrefl (S * k)), zero_mul, ite_self]
    rw [hlast, add_zero]
    refine Finset.sum_congr rfl fun m hm => ?_
    rw [if_pos (Finset.mem_range.mp hm)]
    unfold prow
    split_ifs
    · ring
    · ring
  apply Complex.ext
  · rw [Complex.re_sum, ← key false]
    refine Finset.sum_congr rfl fun j _ => ?_
    rw [Complex.re_sum]
    exact Finset.sum_congr rfl fun s _ => Complex.re_ofReal_mul _ _
  · rw [Complex.im_sum, ← key true]
    refine Finset.sum_congr rfl fun j _ => ?_
    rw [Complex.im_sum]
    exact Finset.sum_congr rfl fun s _ => Complex.im_ofReal_mul _ _

/-- The symbols of an undisturbed transmission: half a symbol length times the transmitted point, up to an error of 8. -/
theorem pass_clean {n p k i : ℕ} (h1 : 1 ≤ p) (h2 : p < n) (he : n % 2 = 0) (msg : List Bool) (hi : i < (pairs msg).length) :
    ‖((deframeAll n p ((List.range (ofdmSamples (F := ℝ) n p msg).length).map (fun i =>
        gainStep k ((ofdmSamples n p msg).getD i 0) ((ofdmSamples n p msg).getD (i + 1) 0)))).getD i 0).toC
      - ((k / 2 : ℝ) : ℂ) * (qpskPoint (pairs msg)[i] : Cx ℝ).toC‖ ≤ 8 := by
  set L := n + n / 4 with hL
  have hL0 : 0 < L := by omega
  have hK : 0 < n - p := by omega
  set s := ofdmSamples (F := ℝ) n p msg with hs
  set bs := blocks (n - p) (pairs msg) with hbs
  have hs' : s = bs.flatMap (fun b => frameL n p (b.map qpskPoint)) := by
    rw [hs, ofdmSamples, blocks_map, ← hbs, List.flatMap_map]
  have hslen : s.length = bs.length * L := by rw [hs, ofdmSamples_length]
  have hsget : ∀ i, s[i]? = bs[i / L]?.bind (fun b => (frameL n p (b.map qpskPoint))[i % L]?) := by
    intro i
    rw [hs', getElem?_flatMap_const hL0 _ _ (fun b _ => frameL_length n p _)]
  have hnorm : ∀ b : List (Bool × Bool), ∀ z ∈ b.map (qpskPoint (F := ℝ)), ‖z.toC‖ ≤ 2 := by
    intro b z hz
    obtain ⟨y, _, rfl⟩ := List.mem_map.mp hz
    exact norm_qpskPoint y
  have hsnorm : ∀ i, ‖(s.getD i 0).toC‖ ≤ 2 := by
    intro i
    by_cases hi : i < s.length
    · have hmem : s.getD i 0 ∈ s := by simp [List.getD, hi]
      rw [hs', List.mem_flatMap] at hmem
      obtain ⟨b, _, hb⟩ := hmem
      rw [← hs'] at hb
      exact norm_frame_le _ (by norm_num) (hnorm b) _ hb
    · have : s.getD i 0 = 0 := by simp [List.getD, hi]
      rw [this, show (0 : Cx ℝ).toC = 0 from rfl]; simp
  -- the frame
  set f := i / (n - p) with hf
  have hbl : bs.length = ((pairs msg).length + (n - p) - 1) / (n - p) := by rw [hbs, blocks_length _ hK]
  have hfb : f < bs.length := by
    rw [hbl, hf, Nat.div_lt_iff_lt_mul hK]
    have := Nat.div_add_mod ((pairs msg).length + (n - p) - 1) (n - p)
    have := Nat.mod_lt ((pairs msg).length + (n - p) - 1) hK
    rw [Nat.mul_comm]; omega
  set b := bs[f] with hbdef
  have hb : bs[f]? = some b := List.getElem?_eq_getElem hfb
  have hbi : b[i % (n - p)]? = some (pairs msg)[i] := by
    have h3 := hb
    rw [hbs, blocks_getElem?' hK] at h3
    split_ifs at h3 with h4
    · have h5 := Option.some.inj h3
      rw [← h5, List.getElem?_take_of_lt (Nat.mod_lt _ hK), List.getElem?_drop, hf, Nat.mul_comm, Nat.div_add_mod,
        List.getElem?_eq_getElem hi]
  set r := (List.range s.length).map (fun i => gainStep k (s.getD i 0) (s.getD (i + 1) 0)) with hr
  have hrl : r.length = s.length := by simp [hr]
  have hd : L ∣ r.length := by rw [hrl, hslen]; exact ⟨_, Nat.mul_comm _ _⟩
  have hi2 : i < (n - p) * (r.length / L) := by
    rw [hrl, hslen, Nat.mul_div_cancel _ hL0, Nat.mul_comm, ← Nat.div_lt_iff_lt_mul hK]; exact hfb
  obtain ⟨h3, h4⟩ := deframeAll_getElem? h1 h2.le r hd hi2
  rw [List.getD, h4, ← List.getD]
  have hin : ∀ j, j < L → s.getD (f * L + j) 0 = (frameL n p (b.map qpskPoint)).getD j 0 := by
    intro j hj
    rw [List.getD, hsget, Nat.mul_comm, Nat.mul_add_div hL0, Nat.div_eq_of_lt hj, Nat.mul_add_mod,
      Nat.mod_eq_of_lt hj, Nat.add_zero, hb, List.getD]; rfl
  have hblock : (r.drop (i / (n - p) * L)).take L
      = (List.range L).map (fun j => gainStep k ((frameL n p (b.map qpskPoint)).getD j 0)
          (if j + 1 < L then (frameL n p (b.map qpskPoint)).getD (j + 1) 0 else s.getD ((f + 1) * L) 0)) := by
    have h3 : f * L + L ≤ r.length := h3
    rw [← hf]
    apply List.ext_getElem
    · rw [List.length_take, List.length_drop, Nat.min_eq_left (by omega)]; simp
    intro j hj1 hj2
    have hj : j < L := by simpa using hj2
    simp only [List.getElem_take, List.getElem_drop, hr, List.getElem_map, List.getElem_range]
    rw [hin j hj]
    split
    · next hlt => rw [Nat.add_assoc, hin _ hlt]
    · next hlt => rw [show f * L + j + 1 = (f + 1) * L by rw [Nat.add_mul]; omega]
  rw [hblock]
  have := deframe_near (k := k) h1 h2.le he (b.map (qpskPoint (F := ℝ))) (M := 2) (by norm_num) (hnorm b) (s.getD ((f + 1) * L) 0) (hsnorm _)
    (Nat.mod_lt i hK)
  rw [show (b.map (qpskPoint (F := ℝ))).getD (i % (n - p)) 0 = qpskPoint (pairs msg)[i] by
    rw [List.getD, List.getElem?_map, hbi]; rfl] at this
  refine this.trans (by norm_num)

theorem pairs_at (msg : List Bool) (j : ℕ) (hj : j < 2 * (msg.length / 2)) :
    ∃ q : Bool × Bool, (pairs msg)[j / 2]? = some q ∧ msg[j]? = some (if j % 2 = 1 then q.2 else q.1) := by
  fun_induction pairs msg generalizing j with
  | case1 a b t ih =>
    match j with
    | 0 => exact ⟨(a, b), rfl, rfl⟩
    | 1 => exact ⟨(a, b), rfl, rfl⟩
    | j + 2 =>
      obtain ⟨q, h1, h2⟩ := ih j (by simp only [List.length_cons] at hj; omega)
      refine ⟨q, ?_, ?_⟩
      · rw [show (j + 2) / 2 = j / 2 + 1 by omega, List.getElem?_cons_succ]; exact h1
      · rw [List.getElem?_cons_succ, List.getElem?_cons_succ, h2, show (j + 2) % 2 = j % 2 by omega]
  | case2 l hl =>
    match l, hl with
    | [], _ => simp at hj
    | [a], _ => simp at hj
    | a :: b :: t, h => exact absurd rfl (h a b t)

/-- The bits that the receiver makes of the transmission with `v` added. -/
noncomputable def passBits (fs k : ℕ) (fc : ℝ) (n p : ℕ) (msg : List Bool) (v : ℕ → ℝ) : List Bool :=
  (deframeAll n p (ofdmRxSamples fs k fc (ofdmSamples (F := ℝ) n p msg).length
    ((wave k (fun i (z : Cx ℝ) j => (z * Cx.exp ⟨0, phase fs fc (i * k + j)⟩).re) (ofdmSamples n p msg)).mapIdx (fun i x => x + v i)))).flatMap
      (fun z => [Flt.le 0 z.re, Flt.le 0 z.im])

theorem passBits_length {fs k : ℕ} {fc : ℝ} {n p : ℕ} (h1 : 1 ≤ p) (h2 : p < n) (hk : 2 ≤ k) (msg : List Bool) (v : ℕ → ℝ) :
    (passBits fs k fc n p msg v).length = 2 * (n - p) * ((msg.length / 2 + (n - p) - 1) / (n - p)) := by
  have hS : (ofdmSamples (F := ℝ) n p msg).length = (msg.length / 2 + (n - p) - 1) / (n - p) * (n + n / 4) := by
    rw [ofdmSamples_length, blocks_length _ (by omega), pairs_length]
  unfold passBits
  rw [length_flatMap_const (k := 2) _ _ (fun _ _ => rfl), deframeAll_length h1 h2.le _ (by
      rw [ofdmRxSamples_length, if_neg (by omega), hS]; exact ⟨_, Nat.mul_comm _ _⟩), ofdmRxSamples_length, if_neg (by omega), hS,
    Nat.mul_div_cancel _ (by omega)]
  ring

/-- Every bit is the sign of its clean value plus a projection of the noise. -/
theorem pass_bits {n p fs k : ℕ} {fc : ℝ} (h1 : 1 ≤ p) (h2 : p < n) (he : n % 2 = 0) (hk : 2 ≤ k) {c : ℤ}
    (hper : k * dphi fs fc = c * (2 * Real.pi)) (hs : Real.sin (dphi fs fc) ≠ 0) (msg : List Bool) :
    ∃ D : ℕ → ℝ, (∀ b < 2 * (msg.length / 2), |D b - k / 2 * √2| ≤ 8) ∧
      ∀ (v : ℕ → ℝ) (b : ℕ) (hb : b < msg.length), b < 2 * (msg.length / 2) →
        bodyAt n p (b / 2) + n ≤ (ofdmSamples (F := ℝ) n p msg).length ∧
        (passBits fs k fc n p msg v)[b]? = some (decide (0 ≤ (if msg[b] then 1 else -1) * D b
          + ∑ m ∈ Finset.range ((ofdmSamples (F := ℝ) n p msg).length * k),
              prow (dphi fs fc) k n (bodyAt n p (b / 2)) (decide (b % 2 = 1)) (binOf n p (b / 2)) m * v m)) := by
  set S := (ofdmSamples (F := ℝ) n p msg).length with hSdef
  have hK : 0 < n - p := by omega
  have hL : 0 < n + n / 4 := by omega
  have hS : S = (msg.length / 2 + (n - p) - 1) / (n - p) * (n + n / 4) := by
    rw [hSdef, ofdmSamples_length, blocks_length _ (by omega), pairs_length]
  have hSd : n + n / 4 ∣ S := ⟨_, by rw [hS, Nat.mul_comm]⟩
  set y := wave k (fun i (z : Cx ℝ) j => (z * Cx.exp ⟨0, phase fs fc (i * k + j)⟩).re) (ofdmSamples n p msg) with hy
  have hyl : y.length = S * k := wave_length _ _ _
  set cl : ℕ → Cx ℝ := fun i => (deframeAll n p (ofdmRxSamples fs k fc S y)).getD i 0 with hcl
  have hclean : ∀ i (hi : i < (pairs msg).length), ‖(cl i).toC - ((k / 2 : ℝ) : ℂ) * (qpskPoint (pairs msg)[i] : Cx ℝ).toC‖ ≤ 8 := by
    intro i hi
    rw [hcl, hy, hSdef]
    simp only []
    rw [ofdmRxSamples_real hk hper hs]
    exact pass_clean h1 h2 he msg hi
  refine ⟨fun b => (if msg.getD b false then 1 else -1) * (if b % 2 = 1 then (cl (b / 2)).im else (cl (b / 2)).re), ?_, ?_⟩
  · intro b hb
    obtain ⟨q, e1, e2⟩ := pairs_at msg b hb
    obtain ⟨hi, e1⟩ := List.getElem?_eq_some_iff.mp e1
    have hc := hclean _ hi
    rw [e1] at hc
    have hre := (Complex.abs_re_le_norm _).trans hc
    have him := (Complex.abs_im_le_norm _).trans hc
    simp only [Cx.toC, Complex.sub_re, Complex.sub_im, Complex.mul_re, Complex.mul_im, Complex.ofReal_re, Complex.ofReal_im,
      zero_mul, sub_zero, add_zero, qpskPoint, Flt.sqrt_real, Flt.ofNat_real, Nat.cast_ofNat] at hre him
    beta_reduce
    rw [List.getD_eq_getElem?_getD, e2, Option.getD_some]
    by_cases hb1 : b % 2 = 1
    · simp only [hb1, if_true]
      revert him
      cases q.2 <;> intro him <;> simp only [if_true, if_false, Bool.false_eq_true, mul_neg, sub_neg_eq_add, one_mul, neg_mul] at him ⊢
      · rw [abs_sub_comm, sub_neg_eq_add, add_comm]; exact him
      · exact him
    · simp only [hb1, if_false]
      revert hre
      cases q.1 <;> intro hre <;> simp only [if_true, if_false, Bool.false_eq_true, mul_neg, sub_neg_eq_add, one_mul, neg_mul] at hre ⊢
      · rw [abs_sub_comm, sub_neg_eq_add, add_comm]; exact hre
      · exact hre
  · intro v b hb hb2
    have hi : b / 2 < (n - p) * (S / (n + n / 4)) := by
      rw [hS, Nat.mul_div_cancel _ hL]
      have := Nat.div_add_mod (msg.length / 2 + (n - p) - 1) (n - p)
      have := Nat.mod_lt (msg.length / 2 + (n - p) - 1) hK
      omega
    obtain ⟨hbody, hval⟩ := pass_noise (fs := fs) (fc := fc) h1 h2 hk hSd hi y hyl v
    refine ⟨hbody, ?_⟩
    have hlen : b / 2 < (deframeAll n p (ofdmRxSamples fs k fc S (y.mapIdx (fun i x => x + v i)))).length := by
      rw [deframeAll_length h1 h2.le _ (by rw [ofdmRxSamples_length, if_neg (by omega)]; exact hSd), ofdmRxSamples_length, if_neg (by omega)]
      exact hi
    unfold passBits
    rw [← hSdef, ← hy, getElem?_flatMap_const (by norm_num : 0 < 2) _ _ (fun _ _ => rfl), List.getElem?_eq_getElem hlen, Option.bind_some]
    rw [List.getD, List.getElem?_eq_getElem hlen, Option.getD_some] at hval
    generalize (deframeAll n p (ofdmRxSamples fs k fc S (y.mapIdx (fun i x => x + v i))))[b / 2] = z at hval ⊢
    have hre := congrArg Complex.re hval
    have him := congrArg Complex.im hval
    rw [Complex.add_re] at hre
    rw [Complex.add_im] at him
    have hre : z.re = (cl (b / 2)).re + _ := hre
    have him : z.im = (cl (b / 2)).im + _ := him
    have hsgn : ∀ x : ℝ, (if msg[b] then (1 : ℝ) else -1) * ((if msg.getD b false then 1 else -1) * x) = x := by
      intro x
      rw [List.getD, List.getElem?_eq_getElem hb, Option.getD_some]
      cases msg[b] <;> simp
    rw [hsgn]
    rcases Nat.mod_two_eq_zero_or_one b with h0 | h0
    · rw [h0]
      simp only [List.getElem?_cons_zero, Flt.le_real, hre]
      simp
    · rw [h0]
      simp only [List.getElem?_cons_succ, List.getElem?_cons_zero, Flt.le_real, him]
      simp

/-! ### Bits against each other -/

theorem binOf_dvd {n p i i' : ℕ} (h1 : 1 ≤ p) (h2 : p < n) (h : (n : ℤ) ∣ binOf n p i - binOf n p i') : i % (n - p) = i' % (n - p) := by
  have hK : 0 < n - p := by omega
  have hl := carriers_length h1 h2.le
  have e : ∀ i, ∃ h : i % (n - p) < (carriers n p).length, binOf n p i = (((carriers n p)[i % (n - p)] + (n + 1) / 2 : ℕ) : ℤ) ∧
      (carriers n p)[i % (n - p)] < n := by
    intro i
    have hi : i % (n - p) < (carriers n p).length := by rw [hl]; exact Nat.mod_lt _ hK
    refine ⟨hi, ?_, carriers_lt h1 h2.le _ (List.getElem_mem hi)⟩
    unfold binOf
    rw [List.getD, List.getElem?_eq_getElem hi]; rfl
  obtain ⟨a1, a2, a3⟩ := e i
  obtain ⟨b1, b2, b3⟩ := e i'
  rw [a2, b2] at h
  have h3 : (carriers n p)[i % (n - p)] = (carriers n p)[i' % (n - p)] := by
    generalize (carriers n p)[i % (n - p)] = x at *
    generalize (carriers n p)[i' % (n - p)] = y at *
    push_cast at h
    have : ((x : ℤ) + (n + 1) / 2 - (y + (n + 1) / 2)) = 0 := Int.eq_zero_of_abs_lt_dvd h (by rw [abs_lt]; omega)
    omega
  exact (List.Nodup.getElem_inj_iff (carriers_nodup n p)).mp h3

/-- The coefficients of a bit. -/
noncomputable def brow (φ : ℝ) (k n p b : ℕ) : ℕ → ℝ := prow φ k n (bodyAt n p (b / 2)) (decide (b % 2 = 1)) (binOf n p (b / 2))

theorem brow_energy {φ : ℝ} {k n p b M : ℕ} (h2 : p < n) (hk : 0 < k) {c : ℤ} (hc : k * φ = c * (2 * Real.pi))
    (hs : Real.sin φ ≠ 0) (hM : bodyAt n p (b / 2) * k + 1 + n * k ≤ M) : ∑ m ∈ Finset.range M, brow φ k n p b m ^ 2 = n * k / 2 := by
  simp only [sq, brow]
  rw [prow_ortho hk (by omega) hc hs hM, if_pos ⟨rfl, by simp⟩]

/-- The last bit of the last frame lacks one sample. -/
theorem brow_energy_near {φ : ℝ} {k n p b S : ℕ} (h2 : p < n) (hk : 0 < k) {c : ℤ} (hc : k * φ = c * (2 * Real.pi))
    (hs : Real.sin φ ≠ 0) (hS : bodyAt n p (b / 2) + n ≤ S) :
    (n * k / 2 : ℝ) - 1 ≤ ∑ m ∈ Finset.range (S * k), brow φ k n p b m ^ 2 ∧
      ∑ m ∈ Finset.range (S * k), brow φ k n p b m ^ 2 ≤ n * k / 2 := by
  have hM : bodyAt n p (b / 2) * k + 1 + n * k ≤ S * k + 1 := by
    have := Nat.mul_le_mul_right k hS
    rw [Nat.add_mul] at this; omega
  have h := brow_energy h2 hk hc hs hM
  rw [Finset.sum_range_succ] at h
  have h3 : brow φ k n p b (S * k) ^ 2 ≤ 1 := prow_sq _ _ _ _ _ _ _
  have h4 := sq_nonneg (brow φ k n p b (S * k))
  constructor <;> linarith

theorem brow_ortho {φ : ℝ} {k n p b b' M : ℕ} (h1 : 1 ≤ p) (h2 : p < n) (hk : 0 < k) {c : ℤ} (hc : k * φ = c * (2 * Real.pi))
    (hs : Real.sin φ ≠ 0) (hM : bodyAt n p (b / 2) * k + 1 + n * k ≤ M) (hb : b ≠ b') :
    ∑ m ∈ Finset.range M, brow φ k n p b m * brow φ k n p b' m = 0 := by
  have hK : 0 < n - p := by omega
  unfold brow
  by_cases hf : b / 2 / (n - p) = b' / 2 / (n - p)
  · have hbo : bodyAt n p (b' / 2) = bodyAt n p (b / 2) := by unfold bodyAt; rw [hf]
    rw [hbo, prow_ortho hk (by omega) hc hs hM, if_neg]
    rintro ⟨hq, hd⟩
    have := binOf_dvd h1 h2 hd
    have e1 := Nat.div_add_mod (b / 2) (n - p)
    have e2 := Nat.div_add_mod (b' / 2) (n - p)
    rw [hf, this, e2] at e1
    rw [decide_eq_decide] at hq
    omega
  · apply prow_disjoint
    unfold bodyAt
    rcases Nat.lt_or_gt_of_ne hf with h | h
    · left
      have := Nat.mul_le_mul_right (n + n / 4) (Nat.succ_le_of_lt h)
      rw [Nat.succ_mul] at this; omega
    · right
      have := Nat.mul_le_mul_right (n + n / 4) (Nat.succ_le_of_lt h)
      rw [Nat.succ_mul] at this; omega

/-- The error probability of a bit whose clean value and whose share of the noise are known roughly. -/
theorem error_between {σ lo hi D K K1 K0 : ℝ} (hσ : 0 < σ) (h0 : 0 ≤ lo) (h1 : lo ≤ D) (h2 : D ≤ hi) (hK1 : 0 < K1) (hK : K1 ≤ K)
    (hK0 : K ≤ K0) :
    bitError (hi ^ 2 / K1) σ ≤ Erfc (D / √(2 * (σ ^ 2 * K))) / 2 ∧ Erfc (D / √(2 * (σ ^ 2 * K))) / 2 ≤ bitError (lo ^ 2 / K0) σ := by
  have e : ∀ x L : ℝ, 0 ≤ x → √(x ^ 2 / L / (2 * σ ^ 2)) = x / √(2 * (σ ^ 2 * L)) := by
    intro x L hx
    rw [div_div, Real.sqrt_div (sq_nonneg x), Real.sqrt_sq hx]
    congr 2; ring
  have hs : 0 < σ ^ 2 := by positivity
  have hKp : 0 < K := by linarith
  unfold bitError
  rw [e hi K1 (by linarith), e lo K0 h0]
  constructor
  · refine div_le_div_of_nonneg_right (Erfc_strictAnti.antitone ?_) (by norm_num)
    refine div_le_div₀ (by linarith) h2 (Real.sqrt_pos.mpr (by positivity)) (Real.sqrt_le_sqrt ?_)
    have := mul_le_mul_of_nonneg_left hK hs.le
    linarith
  · refine div_le_div_of_nonneg_right (Erfc_strictAnti.antitone ?_) (by norm_num)
    refine div_le_div₀ (by linarith) h1 (Real.sqrt_pos.mpr (by positivity)) (Real.sqrt_le_sqrt ?_)
    have := mul_le_mul_of_nonneg_left hK0 hs.le
    linarith

end Verif
