import Verif.Lemmas.Users
import Verif.Spec.Fading

/-! # Quadrature carriers with slowly changing amplitudes -/
namespace Verif
open Spec
variable {κ : Type}

theorem recording_wave {r : List ℝ} {n k : ℕ} {s : ℕ → ℕ → ℝ} (hk : 0 < k) (h : Recording r n k s) :
    r = wave k (fun m (_ : ℕ) j => s m (m * k + j)) (List.range n) := by
  apply List.ext_getElem?
  intro i
  rw [wave_getElem? hk]
  by_cases hi : i < n * k
  · have hin : i / k < n := by rw [Nat.div_lt_iff_lt_mul hk]; exact hi
    rw [h.2 i hi, List.getElem?_range hin]
    simp only [Option.map_some]
    rw [Nat.mul_comm, Nat.div_add_mod]
  · rw [List.getElem?_eq_none (by rw [h.1]; omega), List.getElem?_eq_none]
    · rfl
    · rw [List.length_range, Nat.le_div_iff_mul_le hk]; omega

theorem angle_dphi (fs : ℕ) (f : ℝ) (i : ℕ) : angle fs f i = i * dphi fs f := by
  unfold angle dphi; ring

theorem quad_corr {k : ℕ} {d : ℝ} {p : ℤ} (hp : k * d = p * Real.pi) (hs : Real.sin d ≠ 0) (X Y : ℝ) (m : ℕ) :
    ∑ j ∈ Finset.range k, (X * Real.cos ((m + j : ℕ) * d) - Y * Real.sin ((m + j : ℕ) * d)) * Real.cos ((m + j : ℕ) * d) = k / 2 * X ∧
    ∑ j ∈ Finset.range k, (X * Real.cos ((m + j : ℕ) * d) - Y * Real.sin ((m + j : ℕ) * d)) * -Real.sin ((m + j : ℕ) * d) = k / 2 * Y := by
  have e1 := sum_cos_sq_half hp hs m
  have e2 := sum_sin_sq_half hp hs m
  have e3 := sum_cos_sin_half hp hs m
  constructor
  · have : ∀ t ∈ Finset.range k, (X * Real.cos ((m + t : ℕ) * d) - Y * Real.sin ((m + t : ℕ) * d)) * Real.cos ((m + t : ℕ) * d)
        = X * Real.cos ((m + t : ℕ) * d) ^ 2 - Y * (Real.cos ((m + t : ℕ) * d) * Real.sin ((m + t : ℕ) * d)) := by
      intro t _; ring
    rw [Finset.sum_congr rfl this, Finset.sum_sub_distrib, ← Finset.mul_sum, ← Finset.mul_sum, e1, e3]
    ring
  · have : ∀ t ∈ Finset.range k, (X * Real.cos ((m + t : ℕ) * d) - Y * Real.sin ((m + t : ℕ) * d)) * -Real.sin ((m + t : ℕ) * d)
        = Y * Real.sin ((m + t : ℕ) * d) ^ 2 - X * (Real.cos ((m + t : ℕ) * d) * Real.sin ((m + t : ℕ) * d)) := by
      intro t _; ring
    rw [Finset.sum_congr rfl this, Finset.sum_sub_distrib, ← Finset.mul_sum, ← Finset.mul_sum, e2, e3]
    ring

theorem rx_quad [RIter κ ℝ] {fs sym N : ℕ} {fc : ℝ} (hsps : 0 < fs / sym) {p : ℤ}
    (hp : ((fs / sym : ℕ) : ℝ) * dphi fs fc = p * Real.pi) (hs : Real.sin (dphi fs fc) ≠ 0) {X Y : ℕ → ℝ} {r : List ℝ}
    (h : Recording r N (fs / sym) (fun n i => X n * Real.cos (angle fs fc i) - Y n * Real.sin (angle fs fc i)))
    {rcv : κ} (hr : Yields rcv r) :
    (do let rx ← rxBpsk rcv fs sym fc; collect rx) = pure ((List.range N).map (fun n => decide (0 < X n))) ∧
    (do let rx ← rxQpsk rcv fs sym fc; collect rx)
      = pure ((List.range N).flatMap (fun n => [decide (0 ≤ X n), decide (0 ≤ Y n)])) := by
  have hr' := hr.of_eq (recording_wave hsps h)
  have hhalf : (0 : ℝ) < ((fs / sym : ℕ) : ℝ) / 2 := by
    have : (0 : ℝ) < ((fs / sym : ℕ) : ℝ) := by exact_mod_cast hsps
    linarith
  constructor
  · obtain ⟨it, e1, e2⟩ := rxBpsk_wave (fc := fc) hsps hr'
    rw [e1, pure_bind, collect_of_yields e2, ← mapIdx_range_self]
    congr 1
    apply mapIdx_congr'
    intro n a _
    rw [rsum_range, Flt.lt_real]
    simp only [phase_real, Flt.cos_real, angle_dphi]
    rw [(quad_corr hp hs (X n) (Y n) (n * (fs / sym))).1]
    simp only [mul_pos_iff_of_pos_left hhalf]
  · obtain ⟨it, e1, e2⟩ := rxQpsk_wave (fc := fc) hsps hr'
    rw [e1, pure_bind, collect_of_yields e2, List.flatMap_def, ← mapIdx_range_self]
    congr 2
    apply mapIdx_congr'
    intro n a _
    rw [rsum_range, rsum_range, Flt.le_real, Flt.le_real]
    simp only [phase_real, Flt.cos_real, Flt.sin_real, angle_dphi]
    rw [(quad_corr hp hs (X n) (Y n) (n * (fs / sym))).1, (quad_corr hp hs (X n) (Y n) (n * (fs / sym))).2]
    simp only [mul_nonneg_iff_of_pos_left hhalf]

/-- With a key: the chips of the recording and of the receiver cancel. -/
theorem rx_quad_key [RIter κ ℝ] {fs sym N : ℕ} {fc : ℝ} {key : List Bool} (hok : CdmaOk fs sym fc key.length) {p : ℤ}
    (hp : ((fs / sym : ℕ) : ℝ) * dphi fs fc = p * Real.pi) (hs : Real.sin (dphi fs fc) ≠ 0) {X Y : ℕ → ℝ} {r : List ℝ}
    (h : Recording r N (fs / sym) (fun n i => (X n * Real.cos (angle fs fc i) - Y n * Real.sin (angle fs fc i))
      * (if key.getD (i / (fs / sym / key.length) % key.length) false then 1 else -1)))
    {rcv : κ} (hr : Yields rcv r) :
    (do let rx ← rxCdmaBpsk rcv fs sym fc key; collect rx) = pure ((List.range N).map (fun n => decide (0 < X n))) ∧
    (do let rx ← rxCdmaQpsk rcv fs sym fc key; collect rx)
      = pure ((List.range N).flatMap (fun n => [decide (0 ≤ X n), decide (0 ≤ Y n)])) := by
  have h1 := hok.sps
  have h2 := hok.spc
  have hL := hok.key_pos
  have hsps : 0 < fs / sym := by omega
  have hspc : 0 < fs / sym / key.length := by omega
  have hrcv := hr.spread (key := key) hL hspc
  have h' : Recording (r.mapIdx (fun i x => x * bitToNrz (keyBit key (fs / sym / key.length) i))) N (fs / sym)
      (fun n i => X n * Real.cos (angle fs fc i) - Y n * Real.sin (angle fs fc i)) := by
    refine ⟨by rw [List.length_mapIdx, h.1], ?_⟩
    intro i hi
    rw [List.getElem?_mapIdx, h.2 i hi, Option.map_some, Option.some.injEq]
    beta_reduce
    rw [show (if key.getD (i / (fs / sym / key.length) % key.length) false then (1 : ℝ) else -1)
      = bitToNrz (keyBit key (fs / sym / key.length) i) by rw [bitToNrz_real]; rfl, mul_assoc, bitToNrz_sq, mul_one]
  have := rx_quad hsps hp hs h' hrcv
  constructor
  · rw [rxCdmaBpsk, hok.guards, pure_bind]; exact this.1
  · rw [rxCdmaQpsk, hok.guards, pure_bind]; exact this.2

/-- A tone of any phase at its own frequency. -/
theorem toneEnergy_self' {w : ℝ} {k : ℕ} {p : ℤ} (h : k * w = p * Real.pi) (hs : Real.sin w ≠ 0) (g α : ℝ) (m : ℕ) :
    toneEnergy w k (fun j => g * Real.cos (w * (m + j : ℕ) + α)) = (g * (k / 2)) ^ 2 := by
  rw [← toneEnergy_shift w (w * m)]
  have e1 := sum_cos_sq_half h hs m
  have e2 := sum_cos_sin_half h hs m
  have e3 := sum_sin_sq_half h hs m
  have hj : ∀ j : ℕ, w * m + w * j = (m + j : ℕ) * w := by intro j; push_cast; ring
  have hj' : ∀ j : ℕ, w * (m + j : ℕ) = (m + j : ℕ) * w := by intro j; ring
  simp only [hj, hj', Real.cos_add]
  have a1 : ∑ j ∈ Finset.range k, g * (Real.cos ((m + j : ℕ) * w) * Real.cos α - Real.sin ((m + j : ℕ) * w) * Real.sin α)
      * Real.cos ((m + j : ℕ) * w) = g * (k / 2) * Real.cos α := by
    have : ∀ j ∈ Finset.range k, g * (Real.cos ((m + j : ℕ) * w) * Real.cos α - Real.sin ((m + j : ℕ) * w) * Real.sin α)
        * Real.cos ((m + j : ℕ) * w) = g * Real.cos α * Real.cos ((m + j : ℕ) * w) ^ 2
          - g * Real.sin α * (Real.cos ((m + j : ℕ) * w) * Real.sin ((m + j : ℕ) * w)) := by intro j _; ring
    rw [Finset.sum_congr rfl this, Finset.sum_sub_distrib, ← Finset.mul_sum, ← Finset.mul_sum, e1, e2]
    ring
  have a2 : ∑ j ∈ Finset.range k, g * (Real.cos ((m + j : ℕ) * w) * Real.cos α - Real.sin ((m + j : ℕ) * w) * Real.sin α)
      * Real.sin ((m + j : ℕ) * w) = -(g * (k / 2) * Real.sin α) := by
    have : ∀ j ∈ Finset.range k, g * (Real.cos ((m + j : ℕ) * w) * Real.cos α - Real.sin ((m + j : ℕ) * w) * Real.sin α)
        * Real.sin ((m + j : ℕ) * w) = g * Real.cos α * (Real.cos ((m + j : ℕ) * w) * Real.sin ((m + j : ℕ) * w))
          - g * Real.sin α * Real.sin ((m + j : ℕ) * w) ^ 2 := by intro j _; ring
    rw [Finset.sum_congr rfl this, Finset.sum_sub_distrib, ← Finset.mul_sum, ← Finset.mul_sum, e3, e2]
    ring
  rw [a1, a2]
  linear_combination (g * (k / 2)) ^ 2 * Real.sin_sq_add_cos_sq α

/-- A tone of any phase at an orthogonal frequency. -/
theorem toneEnergy_other' {w v : ℝ} {k : ℕ} {p q : ℤ} (h1 : k * (v + w) = p * (2 * Real.pi))
    (h2 : k * (v - w) = q * (2 * Real.pi)) (s1 : Real.sin ((v + w) / 2) ≠ 0) (s2 : Real.sin ((v - w) / 2) ≠ 0)
    (g α : ℝ) (m : ℕ) :
    toneEnergy w k (fun j => g * Real.cos (v * (m + j : ℕ) + α)) = 0 := by
  have a1 := sum_cos_period (a := v * m + α) h1 s1
  have a2 := sum_cos_period (a := v * m + α) h2 s2
  have b1 := sum_sin_period (a := v * m + α) h1 s1
  have b2 := sum_sin_period (a := v * m + α) h2 s2
  have c1 : ∑ j ∈ Finset.range k, g * Real.cos (v * (m + j : ℕ) + α) * Real.cos (w * j) = 0 := by
    have : ∀ j : ℕ, g * Real.cos (v * (m + j : ℕ) + α) * Real.cos (w * j)
        = g / 2 * (Real.cos (v * m + α + j * (v + w)) + Real.cos (v * m + α + j * (v - w))) := by
      intro j
      rw [show v * (m : ℝ) + α + j * (v + w) = (v * (m + j : ℕ) + α) + w * j by push_cast; ring,
        show v * (m : ℝ) + α + j * (v - w) = (v * (m + j : ℕ) + α) - w * j by push_cast; ring,
        Real.cos_add (v * (m + j : ℕ) + α), Real.cos_sub (v * (m + j : ℕ) + α)]
      ring
    simp only [this]
    rw [← Finset.mul_sum, Finset.sum_add_distrib, a1, a2]; simp
  have c2 : ∑ j ∈ Finset.range k, g * Real.cos (v * (m + j : ℕ) + α) * Real.sin (w * j) = 0 := by
    have : ∀ j : ℕ, g * Real.cos (v * (m + j : ℕ) + α) * Real.sin (w * j)
        = g / 2 * (Real.sin (v * m + α + j * (v + w)) - Real.sin (v * m + α + j * (v - w))) := by
      intro j
      rw [show v * (m : ℝ) + α + j * (v + w) = (v * (m + j : ℕ) + α) + w * j by push_cast; ring,
        show v * (m : ℝ) + α + j * (v - w) = (v * (m + j : ℕ) + α) - w * j by push_cast; ring,
        Real.sin_add (v * (m + j : ℕ) + α), Real.sin_sub (v * (m + j : ℕ) + α)]
      ring
    simp only [this]
    rw [← Finset.mul_sum, Finset.sum_sub_distrib, b1, b2]; simp
  rw [toneEnergy, c1, c2]; simp

end Verif
