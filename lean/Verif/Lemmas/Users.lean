import Verif.Lemmas.Energy
import Verif.Lemmas.Symbols

/-! # Several spread signals of different strength on one channel -/
namespace Verif
open Spec

/-- A correlation over one symbol, chip by chip: `s c` is the sign of chip `c`. -/
theorem chips_sum {L spc : ℕ} {f : ℕ → ℝ} {s : ℕ → ℝ} {S : ℝ} (hS : ∀ c, ∑ t ∈ Finset.range spc, f (c * spc + t) = S) {g : ℕ → ℝ}
    (hg : ∀ c < L, ∀ t < spc, g (c * spc + t) = f (c * spc + t) * s c) :
    ∑ j ∈ Finset.range (L * spc), g j = S * ∑ c ∈ Finset.range L, s c := by
  rw [sum_range_mul', Finset.mul_sum]
  apply Finset.sum_congr rfl
  intro c hc
  rw [← hS c, Finset.sum_mul]
  apply Finset.sum_congr rfl
  intro t ht
  exact hg c (by simpa using hc) t (by simpa using ht)

/-- One spread quadrature signal: amplitudes `X n`, `Y n` during symbol `n`, key, strength. -/
structure Lane where
  gain : ℝ
  key : List Bool
  X : ℕ → ℝ
  Y : ℕ → ℝ

/-- Sample `i` of the sum of all signals. -/
noncomputable def lanesAt (us : List Lane) (sps spc : ℕ) (d : ℝ) (i : ℕ) : ℝ :=
  (us.map (fun u => u.gain * ((u.X (i / sps) * Real.cos (i * d) - u.Y (i / sps) * Real.sin (i * d))
    * bitToNrz (keyBit u.key spc i)))).sum

/-- What a key collects from all signals. -/
noncomputable def collected (us : List Lane) (L : ℕ) (key : List Bool) (A : Lane → ℝ) : ℝ :=
  (us.map (fun u => u.gain * A u * (2 * (agreements u.key key : ℝ) - L))).sum

theorem lanes_corr {us : List Lane} {L spc sps : ℕ} {d : ℝ} (hL : 0 < L) (hsp : sps = L * spc) {p : ℤ}
    (hp : spc * d = p * Real.pi) (hs : Real.sin d ≠ 0) (hkey : ∀ u ∈ us, u.key.length = L) {key : List Bool}
    (hk : key.length = L) (hspc : 0 < spc) (n : ℕ) :
    (∑ j ∈ Finset.range sps, lanesAt us sps spc d (n * sps + j) * bitToNrz (keyBit key spc (n * sps + j))
        * Real.cos ((n * sps + j : ℕ) * d) = spc / 2 * collected us L key (fun u => u.X n)) ∧
    (∑ j ∈ Finset.range sps, lanesAt us sps spc d (n * sps + j) * bitToNrz (keyBit key spc (n * sps + j))
        * -Real.sin ((n * sps + j : ℕ) * d) = spc / 2 * collected us L key (fun u => u.Y n)) := by
  have hsps : 0 < sps := by rw [hsp]; exact Nat.mul_pos hL hspc
  have hkb : ∀ k : List Bool, k.length = L → ∀ c < L, ∀ t < spc,
      keyBit k spc (n * sps + (c * spc + t)) = k.getD c false := by
    intro k hkl c hc t ht
    rw [hsp, ← hkl]
    exact keyBit_eq (by omega) ht
  have hn : ∀ j < sps, (n * sps + j) / sps = n := by
    intro j hj
    rw [Nat.add_comm, Nat.add_mul_div_right _ _ hsps, Nat.div_eq_of_lt hj, Nat.zero_add]
  -- one signal at a time
  have hone : ∀ u ∈ us, ∀ (C : ℕ → ℝ) (S : ℝ),
      (∀ m, ∑ t ∈ Finset.range spc, (u.X n * Real.cos ((m + t : ℕ) * d) - u.Y n * Real.sin ((m + t : ℕ) * d)) * C (m + t) = S) →
      ∑ j ∈ Finset.range sps, u.gain * ((u.X ((n * sps + j) / sps) * Real.cos ((n * sps + j : ℕ) * d)
        - u.Y ((n * sps + j) / sps) * Real.sin ((n * sps + j : ℕ) * d)) * bitToNrz (keyBit u.key spc (n * sps + j)))
        * bitToNrz (keyBit key spc (n * sps + j)) * C (n * sps + j)
      = u.gain * S * (2 * (agreements u.key key : ℝ) - L) := by
    intro u hu C S hS
    rw [← key_inner (hkey u hu) hk]
    conv_lhs => rw [hsp]
    have := chips_sum (L := L) (spc := spc) (S := u.gain * S)
      (f := fun j => u.gain * ((u.X n * Real.cos ((n * sps + j : ℕ) * d) - u.Y n * Real.sin ((n * sps + j : ℕ) * d)) * C (n * sps + j)))
      (s := fun c => (bitToNrz (u.key.getD c false) : ℝ) * bitToNrz (key.getD c false))
      (by
        intro c
        rw [← Finset.mul_sum, ← hS (n * sps + c * spc)]
        congr 1
        apply Finset.sum_congr rfl
        intro t _
        rw [Nat.add_assoc])
      (g := fun j => u.gain * ((u.X ((n * sps + j) / sps) * Real.cos ((n * sps + j : ℕ) * d)
        - u.Y ((n * sps + j) / sps) * Real.sin ((n * sps + j : ℕ) * d)) * bitToNrz (keyBit u.key spc (n * sps + j)))
        * bitToNrz (keyBit key spc (n * sps + j)) * C (n * sps + j))
      (by
        intro c hc t ht
        have hlt : c * spc + t < sps := by
          rw [hsp]
          calc c * spc + t < c * spc + spc := by omega
            _ = (c + 1) * spc := by ring
            _ ≤ L * spc := Nat.mul_le_mul_right _ hc
        simp only [hn _ hlt, hkb u.key (hkey u hu) c hc t ht, hkb key hk c hc t ht]
        ring)
    rw [← hsp] at this ⊢
    exact this
  have hall : ∀ (C : ℕ → ℝ) (A : Lane → ℝ),
      (∀ u ∈ us, ∀ m, ∑ t ∈ Finset.range spc,
        (u.X n * Real.cos ((m + t : ℕ) * d) - u.Y n * Real.sin ((m + t : ℕ) * d)) * C (m + t) = spc / 2 * A u) →
      ∑ j ∈ Finset.range sps, lanesAt us sps spc d (n * sps + j) * bitToNrz (keyBit key spc (n * sps + j)) * C (n * sps + j)
        = spc / 2 * collected us L key A := by
    intro C A hA
    unfold lanesAt collected
    simp only [list_sum_map_mul_left]
    rw [finset_sum_list_sum, mul_comm ((spc : ℝ) / 2), list_sum_map_mul_left]
    congr 1
    apply List.map_congr_left
    intro u hu
    rw [hone u hu C _ (hA u hu)]
    ring
  have e1 := fun m => sum_cos_sq_half hp hs m
  have e2 := fun m => sum_sin_sq_half hp hs m
  have e3 := fun m => sum_cos_sin_half hp hs m
  constructor
  · refine hall (fun i => Real.cos (i * d)) (fun u => u.X n) ?_
    intro u _ m
    have : ∀ t ∈ Finset.range spc, (u.X n * Real.cos ((m + t : ℕ) * d) - u.Y n * Real.sin ((m + t : ℕ) * d)) * Real.cos ((m + t : ℕ) * d)
        = u.X n * Real.cos ((m + t : ℕ) * d) ^ 2 - u.Y n * (Real.cos ((m + t : ℕ) * d) * Real.sin ((m + t : ℕ) * d)) := by
      intro t _; ring
    rw [Finset.sum_congr rfl this, Finset.sum_sub_distrib, ← Finset.mul_sum, ← Finset.mul_sum, e1, e3]
    ring
  · refine hall (fun i => -Real.sin (i * d)) (fun u => u.Y n) ?_
    intro u _ m
    have : ∀ t ∈ Finset.range spc, (u.X n * Real.cos ((m + t : ℕ) * d) - u.Y n * Real.sin ((m + t : ℕ) * d)) * -Real.sin ((m + t : ℕ) * d)
        = u.Y n * Real.sin ((m + t : ℕ) * d) ^ 2 - u.X n * (Real.cos ((m + t : ℕ) * d) * Real.sin ((m + t : ℕ) * d)) := by
      intro t _; ring
    rw [Finset.sum_congr rfl this, Finset.sum_sub_distrib, ← Finset.mul_sum, ← Finset.mul_sum, e2, e3]
    ring

theorem lanes_wave {us : List Lane} {sps spc N : ℕ} {d : ℝ} (hsps : 0 < sps) {channel : List ℝ}
    (hl : channel.length = N * sps) (hc : ∀ i < N * sps, channel[i]? = some (lanesAt us sps spc d i)) :
    channel = wave sps (fun n (_ : ℕ) j => lanesAt us sps spc d (n * sps + j)) (List.range N) := by
  apply List.ext_getElem?
  intro i
  rw [wave_getElem? hsps]
  by_cases hi : i < N * sps
  · have hin : i / sps < N := by rw [Nat.div_lt_iff_lt_mul hsps]; omega
    rw [hc i hi, List.getElem?_range hin]
    simp only [Option.map_some]
    rw [Nat.mul_comm, Nat.div_add_mod]
  · rw [List.getElem?_eq_none (by omega), List.getElem?_eq_none]
    · rfl
    · rw [List.length_range, Nat.le_div_iff_mul_le hsps]; omega

section rx
variable {κ : Type} [RIter κ ℝ]

theorem mapIdx_range_self {B : Type} (N : ℕ) (f : ℕ → B) : (List.range N).mapIdx (fun n _ => f n) = (List.range N).map f := by
  apply List.ext_getElem?
  intro i
  by_cases hi : i < N
  · simp [hi]
  · simp [hi]

theorem rx_lanes {us : List Lane} {L N fs sym : ℕ} {fc : ℝ} (hok : CdmaOk fs sym fc L) (hdvd : L ∣ fs / sym) {p : ℤ}
    (hp : ((fs / sym / L : ℕ) : ℝ) * dphi fs fc = p * Real.pi) (hs : Real.sin (dphi fs fc) ≠ 0)
    (hkey : ∀ u ∈ us, u.key.length = L) {key : List Bool} (hk : key.length = L) {channel : List ℝ}
    (hl : channel.length = N * (fs / sym))
    (hc : ∀ i < N * (fs / sym), channel[i]? = some (lanesAt us (fs / sym) (fs / sym / L) (dphi fs fc) i))
    {rcv : κ} (hr : Yields rcv channel) :
    (do let rx ← rxCdmaBpsk rcv fs sym fc key; collect rx)
      = pure ((List.range N).map (fun n => decide (0 < collected us L key (fun u => u.X n)))) ∧
    (do let rx ← rxCdmaQpsk rcv fs sym fc key; collect rx)
      = pure ((List.range N).flatMap (fun n => [decide (0 ≤ collected us L key (fun u => u.X n)),
          decide (0 ≤ collected us L key (fun u => u.Y n))])) := by
  have h1 := hok.sps
  have h2 := hok.spc
  have hL := hok.key_pos
  have hsps : 0 < fs / sym := by omega
  have hspc : 0 < fs / sym / L := by omega
  have hsp : fs / sym = L * (fs / sym / L) := (Nat.mul_div_cancel' hdvd).symm
  have hhalf : (0 : ℝ) < ((fs / sym / L : ℕ) : ℝ) / 2 := by
    have : (0 : ℝ) < ((fs / sym / L : ℕ) : ℝ) := by exact_mod_cast hspc
    linarith
  have hcorr := fun n => lanes_corr (us := us) hL hsp hp hs hkey hk hspc n
  have hrcv := (hr.spread (key := key) (by omega) hspc).of_eq (by rw [lanes_wave hsps hl hc, mapIdx_wave])
  constructor
  · obtain ⟨it, e1, e2⟩ := rxBpsk_wave (fc := fc) hsps hrcv
    rw [rxCdmaBpsk, hk, hok.guards, pure_bind, e1, pure_bind, collect_of_yields e2, ← mapIdx_range_self]
    congr 1
    apply mapIdx_congr'
    intro n a _
    rw [rsum_range, Flt.lt_real]
    simp only [phase_real, Flt.cos_real]
    rw [(hcorr n).1]
    simp only [mul_pos_iff_of_pos_left hhalf]
  · obtain ⟨it, e1, e2⟩ := rxQpsk_wave (fc := fc) hsps hrcv
    rw [rxCdmaQpsk, hk, hok.guards, pure_bind, e1, pure_bind, collect_of_yields e2, List.flatMap_def, ← mapIdx_range_self]
    congr 2
    apply mapIdx_congr'
    intro n a _
    rw [rsum_range, rsum_range, Flt.le_real, Flt.le_real]
    simp only [phase_real, Flt.cos_real, Flt.sin_real]
    rw [(hcorr n).1, (hcorr n).2]
    simp only [mul_nonneg_iff_of_pos_left hhalf]
end rx

end Verif
