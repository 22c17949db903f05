import Verif.Lemmas.Wave
import Verif.Lemmas.ConvL
import Verif.Model.Psk
import Mathlib.Algebra.Order.Floor.Semiring
import Mathlib.Algebra.Order.Floor.Semifield
import Mathlib.Data.Nat.Cast.Order.Field
import Mathlib.Algebra.BigOperators.Group.Finset.Basic
import Mathlib.Algebra.BigOperators.Intervals
import Mathlib.Tactic.LinearCombination
import Mathlib.Algebra.Order.BigOperators.Group.Finset

/-! Structure of the PSK modulators (any number type), and trigonometric sums. -/
namespace Verif
open Spec
set_option linter.unusedSectionVars false

variable {ι : Type}

section anyF
variable {F : Type} [Add F] [Sub F] [Mul F] [Div F] [Neg F] [Zero F] [One F] [Flt F]

theorem txBpsk_ok [RIter ι Bool] {m : ι} {msg : List Bool} (h : Yields m msg) {fs sym : ℕ} {fc : F}
    (hsps : 0 < fs / sym) (h1 : Flt.toNat fc ≤ fs / 2)
    (h2 : isInt (Flt.ofNat fs / Flt.ofNat sym : F) = true) :
    ∃ it, txBpsk m fs sym fc = pure it ∧
      Yields it (wave (fs / sym) (fun n b j => bitToNrz b * Flt.cos (phase fs fc (n * (fs / sym) + j))) msg) := by
  have hsym : 0 < sym := by
    rcases Nat.eq_zero_or_pos sym with rfl | h
    · simp at hsps
    · exact h
  unfold txBpsk
  rw [udiv_pos hsym, pure_bind, rassert_pos (decide_eq_true h1), pure_bind, rassert_pos h2, pure_bind]
  refine ⟨_, rfl, ?_⟩
  have := (((h.rmap (bitToNrz (F := F))).inflate hsps).renumerate).rmap
    (fun p : ℕ × F => p.2 * Flt.cos (phase fs fc p.1))
  rw [map_mapIdx', flatMap_replicate_eq_wave, mapIdx_wave, wave_map] at this
  exact this

theorem rxBpsk_ok [RIter ι F] {s : ι} {l : List F} (h : Yields s l) {fs sym : ℕ} {fc : F} (hsps : 0 < fs / sym) :
    ∃ it, rxBpsk s fs sym fc = pure it ∧
      Yields it ((fullBlocks (fs / sym) (l.mapIdx (fun i x => x * Flt.cos (phase fs fc i)))).map
        (fun b => Flt.lt (0 : F) (rsum b))) := by
  have hsym : 0 < sym := by
    rcases Nat.eq_zero_or_pos sym with rfl | h
    · simp at hsps
    · exact h
  unfold rxBpsk
  rw [udiv_pos hsym, pure_bind]
  refine ⟨_, rfl, ?_⟩
  have := ((h.renumerate.rmap (fun p : ℕ × F => p.2 * Flt.cos (phase fs fc p.1))).integrateAndDump hsps).rmap
    (fun t : F => Flt.lt (0 : F) t)
  rw [map_mapIdx', List.map_map] at this
  exact this

theorem rxBpsk_wave [RIter ι F] {A : Type} {s : ι} {fs sym : ℕ} {fc : F} (hsps : 0 < fs / sym) {w : ℕ → A → ℕ → F}
    {msg : List A} (h : Yields s (wave (fs / sym) w msg)) :
    ∃ it, rxBpsk s fs sym fc = pure it ∧
      Yields it (msg.mapIdx (fun n b => Flt.lt (0 : F) (rsum ((List.range (fs / sym)).map
        (fun j => w n b j * Flt.cos (phase fs fc (n * (fs / sym) + j))))))) := by
  obtain ⟨it, h1, h2⟩ := rxBpsk_ok h (fc := fc) hsps
  refine ⟨it, h1, ?_⟩
  rw [mapIdx_wave, fullBlocks_wave hsps, map_mapIdx'] at h2
  exact h2

theorem txQpsk_ok [RIter ι Bool] {m : ι} {msg : List Bool} (h : Yields m msg) {fs sym : ℕ} {fc : F}
    (hsps : 0 < fs / sym) :
    ∃ it, txQpsk m fs sym fc = pure it ∧
      Yields it (wave (fs / sym) (fun n (p : Bool × Bool) j =>
        bitToNrz p.1 * Flt.cos (phase fs fc (n * (fs / sym) + j))
          + -(bitToNrz p.2) * Flt.sin (phase fs fc (n * (fs / sym) + j))) (pairs msg)) := by
  have hsym : 0 < sym := by
    rcases Nat.eq_zero_or_pos sym with rfl | h
    · simp at hsps
    · exact h
  unfold txQpsk
  rw [udiv_pos hsym, pure_bind]
  refine ⟨_, rfl, ?_⟩
  have := ((h.rtuples.inflate hsps).renumerate).rmap (fun p : ℕ × (Bool × Bool) =>
      bitToNrz p.2.1 * Flt.cos (phase fs fc p.1) + -(bitToNrz p.2.2) * Flt.sin (phase fs fc p.1))
  rw [map_mapIdx', flatMap_replicate_eq_wave, mapIdx_wave] at this
  exact this

theorem rxQpsk_ok [RIter ι F] {s : ι} {l : List F} (h : Yields s l) {fs sym : ℕ} {fc : F} (hsps : 0 < fs / sym) :
    ∃ it, rxQpsk s fs sym fc = pure it ∧
      Yields it ((fullBlocks (fs / sym) (l.mapIdx (fun i x => (i, x)))).flatMap (fun b =>
        [Flt.le (0 : F) (rsum (b.map (fun p => p.2 * Flt.cos (phase fs fc p.1)))),
         Flt.le (0 : F) (rsum (b.map (fun p => p.2 * -(Flt.sin (phase fs fc p.1)))))])) := by
  have hsym : 0 < sym := by
    rcases Nat.eq_zero_or_pos sym with rfl | h
    · simp at hsps
    · exact h
  unfold rxQpsk
  rw [udiv_pos hsym, pure_bind]
  refine ⟨_, rfl, ?_⟩
  have := ((h.renumerate.rmap (fun p : ℕ × F =>
      (#v[p.2 * Flt.cos (phase fs fc p.1), p.2 * -(Flt.sin (phase fs fc p.1))] : Vector F 2))).nintegrateAndDump
        hsps).rflatMap (f := fun v : Vector F 2 => pure (ofList [Flt.le (0 : F) v[0], Flt.le (0 : F) v[1]]))
          (fun v => ⟨_, rfl, yields_ofList _⟩)
  rw [fullBlocks_map, List.map_map, List.flatMap_map] at this
  simp only [Function.comp, rsumV_lane] at this
  simp only [List.map_map] at this
  exact this

theorem rxQpsk_wave [RIter ι F] {A : Type} {s : ι} {fs sym : ℕ} {fc : F} (hsps : 0 < fs / sym) {w : ℕ → A → ℕ → F}
    {msg : List A} (h : Yields s (wave (fs / sym) w msg)) :
    ∃ it, rxQpsk s fs sym fc = pure it ∧
      Yields it (msg.mapIdx (fun n b =>
        [Flt.le (0 : F) (rsum ((List.range (fs / sym)).map
          (fun j => w n b j * Flt.cos (phase fs fc (n * (fs / sym) + j))))),
         Flt.le (0 : F) (rsum ((List.range (fs / sym)).map
          (fun j => w n b j * -(Flt.sin (phase fs fc (n * (fs / sym) + j))))))])).flatten := by
  obtain ⟨it, h1, h2⟩ := rxQpsk_ok h (fc := fc) hsps
  refine ⟨it, h1, ?_⟩
  rw [mapIdx_wave, fullBlocks_wave hsps, List.flatMap, map_mapIdx'] at h2
  simp only [List.map_map] at h2
  exact h2
end anyF

/-! ### Real numbers -/

theorem rsum_range (k : ℕ) (f : ℕ → ℝ) : rsum ((List.range k).map f) = ∑ j ∈ Finset.range k, f j := by
  rw [rsum_eq_sum, ← List.sum_toFinset _ List.nodup_range]
  congr 1; ext; simp

theorem isInt_real {a b : ℕ} (ha : a < 2 ^ 64) (hb : 0 < b) : isInt ((a : ℝ) / (b : ℝ)) = true ↔ b ∣ a := by
  unfold isInt
  simp only [Flt.eq_real, Flt.toNat_real, Flt.ofNat_real, decide_eq_true_eq]
  rw [Nat.floor_div_eq_div, min_eq_left (by have := Nat.div_le_self a b; omega)]
  have hb' : (b : ℝ) ≠ 0 := by exact_mod_cast hb.ne'
  constructor
  · intro h
    rw [div_eq_iff hb'] at h
    exact ⟨a / b, by rw [Nat.mul_comm]; exact_mod_cast h⟩
  · rintro ⟨c, rfl⟩
    rw [Nat.mul_div_cancel_left _ hb]; push_cast; field_simp

/-- Phase advance per sample. -/
noncomputable def dphi (fs : ℕ) (fc : ℝ) : ℝ := 2 * Real.pi * fc / fs

theorem phase_real (fs : ℕ) (fc : ℝ) (i : ℕ) : phase fs fc i = i * dphi fs fc := by
  unfold phase dphi
  simp only [Flt.ofNat_real, Flt.pi_real]
  push_cast; ring

theorem bitToNrz_real (b : Bool) : (bitToNrz b : ℝ) = if b then 1 else -1 := rfl

theorem bitToNrz_sq (b : Bool) : (bitToNrz b : ℝ) * bitToNrz b = 1 := by cases b <;> simp [bitToNrz]

/-- Two neighbouring multiples of an angle do not both have cosine zero. -/
theorem cos_succ_ne_zero (m : ℕ) (d : ℝ) : ¬ (Real.cos (m * d) = 0 ∧ Real.cos ((m + 1 : ℕ) * d) = 0) := by
  rintro ⟨h1, h2⟩
  have hs : Real.sin d = 0 := by
    have : Real.sin d = Real.sin ((m + 1 : ℕ) * d - m * d) := by congr 1; push_cast; ring
    rw [this, Real.sin_sub, h1, h2]; ring
  have hm : ∀ m : ℕ, Real.sin (m * d) = 0 := by
    intro m
    induction m with
    | zero => simp
    | succ m ih => rw [show ((m + 1 : ℕ) : ℝ) * d = m * d + d by push_cast; ring, Real.sin_add, ih, hs]; ring
  have := Real.sin_sq_add_cos_sq (m * d)
  rw [h1, hm m] at this
  norm_num at this

theorem sum_cos_sq_pos {k : ℕ} (hk : 2 ≤ k) (m : ℕ) (d : ℝ) :
    0 < ∑ j ∈ Finset.range k, Real.cos ((m + j : ℕ) * d) ^ 2 := by
  have hnn : ∀ j ∈ Finset.range k, 0 ≤ Real.cos ((m + j : ℕ) * d) ^ 2 := fun _ _ => sq_nonneg _
  rcases (Finset.sum_nonneg hnn).lt_or_eq with h | h
  · exact h
  · exfalso
    have hz := (Finset.sum_eq_zero_iff_of_nonneg hnn).mp h.symm
    have h0 := hz 0 (by simp; omega)
    have h1 := hz 1 (by simp; omega)
    exact cos_succ_ne_zero m d ⟨by simpa using h0, by simpa using h1⟩

/-- `sin β/2` times a sum of cosines in arithmetic progression telescopes. -/
theorem sum_cos_telescope (a β : ℝ) (k : ℕ) :
    2 * Real.sin (β / 2) * ∑ j ∈ Finset.range k, Real.cos (a + j * β)
      = Real.sin (a + (k - 1 / 2) * β) - Real.sin (a - β / 2) := by
  induction k with
  | zero => simp; ring_nf
  | succ k ih =>
    rw [Finset.sum_range_succ, mul_add, ih]
    have e1 : a + (((k + 1 : ℕ) : ℝ) - 1 / 2) * β = (a + k * β) + β / 2 := by push_cast; ring
    have e2 : a + ((k : ℝ) - 1 / 2) * β = (a + k * β) - β / 2 := by ring
    rw [e1, e2, Real.sin_add, Real.sin_sub]; ring

theorem sum_sin_telescope (a β : ℝ) (k : ℕ) :
    2 * Real.sin (β / 2) * ∑ j ∈ Finset.range k, Real.sin (a + j * β)
      = Real.cos (a - β / 2) - Real.cos (a + (k - 1 / 2) * β) := by
  induction k with
  | zero => simp; ring_nf
  | succ k ih =>
    rw [Finset.sum_range_succ, mul_add, ih]
    have e1 : a + (((k + 1 : ℕ) : ℝ) - 1 / 2) * β = (a + k * β) + β / 2 := by push_cast; ring
    have e2 : a + ((k : ℝ) - 1 / 2) * β = (a + k * β) - β / 2 := by ring
    rw [e1, e2, Real.cos_add, Real.cos_sub (a + k * β)]; ring

/-- Over whole periods of `β` the cosines cancel. -/
theorem sum_cos_period {a β : ℝ} {k : ℕ} {p : ℤ} (h : k * β = p * (2 * Real.pi)) (hs : Real.sin (β / 2) ≠ 0) :
    ∑ j ∈ Finset.range k, Real.cos (a + j * β) = 0 := by
  have h1 := sum_cos_telescope a β k
  rw [show a + ((k : ℝ) - 1 / 2) * β = (a - β / 2) + p * (2 * Real.pi) by rw [← h]; ring,
    Real.sin_add_int_mul_two_pi, sub_self] at h1
  rcases mul_eq_zero.mp h1 with h2 | h2
  · exact absurd (by linarith) hs
  · exact h2

theorem sum_sin_period {a β : ℝ} {k : ℕ} {p : ℤ} (h : k * β = p * (2 * Real.pi)) (hs : Real.sin (β / 2) ≠ 0) :
    ∑ j ∈ Finset.range k, Real.sin (a + j * β) = 0 := by
  have h1 := sum_sin_telescope a β k
  rw [show a + ((k : ℝ) - 1 / 2) * β = (a - β / 2) + p * (2 * Real.pi) by rw [← h]; ring,
    Real.cos_add_int_mul_two_pi, sub_self] at h1
  rcases mul_eq_zero.mp h1 with h2 | h2
  · exact absurd (by linarith) hs
  · exact h2

section half
variable {d : ℝ} {k : ℕ} {p : ℤ}

theorem sum_cos_sq_half (h : k * d = p * Real.pi) (hs : Real.sin d ≠ 0) (m : ℕ) :
    ∑ j ∈ Finset.range k, Real.cos ((m + j : ℕ) * d) ^ 2 = k / 2 := by
  have h0 := sum_cos_period (a := 2 * (m * d)) (β := 2 * d) (k := k) (p := p) (by linarith)
    (by rwa [mul_div_cancel_left₀ _ (two_ne_zero)])
  have : ∀ j : ℕ, Real.cos ((m + j : ℕ) * d) ^ 2 = 1 / 2 + Real.cos (2 * (m * d) + j * (2 * d)) / 2 := by
    intro j; rw [Real.cos_sq]; congr 3; push_cast; ring
  simp only [this]
  rw [Finset.sum_add_distrib, ← Finset.sum_div _ _ 2, ← Finset.sum_div _ _ 2, h0]; simp

theorem sum_sin_sq_half (h : k * d = p * Real.pi) (hs : Real.sin d ≠ 0) (m : ℕ) :
    ∑ j ∈ Finset.range k, Real.sin ((m + j : ℕ) * d) ^ 2 = k / 2 := by
  have h0 := sum_cos_sq_half h hs m
  have : ∀ j : ℕ, Real.sin ((m + j : ℕ) * d) ^ 2 = 1 - Real.cos ((m + j : ℕ) * d) ^ 2 := by
    intro j; rw [Real.sin_sq]
  simp only [this]
  rw [Finset.sum_sub_distrib, h0]; simp; ring

theorem sum_cos_sin_half (h : k * d = p * Real.pi) (hs : Real.sin d ≠ 0) (m : ℕ) :
    ∑ j ∈ Finset.range k, Real.cos ((m + j : ℕ) * d) * Real.sin ((m + j : ℕ) * d) = 0 := by
  have h0 := sum_sin_period (a := 2 * (m * d)) (β := 2 * d) (k := k) (p := p) (by linarith)
    (by rwa [mul_div_cancel_left₀ _ (two_ne_zero)])
  have : ∀ j : ℕ, Real.cos ((m + j : ℕ) * d) * Real.sin ((m + j : ℕ) * d)
      = Real.sin (2 * (m * d) + j * (2 * d)) / 2 := by
    intro j
    rw [show 2 * ((m : ℝ) * d) + j * (2 * d) = 2 * ((m + j : ℕ) * d) by push_cast; ring, Real.sin_two_mul]; ring
  simp only [this]
  rw [← Finset.sum_div, h0]; simp
end half

theorem pairs_flat (l : List Bool) : (pairs l).flatMap (fun p => [p.1, p.2]) = l.take (2 * (l.length / 2)) := by
  induction l using pairs.induct with
  | case1 a b t ih =>
    rw [pairs, List.flatMap_cons, ih]
    simp only [List.length_cons]
    rw [show (t.length + 1 + 1) / 2 = t.length / 2 + 1 by omega, show 2 * (t.length / 2 + 1) = 2 * (t.length / 2) + 1 + 1 by omega]
    simp
  | case2 l h =>
    match l, h with
    | [], _ => rfl
    | [a], _ => simp [pairs]
    | a :: b :: t, h => exact absurd rfl (h a b t)

end Verif
