import Verif.Lemmas.ErfAccuracy
import Verif.Lemmas.GaussEnd
import Verif.Lemmas.Energy
import Mathlib.Analysis.Convex.Deriv
import Mathlib.Analysis.Convex.Jensen

/-! # The bit error probability is a strictly convex function of the energy of the bit -/
namespace Verif
open Spec MeasureTheory ProbabilityTheory
variable {ι ρ : Type} {Ω : Type} [MeasurableSpace Ω] {P : Measure Ω}

theorem erfc_sqrt_deriv {x : ℝ} (hx : 0 < x) :
    HasDerivAt (fun x => Erfc (√x)) (-(1 / √Real.pi * (Real.exp (-x) / √x))) x := by
  have h := (Erfc_hasDerivAt (√x)).comp x (Real.hasDerivAt_sqrt hx.ne')
  refine h.congr_deriv ?_
  rw [Real.sq_sqrt hx.le]
  have := Real.sqrt_pos.mpr hx
  field_simp

theorem erfc_sqrt_convex : StrictConvexOn ℝ (Set.Ici 0) (fun x => Erfc (√x)) := by
  apply StrictMonoOn.strictConvexOn_of_deriv (convex_Ici 0)
  · have hc : Continuous Erfc := continuous_iff_continuousAt.mpr fun x => (Erfc_hasDerivAt x).continuousAt
    exact (hc.comp Real.continuous_sqrt).continuousOn
  · rw [interior_Ici]
    intro x hx y hy hxy
    have hx : 0 < x := hx
    have hy : 0 < y := hy
    rw [(erfc_sqrt_deriv hx).deriv, (erfc_sqrt_deriv hy).deriv]
    have hpi := Real.sqrt_pos.mpr Real.pi_pos
    apply neg_lt_neg
    apply mul_lt_mul_of_pos_left _ (by positivity)
    have h1 := Real.sqrt_pos.mpr hx
    have h2 : √x < √y := Real.sqrt_lt_sqrt hx.le hxy
    have h3 : Real.exp (-y) < Real.exp (-x) := Real.exp_lt_exp.mpr (by linarith)
    exact div_lt_div₀ h3 h2.le (Real.exp_pos _).le h1

/-- The energies of the symbols of a recording add up to its energy. -/
theorem symbols_total (k N : ℕ) : ∀ a : List ℝ, a.length = N * k →
    ∑ n ∈ Finset.range N, ((symbol k n a).map (· ^ 2)).sum = (a.map (· ^ 2)).sum := by
  induction N with
  | zero => intro a ha; simp at ha; simp [ha]
  | succ N ih =>
    intro a ha
    have hk : k ≤ a.length := by rw [ha, Nat.succ_mul]; omega
    have h2 := ih (a.drop k) (by rw [List.length_drop, ha, Nat.succ_mul]; omega)
    rw [Finset.sum_range_succ']
    conv_rhs => rw [← List.take_append_drop k a, List.map_append, List.sum_append, ← h2]
    rw [add_comm]
    congr 1
    · simp [symbol]
    · apply Finset.sum_congr rfl
      intro n _
      unfold symbol
      rw [List.drop_drop, Nat.succ_mul, Nat.add_comm]

/-- Jensen for a channel whose noise is calibrated with the mean energy of the bits. -/
theorem floor_core {msg : List Bool} (hne : msg ≠ []) {E : ℕ → ℝ} {σ eb g : ℝ} (hσ : 0 < σ)
    (hE : ∀ n < msg.length, 0 < E n)
    (heb : eb = (∑ n ∈ Finset.range msg.length, E n) / msg.length) (hg : bitError eb σ = g) :
    g ≤ (∑ n ∈ Finset.range msg.length, bitError (E n) σ) / msg.length ∧
    (∑ n ∈ Finset.range msg.length, bitError (E n) σ) / msg.length < 1 / 2 ∧
    ((∑ n ∈ Finset.range msg.length, bitError (E n) σ) / msg.length = g ↔ ∀ n < msg.length, E n = eb) := by
  have hl : 0 < msg.length := List.length_pos_iff.mpr hne
  have hlr : (0 : ℝ) < msg.length := by exact_mod_cast hl
  have hw : ∑ _n ∈ Finset.range msg.length, (1 / msg.length : ℝ) = 1 := by
    rw [Finset.sum_const, Finset.card_range, nsmul_eq_mul]; field_simp
  have hmem : ∀ n ∈ Finset.range msg.length, E n / (2 * σ ^ 2) ∈ Set.Ici (0 : ℝ) := fun n hn =>
    (div_pos (hE n (Finset.mem_range.mp hn)) (by positivity)).le
  have hmean : ∑ n ∈ Finset.range msg.length, (1 / msg.length : ℝ) • (E n / (2 * σ ^ 2)) = eb / (2 * σ ^ 2) := by
    rw [heb, ← Finset.smul_sum, ← Finset.sum_div, smul_eq_mul]; field_simp
  have hval : ∑ n ∈ Finset.range msg.length, (1 / msg.length : ℝ) • Erfc (√(E n / (2 * σ ^ 2)))
      = 2 * ((∑ n ∈ Finset.range msg.length, bitError (E n) σ) / msg.length) := by
    unfold bitError
    rw [← Finset.smul_sum, ← Finset.sum_div, smul_eq_mul]; field_simp
  have hg' : Erfc (√(eb / (2 * σ ^ 2))) = 2 * g := by rw [← hg]; unfold bitError; ring
  have h1 := erfc_sqrt_convex.convexOn.map_sum_le (t := Finset.range msg.length) (w := fun _ => (1 / msg.length : ℝ))
    (p := fun n => E n / (2 * σ ^ 2)) (fun _ _ => by positivity) hw hmem
  have h2 := erfc_sqrt_convex.map_sum_eq_iff (t := Finset.range msg.length) (w := fun _ => (1 / msg.length : ℝ))
    (p := fun n => E n / (2 * σ ^ 2)) (fun _ _ => by positivity) hw hmem
  simp only [hmean, hval, hg'] at h1 h2
  refine ⟨by linarith, ?_, ?_⟩
  · rw [div_lt_iff₀ hlr]
    calc _ < ∑ _n ∈ Finset.range msg.length, (1 / 2 : ℝ) := Finset.sum_lt_sum_of_nonempty
          (Finset.nonempty_range_iff.mpr hl.ne') (fun n hn => (bitError_bounds (hE n (Finset.mem_range.mp hn)) hσ).2)
      _ = _ := by rw [Finset.sum_const, Finset.card_range, nsmul_eq_mul]; ring
  · have h3 : (∑ n ∈ Finset.range msg.length, bitError (E n) σ) / msg.length = g ↔
        2 * g = 2 * ((∑ n ∈ Finset.range msg.length, bitError (E n) σ) / msg.length) := by
      constructor <;> intro h <;> linarith
    rw [h3, h2]
    constructor
    · intro h n hn
      have := h n (Finset.mem_range.mpr hn)
      have hs : (2 * σ ^ 2) ≠ 0 := by positivity
      exact (div_left_inj' hs).mp this
    · intro h n hn
      rw [h n (Finset.mem_range.mp hn)]

/-- How the energies of the first two symbols of a carrier differ. -/
theorem first_energies (k : ℕ) (θ : ℝ) : Real.sin θ * (∑ j ∈ Finset.range k, Real.cos ((1 * k + j : ℕ) * θ) ^ 2
    - ∑ j ∈ Finset.range k, Real.cos ((0 * k + j : ℕ) * θ) ^ 2) = -(Real.sin (k * θ) ^ 2 * Real.sin ((2 * k - 1) * θ)) := by
  have h1 : ∀ N : ℕ, ∑ j ∈ Finset.range N, Real.sin θ * (Real.cos ((1 * k + j : ℕ) * θ) ^ 2 - Real.cos ((0 * k + j : ℕ) * θ) ^ 2)
      = -(Real.sin (k * θ) * (Real.cos ((k - 1) * θ) - Real.cos ((k + 2 * N - 1) * θ)) / 2) := by
    intro N
    induction N with
    | zero => simp
    | succ N ih =>
      rw [Finset.sum_range_succ, ih]
      push_cast
      have e1 : (1 * (k : ℝ) + N) * θ = k * θ + N * θ := by ring
      have e2 : (0 * (k : ℝ) + N) * θ = N * θ := by ring
      have e3 : ((k : ℝ) + 2 * N - 1) * θ = (k * θ + (N * θ + N * θ)) - θ := by ring
      have e4 : ((k : ℝ) + 2 * (N + 1) - 1) * θ = (k * θ + (N * θ + N * θ)) + θ := by ring
      rw [e1, e2, e3, e4, Real.cos_sub (k * θ + (N * θ + N * θ)), Real.cos_add (k * θ + (N * θ + N * θ)), Real.cos_add (k * θ) (N * θ),
        Real.sin_add (k * θ), Real.sin_add (N * θ), Real.cos_add (N * θ)]
      have p := Real.sin_sq_add_cos_sq (k * θ)
      linear_combination (Real.sin θ * Real.cos (N * θ) ^ 2) * p
  have h2 := h1 k
  rw [← Finset.mul_sum, Finset.sum_sub_distrib] at h2
  rw [h2]
  have e5 : ((k : ℝ) - 1) * θ = (2 * k - 1) * θ - k * θ := by ring
  have e6 : ((k : ℝ) + 2 * k - 1) * θ = (2 * k - 1) * θ + k * θ := by ring
  rw [e5, e6, Real.cos_sub, Real.cos_add]
  ring

theorem wave_symbol {A : Type} {k : ℕ} (hk : 0 < k) (w : ℕ → A → ℕ → ℝ) (l : List A) {n : ℕ} (hn : n < l.length) :
    symbol k n (wave k w l) = (List.range k).map (w n l[n]) := by
  have hlt : n * k < (wave k w l).length := by rw [wave_length]; exact Nat.mul_lt_mul_of_pos_right hn hk
  have := Props.blocks_symbol hk (wave k w l) n hlt
  rw [blocks_wave hk, List.getElem?_mapIdx, List.getElem?_eq_getElem hn] at this
  simpa using this.symm

theorem wave_symbol_energy {A : Type} {k : ℕ} (hk : 0 < k) (w : ℕ → A → ℕ → ℝ) (l : List A) {n : ℕ} (hn : n < l.length) :
    ((symbol k n (wave k w l)).map (· ^ 2)).sum = ∑ j ∈ Finset.range k, w n l[n] j ^ 2 := by
  rw [wave_symbol hk w l hn, List.map_map, ← rsum_range, rsum_eq_sum]
  rfl

end Verif
