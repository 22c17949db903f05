import Verif.Props.IeeeRx
import Verif.Props.Energy
import Verif.Lemmas.Erfc
/-! White noise through a link in double precision: the pieces. -/
namespace Verif
open Spec F64 MeasureTheory ProbabilityTheory
variable {Ω : Type} [MeasurableSpace Ω] {P : Measure Ω} {z : ℕ → Ω → ℝ}

/-! ## Tails -/

theorem white_tail (hz : White P 1 z) (Z : ℝ) (i : ℕ) : P.real {ω | Z < z i ω} = Erfc (Z / √2) / 2 ∧ P.real {ω | z i ω < -Z} = Erfc (Z / √2) / 2 := by
  have e : ∀ ω, proj (i + 1) (fun j => if j = i then 1 else 0) z ω = z i ω := by
    intro ω
    simp [proj]
  have e2 : ∑ j ∈ Finset.range (i + 1), (if j = i then (1 : ℝ) else 0) ^ 2 = 1 := by simp
  have h1 := hz.proj_gt one_pos (M := i + 1) (a := fun j => if j = i then 1 else 0) (by rw [e2]; norm_num) Z
  have h2 := hz.proj_lt one_pos (M := i + 1) (a := fun j => if j = i then 1 else 0) (by rw [e2]; norm_num) (-Z)
  rw [e2] at h1 h2
  simp only [e, neg_neg, one_pow, mul_one] at h1 h2
  exact ⟨h1, h2⟩

/-- Some sample of the first `n` beyond `Z`. -/
theorem white_far (hz : White P 1 z) {Z : ℝ} (hZ : 0 ≤ Z) (n : ℕ) :
    P.real {ω | ∀ i < n, |z i ω| ≤ Z}ᶜ ≤ n * Real.exp (-Z ^ 2 / 2) := by
  have := hz.prob
  have h1 : ({ω | ∀ i < n, |z i ω| ≤ Z}ᶜ : Set Ω) ⊆ ⋃ i ∈ Finset.range n, ({ω | Z < z i ω} ∪ {ω | z i ω < -Z}) := by
    intro ω hω
    simp only [Set.mem_compl_iff, Set.mem_ofPred_eq, not_forall, not_le] at hω
    obtain ⟨i, hi, h⟩ := hω
    simp only [Set.mem_iUnion, Finset.mem_range]
    refine ⟨i, hi, ?_⟩
    rcases lt_abs.mp h with h | h
    · exact .inl h
    · exact .inr (by show z i ω < -Z; linarith)
  refine (measureReal_mono h1 (measure_ne_top _ _)).trans ((measureReal_biUnion_finset_le _ _).trans ?_)
  have h2 : ∀ i ∈ Finset.range n, P.real ({ω | Z < z i ω} ∪ {ω | z i ω < -Z}) ≤ Real.exp (-Z ^ 2 / 2) := by
    intro i _
    obtain ⟨a, b⟩ := white_tail hz Z i
    refine (measureReal_union_le _ _).trans ?_
    rw [a, b, add_halves]
    refine (Erfc_le (by positivity)).trans (le_of_eq ?_)
    rw [div_pow, Real.sq_sqrt (by norm_num), neg_div]
  refine (Finset.sum_le_sum h2).trans ?_
  rw [Finset.sum_const, Finset.card_range, nsmul_eq_mul]

theorem bitError_form {k : ℕ} (hk : 0 < k) {q σ : ℝ} (hq : 0 ≤ q) (hσ : 0 < σ) :
    bitError (k / 2 * q ^ 2) σ = Erfc (k / 2 * q / σ / √(2 * (1 ^ 2 * (k / 2)))) / 2 := by
  have hk' : (0 : ℝ) < k := by exact_mod_cast hk
  unfold bitError
  congr 2
  rw [Real.sqrt_eq_iff_mul_self_eq (by positivity) (by positivity), ← pow_two, div_pow, Real.sq_sqrt (by positivity)]
  field_simp

/-- A decision that is right when the statistic clears the margin `k a`, and wrong when it clears it on the other side. -/
theorem margin_core (hz : White P 1 z) {σ : ℝ} (hσ : 0 < σ) {k M : ℕ} (hk : 0 < k) {c : ℕ → ℝ}
    (hc : ∑ i ∈ Finset.range M, c i ^ 2 = (k : ℝ) / 2) {a : ℝ} (h0 : 0 ≤ a) (ha : a ≤ 1 / 2) (b : Bool) {G W V : Set Ω}
    (hW : ∀ ω ∈ G, k * a < Props.pm b * (k / 2 * Props.pm b + σ * proj M c z ω) → ω ∉ W)
    (hV : ∀ ω ∈ G, Props.pm b * (k / 2 * Props.pm b + σ * proj M c z ω) < -(k * a) → ω ∈ V) :
    P.real W ≤ bitError (k / 2 * (1 - 2 * a) ^ 2) σ + P.real Gᶜ ∧ bitError (k / 2 * (1 + 2 * a) ^ 2) σ ≤ P.real V + P.real Gᶜ := by
  have := hz.prob
  have hk' : (0 : ℝ) < k := by exact_mod_cast hk
  set Y : Ω → ℝ := proj M (fun i => -Props.pm b * c i) z with hY
  have hYe : ∀ ω, Props.pm b * (k / 2 * Props.pm b + σ * proj M c z ω) = k / 2 - σ * Y ω := by
    intro ω
    have e : Y ω = -Props.pm b * proj M c z ω := by
      rw [hY]; simp only [proj, Finset.mul_sum]
      exact Finset.sum_congr rfl fun i _ => by ring
    rw [e]
    have := Props.pm_sq b
    linear_combination (k / 2 : ℝ) * this
  have hs : ∑ i ∈ Finset.range M, (-Props.pm b * c i) ^ 2 = (k : ℝ) / 2 := by
    rw [← hc]
    refine Finset.sum_congr rfl fun i _ => ?_
    have := Props.pm_sq b
    linear_combination c i ^ 2 * this
  have hsp : 0 < ∑ i ∈ Finset.range M, (-Props.pm b * c i) ^ 2 := by rw [hs]; positivity
  have hgt : ∀ x, P.real {ω | x < Y ω} = Erfc (x / √(2 * (1 ^ 2 * (k / 2)))) / 2 := by
    intro x
    have := hz.proj_gt one_pos hsp x
    rwa [hs] at this
  constructor
  · rw [bitError_form hk (by linarith) hσ, ← hgt]
    have hae : P.real {ω | k / 2 * (1 - 2 * a) / σ < Y ω} = P.real {ω | k / 2 * (1 - 2 * a) / σ ≤ Y ω} := by
      apply measureReal_congr
      filter_upwards [hz.proj_ne one_pos hsp (k / 2 * (1 - 2 * a) / σ)] with ω hω
      refine propext ⟨fun h : _ < _ => (show _ ≤ _ from h.le), fun h : _ ≤ _ => ?_⟩
      exact show _ < _ from lt_of_le_of_ne h (Ne.symm hω)
    rw [hae]
    refine (measureReal_mono (s₂ := {ω | k / 2 * (1 - 2 * a) / σ ≤ Y ω} ∪ Gᶜ) ?_).trans (measureReal_union_le _ _)
    intro ω hω
    by_cases hG : ω ∈ G
    · left
      by_contra hlt
      have hlt : Y ω < k / 2 * (1 - 2 * a) / σ := not_le.mp hlt
      refine hW ω hG ?_ hω
      rw [hYe]
      rw [lt_div_iff₀ hσ] at hlt
      linarith
    · exact .inr hG
  · rw [bitError_form hk (by linarith) hσ, ← hgt]
    refine (measureReal_mono (s₂ := V ∪ Gᶜ) ?_).trans (measureReal_union_le _ _)
    intro ω hω
    have hω : k / 2 * (1 + 2 * a) / σ < Y ω := hω
    by_cases hG : ω ∈ G
    · left
      refine hV ω hG ?_
      rw [hYe]
      rw [div_lt_iff₀ hσ] at hω
      linarith
    · exact .inr hG

/-! ## The channel in doubles -/

theorem awgn_yields {F : Type} [Add F] [Sub F] [Mul F] [Div F] [Neg F] [Zero F] [One F] [Flt F] [RIter ι F] [RIter ν F] {src : ι} {l : List F}
    (h : Yields src l) {std : ν} {d : ℕ → F} (hd : Gives std d) {σ : F} (hσ : Flt.isFinite σ = true) :
    ∃ it, awgn src σ std = pure it ∧ Yields it (l.mapIdx (fun i x => x + (0 + σ * d i))) := by
  unfold awgn normalIter
  rw [if_pos hσ, pure_bind]
  refine ⟨_, rfl, ?_⟩
  have := (h.rzip_gives (hd.rmap (fun z => 0 + σ * z))).rmap (fun p : F × F => p.1 + p.2)
  rwa [map_mapIdx'] at this

/-- One sample of it. -/
theorem awgn_sample {x d σ : Float} {r t τ η S : ℝ} (hx : Ap x r τ) (hd : Ap d t η) (hσ : F64.Fin σ) (h0 : 0 ≤ val σ) (hη : 0 ≤ η) (hτ : 0 ≤ τ)
    (hS : |r| + τ + val σ * (|t| + η) ≤ S) (h1 : 1 ≤ S) (h2 : S ≤ 2 ^ 900) :
    Ap (x + (0 + σ * d)) (r + val σ * t) (τ + val σ * η + S / 2 ^ 48) := by
  have hrt : |val σ * t| ≤ val σ * |t| := by rw [abs_mul, abs_of_nonneg h0]
  have p1 := mul_nonneg h0 (abs_nonneg t)
  have p2 := mul_nonneg h0 hη
  have p3 := abs_nonneg r
  have ht := tiny_le (k := 100) (by norm_num)
  have hu : uu = 1 / 2 ^ 53 := by rw [uu_eq]
  have big : ∀ y : ℝ, y ≤ 8 * S → y ≤ 2 ^ (1023 : ℤ) := fun y hy => le_big (k := 903) (by norm_num) (by
    calc y ≤ 8 * S := hy
      _ ≤ 2 ^ 3 * 2 ^ 900 := by linarith
      _ = 2 ^ 903 := by rw [← pow_add])
  have a1 : Ap (σ * d) (val σ * t) (val σ * η + S / 2 ^ 51) := by
    refine ((Ap.exact hσ).mul hd (R := val σ) (S := |t|) (by rw [abs_of_nonneg h0]) le_rfl (big _ (by linarith))).mono ?_
    rw [hu]
    norm_num at ht ⊢
    nlinarith
  have a2 : Ap (0 + σ * d) (0 + val σ * t) (val σ * η + S / 2 ^ 50) := by
    have hz : Ap (0 : Float) 0 0 := by simpa [val_zero] using Ap.exact fin_zero
    refine (hz.add a1 (R := val σ * |t|) (by rw [zero_add]; exact hrt) (big _ (by norm_num; linarith))).mono ?_
    rw [hu]
    norm_num at ht ⊢
    linarith
  rw [zero_add] at a2
  refine (hx.add a2 (R := |r| + val σ * |t|) ((abs_add_le _ _).trans (by linarith)) (big _ (by norm_num; linarith))).mono ?_
  rw [hu]
  norm_num at ht ⊢
  linarith
end Verif
