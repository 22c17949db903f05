import Verif.Lemmas.GaussEnd
import Verif.Lemmas.Memoryless
import Verif.Lemmas.Rayleigh
import Verif.Props.Fsk

/-! # Helpers for the error rate of frequency shift keying -/
namespace Verif
set_option linter.unusedSectionVars false
open Spec MeasureTheory ProbabilityTheory Verif.Props

variable {Ω : Type} [MeasurableSpace Ω] {P : Measure Ω} {σ : ℝ} {w : ℕ → Ω → ℝ}

/-- White noise from some sample on is white noise. -/
theorem Spec.White.shift (h : White P σ w) (m : ℕ) : White P σ (fun j => w (m + j)) :=
  ⟨h.indep.precomp (g := fun j => m + j) (fun _ _ e => Nat.add_left_cancel e), fun j => h.law (m + j)⟩

/-- Two squared lengths of the noise in orthogonal planes, the first plane with an offset: the chance that the offset one is
the shorter. -/
theorem Spec.White.envelope (h : White P σ w) (hσ : 0 < σ) {k : ℕ} (a : Fin 4 → ℕ → ℝ) {K : ℝ} (hK : 0 < K)
    (ho : ∀ i j, i ≠ j → ∑ l ∈ Finset.range k, a i l * a j l = 0) (hn : ∀ i, ∑ l ∈ Finset.range k, a i l ^ 2 = K) (A : ℝ)
    (R : ℝ → ℝ → Prop) (hR : ∀ a b, a < b → R a b) (hR' : ∀ a b, R a b → a ≤ b)
    (hm : MeasurableSet {z : (ℝ × ℝ) × (ℝ × ℝ) | R ((A + z.1.1) ^ 2 + z.1.2 ^ 2) (z.2.1 ^ 2 + z.2.2 ^ 2)}) :
    P.real {ω | R ((A + proj k (a 0) w ω) ^ 2 + proj k (a 1) w ω ^ 2) (proj k (a 2) w ω ^ 2 + proj k (a 3) w ω ^ 2)}
      = Real.exp (-A ^ 2 / (4 * (σ ^ 2 * K))) / 2 := by
  have hP := h.prob
  have hi := h.proj_indep k a ho
  have hl : ∀ i, HasLaw (proj k (a i) w) (gaussianReal 0 (σ ^ 2 * K).toNNReal) P := fun i => by
    have := h.proj_law k (a i)
    rwa [hn i] at this
  have hae : ∀ i, AEMeasurable (proj k (a i) w) P := fun i => (hl i).aemeasurable
  have hv : (σ ^ 2 * K).toNNReal ≠ 0 := by
    have : 0 < σ ^ 2 * K := by positivity
    simpa using this
  have h01 : P.map (fun ω => (proj k (a 0) w ω, proj k (a 1) w ω))
      = (gaussianReal 0 (σ ^ 2 * K).toNNReal).prod (gaussianReal 0 (σ ^ 2 * K).toNNReal) := by
    rw [(indepFun_iff_map_prod_eq_prod_map_map (hae 0) (hae 1)).mp (hi.indepFun (by decide)), (hl 0).map_eq, (hl 1).map_eq]
  have h23 : P.map (fun ω => (proj k (a 2) w ω, proj k (a 3) w ω))
      = (gaussianReal 0 (σ ^ 2 * K).toNNReal).prod (gaussianReal 0 (σ ^ 2 * K).toNNReal) := by
    rw [(indepFun_iff_map_prod_eq_prod_map_map (hae 2) (hae 3)).mp (hi.indepFun (by decide)), (hl 2).map_eq, (hl 3).map_eq]
  have hq : IndepFun (fun ω => (proj k (a 0) w ω, proj k (a 1) w ω)) (fun ω => (proj k (a 2) w ω, proj k (a 3) w ω)) P :=
    hi.indepFun_prodMk_prodMk₀ hae 0 1 2 3 (by decide) (by decide) (by decide) (by decide)
  have hj := (indepFun_iff_map_prod_eq_prod_map_map ((hae 0).prodMk (hae 1)) ((hae 2).prodMk (hae 3))).mp hq
  rw [h01, h23] at hj
  have he := Verif.envelope hv A R hR hR' hm
  rw [← hj, Measure.map_apply_of_aemeasurable (((hae 0).prodMk (hae 1)).prodMk ((hae 2).prodMk (hae 3))) hm,
    Real.coe_toNNReal _ (by positivity)] at he
  rw [measureReal_def]
  refine (congrArg ENNReal.toReal he).trans ?_
  rw [ENNReal.toReal_ofReal (by positivity)]

/-- Tones of different frequencies. -/
theorem tones_other {u v : ℝ} {k : ℕ} {p q : ℤ} (h1 : k * (v + u) = p * (2 * Real.pi))
    (h2 : k * (v - u) = q * (2 * Real.pi)) (s1 : Real.sin ((v + u) / 2) ≠ 0) (s2 : Real.sin ((v - u) / 2) ≠ 0) (α β : ℝ) :
    ∑ j ∈ Finset.range k, Real.cos (α + v * j) * Real.cos (β + u * j) = 0 := by
  have a1 := sum_cos_period (a := α + β) h1 s1
  have a2 := sum_cos_period (a := α - β) h2 s2
  have : ∀ j : ℕ, Real.cos (α + v * j) * Real.cos (β + u * j)
      = (Real.cos (α + β + j * (v + u)) + Real.cos (α - β + j * (v - u))) / 2 := by
    intro j
    rw [show α + β + j * (v + u) = (α + v * j) + (β + u * j) by ring,
      show α - β + j * (v - u) = (α + v * j) - (β + u * j) by ring, Real.cos_add (α + v * j), Real.cos_sub (α + v * j)]
    ring
  simp only [this]
  rw [← Finset.sum_div, Finset.sum_add_distrib, a1, a2]; simp

/-- Tones of one frequency. -/
theorem tones_self {v : ℝ} {k : ℕ} {p : ℤ} (h : k * v = p * Real.pi) (hs : Real.sin v ≠ 0) (α β : ℝ) :
    ∑ j ∈ Finset.range k, Real.cos (α + v * j) * Real.cos (β + v * j) = k / 2 * Real.cos (α - β) := by
  have a1 := sum_cos_period (a := α + β) (k := k) (β := 2 * v) (p := p) (by linear_combination 2 * h)
    (by rwa [mul_div_cancel_left₀ v (two_ne_zero)])
  have : ∀ j : ℕ, Real.cos (α + v * j) * Real.cos (β + v * j)
      = (Real.cos (α + β + j * (2 * v)) + Real.cos (α - β)) / 2 := by
    intro j
    rw [show α + β + j * (2 * v) = (α + v * j) + (β + v * j) by ring,
      show α - β = (α + v * j) - (β + v * j) by ring, Real.cos_add (α + v * j), Real.cos_sub (α + v * j)]
    ring
  simp only [this]
  rw [← Finset.sum_div, Finset.sum_add_distrib, a1]
  simp
  ring

/-- The two tones of a block and what they must satisfy. -/
structure Tones (k : ℕ) (v u : ℝ) : Prop where
  self : ∃ p : ℤ, k * v = p * Real.pi
  self' : ∃ p : ℤ, k * u = p * Real.pi
  sin : Real.sin v ≠ 0
  sin' : Real.sin u ≠ 0
  add : ∃ p : ℤ, k * (v + u) = p * (2 * Real.pi)
  sub : ∃ p : ℤ, k * (v - u) = p * (2 * Real.pi)
  sinadd : Real.sin ((v + u) / 2) ≠ 0
  sinsub : Real.sin ((v - u) / 2) ≠ 0

theorem Tones.symm {k : ℕ} {v u : ℝ} (h : Tones k v u) : Tones k u v where
  self := h.self'
  self' := h.self
  sin := h.sin'
  sin' := h.sin
  add := by obtain ⟨p, hp⟩ := h.add; exact ⟨p, by rw [← hp]; ring⟩
  sub := by obtain ⟨p, hp⟩ := h.sub; exact ⟨-p, by push_cast; linear_combination -hp⟩
  sinadd := by rw [add_comm]; exact h.sinadd
  sinsub := by rw [show (u - v) / 2 = -((v - u) / 2) by ring, Real.sin_neg]; exact neg_ne_zero.mpr h.sinsub

/-- The four correlators of a block. -/
noncomputable def corr4 (θ v u : ℝ) : Fin 4 → ℕ → ℝ :=
  ![fun j => Real.cos (θ + v * j), fun j => Real.cos (θ - Real.pi / 2 + v * j), fun j => Real.cos (0 + u * j),
    fun j => Real.cos (0 - Real.pi / 2 + u * j)]

theorem Tones.orth {k : ℕ} {v u : ℝ} (h : Tones k v u) (θ : ℝ) (i j : Fin 4) (hij : i ≠ j) :
    ∑ l ∈ Finset.range k, corr4 θ v u i l * corr4 θ v u j l = 0 := by
  obtain ⟨p, hp⟩ := h.self
  obtain ⟨p', hp'⟩ := h.self'
  obtain ⟨q, hq⟩ := h.add
  obtain ⟨q', hq'⟩ := h.sub
  have o := tones_other hq hq' h.sinadd h.sinsub
  have s := tones_self hp h.sin
  have s' := tones_self hp' h.sin'
  have t : ∀ i j : Fin 4, i < j → ∑ l ∈ Finset.range k, corr4 θ v u i l * corr4 θ v u j l = 0 := by
    intro i j hij
    match i, j, hij with
    | 0, 1, _ => exact (s θ (θ - Real.pi / 2)).trans (by rw [sub_sub_cancel, Real.cos_pi_div_two, mul_zero])
    | 0, 2, _ => exact o θ 0
    | 0, 3, _ => exact o θ (0 - Real.pi / 2)
    | 1, 2, _ => exact o (θ - Real.pi / 2) 0
    | 1, 3, _ => exact o (θ - Real.pi / 2) (0 - Real.pi / 2)
    | 3, j, hij => exact absurd hij (by have := j.isLt; rw [Fin.lt_def]; simp only [Fin.isValue, Fin.coe_ofNat_eq_mod]; omega)
    | 2, 3, _ => exact (s' 0 (0 - Real.pi / 2)).trans (by rw [sub_sub_cancel, Real.cos_pi_div_two, mul_zero])
  rcases lt_or_gt_of_ne hij with hlt | hlt
  · exact t i j hlt
  · rw [← t j i hlt]
    exact Finset.sum_congr rfl fun l _ => mul_comm _ _

theorem Tones.norm {k : ℕ} {v u : ℝ} (h : Tones k v u) (θ : ℝ) (i : Fin 4) :
    ∑ l ∈ Finset.range k, corr4 θ v u i l ^ 2 = k / 2 := by
  obtain ⟨p, hp⟩ := h.self
  obtain ⟨p', hp'⟩ := h.self'
  have s := tones_self hp h.sin
  have s' := tones_self hp' h.sin'
  simp only [sq]
  have e : ∀ x : ℝ, (k : ℝ) / 2 * Real.cos (x - x) = k / 2 := fun x => by rw [sub_self, Real.cos_zero, mul_one]
  match i with
  | 0 => exact (s θ θ).trans (e _)
  | 1 => exact (s (θ - Real.pi / 2) (θ - Real.pi / 2)).trans (e _)
  | 2 => exact (s' 0 0).trans (e _)
  | 3 => exact (s' (0 - Real.pi / 2) (0 - Real.pi / 2)).trans (e _)

/-- The energies of a noisy tone at its own frequency and at the other one. -/
theorem Tones.energy {k : ℕ} {v u : ℝ} (h : Tones k v u) (m : ℕ) (z : ℕ → Ω → ℝ) (ω : Ω) :
    toneEnergy v k (fun j => Real.cos (v * (m + j : ℕ)) + z j ω)
        = (k / 2 + proj k (corr4 (v * m) v u 0) z ω) ^ 2 + proj k (corr4 (v * m) v u 1) z ω ^ 2 ∧
    toneEnergy u k (fun j => Real.cos (v * (m + j : ℕ)) + z j ω)
        = proj k (corr4 (v * m) v u 2) z ω ^ 2 + proj k (corr4 (v * m) v u 3) z ω ^ 2 := by
  have hn := h.norm (v * m) 0
  have o := h.orth (v * m) 0
  have o1 := o 1 (by decide)
  have o2 := o 2 (by decide)
  have o3 := o 3 (by decide)
  simp only [sq] at hn
  have c0 : ∀ j : ℕ, Real.cos (v * (m + j : ℕ)) = corr4 (v * m) v u 0 j := fun j => by
    simp only [corr4, Matrix.cons_val]; congr 1; push_cast; ring
  have e0 : ∀ j : ℕ, Real.cos (v * m + v * j) = corr4 (v * m) v u 0 j := fun j => by
    simp only [corr4, Matrix.cons_val]
  have e1 : ∀ j : ℕ, Real.sin (v * m + v * j) = corr4 (v * m) v u 1 j := fun j => by
    simp only [corr4, Matrix.cons_val]
    rw [← Real.cos_sub_pi_div_two]; congr 1; ring
  have e2 : ∀ j : ℕ, Real.cos (0 + u * j) = corr4 (v * m) v u 2 j := fun j => by
    simp only [corr4, Matrix.cons_val]
  have e3 : ∀ j : ℕ, Real.sin (0 + u * j) = corr4 (v * m) v u 3 j := fun j => by
    simp only [corr4, Matrix.cons_val]
    rw [← Real.cos_sub_pi_div_two]; congr 1; ring
  have sp : ∀ i, ∑ j ∈ Finset.range k, (corr4 (v * m) v u 0 j + z j ω) * corr4 (v * m) v u i j
      = ∑ j ∈ Finset.range k, corr4 (v * m) v u 0 j * corr4 (v * m) v u i j + proj k (corr4 (v * m) v u i) z ω := fun i => by
    unfold proj
    rw [← Finset.sum_add_distrib]
    exact Finset.sum_congr rfl fun j _ => by ring
  constructor
  · rw [← toneEnergy_shift v (v * m)]
    simp only [c0, e0, e1, sp, hn, o1]
    ring
  · rw [← toneEnergy_shift u 0]
    simp only [c0, e2, e3, sp, o2, o3]
    ring

/-- The tones of `tx_fsk` on an orthogonal carrier. -/
theorem tones_fsk {fs sym c : ℕ} (hsym : 0 < sym) (hc : 0 < c) (hdvd : sym ∣ fs) (hny : (41 * c * sym : ℕ) < fs) :
    Tones (fs / sym) (tone fs ((20 * c * sym : ℕ) : ℝ) true) (tone fs ((20 * c * sym : ℕ) : ℝ) false) := by
  have hfs : 0 < fs := by omega
  have hk : ((fs / sym : ℕ) : ℝ) * sym = fs := by exact_mod_cast Nat.div_mul_cancel hdvd
  have hfsR : (0 : ℝ) < fs := by exact_mod_cast hfs
  have hsymR : (0 : ℝ) < sym := by exact_mod_cast hsym
  have hcR : (0 : ℝ) < c := by exact_mod_cast hc
  have hnyR : (41 : ℝ) * c * sym < fs := by exact_mod_cast hny
  have hpi := Real.pi_pos
  have hwt : tone fs ((20 * c * sym : ℕ) : ℝ) true = 41 * Real.pi * (c * sym / fs) := by simp [tone]; ring
  have hwf : tone fs ((20 * c * sym : ℕ) : ℝ) false = 39 * Real.pi * (c * sym / fs) := by simp [tone]; ring
  have hr0 : 0 < (c : ℝ) * sym / fs := by positivity
  have hr1 : (c : ℝ) * sym / fs < 1 / 41 := by rw [div_lt_div_iff₀ hfsR (by norm_num)]; linarith
  have hkr : ((fs / sym : ℕ) : ℝ) * ((c : ℝ) * sym / fs) = c := by
    rw [mul_div_assoc', mul_comm (c : ℝ) (sym : ℝ), ← mul_assoc, hk, mul_div_assoc, mul_div_cancel₀ _ hfsR.ne']
  have hsin : ∀ x : ℝ, 0 < x → x < Real.pi → Real.sin x ≠ 0 := fun x h0 h1 => (Real.sin_pos_of_pos_of_lt_pi h0 h1).ne'
  rw [hwt, hwf]
  generalize (c : ℝ) * sym / fs = r at hr0 hr1 hkr
  constructor
  · exact ⟨41 * c, by push_cast; linear_combination 41 * Real.pi * hkr⟩
  · exact ⟨39 * c, by push_cast; linear_combination 39 * Real.pi * hkr⟩
  · exact hsin _ (by positivity) (by nlinarith)
  · exact hsin _ (by positivity) (by nlinarith)
  · exact ⟨40 * c, by push_cast; linear_combination 80 * Real.pi * hkr⟩
  · exact ⟨c, by push_cast; linear_combination 2 * Real.pi * hkr⟩
  · exact hsin _ (by positivity) (by nlinarith)
  · exact hsin _ (by nlinarith [mul_pos hpi hr0]) (by nlinarith)

/-- One noisy symbol: the chance that the wrong tone looks stronger. -/
theorem Tones.error (hw : White P σ w) (hσ : 0 < σ) {k : ℕ} (hk : 0 < k) {v u : ℝ} (h : Tones k v u) (m m' : ℕ) :
    P.real {ω | toneEnergy v k (fun j => Real.cos (v * (m + j : ℕ)) + w (m' + j) ω)
        < toneEnergy u k (fun j => Real.cos (v * (m + j : ℕ)) + w (m' + j) ω)} = Real.exp (-(k / 2 / (2 * σ ^ 2)) / 2) / 2 ∧
    P.real {ω | toneEnergy v k (fun j => Real.cos (v * (m + j : ℕ)) + w (m' + j) ω)
        ≤ toneEnergy u k (fun j => Real.cos (v * (m + j : ℕ)) + w (m' + j) ω)} = Real.exp (-(k / 2 / (2 * σ ^ 2)) / 2) / 2 := by
  have hkR : (0 : ℝ) < k := by exact_mod_cast hk
  have hE := h.energy m (fun j => w (m' + j))
  have hval : Real.exp (-((k : ℝ) / 2) ^ 2 / (4 * (σ ^ 2 * (k / 2)))) = Real.exp (-(k / 2 / (2 * σ ^ 2)) / 2) := by
    congr 1
    field_simp
    ring
  simp only [fun ω => (hE ω).1, fun ω => (hE ω).2, ← hval]
  constructor
  · refine (hw.shift m').envelope hσ (corr4 (v * m) v u) (by positivity) (h.orth _) (h.norm _) (k / 2) (fun a b => a < b)
      (fun _ _ h => h) (fun _ _ h => h.le) ?_
    exact measurableSet_lt (by fun_prop) (by fun_prop)
  · refine (hw.shift m').envelope hσ (corr4 (v * m) v u) (by positivity) (h.orth _) (h.norm _) (k / 2) (fun a b => a ≤ b)
      (fun _ _ h => h.le) (fun _ _ h => h) ?_
    exact measurableSet_le (by fun_prop) (by fun_prop)

/-- A receiver that decides symbol by symbol on a transmitted wave in independent noise. -/
theorem wave_memoryless (hi : iIndepFun w P) (hm : ∀ i, AEMeasurable (w i) P) {k : ℕ} (f : ℕ → Bool → ℕ → ℝ)
    (dec : ℕ → List ℝ → Bool)
    (hdec : ∀ n b, Measurable (fun z : Fin k → ℝ => dec n (List.ofFn (fun j : Fin k => f n b j + z j)))) (msg : List Bool) :
    Flips P msg (fun ω => msg.mapIdx (fun n b => dec n ((List.range k).map (fun j => f n b j + w (n * k + j) ω))))
      (fun n => P.real {ω | dec n ((List.range k).map (fun j => f n (msg.getD n false) j + w (n * k + j) ω)) ≠ msg.getD n false}) := by
  have hz : ∀ n b ω, (List.range k).map (fun j => f n b j + w (n * k + j) ω)
      = List.ofFn (fun j : Fin k => f n b j + noiseBlock k w n ω j) := by
    intro n b ω
    apply List.ext_getElem
    · simp
    · intro i h1 h2; simp [noiseBlock]
  simp only [hz]
  refine memoryless hi hm (fun n z => dec n (List.ofFn (fun j : Fin k => f n (msg.getD n false) j + z j))) (fun n => hdec n _) ?_ ?_
  · intro ω; simp
  · intro ω n hn
    rw [List.getElem?_mapIdx, List.getElem?_eq_getElem hn]
    simp only [Option.map_some, List.getD_eq_getElem?_getD, List.getElem?_eq_getElem hn, Option.getD_some]

/-- The decision of `rx_fsk` is measurable. -/
theorem rxFskChunk_meas (fs : ℕ) (fc : ℝ) (n k : ℕ) (s : ℕ → ℝ) :
    Measurable (fun z : Fin k → ℝ => rxFskChunk fs fc n (List.ofFn (fun j : Fin k => s j + z j))) := by
  have hg : ∀ j : ℕ, Measurable (fun z : Fin k → ℝ => (List.ofFn (fun j : Fin k => s j + z j)).getD j 0) := by
    intro j
    by_cases hj : j < k
    · have : (fun z : Fin k → ℝ => (List.ofFn (fun j : Fin k => s j + z j)).getD j 0) = fun z => s j + z ⟨j, hj⟩ := by
        funext z
        rw [List.getD_eq_getElem?_getD, List.getElem?_eq_getElem (by simpa using hj)]
        simp
      rw [this]; fun_prop
    · have : (fun z : Fin k → ℝ => (List.ofFn (fun j : Fin k => s j + z j)).getD j 0) = fun _ => 0 := by
        funext z
        rw [List.getD_eq_getElem?_getD, List.getElem?_eq_none (by simpa using hj)]
        rfl
      rw [this]; fun_prop
  have ht : ∀ v : ℝ, Measurable (fun z : Fin k → ℝ => toneEnergy v (List.ofFn (fun j : Fin k => s j + z j)).length
      (fun j => (List.ofFn (fun j : Fin k => s j + z j)).getD j 0)) := by
    intro v
    unfold toneEnergy
    simp only [List.length_ofFn]
    refine Measurable.add (Measurable.pow_const (Finset.measurable_fun_sum _ fun j _ => (hg j).mul_const _) _)
      (Measurable.pow_const (Finset.measurable_fun_sum _ fun j _ => (hg j).mul_const _) _)
  simp only [fskChunk_offset]
  refine measurable_to_bool ?_
  have : (fun z : Fin k → ℝ => decide (toneEnergy (tone fs fc false) (List.ofFn (fun j : Fin k => s j + z j)).length
        (fun j => (List.ofFn (fun j : Fin k => s j + z j)).getD j 0)
      ≤ toneEnergy (tone fs fc true) (List.ofFn (fun j : Fin k => s j + z j)).length
        (fun j => (List.ofFn (fun j : Fin k => s j + z j)).getD j 0))) ⁻¹' {true}
      = {z | toneEnergy (tone fs fc false) (List.ofFn (fun j : Fin k => s j + z j)).length
        (fun j => (List.ofFn (fun j : Fin k => s j + z j)).getD j 0)
      ≤ toneEnergy (tone fs fc true) (List.ofFn (fun j : Fin k => s j + z j)).length
        (fun j => (List.ofFn (fun j : Fin k => s j + z j)).getD j 0)} := by ext z; simp
  rw [this]
  exact measurableSet_le (ht _) (ht _)

end Verif
