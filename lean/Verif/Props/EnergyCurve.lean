import Verif.Lemmas.EnergyClt
import Verif.Props.NoiseEnergy

/-!
# Property C110: the error function curve of the energy detector

Exact arithmetic; `z` is white Gaussian noise of standard deviation one and the generator handed to `awgn` gives its samples.
-/
namespace Verif.Props
open Verif Spec MeasureTheory ProbabilityTheory Filter
set_option linter.unusedSectionVars false
variable {ι ν ρ : Type} {Ω : Type} [MeasurableSpace Ω] {P : Measure Ω} {σ : ℝ} {z w : ℕ → Ω → ℝ} [RIter ν ℝ] {noise : Ω → ν}

theorem energyDetector_iff {l : List ℝ} {n0 : ℝ} (h : 0 ≤ n0) : energyDetector l n0 = true ↔ n0 ^ 2 < avgEnergy l := by
  show Flt.lt n0 (Flt.sqrt (avgEnergy l)) = true ↔ _
  rw [Flt.lt_real, Flt.sqrt_real, decide_eq_true_eq, Real.lt_sqrt h]

/-- Silence: the chance that the energy of `N` samples exceeds `σ²` by `x` standard deviations, and the false alarms of the energy detector
with the corresponding threshold. -/
theorem C110_silence (hz : White P 1 z) (hσ : 0 < σ) (hg : ∀ ω, Gives (noise ω) (fun i => z i ω)) (x : ℝ) :
    ∃ rec : ℕ → Ω → List ℝ, (∀ N ω, (do let ch ← awgn (ofList (List.replicate N (0 : ℝ))) σ (noise ω); collect ch) = pure (rec N ω)) ∧
      Tendsto (fun N : ℕ => P.real {ω | σ ^ 2 * (1 + x * √(2 / N)) < avgEnergy (rec N ω)}) atTop (nhds (Erfc (x / √2) / 2)) ∧
      Tendsto (fun N : ℕ => P.real {ω | energyDetector (rec N ω) (σ * √(1 + x * √(2 / N))) = true}) atTop (nhds (Erfc (x / √2) / 2)) := by
  obtain ⟨w, hw, hn⟩ := hz.driven hg σ
  have h := hw.energy_clt hσ one_pos (s := fun _ => 0) (t := fun _ => 0) (p := 0) (fun _ => ⟨1, fun _ => Or.inl rfl⟩) (by simp) x
  simp only [mul_one, mul_zero, zero_mul, zero_add, add_zero] at h
  have h1 : Tendsto (fun N : ℕ => P.real {ω | σ ^ 2 * (1 + x * √(2 / N)) < avgEnergy ((List.range N).map (fun i => 0 + w i ω))}) atTop
      (nhds (Erfc (x / √2) / 2)) := by
    refine h.congr fun N => ?_
    have e : √(2 * σ ^ 4 / (N : ℝ)) = σ ^ 2 * √(2 / N) := by
      rw [show 2 * σ ^ 4 / (N : ℝ) = (σ ^ 2) ^ 2 * (2 / N) by ring, Real.sqrt_mul (by positivity), Real.sqrt_sq (by positivity)]
    simp only [avgEnergy_range, e]
    congr 1
    ext ω
    simp only [Set.mem_ofPred_eq, zero_add]
    rw [show σ ^ 2 + x * (σ ^ 2 * √(2 / N)) = σ ^ 2 * (1 + x * √(2 / N)) by ring]
  refine ⟨fun N ω => (List.range N).map (fun i => 0 + w i ω), fun N ω => ?_, h1, h1.congr' ?_⟩
  · rw [← run_range (σ := σ) hn (fun _ => 0) N ω]; simp
  · have h0 : Tendsto (fun N : ℕ => 1 + x * √(2 / N)) atTop (nhds (1 + x * √0)) :=
      tendsto_const_nhds.add (tendsto_const_nhds.mul ((Real.continuous_sqrt.tendsto _).comp (tendsto_const_div_atTop_nhds_zero_nat 2)))
    rw [Real.sqrt_zero, mul_zero, add_zero] at h0
    filter_upwards [h0.eventually_const_lt one_pos] with N hN
    congr 1
    ext ω
    show _ ↔ energyDetector _ _ = true
    rw [energyDetector_iff (by positivity), mul_pow, Real.sq_sqrt hN.le]
    rfl

theorem periodic_curve (hw : White P σ w) (hσ : 0 < σ) {k : ℕ} (hk : 0 < k) {A : Type} {f : ℕ → A → ℕ → ℝ} {c : ℕ → ℝ} {p : ℝ}
    (hf : ∀ n a, ∃ e : Equiv.Perm (Fin k), ∀ j : Fin k, f n a (e j) = c j ∨ f n a (e j) = -c j)
    (hp : ∑ j ∈ Finset.range k, c j ^ 2 = k * p) (g : ℕ → A) (x : ℝ) :
    Tendsto (fun N : ℕ => P.real {ω | p + σ ^ 2 + x * √((2 * σ ^ 4 + 4 * p * σ ^ 2) / (N * k : ℕ))
      < avgEnergy ((wave k f ((List.range N).map g)).mapIdx (fun i x => x + w i ω))}) atTop (nhds (Erfc (x / √2) / 2)) := by
  have h := hw.energy_clt hσ hk (s := fun i => f (i / k) (g (i / k)) (i % k)) (t := c) (p := p) (fun n => by
      obtain ⟨e, he⟩ := hf n (g n)
      refine ⟨e, fun j => ?_⟩
      have h1 : (n * k + (e j : ℕ)) / k = n := by rw [Nat.mul_comm, Nat.mul_add_div hk, Nat.div_eq_of_lt (e j).2, Nat.add_zero]
      have h2 : (n * k + (e j : ℕ)) % k = e j := by rw [Nat.mul_comm, Nat.mul_add_mod, Nat.mod_eq_of_lt (e j).2]
      rw [h1, h2]
      exact he j) hp x
  refine h.congr fun N => ?_
  congr 1
  ext ω
  simp only [Set.mem_ofPred_eq]
  have e : (wave k f ((List.range N).map g)).mapIdx (fun i x => x + w i ω)
      = (List.range (N * k)).map (fun i => f (i / k) (g (i / k)) (i % k) + w i ω) := by
    rw [wave_range hk]
    apply List.ext_getElem?
    intro i
    rw [List.getElem?_mapIdx, List.getElem?_map, List.getElem?_map]
    by_cases hi : i < N * k
    · rw [List.getElem?_range hi]; rfl
    · rw [List.getElem?_eq_none (by simpa using hi)]; rfl
  rw [e, avgEnergy_range]

theorem nrz_sign (b : Bool) (c : ℝ) : bitToNrz b * c = c ∨ bitToNrz b * c = -c := by
  rw [bitToNrz_real]; cases b <;> simp

theorem WholeHalf.carrier {fs k : ℕ} {f : ℝ} (hk : 0 < k) (h : WholeHalf fs k f) (n j : ℕ) :
    (Flt.cos (phase fs f (n * k + j)) : ℝ) = Flt.cos (phase fs f j) ∨ (Flt.cos (phase fs f (n * k + j)) : ℝ) = -Flt.cos (phase fs f j) := by
  obtain ⟨p, h1, -⟩ := h.dphi hk
  have e : (phase fs f (n * k + j) : ℝ) = phase fs f j + ((n * p : ℤ) : ℝ) * Real.pi := by
    rw [phase_real, phase_real]
    push_cast
    rw [add_mul, show (n : ℝ) * k * Verif.dphi fs f = n * (k * Verif.dphi fs f) by ring, h1]
    ring
  rw [e, Flt.cos_real, Flt.cos_real, Real.cos_add_int_mul_pi]
  rcases Int.even_or_odd (n * p : ℤ) with hp | hp
  · left; rw [hp.neg_one_zpow, one_mul]
  · right; rw [hp.neg_one_zpow]; ring

/-- BPSK transmissions with whole half periods per symbol: the chance that the energy measured over `N` bits exceeds its mean
`1/2 + σ²` by `x` standard deviations, whatever the message. -/
theorem C110_bpsk (hz : White P 1 z) (hσ : 0 < σ) (hg : ∀ ω, Gives (noise ω) (fun i => z i ω)) (g : ℕ → Bool)
    {fs sym : ℕ} {fc : ℝ} (hfs : fs < 2 ^ 64) (hdvd : sym ∣ fs) (hsps : 0 < fs / sym)
    (hfc : ⌊fc⌋₊ ≤ fs / 2) (hwh : WholeHalf fs (fs / sym) fc) (x : ℝ) :
    ∃ rec : ℕ → Ω → List ℝ, (∀ N ω, (do
        let s ← txBpsk (ofList ((List.range N).map g)) fs sym fc
        let ch ← awgn s σ (noise ω)
        collect ch) = pure (rec N ω)) ∧
      Tendsto (fun N : ℕ => P.real {ω | 1 / 2 + σ ^ 2 + x * √((2 * σ ^ 4 + 2 * σ ^ 2) / (N * (fs / sym) : ℕ)) < avgEnergy (rec N ω)}) atTop
        (nhds (Erfc (x / √2) / 2)) := by
  obtain ⟨w, hw, hn⟩ := hz.driven hg σ
  refine ⟨fun N ω => (wave (fs / sym) (fun n b j => bitToNrz b * Flt.cos (phase fs fc (n * (fs / sym) + j)))
    ((List.range N).map g)).mapIdx (fun i x => x + w i ω), fun N ω => ?_, ?_⟩
  · obtain ⟨it, h1, h2⟩ := txBpsk_ok (yields_ofList ((List.range N).map g)) (fc := fc) hsps (by rw [Flt.toNat_real]; omega)
      ((isInt_real hfs (pos_of_sps hsps)).mpr hdvd)
    obtain ⟨ch, c1, c2⟩ := awgn_driven h2 (hn ω)
    rw [h1, LawfulMonad.pure_bind, c1, LawfulMonad.pure_bind, collect_of_yields c2]
  · have := periodic_curve hw hσ hsps (f := fun n b j => bitToNrz b * Flt.cos (phase fs fc (n * (fs / sym) + j)))
      (c := fun j => Flt.cos (phase fs fc j)) (p := 1 / 2) (fun n b => ⟨1, fun j => by
        rw [Equiv.Perm.one_apply]
        rcases nrz_sign b (Flt.cos (phase fs fc (n * (fs / sym) + j))) with h1 | h1 <;>
          rcases hwh.carrier hsps n j with h2 | h2 <;> rw [h1, h2] <;> simp⟩) (by
        have := hwh.cos_energy hsps 0
        simp only [Nat.zero_add] at this
        rw [this]; ring) g x
    rw [show 4 * (1 / 2 : ℝ) * σ ^ 2 = 2 * σ ^ 2 by ring] at this
    exact this

/-- Spreading does not change the curve. -/
theorem C110_cdma (hz : White P 1 z) (hσ : 0 < σ) (hg : ∀ ω, Gives (noise ω) (fun i => z i ω)) (g : ℕ → Bool)
    {fs sym : ℕ} {fc : ℝ} {key : List Bool} (hfs : fs < 2 ^ 64) (hsym : 0 < sym)
    (hkey : key ≠ []) (hdvd : sym * key.length ∣ fs) (hnyq : 2 * (sym * key.length) ≤ fs) (hfc : ⌊fc⌋₊ ≤ fs / 2)
    (hwh : WholeHalf fs (fs / sym) fc) (x : ℝ) :
    ∃ rec : ℕ → Ω → List ℝ, (∀ N ω, (do
        let s ← txCdmaBpsk (ofList ((List.range N).map g)) fs sym fc key
        let ch ← awgn s σ (noise ω)
        collect ch) = pure (rec N ω)) ∧
      Tendsto (fun N : ℕ => P.real {ω | 1 / 2 + σ ^ 2 + x * √((2 * σ ^ 4 + 2 * σ ^ 2) / (N * (fs / sym) : ℕ)) < avgEnergy (rec N ω)}) atTop
        (nhds (Erfc (x / √2) / 2)) := by
  obtain ⟨w, hw, hn⟩ := hz.driven hg σ
  have hok := (cdmaOk_real (fc := fc) hfs).mpr ⟨hsym, List.length_pos_iff.mpr hkey, hdvd, hnyq, hfc⟩
  have h1 := hok.sps
  have h3 := hok.key_pos
  have hsps : 0 < fs / sym := by omega
  refine ⟨fun N ω => (wave (fs / sym) (fun n b j => bitToNrz b * Flt.cos (phase fs fc (n * (fs / sym) + j))
    * bitToNrz (keyBit key (fs / sym / key.length) (n * (fs / sym) + j))) ((List.range N).map g)).mapIdx (fun i x => x + w i ω),
    fun N ω => ?_, ?_⟩
  · obtain ⟨it, e1, e2⟩ := txCdmaBpsk_ok (yields_ofList ((List.range N).map g)) hok
    obtain ⟨ch, c1, c2⟩ := awgn_driven e2 (hn ω)
    rw [e1, LawfulMonad.pure_bind, c1, LawfulMonad.pure_bind, collect_of_yields c2, mapIdx_wave]
  · have := periodic_curve hw hσ hsps (f := fun n b j => bitToNrz b * Flt.cos (phase fs fc (n * (fs / sym) + j))
        * bitToNrz (keyBit key (fs / sym / key.length) (n * (fs / sym) + j)))
      (c := fun j => Flt.cos (phase fs fc j)) (p := 1 / 2) (fun n b => ⟨1, fun j => by
        rw [Equiv.Perm.one_apply, mul_comm _ (bitToNrz (keyBit key (fs / sym / key.length) (n * (fs / sym) + j)))]
        rcases nrz_sign (keyBit key (fs / sym / key.length) (n * (fs / sym) + j))
            (bitToNrz b * Flt.cos (phase fs fc (n * (fs / sym) + j))) with h0 | h0 <;>
          rcases nrz_sign b (Flt.cos (phase fs fc (n * (fs / sym) + j))) with h1 | h1 <;>
          rcases hwh.carrier hsps n j with h2 | h2 <;> rw [h0, h1, h2] <;> simp⟩) (by
        have := hwh.cos_energy hsps 0
        simp only [Nat.zero_add] at this
        rw [this]; ring) g x
    rw [show 4 * (1 / 2 : ℝ) * σ ^ 2 = 2 * σ ^ 2 by ring] at this
    exact this

/-- The samples of a symbol in reverse order, the first one fixed. -/
def reverseOrder {k : ℕ} (hk : 0 < k) : Equiv.Perm (Fin k) :=
  Function.Involutive.toPerm (fun j => ⟨(k - j) % k, Nat.mod_lt _ hk⟩) (by
    intro j
    apply Fin.ext
    show (k - (k - (j : ℕ)) % k) % k = j
    rcases Nat.eq_zero_or_pos (j : ℕ) with h | h
    · rw [h, Nat.sub_zero, Nat.mod_self, Nat.sub_zero, Nat.mod_self]
    · have := j.2
      rw [Nat.mod_eq_of_lt (by omega : k - (j : ℕ) < k), Nat.mod_eq_of_lt (by omega : k - (k - (j : ℕ)) < k)]
      omega)

/-- Every QPSK symbol is the same one up to the order and the signs of its samples. -/
theorem WholeHalf.qpsk_symbol {fs k : ℕ} {f : ℝ} (hk : 0 < k) (h : WholeHalf fs k f) (n : ℕ) (x y : Bool) :
    ∃ e : Equiv.Perm (Fin k), ∀ j : Fin k,
      (bitToNrz x * Flt.cos (phase fs f (n * k + e j)) + -(bitToNrz y) * Flt.sin (phase fs f (n * k + e j)) : ℝ)
        = Flt.cos (phase fs f j) - Flt.sin (phase fs f j) ∨
      (bitToNrz x * Flt.cos (phase fs f (n * k + e j)) + -(bitToNrz y) * Flt.sin (phase fs f (n * k + e j)) : ℝ)
        = -(Flt.cos (phase fs f j) - Flt.sin (phase fs f j)) := by
  obtain ⟨p, h1, -⟩ := h.dphi hk
  simp only [phase_real, Flt.cos_real, Flt.sin_real, bitToNrz_real]
  generalize Verif.dphi fs f = φ at h1
  have turn : ∀ (m : ℤ) (θ : ℝ), ∃ u : ℝ, (u = 1 ∨ u = -1) ∧ Real.cos (θ + m * Real.pi) = u * Real.cos θ ∧ Real.sin (θ + m * Real.pi) = u * Real.sin θ := by
    intro m θ
    refine ⟨(-1) ^ m, ?_, Real.cos_add_int_mul_pi θ m, Real.sin_add_int_mul_pi θ m⟩
    rcases Int.even_or_odd m with hp | hp
    · left; exact hp.neg_one_zpow
    · right; exact hp.neg_one_zpow
  have same : ∀ j : ℕ, ∃ u : ℝ, (u = 1 ∨ u = -1) ∧ Real.cos ((n * k + j : ℕ) * φ) = u * Real.cos (j * φ) ∧ Real.sin ((n * k + j : ℕ) * φ) = u * Real.sin (j * φ) := by
    intro j
    have e : ((n * k + j : ℕ) : ℝ) * φ = j * φ + ((n * p : ℤ) : ℝ) * Real.pi := by
      push_cast
      rw [add_mul, show (n : ℝ) * k * φ = n * (k * φ) by ring, h1]
      ring
    rw [e]
    exact turn _ _
  have back : ∀ j : Fin k, ∃ u : ℝ, (u = 1 ∨ u = -1) ∧ Real.cos ((reverseOrder hk j : ℕ) * φ) = u * Real.cos (j * φ) ∧
      Real.sin ((reverseOrder hk j : ℕ) * φ) = -(u * Real.sin (j * φ)) := by
    intro j
    have hr : (reverseOrder hk j : ℕ) = (k - (j : ℕ)) % k := rfl
    rw [hr]
    rcases Nat.eq_zero_or_pos (j : ℕ) with h0 | h0
    · exact ⟨1, Or.inl rfl, by simp [h0], by simp [h0]⟩
    · have := j.2
      rw [Nat.mod_eq_of_lt (by omega : k - (j : ℕ) < k)]
      have e : ((k - (j : ℕ) : ℕ) : ℝ) * φ = -(j * φ) + (p : ℝ) * Real.pi := by
        rw [Nat.cast_sub (by omega), sub_mul, h1]; ring
      rw [e]
      obtain ⟨u, hu, e1, e2⟩ := turn p (-(j * φ))
      exact ⟨u, hu, by rw [e1, Real.cos_neg], by rw [e2, Real.sin_neg]; ring⟩
  by_cases hxy : x = y
  · subst hxy
    refine ⟨1, fun j => ?_⟩
    rw [Equiv.Perm.one_apply]
    obtain ⟨u, hu, e1, e2⟩ := same j
    rw [e1, e2]
    rcases hu with rfl | rfl <;> cases x <;> simp <;> ring_nf <;> simp
  · refine ⟨reverseOrder hk, fun j => ?_⟩
    obtain ⟨u, hu, e1, e2⟩ := same (reverseOrder hk j)
    obtain ⟨v, hv, e3, e4⟩ := back j
    rw [e1, e2, e3, e4]
    rcases hu with rfl | rfl <;> rcases hv with rfl | rfl <;> cases x <;> cases y <;> simp at hxy ⊢ <;> ring_nf <;> simp

theorem pairs_range {A : Type} (g : ℕ → A) (N : ℕ) : pairs ((List.range (2 * N)).map g) = (List.range N).map (fun n => (g (2 * n), g (2 * n + 1))) := by
  induction N generalizing g with
  | zero => rfl
  | succ N ih =>
    rw [show 2 * (N + 1) = 2 * N + 1 + 1 by ring, List.range_succ_eq_map, List.range_succ_eq_map, List.range_succ_eq_map]
    simp only [List.map_cons, List.map_map]
    rw [pairs]
    congr 1
    exact ih (fun i => g (i + 2))

theorem wholeHalf_power {fs k : ℕ} {f : ℝ} (hk : 0 < k) (h : WholeHalf fs k f) :
    ∑ j ∈ Finset.range k, ((Flt.cos (phase fs f j) : ℝ) - Flt.sin (phase fs f j)) ^ 2 = k * 1 := by
  have := h.qpsk_energy hk 0 true true
  rw [mul_one, ← this]
  refine Finset.sum_congr rfl fun j _ => ?_
  rw [bitToNrz_real, Nat.zero_add]
  simp
  ring

/-- QPSK transmissions: unit power. -/
theorem C110_qpsk (hz : White P 1 z) (hσ : 0 < σ) (hg : ∀ ω, Gives (noise ω) (fun i => z i ω)) (g : ℕ → Bool)
    {fs sym : ℕ} {fc : ℝ} (hsps : 0 < fs / sym) (hwh : WholeHalf fs (fs / sym) fc) (x : ℝ) :
    ∃ rec : ℕ → Ω → List ℝ, (∀ N ω, (do
        let s ← txQpsk (ofList ((List.range (2 * N)).map g)) fs sym fc
        let ch ← awgn s σ (noise ω)
        collect ch) = pure (rec N ω)) ∧
      Tendsto (fun N : ℕ => P.real {ω | 1 + σ ^ 2 + x * √((2 * σ ^ 4 + 4 * σ ^ 2) / (N * (fs / sym) : ℕ)) < avgEnergy (rec N ω)}) atTop
        (nhds (Erfc (x / √2) / 2)) := by
  obtain ⟨w, hw, hn⟩ := hz.driven hg σ
  refine ⟨fun N ω => (wave (fs / sym) (fun n (p : Bool × Bool) j => bitToNrz p.1 * Flt.cos (phase fs fc (n * (fs / sym) + j))
    + -(bitToNrz p.2) * Flt.sin (phase fs fc (n * (fs / sym) + j))) ((List.range N).map (fun n => (g (2 * n), g (2 * n + 1))))).mapIdx
      (fun i x => x + w i ω), fun N ω => ?_, ?_⟩
  · obtain ⟨it, h1, h2⟩ := txQpsk_ok (yields_ofList ((List.range (2 * N)).map g)) (fc := fc) hsps
    obtain ⟨ch, c1, c2⟩ := awgn_driven h2 (hn ω)
    rw [h1, LawfulMonad.pure_bind, c1, LawfulMonad.pure_bind, collect_of_yields c2, pairs_range]
  · have := periodic_curve hw hσ hsps (f := fun n (p : Bool × Bool) j => bitToNrz p.1 * Flt.cos (phase fs fc (n * (fs / sym) + j))
        + -(bitToNrz p.2) * Flt.sin (phase fs fc (n * (fs / sym) + j)))
      (c := fun j => Flt.cos (phase fs fc j) - Flt.sin (phase fs fc j)) (p := 1) (fun n b => hwh.qpsk_symbol hsps n b.1 b.2)
      (wholeHalf_power hsps hwh) (fun n => (g (2 * n), g (2 * n + 1))) x
    rw [mul_one] at this
    exact this

/-- Spreading does not change the curve of QPSK. -/
theorem C110_cdma_qpsk (hz : White P 1 z) (hσ : 0 < σ) (hg : ∀ ω, Gives (noise ω) (fun i => z i ω)) (g : ℕ → Bool)
    {fs sym : ℕ} {fc : ℝ} {key : List Bool} (hfs : fs < 2 ^ 64) (hsym : 0 < sym)
    (hkey : key ≠ []) (hdvd : sym * key.length ∣ fs) (hnyq : 2 * (sym * key.length) ≤ fs) (hfc : ⌊fc⌋₊ ≤ fs / 2)
    (hwh : WholeHalf fs (fs / sym) fc) (x : ℝ) :
    ∃ rec : ℕ → Ω → List ℝ, (∀ N ω, (do
        let s ← txCdmaQpsk (ofList ((List.range (2 * N)).map g)) fs sym fc key
        let ch ← awgn s σ (noise ω)
        collect ch) = pure (rec N ω)) ∧
      Tendsto (fun N : ℕ => P.real {ω | 1 + σ ^ 2 + x * √((2 * σ ^ 4 + 4 * σ ^ 2) / (N * (fs / sym) : ℕ)) < avgEnergy (rec N ω)}) atTop
        (nhds (Erfc (x / √2) / 2)) := by
  obtain ⟨w, hw, hn⟩ := hz.driven hg σ
  have hok := (cdmaOk_real (fc := fc) hfs).mpr ⟨hsym, List.length_pos_iff.mpr hkey, hdvd, hnyq, hfc⟩
  have h1 := hok.sps
  have h3 := hok.key_pos
  have hsps : 0 < fs / sym := by omega
  refine ⟨fun N ω => (wave (fs / sym) (fun n (p : Bool × Bool) j => (bitToNrz p.1 * Flt.cos (phase fs fc (n * (fs / sym) + j))
    + -(bitToNrz p.2) * Flt.sin (phase fs fc (n * (fs / sym) + j))) * bitToNrz (keyBit key (fs / sym / key.length) (n * (fs / sym) + j)))
      ((List.range N).map (fun n => (g (2 * n), g (2 * n + 1))))).mapIdx (fun i x => x + w i ω), fun N ω => ?_, ?_⟩
  · obtain ⟨it, e1, e2⟩ := txCdmaQpsk_ok (yields_ofList ((List.range (2 * N)).map g)) hok
    obtain ⟨ch, c1, c2⟩ := awgn_driven e2 (hn ω)
    rw [e1, LawfulMonad.pure_bind, c1, LawfulMonad.pure_bind, collect_of_yields c2, mapIdx_wave, pairs_range]
  · have := periodic_curve hw hσ hsps (f := fun n (p : Bool × Bool) j => (bitToNrz p.1 * Flt.cos (phase fs fc (n * (fs / sym) + j))
        + -(bitToNrz p.2) * Flt.sin (phase fs fc (n * (fs / sym) + j))) * bitToNrz (keyBit key (fs / sym / key.length) (n * (fs / sym) + j)))
      (c := fun j => Flt.cos (phase fs fc j) - Flt.sin (phase fs fc j)) (p := 1) (fun n b => by
        obtain ⟨e, he⟩ := hwh.qpsk_symbol hsps n b.1 b.2
        refine ⟨e, fun j => ?_⟩
        rw [mul_comm]
        rcases nrz_sign (keyBit key (fs / sym / key.length) (n * (fs / sym) + e j)) (bitToNrz b.1 * Flt.cos (phase fs fc (n * (fs / sym) + e j))
          + -(bitToNrz b.2) * Flt.sin (phase fs fc (n * (fs / sym) + e j))) with h0 | h0 <;> rcases he j with h2 | h2 <;> rw [h0, h2] <;> simp)
      (wholeHalf_power hsps hwh) (fun n => (g (2 * n), g (2 * n + 1))) x
    rw [mul_one] at this
    exact this

/-- A threshold set for any limiting rate of false alarms lets the detector see every transmission, in the long run. -/
theorem C110_power (hz : White P 1 z) (hσ : 0 < σ) (hg : ∀ ω, Gives (noise ω) (fun i => z i ω)) {s : ℕ → ℝ} {B E : ℝ}
    (hs : ∀ i, |s i| ≤ B) (hE : Tendsto (fun N => avgEnergy ((List.range N).map s)) atTop (nhds E)) (hE0 : 0 < E) (x : ℝ) :
    ∃ rec : ℕ → Ω → List ℝ, (∀ N ω, (do let ch ← awgn (ofList ((List.range N).map s)) σ (noise ω); collect ch) = pure (rec N ω)) ∧
      ∀ᵐ ω ∂P, ∀ᶠ N : ℕ in atTop, energyDetector (rec N ω) (σ * √(1 + x * √(2 / N))) = true := by
  obtain ⟨rec, r1, r2⟩ := C104_limit hz hσ hg hs hE
  refine ⟨rec, r1, ?_⟩
  have h0 : Tendsto (fun N : ℕ => 1 + x * √(2 / N)) atTop (nhds (1 + x * √0)) :=
    tendsto_const_nhds.add (tendsto_const_nhds.mul ((Real.continuous_sqrt.tendsto _).comp (tendsto_const_div_atTop_nhds_zero_nat 2)))
  rw [Real.sqrt_zero, mul_zero, add_zero] at h0
  have h1 := (h0.const_mul (σ ^ 2))
  rw [mul_one] at h1
  filter_upwards [r2] with ω hω
  filter_upwards [h0.eventually_const_lt one_pos, h1.eventually_lt hω (by linarith)] with N hN hlt
  rw [energyDetector_iff (by positivity), mul_pow, Real.sq_sqrt hN.le]
  exact hlt

/-! ### Cases -/

/-- Half of the recordings of noise are above its variance, in the limit. -/
example : ∃ rec : ℕ → (ℕ → ℝ) → List ℝ, (∀ N ω, (do let ch ← awgn (ofList (List.replicate N (0 : ℝ))) (2 : ℝ) (path ω); collect ch) = pure (rec N ω)) ∧
      Tendsto (fun N : ℕ => (gaussPath 1).real {ω | 2 ^ 2 < avgEnergy (rec N ω)}) atTop (nhds (1 / 2)) := by
  obtain ⟨rec, r1, r2, -⟩ := C110_silence (σ := 2) (white_path 1) (by norm_num) path_gives 0
  refine ⟨rec, r1, ?_⟩
  rw [zero_div, Erfc_zero] at r2
  simpa using r2

/-- The radiometer test of tests/billiam.rs: 43200 Hz, 900 symbols per second, carrier 1800 Hz, unit noise: the curve is centred at 1.5. -/
example : ∃ rec : ℕ → (ℕ → ℝ) → List ℝ, (∀ N ω, (do
        let s ← txBpsk (ofList ((List.range N).map (fun n => decide (n % 3 = 0)))) 43200 900 (1800 : ℝ)
        let ch ← awgn s (1 : ℝ) (path ω)
        collect ch) = pure (rec N ω)) ∧
      Tendsto (fun N : ℕ => (gaussPath 1).real {ω | 1 / 2 + 1 ^ 2 + 1 * √((2 * 1 ^ 4 + 2 * 1 ^ 2) / (N * (43200 / 900) : ℕ)) < avgEnergy (rec N ω)}) atTop
        (nhds (Erfc (1 / √2) / 2)) :=
  C110_bpsk (white_path 1) one_pos path_gives _ (by norm_num) (by norm_num) (by norm_num) (by norm_num)
    (WholeHalf.of_nat (f := 1800) (p := 4) (by norm_num) (by norm_num)) 1

/-- QPSK at the rates of tests/billiam.rs in unit noise: the curve is centred at 2. -/
example : ∃ rec : ℕ → (ℕ → ℝ) → List ℝ, (∀ N ω, (do
        let s ← txQpsk (ofList ((List.range (2 * N)).map (fun n => decide (n % 3 = 0)))) 43200 900 (1800 : ℝ)
        let ch ← awgn s (1 : ℝ) (path ω)
        collect ch) = pure (rec N ω)) ∧
      Tendsto (fun N : ℕ => (gaussPath 1).real {ω | 2 < avgEnergy (rec N ω)}) atTop (nhds (1 / 2)) := by
  obtain ⟨rec, r1, r2⟩ := C110_qpsk (white_path 1) one_pos path_gives (fun n => decide (n % 3 = 0)) (fs := 43200) (sym := 900) (fc := (1800 : ℕ)) (by norm_num)
    (WholeHalf.of_nat (f := 1800) (p := 4) (by norm_num) (by norm_num)) 0
  refine ⟨rec, by simpa using r1, ?_⟩
  rw [zero_div, Erfc_zero] at r2
  refine (r2.congr fun N => ?_).trans (by norm_num)
  norm_num

example : ∃ rec : ℕ → (ℕ → ℝ) → List ℝ, (∀ N ω, (do
        let s ← txCdmaBpsk (ofList ((List.range N).map (fun n => decide (n % 3 = 0)))) 16000 1000 (2000 : ℝ) [true, false]
        let ch ← awgn s (1 : ℝ) (path ω)
        collect ch) = pure (rec N ω)) ∧
      Tendsto (fun N : ℕ => (gaussPath 1).real {ω | 1 / 2 + 1 ^ 2 + 2 * √((2 * 1 ^ 4 + 2 * 1 ^ 2) / (N * (16000 / 1000) : ℕ)) < avgEnergy (rec N ω)}) atTop
        (nhds (Erfc (2 / √2) / 2)) :=
  C110_cdma (white_path 1) one_pos path_gives _ (by norm_num) (by norm_num) (by simp) (by norm_num) (by norm_num) (by norm_num)
    (WholeHalf.of_nat (f := 2000) (p := 4) (by norm_num) (by norm_num)) 2

example : ∃ rec : ℕ → (ℕ → ℝ) → List ℝ,
      (∀ N ω, (do let ch ← awgn (ofList ((List.range N).map (fun _ => (1 : ℝ)))) (3 : ℝ) (path ω); collect ch) = pure (rec N ω)) ∧
      ∀ᵐ ω ∂(gaussPath 1), ∀ᶠ N : ℕ in atTop, energyDetector (rec N ω) (3 * √(1 + 5 * √(2 / N))) = true :=
  C110_power (E := 1) (B := 1) (white_path 1) (by norm_num) path_gives (by simp) (by
    refine tendsto_const_nhds.congr' ?_
    filter_upwards [eventually_gt_atTop 0] with N hN
    have : (N : ℝ) ≠ 0 := by positivity
    rw [avgEnergy_range]; simp [this]) one_pos 5

/-- Spread QPSK at the rates of tests/billiam.rs in unit noise: the curve is centred at 2. -/
example : ∃ rec : ℕ → (ℕ → ℝ) → List ℝ, (∀ N ω, (do
        let s ← txCdmaQpsk (ofList ((List.range (2 * N)).map (fun n => decide (n % 3 = 0)))) 43200 900 (1800 : ℝ) [true, false, false]
        let ch ← awgn s (1 : ℝ) (path ω)
        collect ch) = pure (rec N ω)) ∧
      Tendsto (fun N : ℕ => (gaussPath 1).real {ω | 2 < avgEnergy (rec N ω)}) atTop (nhds (1 / 2)) := by
  obtain ⟨rec, r1, r2⟩ := C110_cdma_qpsk (white_path 1) one_pos path_gives (fun n => decide (n % 3 = 0)) (fs := 43200) (sym := 900) (fc := (1800 : ℕ)) (key := [true, false, false])
    (by norm_num) (by norm_num) (by simp) (by decide) (by norm_num) (by rw [Nat.floor_natCast]; norm_num)
    (WholeHalf.of_nat (f := 1800) (p := 4) (by norm_num) (by norm_num)) 0
  refine ⟨rec, by simpa using r1, ?_⟩
  rw [zero_div, Erfc_zero] at r2
  refine (r2.congr fun N => ?_).trans (by norm_num)
  norm_num

end Verif.Props
