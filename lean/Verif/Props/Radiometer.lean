import Verif.Lemmas.Radiometer
import Verif.Props.EnergyCurve
import Verif.Model.KomPyBer

/-!
# Property C116: the radiometer's operating curve

`energy_detector` of the Python module (the level of a recording in dB, the "radiometer" of kom_py/lambdas.py) and `energy_detector` of
src/willie.rs, on recordings of any length.  Exact arithmetic; `z` is white Gaussian noise of standard deviation one (Spec/Gauss), and the
generator handed to `awgn` and `pure_awgn` gives its samples.
-/
namespace Verif.Props
open Verif Spec MeasureTheory ProbabilityTheory Filter
set_option linter.unusedSectionVars false
variable {ι ν ν' ρ : Type} {Ω : Type} [MeasurableSpace Ω] {P : Measure Ω} {σ σ' : ℝ} {z y : ℕ → Ω → ℝ} [RIter ν ℝ] {noise : Ω → ν}
  [RIter ν' ℝ] {hiss : Ω → ν'}

theorem mapIdx_range {B : Type} (l : List ℝ) (f : ℕ → ℝ → B) : l.mapIdx f = (List.range l.length).map (fun i => f i (l.getD i 0)) := by
  apply List.ext_getElem?
  intro i
  rw [List.getElem?_mapIdx, List.getElem?_map]
  by_cases hi : i < l.length
  · rw [List.getElem?_range hi, List.getElem?_eq_getElem hi, Option.map_some, Option.map_some, List.getD_eq_getElem?_getD, List.getElem?_eq_getElem hi]; rfl
  · rw [List.getElem?_eq_none (by omega), List.getElem?_eq_none (by simpa using hi)]; rfl

theorem energy_vec {l : List ℝ} {N : ℕ} (hN : l.length = N) (σ : ℝ) : ‖vec N (fun i => l.getD i 0 / σ)‖ ^ 2 = (l.map (· ^ 2)).sum / σ ^ 2 := by
  subst hN
  have e : l.map (· ^ 2) = (List.range l.length).map (fun i => l.getD i 0 ^ 2) := by
    rw [← mapIdx_range l (fun _ x => x ^ 2)]
    apply List.ext_getElem?
    intro i
    rw [List.getElem?_mapIdx, List.getElem?_map]
  rw [vec_norm, e, ← rsum_eq_sum, rsum_range, Finset.sum_div]
  exact Finset.sum_congr rfl fun i _ => div_pow _ _ _

/-- The level in dB. -/
theorem db_range (f : ℕ → ℝ) (N : ℕ) : energyDetectorDb ((List.range N).map f) = 10 * Real.logb 10 (∑ i ∈ Finset.range N, f i ^ 2) := by
  unfold energyDetectorDb
  rw [List.map_map, rsum_range, Flt.log10_real, Flt.ofNat_real, Nat.cast_ofNat]
  congr 2
  exact Finset.sum_congr rfl fun i _ => (sq (f i)).symm

theorem db_above (hz : White P 1 z) (hσ : 0 < σ) {l : List ℝ} {N : ℕ} (hN : l.length = N) (hl : 0 < N) (x : ℝ) :
    P.real {ω | x < energyDetectorDb (l.mapIdx (fun i s => s + (0 + σ * z i ω)))} =
      above (vec N (fun i => l.getD i 0 / σ)) ((10 : ℝ) ^ (x / 10) / σ ^ 2) := by
  subst hN
  rw [← hz.energy_above hσ]
  apply measureReal_congr
  filter_upwards [hz.energy_ne hσ hl (fun i => l.getD i 0) 0] with ω hω
  have hp : 0 < ∑ i ∈ Finset.range l.length, (l.getD i 0 + σ * z i ω) ^ 2 :=
    lt_of_le_of_ne (Finset.sum_nonneg fun i _ => sq_nonneg _) (Ne.symm hω)
  show (x < energyDetectorDb _) = ((10 : ℝ) ^ (x / 10) < _)
  rw [mapIdx_range, db_range]
  simp only [zero_add]
  rw [← Real.lt_logb_iff_rpow_lt (by norm_num) hp, div_lt_iff₀ (by norm_num), mul_comm]

theorem quiet_mapIdx (N : ℕ) (g : ℕ → ℝ) : (List.range N).map (fun i => 0 + g i) = (List.replicate N (0 : ℝ)).mapIdx (fun i s => s + (0 + g i)) := by
  rw [mapIdx_range, List.length_replicate]
  refine List.map_congr_left fun i hi => ?_
  rw [List.getD_replicate (h := by simpa using hi), zero_add, zero_add]

theorem vec_silence (N : ℕ) (σ : ℝ) : vec N (fun i => (List.replicate N (0 : ℝ)).getD i 0 / σ) = 0 := by
  ext i
  show (List.replicate N (0 : ℝ)).getD i 0 / σ = 0
  rw [List.getD_replicate (h := i.2), zero_div]

theorem db_quiet (hz : White P 1 z) (hσ : 0 < σ) {N : ℕ} (hN : 0 < N) (x : ℝ) :
    P.real {ω | x < energyDetectorDb ((List.range N).map (fun i => 0 + σ * z i ω))} =
      above (0 : EuclideanSpace ℝ (Fin N)) ((10 : ℝ) ^ (x / 10) / σ ^ 2) := by
  simp only [quiet_mapIdx]
  rw [db_above hz hσ (List.length_replicate ..) hN, vec_silence]

/-- Silence and a recording of the same length, each with white noise of standard deviation `σ`. -/
structure Watched (noise : Ω → ν) (σ : ℝ) (l : List ℝ) (quiet busy : Ω → List ℝ) : Prop where
  quiet : ∀ ω, pureAwgn l.length σ (noise ω) = pure (quiet ω)
  busy : ∀ ω, awgnPy l σ (noise ω) = pure (busy ω)

theorem watched (hg : ∀ ω, Gives (noise ω) (fun i => z i ω)) (σ : ℝ) (l : List ℝ) : Watched noise σ l
    (fun ω => (List.range l.length).map (fun i => 0 + σ * z i ω)) (fun ω => l.mapIdx (fun i s => s + (0 + σ * z i ω))) where
  quiet ω := C56_pure_awgn l.length (hg ω) σ rfl
  busy ω := C56_awgn_py l (hg ω) σ rfl

/-- A signal is reported more often than silence, whatever the threshold: the operating curve lies strictly above the diagonal. -/
theorem C116_roc (hz : White P 1 z) (hσ : 0 < σ) (hg : ∀ ω, Gives (noise ω) (fun i => z i ω)) {l : List ℝ} (hE : 0 < (l.map (· ^ 2)).sum) :
    ∃ quiet busy : Ω → List ℝ, Watched noise σ l quiet busy ∧
      ∀ x, P.real {ω | x < energyDetectorDb (quiet ω)} < P.real {ω | x < energyDetectorDb (busy ω)} := by
  have hl : 0 < l.length := List.length_pos_iff.mpr (by rintro rfl; simp at hE)
  refine ⟨_, _, watched hg σ l, fun x => ?_⟩
  rw [db_quiet hz hσ hl, db_above hz hσ rfl hl]
  refine above_lt ?_ (by positivity)
  have h := energy_vec (l := l) rfl σ
  have : 0 < (l.map (· ^ 2)).sum / σ ^ 2 := by positivity
  rw [norm_zero]
  exact norm_pos_iff.mpr (by rintro h0; rw [h0, norm_zero] at h; rw [← h] at this; simp at this)

/-- Two recordings of the same number of samples, at thresholds with the same chance of a false alarm: the one with more energy per
noise variance is reported more often, and with equal energy per noise variance they are reported equally often, whatever their shapes. -/
theorem C116_order (hz : White P 1 z) (hg : ∀ ω, Gives (noise ω) (fun i => z i ω)) (hσ : 0 < σ) (hσ' : 0 < σ') {l l' : List ℝ}
    (hlen : l.length = l'.length) (hl : l ≠ []) :
    ∃ quiet busy quiet' busy' : Ω → List ℝ, Watched noise σ l quiet busy ∧ Watched noise σ' l' quiet' busy' ∧
      ∀ x x', P.real {ω | x < energyDetectorDb (quiet ω)} = P.real {ω | x' < energyDetectorDb (quiet' ω)} →
        ((l.map (· ^ 2)).sum / σ ^ 2 = (l'.map (· ^ 2)).sum / σ' ^ 2 →
          P.real {ω | x < energyDetectorDb (busy ω)} = P.real {ω | x' < energyDetectorDb (busy' ω)}) ∧
        ((l.map (· ^ 2)).sum / σ ^ 2 < (l'.map (· ^ 2)).sum / σ' ^ 2 →
          P.real {ω | x < energyDetectorDb (busy ω)} < P.real {ω | x' < energyDetectorDb (busy' ω)}) := by
  have hl0 := List.length_pos_iff.mpr hl
  refine ⟨_, _, _, _, watched hg σ l, watched hg σ' l', fun x x' hx => ?_⟩
  rw [db_quiet hz hσ hl0, ← hlen, db_quiet hz hσ' hl0] at hx
  have hu : 0 < (10 : ℝ) ^ (x / 10) / σ ^ 2 := by positivity
  have hu' : 0 < (10 : ℝ) ^ (x' / 10) / σ' ^ 2 := by positivity
  have hxx : (10 : ℝ) ^ (x / 10) / σ ^ 2 = (10 : ℝ) ^ (x' / 10) / σ' ^ 2 := by
    obtain ⟨M, hM⟩ : ∃ M, l.length = M + 1 := ⟨l.length - 1, by omega⟩
    rw [hM] at hx
    rcases lt_trichotomy ((10 : ℝ) ^ (x / 10) / σ ^ 2) ((10 : ℝ) ^ (x' / 10) / σ' ^ 2) with h | h | h
    · exact absurd hx (above_anti _ hu.le h).ne'
    · exact h
    · exact absurd hx (above_anti _ hu'.le h).ne
  rw [db_above hz hσ rfl hl0, db_above hz hσ' hlen.symm hl0, ← hxx, ← energy_vec (l := l) rfl σ, ← energy_vec (l := l') hlen.symm σ']
  refine ⟨fun h => above_congr ?_ _, fun h => above_lt ?_ hu⟩
  · exact (pow_left_inj₀ (norm_nonneg _) (norm_nonneg _) two_ne_zero).mp h
  · exact lt_of_pow_lt_pow_left₀ 2 (norm_nonneg _) h

theorem db_beats (hz : White P 1 z) (hy : White P 1 y) (hi : IndepFun (fun ω i => y i ω) (fun ω i => z i ω) P) (hσ : 0 < σ) {l : List ℝ} {N : ℕ}
    (hN : l.length = N) (hl : 0 < N) :
    P.real {ω | energyDetectorDb ((List.range l.length).map (fun i => 0 + σ * y i ω)) < energyDetectorDb (l.mapIdx (fun i s => s + (0 + σ * z i ω)))} =
      beats (vec N (fun i => l.getD i 0 / σ)) := by
  subst hN
  rw [← hz.energy_beats hy hi hσ]
  apply measureReal_congr
  filter_upwards [hz.energy_ne hσ hl (fun i => l.getD i 0) 0, hy.energy_ne hσ hl (fun _ => 0) 0] with ω h1 h2
  simp only [zero_add] at h2
  have p1 : 0 < ∑ i ∈ Finset.range l.length, (l.getD i 0 + σ * z i ω) ^ 2 :=
    lt_of_le_of_ne (Finset.sum_nonneg fun i _ => sq_nonneg _) (Ne.symm h1)
  have p2 : 0 < ∑ i ∈ Finset.range l.length, (σ * y i ω) ^ 2 :=
    lt_of_le_of_ne (Finset.sum_nonneg fun i _ => sq_nonneg _) (Ne.symm h2)
  show (energyDetectorDb _ < energyDetectorDb _) = (_ < _)
  rw [mapIdx_range, db_range, db_range]
  simp only [zero_add]
  rw [mul_lt_mul_iff_right₀ (by norm_num), Real.logb_lt_logb_iff (by norm_num) p2 p1]

/-- Silence from one generator against a signal in the noise of another, independent one: the chance that the signal reads higher — the
area under the operating curve — is more than one half. -/
theorem C116_auc (hz : White P 1 z) (hy : White P 1 y) (hi : IndepFun (fun ω i => y i ω) (fun ω i => z i ω) P) (hσ : 0 < σ)
    (hg : ∀ ω, Gives (noise ω) (fun i => z i ω)) (hh : ∀ ω, Gives (hiss ω) (fun i => y i ω)) {l : List ℝ} (hE : 0 < (l.map (· ^ 2)).sum) :
    ∃ quiet busy : Ω → List ℝ, (∀ ω, pureAwgn l.length σ (hiss ω) = pure (quiet ω)) ∧ (∀ ω, awgnPy l σ (noise ω) = pure (busy ω)) ∧
      1 / 2 < P.real {ω | energyDetectorDb (quiet ω) < energyDetectorDb (busy ω)} := by
  have hl : 0 < l.length := List.length_pos_iff.mpr (by rintro rfl; simp at hE)
  refine ⟨_, _, (watched hh σ l).quiet, (watched hg σ l).busy, ?_⟩
  obtain ⟨M, hM⟩ : ∃ M, l.length = M + 1 := ⟨l.length - 1, by omega⟩
  rw [db_beats hz hy hi hσ hM (by omega), ← beats_zero M]
  apply beats_lt
  have h := energy_vec (l := l) hM σ
  have : 0 < (l.map (· ^ 2)).sum / σ ^ 2 := by positivity
  rw [norm_zero]
  exact norm_pos_iff.mpr (by rintro h0; rw [h0, norm_zero] at h; rw [← h] at this; simp at this)

/-- The area under the operating curve is decided by the length and the energy per noise variance, and grows with it. -/
theorem C116_auc_order (hz : White P 1 z) (hy : White P 1 y) (hi : IndepFun (fun ω i => y i ω) (fun ω i => z i ω) P) (hσ : 0 < σ) (hσ' : 0 < σ')
    (hg : ∀ ω, Gives (noise ω) (fun i => z i ω)) (hh : ∀ ω, Gives (hiss ω) (fun i => y i ω)) {l l' : List ℝ} (hlen : l.length = l'.length) (hl : l ≠ []) :
    ∃ quiet busy quiet' busy' : Ω → List ℝ,
      (∀ ω, pureAwgn l.length σ (hiss ω) = pure (quiet ω)) ∧ (∀ ω, awgnPy l σ (noise ω) = pure (busy ω)) ∧
      (∀ ω, pureAwgn l'.length σ' (hiss ω) = pure (quiet' ω)) ∧ (∀ ω, awgnPy l' σ' (noise ω) = pure (busy' ω)) ∧
      ((l.map (· ^ 2)).sum / σ ^ 2 = (l'.map (· ^ 2)).sum / σ' ^ 2 →
        P.real {ω | energyDetectorDb (quiet ω) < energyDetectorDb (busy ω)} = P.real {ω | energyDetectorDb (quiet' ω) < energyDetectorDb (busy' ω)}) ∧
      ((l.map (· ^ 2)).sum / σ ^ 2 < (l'.map (· ^ 2)).sum / σ' ^ 2 →
        P.real {ω | energyDetectorDb (quiet ω) < energyDetectorDb (busy ω)} < P.real {ω | energyDetectorDb (quiet' ω) < energyDetectorDb (busy' ω)}) := by
  have hl0 := List.length_pos_iff.mpr hl
  refine ⟨_, _, _, _, (watched hh σ l).quiet, (watched hg σ l).busy, (watched hh σ' l').quiet, (watched hg σ' l').busy, ?_⟩
  rw [db_beats hz hy hi hσ rfl hl0, db_beats hz hy hi hσ' hlen.symm hl0, ← energy_vec (l := l) rfl σ, ← energy_vec (l := l') hlen.symm σ']
  refine ⟨fun h => beats_congr ?_, fun h => beats_lt ?_⟩
  · exact (pow_left_inj₀ (norm_nonneg _) (norm_nonneg _) two_ne_zero).mp h
  · exact lt_of_pow_lt_pow_left₀ 2 (norm_nonneg _) h

/-- The energy detector of src/willie.rs: at every positive threshold, detections are more likely than false alarms, and the more energy the
signal has the more likely they are. -/
theorem C116_detector (hz : White P 1 z) (hσ : 0 < σ) (hg : ∀ ω, Gives (noise ω) (fun i => z i ω)) {l l' : List ℝ} (hlen : l.length = l'.length)
    (hE : (l.map (· ^ 2)).sum < (l'.map (· ^ 2)).sum) {n0 : ℝ} (h0 : 0 < n0) :
    ∃ rec rec' : Ω → List ℝ, (∀ ω, awgnPy l σ (noise ω) = pure (rec ω)) ∧ (∀ ω, awgnPy l' σ (noise ω) = pure (rec' ω)) ∧
      P.real {ω | energyDetector (rec ω) n0 = true} < P.real {ω | energyDetector (rec' ω) n0 = true} := by
  have hl : 0 < l.length := List.length_pos_iff.mpr (by rintro rfl; rw [List.length_eq_zero_iff.mp hlen.symm] at hE; simp at hE)
  have hN : (0 : ℝ) < l.length := by exact_mod_cast hl
  have key : ∀ (k : List ℝ), k.length = l.length → P.real {ω | energyDetector (k.mapIdx (fun i s => s + (0 + σ * z i ω))) n0 = true} =
      above (vec l.length (fun i => k.getD i 0 / σ)) (n0 ^ 2 * l.length / σ ^ 2) := by
    intro k hk
    rw [← hz.energy_above hσ]
    congr 1
    ext ω
    show energyDetector _ _ = true ↔ n0 ^ 2 * l.length < ∑ i ∈ Finset.range l.length, (k.getD i 0 + σ * z i ω) ^ 2
    rw [energyDetector_iff h0.le, mapIdx_range, avgEnergy_range, hk, lt_div_iff₀ hN]
    simp only [zero_add]
  refine ⟨_, _, (watched hg σ l).busy, (watched hg σ l').busy, ?_⟩
  rw [key l rfl, key l' hlen.symm]
  refine above_lt ?_ (by positivity)
  refine lt_of_pow_lt_pow_left₀ 2 (norm_nonneg _) ?_
  rw [energy_vec rfl, energy_vec hlen.symm]
  exact div_lt_div_of_pos_right hE (by positivity)

/-- Spreading does not hide a transmission from a radiometer, nor does the message matter: BPSK and CDMA over BPSK with the same rates and
carrier, any key and any two messages of the same length, have the same operating curve, sample for sample. -/
theorem C116_spread (hz : White P 1 z) (hσ : 0 < σ) (hg : ∀ ω, Gives (noise ω) (fun i => z i ω)) {ι' : Type} [RIter ι Bool] [RIter ι' Bool]
    {m : ι} {m' : ι'} {msg msg' key : List Bool} (h : Yields m msg) (h' : Yields m' msg') (hlen : msg.length = msg'.length) (hne : msg ≠ [])
    {fs sym : ℕ} {fc : ℝ} (hk : 0 < fs / sym) {tx tx' : List ℝ}
    (htx : (do let it ← txBpsk m fs sym fc; collect it) = pure tx) (htx' : (do let it ← txCdmaBpsk m' fs sym fc key; collect it) = pure tx') :
    ∃ quiet busy busy' : Ω → List ℝ, Watched noise σ tx quiet busy ∧ Watched noise σ tx' quiet busy' ∧
      ∀ x, P.real {ω | x < energyDetectorDb (busy ω)} = P.real {ω | x < energyDetectorDb (busy' ω)} := by
  have e1 := txBpsk_collected h hk htx
  obtain ⟨-, e2⟩ := txCdmaBpsk_collected h' htx'
  rw [mapIdx_wave] at e2
  have hsq : tx.map (· ^ 2) = tx'.map (· ^ 2) := by
    rw [e1, e2]
    apply List.ext_getElem?
    intro i
    rw [List.getElem?_map, List.getElem?_map, wave_getElem? hk, wave_getElem? hk]
    by_cases hi : i / (fs / sym) < msg.length
    · rw [List.getElem?_eq_getElem hi, List.getElem?_eq_getElem (hlen ▸ hi)]
      have hb : ∀ b, (bitToNrz b : ℝ) ^ 2 = 1 := fun b => by rw [pow_two, bitToNrz_sq]
      simp only [Option.map_some, mul_pow, hb, one_mul, mul_one]
    · rw [List.getElem?_eq_none (by omega), List.getElem?_eq_none (by omega)]; rfl
  have hll : tx.length = tx'.length := by simpa using congrArg List.length hsq
  have hl0 : 0 < tx.length := by
    rw [e1, wave_length]
    exact Nat.mul_pos (List.length_pos_iff.mpr hne) hk
  obtain ⟨q, b, q', b', w1, w2, h3⟩ := C116_order hz hg hσ hσ hll (List.length_pos_iff.mp hl0)
  have hq : q = q' := by
    funext ω
    have := w2.quiet ω
    rw [← hll, w1.quiet ω] at this
    exact RM.ok_inj.mp this
  refine ⟨q, b, b', w1, ⟨hq ▸ w2.quiet, w2.busy⟩, fun x => ?_⟩
  exact (h3 x x (by rw [hq])).1 (by rw [hsq])

/-- The experiment of kom_py/lambdas.py takes `avg_energy(signal) / snr` for the standard deviation of the noise, not its root, so that the
power ratio is `snr^2 / avg_energy(signal)`: at one and the same `snr` and chance of a false alarm, the louder of two signals of the same length is
the one that is reported less often. -/
theorem C116_script (hz : White P 1 z) (hg : ∀ ω, Gives (noise ω) (fun i => z i ω)) {l l' : List ℝ} (hlen : l.length = l'.length)
    (hE : 0 < (l.map (· ^ 2)).sum) (hE' : (l.map (· ^ 2)).sum < (l'.map (· ^ 2)).sum) {snr : ℝ} (hs : 0 < snr) :
    ∃ quiet busy quiet' busy' : Ω → List ℝ,
      Watched noise (KomPy.lambdasSigma l snr) l quiet busy ∧ Watched noise (KomPy.lambdasSigma l' snr) l' quiet' busy' ∧
      ∀ x x', P.real {ω | x < energyDetectorDb (quiet ω)} = P.real {ω | x' < energyDetectorDb (quiet' ω)} →
        P.real {ω | x' < energyDetectorDb (busy' ω)} < P.real {ω | x < energyDetectorDb (busy ω)} := by
  have hl : 0 < l.length := List.length_pos_iff.mpr (by rintro rfl; simp at hE)
  have hN : (0 : ℝ) < l.length := by exact_mod_cast hl
  have hav : ∀ k : List ℝ, avgEnergy k = (k.map (· ^ 2)).sum / k.length := fun k => by
    unfold avgEnergy
    rw [rsum_eq_sum, Flt.ofNat_real]
    congr 2
    exact List.map_congr_left fun x _ => (sq x).symm
  have hsig : ∀ k : List ℝ, KomPy.lambdasSigma k snr = (k.map (· ^ 2)).sum / k.length / snr := fun k => by
    unfold KomPy.lambdasSigma; rw [hav]
  have h0 : 0 < (l'.map (· ^ 2)).sum := hE.trans hE'
  have s1 : 0 < KomPy.lambdasSigma l snr := by rw [hsig]; positivity
  have s2 : 0 < KomPy.lambdasSigma l' snr := by rw [hsig, ← hlen]; positivity
  obtain ⟨q', b', q, b, w', w, h⟩ := C116_order hz hg s2 s1 hlen.symm (List.length_pos_iff.mp (hlen ▸ hl))
  refine ⟨q, b, q', b', w, w', fun x x' hx => (h x' x hx.symm).2 ?_⟩
  rw [hsig, hsig, ← hlen]
  have e : ∀ E : ℝ, 0 < E → E / (E / l.length / snr) ^ 2 = (l.length * snr) ^ 2 / E := fun E hE => by field_simp
  rw [e _ h0, e _ hE]
  exact div_lt_div_of_pos_left (by positivity) hE hE'

/-! ### Concrete cases -/

/-- Even and odd samples of white noise are two independent white noises. -/
theorem split_white : White (gaussPath 1) 1 (fun i (ω : ℕ → ℝ) => ω (2 * i)) ∧ White (gaussPath 1) 1 (fun i (ω : ℕ → ℝ) => ω (2 * i + 1)) ∧
    IndepFun (fun (ω : ℕ → ℝ) i => ω (2 * i)) (fun (ω : ℕ → ℝ) i => ω (2 * i + 1)) (gaussPath 1) := by
  have h := white_path 1
  refine ⟨h.reindex (τ := fun i => 2 * i) (fun a b h => by simpa using h), h.reindex (τ := fun i => 2 * i + 1) (fun a b h => by simpa using h), ?_⟩
  have hs : ∀ (τ : ℕ → ℕ) (S : Set ℕ), (∀ i, τ i ∈ S) → MeasurableSpace.comap (fun (ω : ℕ → ℝ) i => ω (τ i)) MeasurableSpace.pi ≤
      ⨆ i ∈ S, MeasurableSpace.comap (fun (ω : ℕ → ℝ) => ω i) inferInstance := by
    intro τ S hτ
    unfold MeasurableSpace.pi
    rw [MeasurableSpace.comap_iSup]
    refine iSup_le fun i => ?_
    rw [MeasurableSpace.comap_comp]
    exact le_iSup₂ (f := fun j (_ : j ∈ S) => MeasurableSpace.comap (fun (ω : ℕ → ℝ) => ω j) inferInstance) (τ i) (hτ i)
  have hi := indep_iSup_of_disjoint (m := fun i => MeasurableSpace.comap (fun (ω : ℕ → ℝ) => ω i) inferInstance)
    (fun i => (measurable_pi_apply i).comap_le) h.indep (S := {i | Even i}) (T := {i | Odd i}) (by
      rw [Set.disjoint_left]
      intro i he ho
      exact (Nat.not_even_iff_odd.mpr ho) he)
  exact indep_of_indep_of_le_left (indep_of_indep_of_le_right hi (hs _ _ fun i => ⟨i, rfl⟩)) (hs _ _ fun i => ⟨i, by ring⟩)

example : ∃ quiet busy : (ℕ → ℝ) → List ℝ, Watched path 2 [1, -1, 0] quiet busy ∧
    ∀ x, (gaussPath 1).real {ω | x < energyDetectorDb (quiet ω)} < (gaussPath 1).real {ω | x < energyDetectorDb (busy ω)} :=
  C116_roc (white_path 1) two_pos path_gives (by norm_num)

/-- One loud sample, or the same energy spread over four. -/
example : ∃ quiet busy quiet' busy' : (ℕ → ℝ) → List ℝ, Watched path 1 [2, 0, 0, 0] quiet busy ∧ Watched path 1 [1, -1, 1, 1] quiet' busy' ∧
    ∀ x, (gaussPath 1).real {ω | x < energyDetectorDb (busy ω)} = (gaussPath 1).real {ω | x < energyDetectorDb (busy' ω)} := by
  obtain ⟨q, b, q', b', w1, w2, h⟩ := C116_order (white_path 1) path_gives (σ := 1) (σ' := 1) one_pos one_pos
    (l := [2, 0, 0, 0]) (l' := [1, -1, 1, 1]) rfl (by simp)
  refine ⟨q, b, q', b', w1, w2, fun x => (h x x ?_).1 (by norm_num)⟩
  have : q = q' := by
    funext ω
    exact RM.ok_inj.mp ((w1.quiet ω).symm.trans (w2.quiet ω))
  rw [this]

/-- Half the noise. -/
example : ∃ quiet busy quiet' busy' : (ℕ → ℝ) → List ℝ, Watched path 1 [1, 1] quiet busy ∧ Watched path (1 / 2) [1, 1] quiet' busy' ∧
    ∀ x x', (gaussPath 1).real {ω | x < energyDetectorDb (quiet ω)} = (gaussPath 1).real {ω | x' < energyDetectorDb (quiet' ω)} →
      (gaussPath 1).real {ω | x < energyDetectorDb (busy ω)} < (gaussPath 1).real {ω | x' < energyDetectorDb (busy' ω)} := by
  obtain ⟨q, b, q', b', w1, w2, h⟩ := C116_order (white_path 1) path_gives (σ := 1) (σ' := 1 / 2) one_pos (by norm_num)
    (l := [1, 1]) (l' := [1, 1]) rfl (by simp)
  exact ⟨q, b, q', b', w1, w2, fun x x' hx => (h x x' hx).2 (by norm_num)⟩

example : ∃ quiet busy : (ℕ → ℝ) → List ℝ,
    (∀ ω, pureAwgn 3 (2 : ℝ) (path fun i => ω (2 * i)) = pure (quiet ω)) ∧
    (∀ ω, awgnPy [1, -1, 0] (2 : ℝ) (path fun i => ω (2 * i + 1)) = pure (busy ω)) ∧
    1 / 2 < (gaussPath 1).real {ω | energyDetectorDb (quiet ω) < energyDetectorDb (busy ω)} :=
  C116_auc (l := [1, -1, 0]) split_white.2.1 split_white.1 split_white.2.2 two_pos (fun _ => path_gives _) (fun _ => path_gives _) (by norm_num)

example : ∃ quiet busy quiet' busy' : (ℕ → ℝ) → List ℝ,
    (∀ ω, pureAwgn 2 (1 : ℝ) (path fun i => ω (2 * i)) = pure (quiet ω)) ∧ (∀ ω, awgnPy [1, 0] (1 : ℝ) (path fun i => ω (2 * i + 1)) = pure (busy ω)) ∧
    (∀ ω, pureAwgn 2 (1 : ℝ) (path fun i => ω (2 * i)) = pure (quiet' ω)) ∧ (∀ ω, awgnPy [1, 1] (1 : ℝ) (path fun i => ω (2 * i + 1)) = pure (busy' ω)) ∧
    (gaussPath 1).real {ω | energyDetectorDb (quiet ω) < energyDetectorDb (busy ω)} <
      (gaussPath 1).real {ω | energyDetectorDb (quiet' ω) < energyDetectorDb (busy' ω)} := by
  obtain ⟨q, b, q', b', w1, w2, w3, w4, -, h⟩ := C116_auc_order (l := [1, 0]) (l' := [1, 1]) split_white.2.1 split_white.1 split_white.2.2 one_pos one_pos
    (fun ω => path_gives fun i => ω (2 * i + 1)) (fun ω => path_gives fun i => ω (2 * i)) rfl (by simp)
  exact ⟨q, b, q', b', w1, w2, w3, w4, h (by norm_num)⟩

example : ∃ rec rec' : (ℕ → ℝ) → List ℝ, (∀ ω, awgnPy [0, 0] (1 : ℝ) (path ω) = pure (rec ω)) ∧ (∀ ω, awgnPy [1, 0] (1 : ℝ) (path ω) = pure (rec' ω)) ∧
    (gaussPath 1).real {ω | energyDetector (rec ω) 3 = true} < (gaussPath 1).real {ω | energyDetector (rec' ω) 3 = true} :=
  C116_detector (l := [0, 0]) (l' := [1, 0]) (n0 := 3) (white_path 1) one_pos path_gives rfl (by norm_num) (by norm_num)

/-- BPSK and CDMA at the parameters of the key cases, with different messages. -/
example : ∃ (tx tx' : List ℝ) (quiet busy busy' : (ℕ → ℝ) → List ℝ),
    (do let it ← txBpsk (ofList [true, false, true]) 16000 1000 (1700 : ℝ); collect it) = pure tx ∧
    (do let it ← txCdmaBpsk (ofList [false, false, true]) 16000 1000 (1700 : ℝ) [true, false]; collect it) = pure tx' ∧
    Watched path 2 tx quiet busy ∧ Watched path 2 tx' quiet busy' ∧
    ∀ x, (gaussPath 1).real {ω | x < energyDetectorDb (busy ω)} = (gaussPath 1).real {ω | x < energyDetectorDb (busy' ω)} := by
  obtain ⟨it, e1, e2⟩ := txBpsk_ok (yields_ofList [true, false, true]) (fs := 16000) (sym := 1000) (fc := (1700 : ℝ)) (by norm_num)
    (by rw [Flt.toNat_real]; norm_num) ((isInt_real (by norm_num) (by norm_num)).mpr (by norm_num))
  obtain ⟨it', e1', e2'⟩ := txCdmaBpsk_ok (yields_ofList [false, false, true]) (fs := 16000) (sym := 1000) (fc := (1700 : ℝ)) (key := [true, false])
    ((cdmaOk_real (by norm_num)).mpr ⟨by norm_num, by simp, by norm_num, by norm_num, by norm_num⟩)
  obtain ⟨tx, ha⟩ : ∃ tx, (do let it ← txBpsk (ofList [true, false, true]) 16000 1000 (1700 : ℝ); collect it) = pure tx :=
    ⟨_, by rw [e1, LawfulMonad.pure_bind, collect_of_yields e2]⟩
  obtain ⟨tx', ha'⟩ : ∃ tx, (do let it ← txCdmaBpsk (ofList [false, false, true]) 16000 1000 (1700 : ℝ) [true, false]; collect it) = pure tx :=
    ⟨_, by rw [e1', LawfulMonad.pure_bind, collect_of_yields e2']⟩
  obtain ⟨q, b, b', h⟩ := C116_spread (white_path 1) two_pos path_gives (yields_ofList [true, false, true]) (yields_ofList [false, false, true])
    rfl (by simp) (by norm_num) ha ha'
  exact ⟨tx, tx', q, b, b', ha, ha', h⟩

/-- A loud and a quiet signal at ratio 3. -/
example : ∃ quiet busy quiet' busy' : (ℕ → ℝ) → List ℝ,
    Watched path (KomPy.lambdasSigma [1, 0] 3) [1, 0] quiet busy ∧ Watched path (KomPy.lambdasSigma [10, 0] 3) [10, 0] quiet' busy' ∧
    ∀ x x', (gaussPath 1).real {ω | x < energyDetectorDb (quiet ω)} = (gaussPath 1).real {ω | x' < energyDetectorDb (quiet' ω)} →
      (gaussPath 1).real {ω | x' < energyDetectorDb (busy' ω)} < (gaussPath 1).real {ω | x < energyDetectorDb (busy ω)} :=
  C116_script (l := [1, 0]) (l' := [10, 0]) (snr := 3) (white_path 1) path_gives rfl (by norm_num) (by norm_num) (by norm_num)

end Verif.Props
