import Verif.Lemmas.GaussEnergy
import Verif.Lemmas.GaussEnd
import Verif.Lemmas.Driven
import Verif.Props.Energy
import Verif.Props.Helpers

/-!
# Property C104: the energy of a recording in white Gaussian noise

Exact arithmetic; `z` is white Gaussian noise of standard deviation one (Spec/Gauss) and the generator handed to `awgn` gives
its samples.
-/
namespace Verif.Props
open Verif Spec MeasureTheory ProbabilityTheory Filter
set_option linter.unusedSectionVars false
variable {ι ν ρ : Type} {Ω : Type} [MeasurableSpace Ω] {P : Measure Ω} {σ : ℝ} {z w : ℕ → Ω → ℝ} [RIter ν ℝ] {noise : Ω → ν}

theorem avgEnergy_range (f : ℕ → ℝ) (N : ℕ) : avgEnergy ((List.range N).map f) = (∑ i ∈ Finset.range N, f i ^ 2) / N := by
  unfold avgEnergy
  rw [List.map_map, rsum_range, List.length_map, List.length_range, Flt.ofNat_real]
  congr 1
  exact Finset.sum_congr rfl fun i _ => (sq (f i)).symm

/-- The mean of the measured energy: the energy of the signal plus the variance of the noise, at every length. -/
theorem C104_mean (hz : White P 1 z) (hg : ∀ ω, Gives (noise ω) (fun i => z i ω)) [RIter ι ℝ] {src : ι} {l : List ℝ}
    (h : Yields src l) (hl : l ≠ []) :
    ∃ rec : Ω → List ℝ, (∀ ω, (do let ch ← awgn src σ (noise ω); collect ch) = pure (rec ω)) ∧
      ∫ ω, avgEnergy (rec ω) ∂P = avgEnergy l + σ ^ 2 := by
  obtain ⟨w, hw, hn⟩ := hz.driven hg σ
  have hl' : (l.length : ℝ) ≠ 0 := by simpa using hl
  refine ⟨fun ω => l.mapIdx (fun i x => x + w i ω), fun ω => ?_, ?_⟩
  · obtain ⟨ch, c1, c2⟩ := awgn_driven h (hn ω)
    rw [c1, LawfulMonad.pure_bind, collect_of_yields c2]
  · have e : ∀ ω, l.mapIdx (fun i x => x + w i ω) = (List.range l.length).map (fun i => l.getD i 0 + w i ω) := fun ω => by
      apply List.ext_getElem?
      intro i
      rw [List.getElem?_mapIdx, List.getElem?_map]
      by_cases hi : i < l.length
      · rw [List.getElem?_range hi, List.getElem?_eq_getElem hi, Option.map_some, Option.map_some, List.getD_eq_getElem?_getD, List.getElem?_eq_getElem hi]; rfl
      · rw [List.getElem?_eq_none (by omega), List.getElem?_eq_none (by simpa using hi)]; rfl
    have e0 : l = (List.range l.length).map (fun i => l.getD i 0) := by
      apply List.ext_getElem?
      intro i
      rw [List.getElem?_map]
      by_cases hi : i < l.length
      · rw [List.getElem?_range hi, List.getElem?_eq_getElem hi, Option.map_some, List.getD_eq_getElem?_getD, List.getElem?_eq_getElem hi]; rfl
      · rw [List.getElem?_eq_none (by omega), List.getElem?_eq_none (by simpa using hi)]; rfl
    simp only [e, avgEnergy_range]
    rw [integral_div, hw.energy_mean]
    conv_rhs => rw [e0, avgEnergy_range]
    rw [add_div, mul_div_cancel_left₀ _ hl']

theorem run_range (hn : ∀ ω, Drives σ (noise ω) (fun i => w i ω)) (s : ℕ → ℝ) (N : ℕ) (ω : Ω) :
    (do let ch ← awgn (ofList ((List.range N).map s)) σ (noise ω); collect ch) = pure ((List.range N).map (fun i => s i + w i ω)) := by
  obtain ⟨ch, c1, c2⟩ := awgn_driven (yields_ofList ((List.range N).map s)) (hn ω)
  rw [c1, LawfulMonad.pure_bind, collect_of_yields c2]
  congr 1
  apply List.ext_getElem?
  intro i
  rw [List.getElem?_mapIdx, List.getElem?_map, List.getElem?_map]
  by_cases hi : i < N
  · rw [List.getElem?_range hi]; rfl
  · rw [List.getElem?_eq_none (by simpa using hi)]; rfl

/-- Longer and longer pieces of a bounded signal whose mean energy settles at `E`: the measured mean energy settles, almost surely,
at `E + σ^2`. -/
theorem C104_limit (hz : White P 1 z) (hσ : 0 < σ) (hg : ∀ ω, Gives (noise ω) (fun i => z i ω)) {s : ℕ → ℝ} {B E : ℝ}
    (hs : ∀ i, |s i| ≤ B) (hE : Tendsto (fun N => avgEnergy ((List.range N).map s)) atTop (nhds E)) :
    ∃ rec : ℕ → Ω → List ℝ, (∀ N ω, (do let ch ← awgn (ofList ((List.range N).map s)) σ (noise ω); collect ch) = pure (rec N ω)) ∧
      ∀ᵐ ω ∂P, Tendsto (fun N => avgEnergy (rec N ω)) atTop (nhds (E + σ ^ 2)) := by
  obtain ⟨w, hw, hn⟩ := hz.driven hg σ
  refine ⟨_, fun N ω => run_range hn s N ω, ?_⟩
  simp only [avgEnergy_range] at hE ⊢
  exact hw.energy_limit hσ hs tendsto_id hE

/-- Silence: the square root of the mean energy estimates the noise level. -/
theorem C104_silence (hz : White P 1 z) (hσ : 0 < σ) (hg : ∀ ω, Gives (noise ω) (fun i => z i ω)) :
    ∃ rec : ℕ → Ω → List ℝ, (∀ N ω, (do let ch ← awgn (ofList (List.replicate N (0 : ℝ))) σ (noise ω); collect ch) = pure (rec N ω)) ∧
      ∀ᵐ ω ∂P, Tendsto (fun N => √(avgEnergy (rec N ω))) atTop (nhds σ) := by
  obtain ⟨rec, r1, r2⟩ := C104_limit (s := fun _ => 0) (B := 0) (E := 0) hz hσ hg (by simp) (by
    simp only [avgEnergy_range]; simp)
  refine ⟨rec, fun N ω => ?_, ?_⟩
  · rw [← r1 N ω]; simp
  · filter_upwards [r2] with ω h
    have := (Real.continuous_sqrt.tendsto _).comp h
    rwa [zero_add, Real.sqrt_sq hσ.le] at this

/-- The energy detector is consistent: with a threshold above the noise level and below the root of signal energy plus noise
variance, it is almost surely right on all sufficiently long recordings, both with and without the signal. -/
theorem C104_detector (hz : White P 1 z) (hσ : 0 < σ) (hg : ∀ ω, Gives (noise ω) (fun i => z i ω)) {s : ℕ → ℝ} {B E n0 : ℝ}
    (hs : ∀ i, |s i| ≤ B) (hE : Tendsto (fun N => avgEnergy ((List.range N).map s)) atTop (nhds E)) (h0 : σ < n0) (h1 : n0 < √(E + σ ^ 2)) :
    ∃ quiet busy : ℕ → Ω → List ℝ,
      (∀ N ω, (do let ch ← awgn (ofList (List.replicate N (0 : ℝ))) σ (noise ω); collect ch) = pure (quiet N ω)) ∧
      (∀ N ω, (do let ch ← awgn (ofList ((List.range N).map s)) σ (noise ω); collect ch) = pure (busy N ω)) ∧
      ∀ᵐ ω ∂P, ∀ᶠ N in atTop, energyDetector (quiet N ω) n0 = false ∧ energyDetector (busy N ω) n0 = true := by
  obtain ⟨quiet, q1, q2⟩ := C104_silence hz hσ hg
  obtain ⟨busy, b1, b2⟩ := C104_limit hz hσ hg hs hE
  refine ⟨quiet, busy, q1, b1, ?_⟩
  filter_upwards [q2, b2] with ω hq hb
  have hb' := (Real.continuous_sqrt.tendsto _).comp hb
  filter_upwards [hq.eventually_lt_const h0, hb'.eventually_const_lt h1] with N e1 e2
  constructor
  · show Flt.lt n0 (Flt.sqrt (avgEnergy (quiet N ω))) = false
    rw [Flt.lt_real, Flt.sqrt_real, decide_eq_false (not_lt.mpr e1.le)]
  · show Flt.lt n0 (Flt.sqrt (avgEnergy (busy N ω))) = true
    rw [Flt.lt_real, Flt.sqrt_real]
    exact decide_eq_true e2

theorem wave_range {A : Type} {k : ℕ} (hk : 0 < k) (f : ℕ → A → ℕ → ℝ) (g : ℕ → A) (N : ℕ) :
    wave k f ((List.range N).map g) = (List.range (N * k)).map (fun i => f (i / k) (g (i / k)) (i % k)) := by
  apply List.ext_getElem?
  intro i
  rw [wave_getElem? hk, List.getElem?_map, List.getElem?_map]
  by_cases hi : i < N * k
  · rw [List.getElem?_range hi, List.getElem?_range ((Nat.div_lt_iff_lt_mul hk).mpr hi)]; rfl
  · have h1 : N ≤ i / k := (Nat.le_div_iff_mul_le hk).mpr (by omega)
    rw [List.getElem?_eq_none (l := List.range N) (by simpa using h1), List.getElem?_eq_none (by simpa using hi)]; rfl

/-- Transmissions of constant symbol energy. -/
theorem wave_detected (hw : White P σ w) (hσ : 0 < σ) {A : Type} {k : ℕ} (hk : 0 < k) {f : ℕ → A → ℕ → ℝ} {B E : ℝ} (hB : ∀ n a j, |f n a j| ≤ B)
    (hE : ∀ n a, ∑ j ∈ Finset.range k, f n a j ^ 2 = E) (g : ℕ → A) :
    ∀ᵐ ω ∂P, Tendsto (fun N => avgEnergy ((wave k f ((List.range N).map g)).mapIdx (fun i x => x + w i ω))) atTop
      (nhds (E / k + σ ^ 2)) := by
  have hk' : (0 : ℝ) < k := by exact_mod_cast hk
  have h := hw.energy_limit hσ (s := fun i => f (i / k) (g (i / k)) (i % k)) (B := B) (fun i => hB _ _ _) (E := E / k) (φ := fun N => N * k)
    (tendsto_atTop_mono (fun N => Nat.le_mul_of_pos_right N hk) tendsto_id) (by
      refine tendsto_const_nhds.congr' ?_
      filter_upwards [eventually_gt_atTop 0] with N hN
      have := (wave_energy (w := f) (l := (List.range N).map g) (E := E) hk (fun n a _ => hE n a)).avg (by simpa using hN)
      rw [wave_range hk, avgEnergy_range] at this
      exact this.symm)
  filter_upwards [h] with ω hω
  refine hω.congr fun N => ?_
  rw [wave_range hk, ← avgEnergy_range]
  congr 1
  apply List.ext_getElem?
  intro i
  rw [List.getElem?_mapIdx, List.getElem?_map, List.getElem?_map]
  by_cases hi : i < N * k
  · rw [List.getElem?_range hi]; rfl
  · rw [List.getElem?_eq_none (by simpa using hi)]; rfl

/-- BPSK transmissions with whole half periods per symbol: the level settles at `sqrt(1/2 + σ^2)`, whatever the message, so every
threshold below it reveals the transmission. -/
theorem C104_bpsk (hz : White P 1 z) (hσ : 0 < σ) (hg : ∀ ω, Gives (noise ω) (fun i => z i ω)) (g : ℕ → Bool)
    {fs sym : ℕ} {fc : ℝ} (hfs : fs < 2 ^ 64) (hdvd : sym ∣ fs) (hsps : 0 < fs / sym)
    (hfc : ⌊fc⌋₊ ≤ fs / 2) (hwh : WholeHalf fs (fs / sym) fc) :
    ∃ rec : ℕ → Ω → List ℝ, (∀ N ω, (do
        let s ← txBpsk (ofList ((List.range N).map g)) fs sym fc
        let ch ← awgn s σ (noise ω)
        collect ch) = pure (rec N ω)) ∧
      ∀ᵐ ω ∂P, Tendsto (fun N => √(avgEnergy (rec N ω))) atTop (nhds √(1 / 2 + σ ^ 2)) ∧
        ∀ n0 < √(1 / 2 + σ ^ 2), ∀ᶠ N in atTop, energyDetector (rec N ω) n0 = true := by
  obtain ⟨w, hw, hn⟩ := hz.driven hg σ
  have hk : ((fs / sym : ℕ) : ℝ) ≠ 0 := by have : (0 : ℝ) < (fs / sym : ℕ) := by exact_mod_cast hsps
                                           exact this.ne'
  refine ⟨fun N ω => (wave (fs / sym) (fun n b j => bitToNrz b * Flt.cos (phase fs fc (n * (fs / sym) + j)))
    ((List.range N).map g)).mapIdx (fun i x => x + w i ω), fun N ω => ?_, ?_⟩
  · obtain ⟨it, h1, h2⟩ := txBpsk_ok (yields_ofList ((List.range N).map g)) (fc := fc) hsps (by rw [Flt.toNat_real]; omega)
      ((isInt_real hfs (pos_of_sps hsps)).mpr hdvd)
    obtain ⟨ch, c1, c2⟩ := awgn_driven h2 (hn ω)
    rw [h1, LawfulMonad.pure_bind, c1, LawfulMonad.pure_bind, collect_of_yields c2]
  · have := wave_detected hw hσ hsps (f := fun n b j => bitToNrz b * Flt.cos (phase fs fc (n * (fs / sym) + j))) (B := 1)
      (E := (fs / sym : ℕ) / 2) (fun n b j => by
        rw [bitToNrz_real, abs_mul]
        have h1 : |if b = true then (1 : ℝ) else -1| = 1 := by cases b <;> simp
        rw [h1, one_mul]
        exact Real.abs_cos_le_one _) (fun n b => by
        rw [← hwh.cos_energy hsps (n * (fs / sym))]
        exact Finset.sum_congr rfl fun j _ => by rw [mul_pow, sq (bitToNrz b), bitToNrz_sq, one_mul]) g
    filter_upwards [this] with ω hω
    rw [div_right_comm, div_self hk] at hω
    have hr := (Real.continuous_sqrt.tendsto _).comp hω
    refine ⟨hr, fun n0 h0 => ?_⟩
    filter_upwards [hr.eventually_const_lt h0] with N e2
    show Flt.lt n0 (Flt.sqrt (avgEnergy _)) = true
    rw [Flt.lt_real, Flt.sqrt_real]
    exact decide_eq_true e2

/-- Spreading does not hide it: the same level with every key. -/
theorem C104_cdma (hz : White P 1 z) (hσ : 0 < σ) (hg : ∀ ω, Gives (noise ω) (fun i => z i ω)) (g : ℕ → Bool)
    {fs sym : ℕ} {fc : ℝ} {key : List Bool} (hfs : fs < 2 ^ 64) (hsym : 0 < sym)
    (hkey : key ≠ []) (hdvd : sym * key.length ∣ fs) (hnyq : 2 * (sym * key.length) ≤ fs) (hfc : ⌊fc⌋₊ ≤ fs / 2)
    (hwh : WholeHalf fs (fs / sym) fc) :
    ∃ rec : ℕ → Ω → List ℝ, (∀ N ω, (do
        let s ← txCdmaBpsk (ofList ((List.range N).map g)) fs sym fc key
        let ch ← awgn s σ (noise ω)
        collect ch) = pure (rec N ω)) ∧
      ∀ᵐ ω ∂P, Tendsto (fun N => √(avgEnergy (rec N ω))) atTop (nhds √(1 / 2 + σ ^ 2)) ∧
        ∀ n0 < √(1 / 2 + σ ^ 2), ∀ᶠ N in atTop, energyDetector (rec N ω) n0 = true := by
  obtain ⟨w, hw, hn⟩ := hz.driven hg σ
  have hok := (cdmaOk_real (fc := fc) hfs).mpr ⟨hsym, List.length_pos_iff.mpr hkey, hdvd, hnyq, hfc⟩
  have h1 := hok.sps
  have h3 := hok.key_pos
  have hsps : 0 < fs / sym := by omega
  have hk : ((fs / sym : ℕ) : ℝ) ≠ 0 := by have : (0 : ℝ) < (fs / sym : ℕ) := by exact_mod_cast hsps
                                           exact this.ne'
  refine ⟨fun N ω => (wave (fs / sym) (fun n b j => bitToNrz b * Flt.cos (phase fs fc (n * (fs / sym) + j))
    * bitToNrz (keyBit key (fs / sym / key.length) (n * (fs / sym) + j))) ((List.range N).map g)).mapIdx (fun i x => x + w i ω),
    fun N ω => ?_, ?_⟩
  · obtain ⟨it, e1, e2⟩ := txCdmaBpsk_ok (yields_ofList ((List.range N).map g)) hok
    obtain ⟨ch, c1, c2⟩ := awgn_driven e2 (hn ω)
    rw [e1, LawfulMonad.pure_bind, c1, LawfulMonad.pure_bind, collect_of_yields c2, mapIdx_wave]
  · have := wave_detected hw hσ hsps (f := fun n b j => bitToNrz b * Flt.cos (phase fs fc (n * (fs / sym) + j))
        * bitToNrz (keyBit key (fs / sym / key.length) (n * (fs / sym) + j))) (B := 1)
      (E := (fs / sym : ℕ) / 2) (fun n b j => by
        rw [bitToNrz_real, bitToNrz_real, abs_mul, abs_mul]
        have h1 : ∀ b : Bool, |if b = true then (1 : ℝ) else -1| = 1 := fun b => by cases b <;> simp
        rw [h1, h1, one_mul, mul_one]
        exact Real.abs_cos_le_one _) (fun n b => by
        rw [← hwh.cos_energy hsps (n * (fs / sym))]
        exact Finset.sum_congr rfl fun j _ => by
          rw [mul_pow, mul_pow, sq (bitToNrz b), bitToNrz_sq, one_mul, sq (bitToNrz _), bitToNrz_sq, mul_one]) g
    filter_upwards [this] with ω hω
    rw [div_right_comm, div_self hk] at hω
    have hr := (Real.continuous_sqrt.tendsto _).comp hω
    refine ⟨hr, fun n0 h0 => ?_⟩
    filter_upwards [hr.eventually_const_lt h0] with N e2
    show Flt.lt n0 (Flt.sqrt (avgEnergy _)) = true
    rw [Flt.lt_real, Flt.sqrt_real]
    exact decide_eq_true e2

/-! ### Cases -/

example : ∃ rec : (ℕ → ℝ) → List ℝ, (∀ ω, (do let ch ← awgn (ofList [3, (4 : ℝ)]) (2 : ℝ) (path ω); collect ch) = pure (rec ω)) ∧
    ∫ ω, avgEnergy (rec ω) ∂(gaussPath 1) = avgEnergy [3, (4 : ℝ)] + 2 ^ 2 :=
  C104_mean (white_path 1) path_gives (yields_ofList _) (by simp)

/-- A constant one in noise of standard deviation one half: the threshold 1 tells the two apart. -/
example : ∃ quiet busy : ℕ → (ℕ → ℝ) → List ℝ,
      (∀ N ω, (do let ch ← awgn (ofList (List.replicate N (0 : ℝ))) (1 / 2 : ℝ) (path ω); collect ch) = pure (quiet N ω)) ∧
      (∀ N ω, (do let ch ← awgn (ofList ((List.range N).map (fun _ => (1 : ℝ)))) (1 / 2 : ℝ) (path ω); collect ch) = pure (busy N ω)) ∧
      ∀ᵐ ω ∂(gaussPath 1), ∀ᶠ N in atTop, energyDetector (quiet N ω) 1 = false ∧ energyDetector (busy N ω) 1 = true :=
  C104_detector (E := 1) (B := 1) (white_path 1) (by norm_num) path_gives (by simp) (by
    refine tendsto_const_nhds.congr' ?_
    filter_upwards [eventually_gt_atTop 0] with N hN
    have : (N : ℝ) ≠ 0 := by positivity
    rw [avgEnergy_range]; simp [this]) (by norm_num) (by
    rw [Real.lt_sqrt (by norm_num)]; norm_num)

example : ∃ rec : ℕ → (ℕ → ℝ) → List ℝ, (∀ N ω, (do
        let s ← txBpsk (ofList ((List.range N).map (fun n => decide (n % 3 = 0)))) 16000 1000 (2000 : ℝ)
        let ch ← awgn s (3 : ℝ) (path ω)
        collect ch) = pure (rec N ω)) ∧
      ∀ᵐ ω ∂(gaussPath 1), Tendsto (fun N => √(avgEnergy (rec N ω))) atTop (nhds √(1 / 2 + 3 ^ 2)) ∧
        ∀ n0 < √(1 / 2 + 3 ^ 2), ∀ᶠ N in atTop, energyDetector (rec N ω) n0 = true :=
  C104_bpsk (white_path 1) (by norm_num) path_gives _ (by norm_num) (by norm_num) (by norm_num) (by norm_num)
    (WholeHalf.of_nat (f := 2000) (p := 4) (by norm_num) (by norm_num))

example : ∃ rec : ℕ → (ℕ → ℝ) → List ℝ, (∀ N ω, (do
        let s ← txCdmaBpsk (ofList ((List.range N).map (fun n => decide (n % 3 = 0)))) 16000 1000 (2000 : ℝ) [true, false]
        let ch ← awgn s (3 : ℝ) (path ω)
        collect ch) = pure (rec N ω)) ∧
      ∀ᵐ ω ∂(gaussPath 1), Tendsto (fun N => √(avgEnergy (rec N ω))) atTop (nhds √(1 / 2 + 3 ^ 2)) ∧
        ∀ n0 < √(1 / 2 + 3 ^ 2), ∀ᶠ N in atTop, energyDetector (rec N ω) n0 = true :=
  C104_cdma (white_path 1) (by norm_num) path_gives _ (by norm_num) (by norm_num) (by simp) (by norm_num) (by norm_num) (by norm_num)
    (WholeHalf.of_nat (f := 2000) (p := 4) (by norm_num) (by norm_num))

end Verif.Props
