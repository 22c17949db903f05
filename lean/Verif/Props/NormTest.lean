import Verif.Lemmas.ConvL
import Verif.Lemmas.NormTest
import Verif.Props.NoiseEnergy

/-!
# Property C159: the kurtosis of a recording gives the signal away

`tests/normtest.rs` and the normality tests of src/willie.rs and kom_py/willie.py look at the kurtosis of a recording.  Exact
arithmetic; `z` is white Gaussian noise of standard deviation one (Spec/Gauss) and the generator handed to `awgn` gives its samples.
-/
namespace Verif.Props
open Verif Spec MeasureTheory ProbabilityTheory Filter
set_option linter.unusedSectionVars false
variable {ν : Type} {Ω : Type} [MeasurableSpace Ω] {P : Measure Ω} {σ : ℝ} {z w : ℕ → Ω → ℝ} [RIter ν ℝ] {noise : Ω → ν}

/-- What a carrier of amplitude one takes from the kurtosis of the noise: `3/8` over the square of the power, and `1/4` at a quarter
of the sample rate, where the samples of the carrier are all `0`, `1` or `-1`. -/
noncomputable def dent (fs : ℕ) (fc σ : ℝ) : ℝ := (if 4 * fc = fs then 1 / 4 else 3 / 8) / (1 / 2 + σ ^ 2) ^ 2

theorem dent_pos (fs : ℕ) (fc σ : ℝ) : 0 < dent fs fc σ := by
  unfold dent
  split <;> positivity

private theorem step_facts {fs : ℕ} {fc : ℝ} (h0 : 0 < fc) (hhi : fc < fs / 2) :
    0 < 2 * Real.pi * fc / fs ∧ 2 * Real.pi * fc / fs < Real.pi := by
  have hfs : (0 : ℝ) < fs := by linarith
  have := Real.pi_pos
  refine ⟨by positivity, ?_⟩
  rw [div_lt_iff₀ hfs]
  nlinarith

private theorem phase_step (fs : ℕ) (fc : ℝ) (i : ℕ) : (phase fs fc i : ℝ) = i * (2 * Real.pi * fc / fs) := by
  unfold phase
  rw [Flt.ofNat_real, Flt.ofNat_real, Flt.ofNat_real, Flt.pi_real]
  push_cast; ring

private theorem whole {fs k : ℕ} {fc : ℝ} (hfs : (fs : ℝ) ≠ 0) {q : ℤ} (hq : k * fc = q * fs) : (k : ℝ) * (2 * Real.pi * fc / fs) = q * (2 * Real.pi) := by
  rw [show (k : ℝ) * (2 * Real.pi * fc / fs) = k * fc * (2 * Real.pi / fs) by ring, hq]
  field_simp

private theorem cos_period {fs k : ℕ} {fc : ℝ} (hfs : (fs : ℝ) ≠ 0) {q : ℤ} (hq : k * fc = q * fs) (n j : ℕ) :
    Real.cos (phase fs fc (n * k + j)) = Real.cos (phase fs fc j) := by
  rw [phase_step, phase_step]
  push_cast
  rw [show ((n : ℝ) * k + j) * (2 * Real.pi * fc / fs) = j * (2 * Real.pi * fc / fs) + ((n * q : ℤ) : ℝ) * (2 * Real.pi) by
    rw [add_mul, mul_assoc, whole hfs hq]; push_cast; ring]
  exact Real.cos_add_int_mul_two_pi _ _

private theorem cos_sum {fs k : ℕ} {fc : ℝ} (h0 : 0 < fc) (hhi : fc < fs / 2) {q : ℤ} (hq : k * fc = q * fs) :
    ∑ j ∈ Finset.range k, Real.cos (phase fs fc j) = 0 := by
  obtain ⟨b0, b1⟩ := step_facts h0 hhi
  have hfs : (fs : ℝ) ≠ 0 := by have : (0 : ℝ) < fs := by linarith
                                exact this.ne'
  have := sum_cos_period (a := 0) (whole hfs hq) (Real.sin_pos_of_pos_of_lt_pi (by linarith) (by linarith)).ne'
  simpa only [zero_add, phase_step] using this

private theorem cos_sq_sum {fs k : ℕ} {fc : ℝ} (h0 : 0 < fc) (hhi : fc < fs / 2) {q : ℤ} (hq : k * fc = q * fs) :
    ∑ j ∈ Finset.range k, Real.cos (phase fs fc j) ^ 2 = k * (1 / 2) := by
  obtain ⟨b0, b1⟩ := step_facts h0 hhi
  have hfs : (fs : ℝ) ≠ 0 := by have : (0 : ℝ) < fs := by linarith
                                exact this.ne'
  have := sum_cos_sq_half (p := 2 * q) (k := k) (by rw [whole hfs hq]; push_cast; ring) (Real.sin_pos_of_pos_of_lt_pi b0 b1).ne' 0
  simp only [zero_add] at this
  simp only [phase_step]
  rw [this]; ring

private theorem cos_fourth_sum {fs k : ℕ} {fc : ℝ} (h0 : 0 < fc) (hhi : fc < fs / 2) {q : ℤ} (hq : k * fc = q * fs) :
    ∑ j ∈ Finset.range k, Real.cos (phase fs fc j) ^ 4 = k * (3 / 4 - if 4 * fc = fs then 1 / 4 else 3 / 8) := by
  obtain ⟨b0, b1⟩ := step_facts h0 hhi
  have hfs' : (0 : ℝ) < fs := by linarith
  have hfs : (fs : ℝ) ≠ 0 := hfs'.ne'
  have h2 := cos_sq_sum h0 hhi hq
  split_ifs with h4
  · rw [show (k : ℝ) * (3 / 4 - 1 / 4) = k * (1 / 2) by ring, ← h2]
    refine Finset.sum_congr rfl fun j _ => ?_
    have hs : Real.sin (2 * phase fs fc j) = 0 := by
      rw [phase_step, show 2 * ((j : ℝ) * (2 * Real.pi * fc / fs)) = j * Real.pi * (4 * fc / fs) by ring, h4, div_self hfs, mul_one]
      exact Real.sin_nat_mul_pi j
    rw [Real.sin_two_mul] at hs
    have hc := Real.sin_sq_add_cos_sq (phase fs fc j)
    have : Real.cos (phase fs fc j) ^ 2 * Real.sin (phase fs fc j) ^ 2 = 0 := by
      have : Real.cos (phase fs fc j) ^ 2 * Real.sin (phase fs fc j) ^ 2 = (2 * Real.sin (phase fs fc j) * Real.cos (phase fs fc j)) ^ 2 / 4 := by ring
      rw [this, hs]; norm_num
    have hs2 : Real.sin (phase fs fc j) ^ 2 = 1 - Real.cos (phase fs fc j) ^ 2 := by linarith
    rw [hs2] at this
    nlinarith
  · have hw := whole hfs hq
    have hne : Real.sin (4 * (2 * Real.pi * fc / fs) / 2) ≠ 0 := by
      have e : 4 * (2 * Real.pi * fc / fs) / 2 = 2 * (2 * Real.pi * fc / fs) := by ring
      rw [e]
      rcases lt_trichotomy (4 * fc) fs with h | h | h
      · refine (Real.sin_pos_of_pos_of_lt_pi (by linarith) ?_).ne'
        rw [show 2 * (2 * Real.pi * fc / fs) = Real.pi * (4 * fc / fs) by ring]
        have : 4 * fc / fs < 1 := (div_lt_one hfs').mpr h
        nlinarith [Real.pi_pos]
      · exact absurd h h4
      · have hp : Real.pi < 2 * (2 * Real.pi * fc / fs) := by
          rw [show 2 * (2 * Real.pi * fc / fs) = Real.pi * (4 * fc / fs) by ring]
          have : 1 < 4 * fc / fs := (one_lt_div hfs').mpr h
          nlinarith [Real.pi_pos]
        have := Real.sin_pos_of_pos_of_lt_pi (x := 2 * (2 * Real.pi * fc / fs) - Real.pi) (by linarith) (by linarith)
        rw [Real.sin_sub_pi] at this
        intro hh; rw [hh] at this; simp at this
    have h4s := sum_cos_period (a := 0) (β := 4 * (2 * Real.pi * fc / fs)) (k := k) (p := 4 * q) (by push_cast; linarith) hne
    have h2s := sum_cos_period (a := 0) (β := 2 * (2 * Real.pi * fc / fs)) (k := k) (p := 2 * q) (by push_cast; linarith) (by
      rw [mul_div_cancel_left₀ _ (two_ne_zero)]; exact (Real.sin_pos_of_pos_of_lt_pi b0 b1).ne')
    have e : ∀ j : ℕ, Real.cos (phase fs fc j) ^ 4 = 3 / 8 + Real.cos (0 + j * (2 * (2 * Real.pi * fc / fs))) / 2
        + Real.cos (0 + j * (4 * (2 * Real.pi * fc / fs))) / 8 := fun j => by
      rw [phase_step, zero_add, zero_add, show (j : ℝ) * (4 * (2 * Real.pi * fc / fs)) = 2 * (2 * (j * (2 * Real.pi * fc / fs))) by ring,
        show (j : ℝ) * (2 * (2 * Real.pi * fc / fs)) = 2 * (j * (2 * Real.pi * fc / fs)) by ring]
      generalize (j : ℝ) * (2 * Real.pi * fc / fs) = y
      rw [Real.cos_two_mul (2 * y), Real.cos_two_mul y]
      ring
    simp only [e]
    rw [Finset.sum_add_distrib, Finset.sum_add_distrib, ← Finset.sum_div _ _ (2 : ℝ), ← Finset.sum_div _ (fun j : ℕ => Real.cos (0 + j * (4 * (2 * Real.pi * fc / fs)))) (8 : ℝ), h4s, h2s, Finset.sum_const, Finset.card_range, nsmul_eq_mul]
    ring

private theorem nrz_sign (b : Bool) : (bitToNrz b : ℝ) = 1 ∨ (bitToNrz b : ℝ) = -1 := by
  rw [bitToNrz_real]; cases b <;> simp

private theorem blocks_zero {c : ℕ → ℝ} {E : ℕ → ℝ} {p : ℕ} (hc : ∀ a, ∑ j ∈ Finset.range p, c (a * p + j) = 0) (M : ℕ) :
    ∑ i ∈ Finset.range (M * p), E (i / p) * c i = 0 := by
  rw [sum_range_blocks]
  refine Finset.sum_eq_zero fun a _ => ?_
  rw [Finset.sum_congr rfl fun j hj => by
    have hjp := Finset.mem_range.mp hj
    rw [show (a * p + j) / p = a by
      rw [Nat.mul_comm, Nat.mul_add_div (by omega), Nat.div_eq_of_lt hjp, add_zero]], ← Finset.mul_sum, hc, mul_zero]

private theorem mapIdx_wave_range {A : Type} {k : ℕ} (hk : 0 < k) (f : ℕ → A → ℕ → ℝ) (g : ℕ → A) (N : ℕ) (v : ℕ → ℝ) :
    (wave k f ((List.range N).map g)).mapIdx (fun i x => x + v i)
      = (List.range (N * k)).map (fun i => f (i / k) (g (i / k)) (i % k) + v i) := by
  rw [wave_range hk]
  apply List.ext_getElem?
  intro i
  rw [List.getElem?_mapIdx, List.getElem?_map, List.getElem?_map]
  by_cases hi : i < N * k
  · rw [List.getElem?_range hi]; rfl
  · rw [List.getElem?_eq_none (by simpa using hi)]; rfl

private theorem rsum_affine (l : List ℝ) (a b : ℝ) : rsum (l.map fun x => a * x + b) = a * rsum l + l.length * b := by
  rw [rsum_eq_sum, rsum_eq_sum]
  induction l with
  | nil => simp
  | cons x l ih => rw [List.map_cons, List.sum_cons, ih, List.sum_cons, List.length_cons]; push_cast; ring

private theorem rsum_mul (l : List ℝ) (f : ℝ → ℝ) (a : ℝ) : rsum (l.map fun x => a * f x) = a * rsum (l.map f) := by
  rw [rsum_eq_sum, rsum_eq_sum]
  induction l with
  | nil => simp
  | cons x l ih => rw [List.map_cons, List.sum_cons, ih, List.map_cons, List.sum_cons]; ring

/-- The volume, the sign and a constant offset of a recording do not matter. -/
theorem C159_affine (l : List ℝ) {a : ℝ} (ha : a ≠ 0) (b : ℝ) : excessKurtosis (l.map fun x => a * x + b) = excessKurtosis l := by
  rcases l.eq_nil_or_concat with rfl | ⟨_, _, hl⟩
  · rfl
  have hlen : (l.length : ℝ) ≠ 0 := by rw [hl]; simp; positivity
  have hm : sampleMean (l.map fun x => a * x + b) = a * sampleMean l + b := by
    unfold sampleMean
    rw [rsum_affine, List.length_map, Flt.ofNat_real]
    field_simp
  unfold excessKurtosis
  simp only [hm, List.map_map, List.length_map]
  rw [show ((fun x => (x - (a * sampleMean l + b)) * (x - (a * sampleMean l + b))) ∘ fun x => a * x + b)
      = fun x => a ^ 2 * ((fun x => (x - sampleMean l) * (x - sampleMean l)) x) by funext x; simp only [Function.comp]; ring,
    show ((fun x => (x - (a * sampleMean l + b)) * (x - (a * sampleMean l + b)) * ((x - (a * sampleMean l + b)) * (x - (a * sampleMean l + b))))
        ∘ fun x => a * x + b)
      = fun x => a ^ 4 * ((fun x => (x - sampleMean l) * (x - sampleMean l) * ((x - sampleMean l) * (x - sampleMean l))) x) by
        funext x; simp only [Function.comp]; ring, rsum_mul, rsum_mul]
  congr 1
  generalize rsum (l.map fun x => (x - sampleMean l) * (x - sampleMean l)) = s2
  generalize rsum (l.map fun x => (x - sampleMean l) * (x - sampleMean l) * ((x - sampleMean l) * (x - sampleMean l))) = s4
  rw [show Flt.ofNat l.length * (a ^ 4 * s4) = a ^ 4 * (Flt.ofNat l.length * s4) by ring,
    show a ^ 2 * s2 * (a ^ 2 * s2) = a ^ 4 * (s2 * s2) by ring, mul_div_mul_left _ _ (pow_ne_zero 4 ha)]

/-- Two values that occur equally often have the least excess kurtosis there is, minus two. -/
example : excessKurtosis [(1 : ℝ), -1] = -2 ∧ excessKurtosis [(7 : ℝ), 3] = -2 := by
  have h : excessKurtosis [(1 : ℝ), -1] = -2 := by
    simp [excessKurtosis, sampleMean, rsum_eq_sum, Flt.ofNat_real]; norm_num
  refine ⟨h, ?_⟩
  rw [← h, ← C159_affine [(1 : ℝ), -1] (a := 2) (by norm_num) 5]
  norm_num

/-- **C159.** Noise alone: the excess kurtosis of longer and longer recordings goes to zero. -/
theorem C159_silence (hz : White P 1 z) (hσ : 0 < σ) (hg : ∀ ω, Gives (noise ω) (fun i => z i ω)) :
    ∃ rec : ℕ → Ω → List ℝ, (∀ N ω, (do let ch ← awgn (ofList (List.replicate N (0 : ℝ))) σ (noise ω); collect ch) = pure (rec N ω)) ∧
      ∀ᵐ ω ∂P, Tendsto (fun N => excessKurtosis (rec N ω)) atTop (nhds 0) := by
  obtain ⟨w, hw, hn⟩ := hz.driven hg σ
  refine ⟨fun N ω => (List.range N).map (fun i => 0 + w i ω), fun N ω => ?_, ?_⟩
  · rw [← run_range hn (fun _ => 0) N ω]; simp
  · have := hw.kurtosis_limit hσ (k := 1) one_pos (c := fun _ => 0) (s := fun _ => 0) (e := fun _ => 1) (by simp) (by simp) (B := 0) (A2 := 0)
      (A4 := 0) (by simp) (by simp) (by simp) le_rfl (by simp)
    simpa using this

/-- BPSK on a carrier with whole cycles in a symbol: for every message the excess kurtosis settles at `-dent`. -/
theorem C159_bpsk (hz : White P 1 z) (hσ : 0 < σ) (hg : ∀ ω, Gives (noise ω) (fun i => z i ω)) (g : ℕ → Bool)
    {fs sym : ℕ} {fc : ℝ} (hfs : fs < 2 ^ 64) (hdvd : sym ∣ fs) (hsps : 0 < fs / sym) (h0 : 0 < fc) (hhi : fc < fs / 2)
    {q : ℤ} (hq : (fs / sym : ℕ) * fc = q * fs) :
    ∃ rec : ℕ → Ω → List ℝ, (∀ N ω, (do
        let s ← txBpsk (ofList ((List.range N).map g)) fs sym fc
        let ch ← awgn s σ (noise ω)
        collect ch) = pure (rec N ω)) ∧
      ∀ᵐ ω ∂P, Tendsto (fun N => excessKurtosis (rec N ω)) atTop (nhds (-dent fs fc σ)) := by
  obtain ⟨w, hw, hn⟩ := hz.driven hg σ
  have hfsR : (fs : ℝ) ≠ 0 := by have : (0 : ℝ) < fs := by linarith
                                 exact this.ne'
  have hcar : ⌊fc⌋₊ ≤ fs / 2 := by
    rw [Nat.le_div_iff_mul_le two_pos]
    have := Nat.floor_le h0.le
    have : ((⌊fc⌋₊ * 2 : ℕ) : ℝ) ≤ fs := by push_cast; linarith
    exact_mod_cast this
  refine ⟨fun N ω => (wave (fs / sym) (fun n b j => bitToNrz b * Flt.cos (phase fs fc (n * (fs / sym) + j)))
    ((List.range N).map g)).mapIdx (fun i x => x + w i ω), fun N ω => ?_, ?_⟩
  · obtain ⟨it, h1, h2⟩ := txBpsk_ok (yields_ofList ((List.range N).map g)) (fc := fc) hsps (by rw [Flt.toNat_real]; omega)
      ((isInt_real hfs (pos_of_sps hsps)).mpr hdvd)
    obtain ⟨ch, c1, c2⟩ := awgn_driven h2 (hn ω)
    rw [h1, LawfulMonad.pure_bind, c1, LawfulMonad.pure_bind, collect_of_yields c2]
  · have key := hw.kurtosis_limit hσ hsps (c := fun r => Real.cos (phase fs fc r)) (e := fun i => bitToNrz (g (i / (fs / sym))))
      (s := fun i => bitToNrz (g (i / (fs / sym))) * Real.cos (phase fs fc (i % (fs / sym)))) (fun i => nrz_sign _) (fun i => rfl)
      (B := 1) (fun i => Real.abs_cos_le_one _) (cos_sq_sum h0 hhi hq) (cos_fourth_sum h0 hhi hq) (by norm_num) (fun M => by
        refine blocks_zero (c := fun i => Real.cos (phase fs fc (i % (fs / sym)))) (E := fun a => bitToNrz (g a)) (fun a => ?_) M
        rw [← cos_sum h0 hhi hq]
        exact Finset.sum_congr rfl fun j hj => by rw [mod_block (Finset.mem_range.mp hj)])
    filter_upwards [key] with ω hω
    rw [show (3 / 4 - (if 4 * fc = (fs : ℝ) then (1 / 4 : ℝ) else 3 / 8) - 3 * (1 / 2) ^ 2) / (1 / 2 + σ ^ 2) ^ 2 = -dent fs fc σ by
      unfold dent; rw [← neg_div]; congr 1; ring] at hω
    refine hω.congr fun N => ?_
    rw [mapIdx_wave_range hsps]
    congr 1
    refine List.map_congr_left fun i _ => ?_
    rw [show Flt.cos (phase fs fc (i / (fs / sym) * (fs / sym) + i % (fs / sym))) = Real.cos (phase fs fc (i / (fs / sym) * (fs / sym) + i % (fs / sym)))
      from rfl, cos_period hfsR hq]

/-- Spreading does not change it: CDMA-BPSK with any key, on a carrier with whole cycles in a chip. -/
theorem C159_cdma (hz : White P 1 z) (hσ : 0 < σ) (hg : ∀ ω, Gives (noise ω) (fun i => z i ω)) (g : ℕ → Bool)
    {fs sym : ℕ} {fc : ℝ} {key : List Bool} (hfs : fs < 2 ^ 64) (hsym : 0 < sym)
    (hkey : key ≠ []) (hdvd : sym * key.length ∣ fs) (hnyq : 2 * (sym * key.length) ≤ fs) (h0 : 0 < fc) (hhi : fc < fs / 2)
    {q : ℤ} (hq : (fs / sym / key.length : ℕ) * fc = q * fs) :
    ∃ rec : ℕ → Ω → List ℝ, (∀ N ω, (do
        let s ← txCdmaBpsk (ofList ((List.range N).map g)) fs sym fc key
        let ch ← awgn s σ (noise ω)
        collect ch) = pure (rec N ω)) ∧
      ∀ᵐ ω ∂P, Tendsto (fun N => excessKurtosis (rec N ω)) atTop (nhds (-dent fs fc σ)) := by
  obtain ⟨w, hw, hn⟩ := hz.driven hg σ
  have hfsR : (fs : ℝ) ≠ 0 := by have : (0 : ℝ) < fs := by linarith
                                 exact this.ne'
  have hcar : ⌊fc⌋₊ ≤ fs / 2 := by
    rw [Nat.le_div_iff_mul_le two_pos]
    have := Nat.floor_le h0.le
    have : ((⌊fc⌋₊ * 2 : ℕ) : ℝ) ≤ fs := by push_cast; linarith
    exact_mod_cast this
  have hL := List.length_pos_iff.mpr hkey
  have hok := (cdmaOk_real (fc := fc) hfs).mpr ⟨hsym, hL, hdvd, hnyq, hcar⟩
  have hkp : fs / sym = key.length * (fs / sym / key.length) := by
    obtain ⟨t, rfl⟩ := hdvd
    rw [Nat.mul_assoc, Nat.mul_div_cancel_left _ hsym, Nat.mul_div_cancel_left _ hL]
  have h1 := hok.sps
  have hsps : 0 < fs / sym := by omega
  set k := fs / sym with hkdef
  set p := k / key.length with hpdef
  have hp : 0 < p := Nat.pos_of_ne_zero fun h => by rw [h, mul_zero] at hkp; omega
  have hqk : (k : ℝ) * fc = ((key.length * q : ℤ) : ℝ) * fs := by
    rw [hkp]; push_cast
    rw [mul_assoc, hq]; ring
  refine ⟨fun N ω => (wave k (fun n b j => bitToNrz b * Flt.cos (phase fs fc (n * k + j))
    * bitToNrz (keyBit key p (n * k + j))) ((List.range N).map g)).mapIdx (fun i x => x + w i ω),
    fun N ω => ?_, ?_⟩
  · obtain ⟨it, e1, e2⟩ := txCdmaBpsk_ok (yields_ofList ((List.range N).map g)) hok
    obtain ⟨ch, c1, c2⟩ := awgn_driven e2 (hn ω)
    rw [e1, LawfulMonad.pure_bind, c1, LawfulMonad.pure_bind, collect_of_yields c2, mapIdx_wave]
  · have key := hw.kurtosis_limit hσ hsps (c := fun r => Real.cos (phase fs fc r))
      (e := fun i => bitToNrz (g (i / k)) * bitToNrz (keyBit key p i))
      (s := fun i => bitToNrz (g (i / k)) * bitToNrz (keyBit key p i) * Real.cos (phase fs fc (i % k))) (fun i => by
        rcases nrz_sign (g (i / k)) with a | a <;> rcases nrz_sign (keyBit key p i) with b | b <;> rw [a, b] <;> simp) (fun i => rfl)
      (B := 1) (fun i => Real.abs_cos_le_one _) (cos_sq_sum h0 hhi hqk) (cos_fourth_sum h0 hhi hqk) (by norm_num) (fun M => by
        have := blocks_zero (c := fun i => Real.cos (phase fs fc i)) (p := p)
          (E := fun a => bitToNrz (g (a / key.length)) * bitToNrz (key.getD (a % key.length) false)) (fun a => by
            rw [← cos_sum h0 hhi hq]
            exact Finset.sum_congr rfl fun j _ => cos_period hfsR hq a j) (M * key.length)
        rw [Nat.mul_assoc, ← hkp] at this
        rw [← this]
        refine Finset.sum_congr rfl fun i _ => ?_
        have e1 : i / k = i / p / key.length := by rw [Nat.div_div_eq_div_mul, Nat.mul_comm p, ← hkp]
        have e2 : Real.cos (phase fs fc (i % k)) = Real.cos (phase fs fc i) := by
          conv_rhs => rw [← Nat.div_add_mod' i k]
          exact (cos_period hfsR hqk _ _).symm
        rw [e1, e2]; rfl)
    filter_upwards [key] with ω hω
    rw [show (3 / 4 - (if 4 * fc = (fs : ℝ) then (1 / 4 : ℝ) else 3 / 8) - 3 * (1 / 2) ^ 2) / (1 / 2 + σ ^ 2) ^ 2 = -dent fs fc σ by
      unfold dent; rw [← neg_div]; congr 1; ring] at hω
    refine hω.congr fun N => ?_
    rw [mapIdx_wave_range hsps]
    congr 1
    refine List.map_congr_left fun i _ => ?_
    rw [show Flt.cos (phase fs fc (i / k * k + i % k)) = Real.cos (phase fs fc (i / k * k + i % k)) from rfl, cos_period hfsR hqk,
      Nat.div_add_mod' i k]
    ring

/-- A threshold between the two limits tells a transmission from silence on all sufficiently long recordings, at every noise level. -/
theorem C159_detector (hz : White P 1 z) (hσ : 0 < σ) (hg : ∀ ω, Gives (noise ω) (fun i => z i ω)) (g : ℕ → Bool)
    {fs sym : ℕ} {fc : ℝ} {key : List Bool} (hfs : fs < 2 ^ 64) (hsym : 0 < sym)
    (hkey : key ≠ []) (hdvd : sym * key.length ∣ fs) (hnyq : 2 * (sym * key.length) ≤ fs) (h0 : 0 < fc) (hhi : fc < fs / 2)
    {q : ℤ} (hq : (fs / sym / key.length : ℕ) * fc = q * fs) {τ : ℝ} (hτ : 0 < τ) (hτ' : τ < dent fs fc σ) :
    ∃ quiet busy : ℕ → Ω → List ℝ,
      (∀ N ω, (do let ch ← awgn (ofList (List.replicate N (0 : ℝ))) σ (noise ω); collect ch) = pure (quiet N ω)) ∧
      (∀ N ω, (do
        let s ← txCdmaBpsk (ofList ((List.range N).map g)) fs sym fc key
        let ch ← awgn s σ (noise ω)
        collect ch) = pure (busy N ω)) ∧
      ∀ᵐ ω ∂P, ∀ᶠ N in atTop, -τ < excessKurtosis (quiet N ω) ∧ excessKurtosis (busy N ω) < -τ := by
  obtain ⟨quiet, q1, q2⟩ := C159_silence hz hσ hg
  obtain ⟨busy, b1, b2⟩ := C159_cdma hz hσ hg g hfs hsym hkey hdvd hnyq h0 hhi hq
  refine ⟨quiet, busy, q1, b1, ?_⟩
  filter_upwards [q2, b2] with ω hq hb
  filter_upwards [hq.eventually_const_lt (show -τ < 0 by linarith), hb.eventually_lt_const (show -dent fs fc σ < -τ by linarith)] with N e1 e2
  exact ⟨e1, e2⟩

/-- The noise hides it all the same: at the first noise level of `tests/normtest.rs`, two, the dent is above `1/55`; at the second, ten,
it is below `4·10⁻⁵`; it falls with the fourth power of the level. -/
theorem C159_size (fs : ℕ) (fc : ℝ) (h4 : 4 * fc ≠ fs) : 1 / 55 < dent fs fc 2 ∧ dent fs fc 10 < 4 / 10 ^ 5 ∧
    ∀ σ : ℝ, 0 < σ → dent fs fc σ < 3 / 8 / σ ^ 4 := by
  unfold dent
  rw [if_neg h4]
  refine ⟨by norm_num, by norm_num, fun σ hσ => ?_⟩
  refine div_lt_div_of_pos_left (by norm_num) (by positivity) ?_
  nlinarith [sq_nonneg (σ ^ 2), pow_pos hσ 2]

/-- The BPSK signal of `tests/normtest.rs` (80 000 samples and 1000 symbols a second, a carrier of 2000) in noise of level two. -/
example : ∃ rec : ℕ → (ℕ → ℝ) → List ℝ, (∀ N ω, (do
      let s ← txBpsk (ofList ((List.range N).map fun n => n % 3 == 0)) 80000 1000 (2000 : ℝ)
      let ch ← awgn s (2 : ℝ) (path ω)
      collect ch) = pure (rec N ω)) ∧
    ∀ᵐ ω ∂gaussPath 1, Tendsto (fun N => excessKurtosis (rec N ω)) atTop (nhds (-dent 80000 2000 2)) :=
  C159_bpsk (white_path 1) (by norm_num) path_gives _ (by norm_num) (by norm_num) (by norm_num)
    (by norm_num) (by norm_num) (q := 2) (by norm_num)

/-- Spread by sixteen chips, on a carrier with one cycle to a chip of five samples. -/
example : ∃ rec : ℕ → (ℕ → ℝ) → List ℝ, (∀ N ω, (do
      let s ← txCdmaBpsk (ofList ((List.range N).map fun n => n % 3 == 0)) 80000 1000 (16000 : ℝ) (List.replicate 15 true ++ [false])
      let ch ← awgn s (2 : ℝ) (path ω)
      collect ch) = pure (rec N ω)) ∧
    ∀ᵐ ω ∂gaussPath 1, Tendsto (fun N => excessKurtosis (rec N ω)) atTop (nhds (-dent 80000 16000 2)) :=
  C159_cdma (white_path 1) (by norm_num) path_gives _ (by norm_num) (by norm_num) (by simp) (by norm_num) (by norm_num)
    (by norm_num) (by norm_num) (q := 1) (by norm_num)

example : 0 < (1 / 60 : ℝ) ∧ 1 / 60 < dent 80000 16000 2 := ⟨by norm_num, lt_trans (by norm_num) (C159_size 80000 16000 (by norm_num)).1⟩

end Verif.Props
