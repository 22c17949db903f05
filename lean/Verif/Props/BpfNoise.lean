import Verif.Lemmas.BpfNoise
import Verif.Props.BpfLeak
import Verif.Props.BpfFront
import Verif.Props.NoiseEnergy

/-!
# Property C137: noise behind the band-pass filter

Exact arithmetic; `z` is white Gaussian noise of standard deviation one (Spec/Gauss) and the generator handed to `awgn` gives
its samples.
-/
namespace Verif.Props
open Verif Spec MeasureTheory ProbabilityTheory Filter

variable {ι ν : Type} {Ω : Type} [MeasurableSpace Ω] {P : Measure Ω} {σ : ℝ} {z w : ℕ → Ω → ℝ} [RIter ν ℝ] {noise : Ω → ν}

theorem mapIdx_add_range (s : ℕ → ℝ) (N : ℕ) (v : ℕ → ℝ) :
    ((List.range N).map s).mapIdx (fun i x => x + v i) = (List.range N).map (fun i => s i + v i) := by
  apply List.ext_getElem?
  intro i
  rw [List.getElem?_mapIdx, List.getElem?_map, List.getElem?_map]
  by_cases hi : i < N
  · rw [List.getElem?_range hi]; rfl
  · rw [List.getElem?_eq_none (by simpa using hi)]; rfl

/-- The measured energy of a filtered recording, block by block. -/
theorem filtered_energy (lo hi : ℝ) {fs n : ℕ} (hn : 0 < n) {m : ι} [RIter ι ℝ] {q : ℕ} {s : ℕ → ℝ}
    (h : Yields m ((List.range (q * n)).map s)) :
    ∃ out : List ℝ, collect (bandpass lo hi m fs n) = pure out ∧ out.length = q * n ∧
      avgEnergy out = (∑ b ∈ Finset.range q, ∑ j ∈ Finset.range n,
        (bpOut lo hi fs n ((List.range n).map (fun j => s (b * n + j)))).getD j 0 ^ 2) / (q * n : ℕ) := by
  obtain ⟨out, h1, h2, h3⟩ := out_block lo hi (fs := fs) hn h
  refine ⟨out, collect_of_yields h1, h2, ?_⟩
  rw [list_range_getD h2, avgEnergy_range, sum_sub_blocks]
  congr 1
  refine Finset.sum_congr rfl fun b hb => Finset.sum_congr rfl fun j hj => ?_
  rw [h3 b (Finset.mem_range.mp hb) j (Finset.mem_range.mp hj)]

/-- The mean of the energy measured behind the filter: that of the filtered signal, plus the variance of the noise times the
share of the bins that lie in the band. -/
theorem C137_mean (hz : White P 1 z) (hg : ∀ ω, Gives (noise ω) (fun i => z i ω)) [RIter ι ℝ] {src : ι} {l : List ℝ}
    (h : Yields src l) (hl : l ≠ []) (lo hi : ℝ) {fs n : ℕ} (hn : 0 < n) (hd : n ∣ l.length) :
    ∃ (clean : List ℝ) (rec : Ω → List ℝ), collect (bandpass lo hi src fs n) = pure clean ∧
      (∀ ω, (do let ch ← awgn src σ (noise ω); collect (bandpass lo hi ch fs n)) = pure (rec ω)) ∧
      ∫ ω, avgEnergy (rec ω) ∂P = avgEnergy clean + σ ^ 2 * (bandBins lo hi fs n / n) := by
  obtain ⟨w, hw, hg'⟩ := hz.driven hg σ
  obtain ⟨q, hq⟩ := hd
  rw [Nat.mul_comm] at hq
  have hq0 : 0 < q := by
    rcases Nat.eq_zero_or_pos q with h0 | h0
    · rw [h0, Nat.zero_mul] at hq
      exact absurd (List.length_eq_zero_iff.mp hq) hl
    · exact h0
  have hqR : (q : ℝ) ≠ 0 := by exact_mod_cast hq0.ne'
  have hnR : (n : ℝ) ≠ 0 := by exact_mod_cast hn.ne'
  have he := list_range_getD hq
  set s : ℕ → ℝ := fun i => l.getD i 0 with hs
  obtain ⟨clean, c1, -, c3⟩ := filtered_energy lo hi (fs := fs) hn (h.of_eq he)
  have hr : ∀ ω, ∃ out : List ℝ, (do let ch ← awgn src σ (noise ω); collect (bandpass lo hi ch fs n)) = pure out ∧
      avgEnergy out = (∑ b ∈ Finset.range q, passedEnergy lo hi fs n (fun j => s (b * n + j)) (noiseBlock n w b ω)) / (q * n : ℕ) := by
    intro ω
    obtain ⟨ch, d1, d2⟩ := awgn_driven (h.of_eq he) (hg' ω)
    rw [mapIdx_add_range] at d2
    obtain ⟨out, o1, -, o3⟩ := filtered_energy lo hi (fs := fs) hn d2
    refine ⟨out, by rw [d1, LawfulMonad.pure_bind, o1], ?_⟩
    rw [o3]
    congr 1
    exact Finset.sum_congr rfl fun b _ => passedEnergy_eq lo hi hn _ _
  choose rec r1 r2 using hr
  refine ⟨clean, rec, c1, r1, ?_⟩
  simp only [r2]
  rw [integral_div, integral_finsetSum _ (fun b _ => (hw.passed_mean lo hi hn b _).1),
    Finset.sum_congr rfl (fun b _ => (hw.passed_mean lo hi hn b _).2), Finset.sum_add_distrib, Finset.sum_const, Finset.card_range,
    nsmul_eq_mul, add_div, ← c3]
  congr 1
  push_cast
  field_simp

/-- How many bins of eight lie between 900 and 2100 Hz at 8 kHz: the ones of ±1 and ±2 kHz. -/
theorem bins_four : bandBins 900 2100 8000 8 = 4 := by
  classical
  unfold bandBins
  rw [show (Finset.range 8).filter (fun k : ℕ => (900 : ℝ) ≤ ((min k (8 - k) : ℕ) : ℝ) * (8000 : ℕ) / (8 : ℕ)
      ∧ ((min k (8 - k) : ℕ) : ℝ) * (8000 : ℕ) / (8 : ℕ) ≤ 2100) = {1, 2, 6, 7} from ?_]
  · rfl
  · ext k
    simp only [Finset.mem_filter, Finset.mem_range, Finset.mem_insert, Finset.mem_singleton]
    constructor
    · rintro ⟨hk, h1, h2⟩
      interval_cases k <;> first | decide | (norm_num at h1; done) | (norm_num at h2; done)
    · rintro (rfl | rfl | rfl | rfl) <;> norm_num

/-- Silence in noise of standard deviation 3, half of the bins in the band: half of the noise power remains. -/
example : ∃ rec : (ℕ → ℝ) → List ℝ, (∀ ω, (do
      let ch ← awgn (ofList (List.replicate 24 (0 : ℝ))) (3 : ℝ) (path ω)
      collect (bandpass (900 : ℝ) 2100 ch 8000 8)) = pure (rec ω)) ∧
    ∫ ω, avgEnergy (rec ω) ∂(gaussPath 1) = 9 / 2 := by
  obtain ⟨clean, rec, h1, h2, h3⟩ := C137_mean (σ := 3) (white_path 1) path_gives (yields_ofList (List.replicate 24 (0 : ℝ))) (by simp) 900 2100
    (fs := 8000) (n := 8) (by norm_num) (by simp)
  refine ⟨rec, h2, ?_⟩
  have hc := C68_tones 900 2100 (fs := 8000) (n := 8) (by norm_num) (by norm_num) 3 [] (by simp) (yields_ofList _)
  simp only [List.filter_nil, List.map_nil, List.sum_nil] at hc
  rw [show (List.range (3 * 8)).map (fun _ : ℕ => (0 : ℝ)) = List.replicate 24 0 by simp] at hc
  have : clean = List.replicate 24 0 := (RM.ok_inj.mp ((collect_of_yields hc).symm.trans h1)).symm
  rw [h3, this, bins_four, show List.replicate 24 (0 : ℝ) = (List.range 24).map (fun _ => 0) by simp, avgEnergy_range]
  norm_num

theorem period_add {s : ℕ → ℝ} {n : ℕ} (hp : ∀ i, s (i + n) = s i) (b j : ℕ) : s (b * n + j) = s j := by
  induction b with
  | zero => simp
  | succ b ih => rw [show (b + 1) * n + j = (b * n + j) + n by ring, hp, ih]

/-- A signal that repeats from block to block, for instance a sum of tones on bins: the energy measured behind the filter settles,
almost surely, at that of one filtered block plus the share of the noise (`C137_tone` has instances). -/
theorem C137_limit (hz : White P 1 z) (hg : ∀ ω, Gives (noise ω) (fun i => z i ω)) {s : ℕ → ℝ} (lo hi : ℝ) {fs n : ℕ} (hn : 0 < n)
    (hp : ∀ i, s (i + n) = s i) {clean : List ℝ}
    (hc : collect (bandpass lo hi (ofList ((List.range n).map s)) fs n) = pure clean) :
    ∃ rec : ℕ → Ω → List ℝ, (∀ q ω, (do
        let ch ← awgn (ofList ((List.range (q * n)).map s)) σ (noise ω)
        collect (bandpass lo hi ch fs n)) = pure (rec q ω)) ∧
      ∀ᵐ ω ∂P, Tendsto (fun q => avgEnergy (rec q ω)) atTop (nhds (avgEnergy clean + σ ^ 2 * (bandBins lo hi fs n / n))) := by
  obtain ⟨w, hw, hg'⟩ := hz.driven hg σ
  have hnR : (n : ℝ) ≠ 0 := by exact_mod_cast hn.ne'
  have hr : ∀ q ω, ∃ out : List ℝ, (do
        let ch ← awgn (ofList ((List.range (q * n)).map s)) σ (noise ω)
        collect (bandpass lo hi ch fs n)) = pure out ∧
      avgEnergy out = (∑ b ∈ Finset.range q, passedEnergy lo hi fs n s (noiseBlock n w b ω)) / q / n := by
    intro q ω
    obtain ⟨ch, d1, d2⟩ := awgn_driven (yields_ofList ((List.range (q * n)).map s)) (hg' ω)
    rw [mapIdx_add_range] at d2
    obtain ⟨out, o1, -, o3⟩ := filtered_energy lo hi (fs := fs) hn d2
    refine ⟨out, by rw [d1, LawfulMonad.pure_bind, o1], ?_⟩
    rw [o3, div_div, ← Nat.cast_mul]
    congr 1
    refine Finset.sum_congr rfl fun b _ => ?_
    rw [show (fun j => s (b * n + j) + w (b * n + j) ω) = fun j => s j + w (b * n + j) ω from funext fun j => by rw [period_add hp]]
    exact passedEnergy_eq lo hi hn s (fun j => w (b * n + j) ω)
  choose rec r1 r2 using hr
  refine ⟨rec, r1, ?_⟩
  obtain ⟨out, o1, -, o3⟩ := filtered_energy lo hi (fs := fs) hn (q := 1) (s := s) (by rw [one_mul]; exact yields_ofList _)
  have e : clean = out := RM.ok_inj.mp (hc.symm.trans o1)
  have hE : avgEnergy clean = (∑ j ∈ Finset.range n, (bpOut lo hi fs n ((List.range n).map s)).getD j 0 ^ 2) / n := by
    rw [e, o3]; simp
  filter_upwards [hw.passed_limit lo hi (fs := fs) hn s] with ω hω
  simp only [r2]
  have := hω.div_const (n : ℝ)
  rwa [add_div, ← hE, mul_div_assoc] at this

/-- The energy detector behind the filter: a jammer outside the band, however strong, is not mistaken for the signal; with a
threshold between the level of the noise in the band and that of signal and noise in the band, the detector is almost surely right
on all sufficiently long recordings. -/
theorem C137_detector (hz : White P 1 z) (hg : ∀ ω, Gives (noise ω) (fun i => z i ω)) {s jam : ℕ → ℝ} (lo hi : ℝ) {fs n : ℕ}
    (hn : 0 < n) (hp : ∀ i, s (i + n) = s i) (hj : ∀ i, jam (i + n) = jam i) {clean : List ℝ}
    (hs : collect (bandpass lo hi (ofList ((List.range n).map s)) fs n) = pure clean)
    (hjam : collect (bandpass lo hi (ofList ((List.range n).map jam)) fs n) = pure (List.replicate n 0)) {n0 : ℝ}
    (h0 : √(σ ^ 2 * (bandBins lo hi fs n / n)) < n0) (h1 : n0 < √(avgEnergy clean + σ ^ 2 * (bandBins lo hi fs n / n))) :
    ∃ quiet busy : ℕ → Ω → List ℝ,
      (∀ q ω, (do
        let ch ← awgn (ofList ((List.range (q * n)).map jam)) σ (noise ω)
        collect (bandpass lo hi ch fs n)) = pure (quiet q ω)) ∧
      (∀ q ω, (do
        let ch ← awgn (ofList ((List.range (q * n)).map (fun i => s i + jam i))) σ (noise ω)
        collect (bandpass lo hi ch fs n)) = pure (busy q ω)) ∧
      ∀ᵐ ω ∂P, ∀ᶠ q in atTop, energyDetector (quiet q ω) n0 = false ∧ energyDetector (busy q ω) n0 = true := by
  have hzero : avgEnergy (List.replicate n (0 : ℝ)) = 0 := by
    rw [show List.replicate n (0 : ℝ) = (List.range n).map (fun _ => 0) by simp, avgEnergy_range]; simp
  obtain ⟨quiet, q1, q2⟩ := C137_limit (σ := σ) hz hg lo hi hn hj hjam
  have ho : ∀ f : ℕ → ℝ, collect (bandpass lo hi (ofList ((List.range n).map f)) fs n)
      = pure (bpOut lo hi fs n ((List.range n).map f)) := fun f => by
    rw [collect_of_yields (bandpass_ok lo hi (yields_ofList ((List.range n).map f)) (fs := fs) hn (by simp)), blocks_of_le hn (by simpa using hn.ne') (by simp)]
    simp
  have ec : clean = bpOut lo hi fs n ((List.range n).map s) := RM.ok_inj.mp (hs.symm.trans (ho s))
  have ej : List.replicate n 0 = bpOut lo hi fs n ((List.range n).map jam) := RM.ok_inj.mp (hjam.symm.trans (ho jam))
  have hsum : bpOut lo hi fs n ((List.range n).map (fun i => s i + jam i)) = clean := by
    have : (List.range n).map (fun i => s i + jam i) = List.zipWith (· + ·) ((List.range n).map s) ((List.range n).map jam) := by
      rw [List.zipWith_map]; simp
    rw [this, bpOut_add lo hi fs hn (by simp) (by simp), ← ec, ← ej]
    apply List.ext_getElem
    · simp [ec, bpOut_length]
    · intro i a b
      simp
  obtain ⟨busy, b1, b2⟩ := C137_limit (σ := σ) hz hg (s := fun i => s i + jam i) lo hi hn (fun i => by rw [hp, hj]) ((ho _).trans (by rw [hsum]))
  refine ⟨quiet, busy, q1, b1, ?_⟩
  rw [hzero, zero_add] at q2
  filter_upwards [q2, b2] with ω hq hb
  have hq' := (Real.continuous_sqrt.tendsto _).comp hq
  have hb' := (Real.continuous_sqrt.tendsto _).comp hb
  filter_upwards [hq'.eventually_lt_const h0, hb'.eventually_const_lt h1] with N e1 e2
  constructor
  · show Flt.lt n0 (Flt.sqrt (avgEnergy (quiet N ω))) = false
    rw [Flt.lt_real, Flt.sqrt_real, decide_eq_false (not_lt.mpr (show √(avgEnergy (quiet N ω)) ≤ n0 from le_of_lt e1))]
  · show Flt.lt n0 (Flt.sqrt (avgEnergy (busy N ω))) = true
    rw [Flt.lt_real, Flt.sqrt_real]
    exact decide_eq_true e2

theorem tone_sq {n p : ℕ} (hp : 0 < p) (hp2 : 2 * p < n) (a φ : ℝ) :
    ∑ j ∈ Finset.range n, (a * Real.cos (2 * Real.pi * ((p : ℝ) * (j : ℝ) / n) + φ)) ^ 2 = a ^ 2 / 2 * n := by
  have hn : (0 : ℝ) < n := by exact_mod_cast (by omega : 0 < n)
  have hpi := Real.pi_pos
  have h0 := sum_cos_period (a := 2 * φ) (β := 4 * Real.pi * p / n) (k := n) (p := 2 * p) (by push_cast; field_simp; ring) (by
    apply ne_of_gt
    apply Real.sin_pos_of_pos_of_lt_pi
    · have : (0 : ℝ) < p := by exact_mod_cast hp
      positivity
    · have h2 : (2 : ℝ) * p < n := by exact_mod_cast hp2
      rw [div_div, div_lt_iff₀ (by positivity)]
      nlinarith)
  have e : ∀ j ∈ Finset.range n, (a * Real.cos (2 * Real.pi * ((p : ℝ) * (j : ℝ) / n) + φ)) ^ 2
      = a ^ 2 / 2 + a ^ 2 / 2 * Real.cos (2 * φ + j * (4 * Real.pi * p / n)) := by
    intro j _
    rw [mul_pow, Real.cos_sq, show 2 * (2 * Real.pi * ((p : ℝ) * (j : ℝ) / n) + φ) = 2 * φ + j * (4 * Real.pi * p / n) by ring]
    ring
  rw [Finset.sum_congr rfl e, Finset.sum_add_distrib, ← Finset.mul_sum, h0]
  simp
  ring

theorem tones_period {fs n : ℕ} (hfs : 0 < fs) (hn : 0 < n) (ts : List (ℕ × ℝ × ℝ)) (i : ℕ) :
    (ts.map (fun p => p.2.1 * Real.cos (2 * Real.pi * ((p.1 : ℝ) * fs / n) * (((i + n : ℕ) : ℝ) / fs) + p.2.2))).sum
      = (ts.map (fun p => p.2.1 * Real.cos (2 * Real.pi * ((p.1 : ℝ) * fs / n) * ((i : ℝ) / fs) + p.2.2))).sum := by
  have hfR : (fs : ℝ) ≠ 0 := by exact_mod_cast hfs.ne'
  have hnR : (n : ℝ) ≠ 0 := by exact_mod_cast hn.ne'
  congr 1
  refine List.map_congr_left fun p _ => ?_
  congr 1
  rw [← Real.cos_add_nat_mul_two_pi (2 * Real.pi * ((p.1 : ℝ) * fs / n) * ((i : ℝ) / fs) + p.2.2) p.1]
  congr 1
  push_cast
  field_simp
  ring

/-- The same for a tone on a bin of the band, between any tones on bins outside of it: the detector finds the tone, and it only,
for every threshold between `sqrt(σ² B/n)` and `sqrt(a²/2 + σ² B/n)`, with `B` of `n` bins in the band. -/
theorem C137_tone (hz : White P 1 z) (hg : ∀ ω, Gives (noise ω) (fun i => z i ω)) (lo hi : ℝ) {fs n p : ℕ} (hfs : 0 < fs)
    (hp : 0 < p) (hp2 : 2 * p < n) (hin : lo ≤ (p : ℝ) * fs / n ∧ (p : ℝ) * fs / n ≤ hi) (a φ : ℝ) {ts : List (ℕ × ℝ × ℝ)}
    (hts : ∀ t ∈ ts, t.1 ≤ n / 2 ∧ ¬ (lo ≤ (t.1 : ℝ) * fs / n ∧ (t.1 : ℝ) * fs / n ≤ hi)) {n0 : ℝ}
    (h0 : √(σ ^ 2 * (bandBins lo hi fs n / n)) < n0) (h1 : n0 < √(a ^ 2 / 2 + σ ^ 2 * (bandBins lo hi fs n / n))) :
    ∃ quiet busy : ℕ → Ω → List ℝ,
      (∀ q ω, (do
        let ch ← awgn (ofList ((List.range (q * n)).map (fun i : ℕ =>
          (ts.map (fun t : ℕ × ℝ × ℝ => t.2.1 * Real.cos (2 * Real.pi * ((t.1 : ℝ) * fs / n) * ((i : ℝ) / fs) + t.2.2))).sum))) σ (noise ω)
        collect (bandpass lo hi ch fs n)) = pure (quiet q ω)) ∧
      (∀ q ω, (do
        let ch ← awgn (ofList ((List.range (q * n)).map (fun i : ℕ =>
          a * Real.cos (2 * Real.pi * ((p : ℝ) * fs / n) * ((i : ℝ) / fs) + φ)
          + (ts.map (fun t : ℕ × ℝ × ℝ => t.2.1 * Real.cos (2 * Real.pi * ((t.1 : ℝ) * fs / n) * ((i : ℝ) / fs) + t.2.2))).sum))) σ (noise ω)
        collect (bandpass lo hi ch fs n)) = pure (busy q ω)) ∧
      ∀ᵐ ω ∂P, ∀ᶠ q in atTop, energyDetector (quiet q ω) n0 = false ∧ energyDetector (busy q ω) n0 = true := by
  classical
  have hn : 0 < n := by omega
  have hfR : (fs : ℝ) ≠ 0 := by exact_mod_cast hfs.ne'
  have hnR : (n : ℝ) ≠ 0 := by exact_mod_cast hn.ne'
  have hk := C68_tones lo hi hn hfs 1 [(p, a, φ)] (by simp; omega) (yields_ofList _)
  have hj := C68_tones lo hi hn hfs 1 ts (fun t ht => (hts t ht).1) (yields_ofList _)
  rw [List.filter_cons_of_pos (by simpa using hin), List.filter_nil] at hk
  rw [List.filter_eq_nil_iff.mpr (fun t ht => by simpa using (hts t ht).2)] at hj
  simp only [List.map_cons, List.map_nil, List.sum_cons, List.sum_nil, add_zero, one_mul] at hk hj
  refine C137_detector hz hg lo hi hn (fun i => ?_) (fun i => tones_period hfs hn ts i) (collect_of_yields hk)
    ((collect_of_yields hj).trans (by simp)) h0 (h1.trans_eq ?_)
  · have := tones_period hfs hn [(p, a, φ)] i
    simpa using this
  · congr 2
    rw [avgEnergy_range, eq_div_iff hnR, ← tone_sq hp hp2 a φ]
    refine Finset.sum_congr rfl fun j _ => ?_
    congr 4
    field_simp

/-- A 1 kHz tone of amplitude 2 under a 3 kHz tone of amplitude 1000, noise of standard deviation one, threshold one. -/
example : ∃ quiet busy : ℕ → (ℕ → ℝ) → List ℝ,
      (∀ q ω, (do
        let ch ← awgn (ofList ((List.range (q * 8)).map (fun i : ℕ =>
          ([(3, 1000, 0)].map (fun t : ℕ × ℝ × ℝ => t.2.1 * Real.cos (2 * Real.pi * ((t.1 : ℝ) * (8000 : ℕ) / (8 : ℕ)) * ((i : ℝ) / (8000 : ℕ)) + t.2.2))).sum)))
            (1 : ℝ) (path ω)
        collect (bandpass (900 : ℝ) 2100 ch 8000 8)) = pure (quiet q ω)) ∧
      (∀ q ω, (do
        let ch ← awgn (ofList ((List.range (q * 8)).map (fun i : ℕ =>
          2 * Real.cos (2 * Real.pi * (((1 : ℕ) : ℝ) * (8000 : ℕ) / (8 : ℕ)) * ((i : ℝ) / (8000 : ℕ)) + 0)
          + ([(3, 1000, 0)].map (fun t : ℕ × ℝ × ℝ => t.2.1 * Real.cos (2 * Real.pi * ((t.1 : ℝ) * (8000 : ℕ) / (8 : ℕ)) * ((i : ℝ) / (8000 : ℕ)) + t.2.2))).sum)))
            (1 : ℝ) (path ω)
        collect (bandpass (900 : ℝ) 2100 ch 8000 8)) = pure (busy q ω)) ∧
      ∀ᵐ ω ∂(gaussPath 1), ∀ᶠ q in atTop, energyDetector (quiet q ω) (1 : ℝ) = false ∧ energyDetector (busy q ω) (1 : ℝ) = true :=
  C137_tone (σ := 1) (white_path 1) path_gives 900 2100 (fs := 8000) (n := 8) (p := 1) (by norm_num) (by norm_num) (by norm_num) (by norm_num) 2 0
    (ts := [(3, 1000, 0)]) (by norm_num)
    (by rw [bins_four, Real.sqrt_lt' one_pos]; norm_num) (by rw [bins_four]; apply Real.lt_sqrt_of_sq_lt; norm_num)

end Verif.Props
