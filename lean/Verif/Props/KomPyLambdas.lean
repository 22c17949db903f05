import Verif.Lemmas.KomPyLambdas
import Verif.Props.Py
import Verif.Props.PyOfdm
import Verif.Props.FhOverflow
import Verif.Props.NoiseEnergy

/-!
# C120 — the detection experiment of the Python scripts

`tx` is the transmitter under test, `d` the random draws, `snrs` the list of signal-to-noise ratios.
-/
namespace Verif.Props
open KomPy MeasureTheory

/-- What the eight transmitters under test send, for every message: they never fail, and the number of samples depends on the
number of bits only. -/
theorem C120_lengths {ρ : Type} [Rng ρ] (msg : List Bool) :
    (∃ s : List ℝ, bfskSignal msg = pure s ∧ s.length = 256 * msg.length) ∧
    (∃ s : List ℝ, bpskSignal msg = pure s ∧ s.length = 256 * msg.length) ∧
    (∃ s : List ℝ, cdmaSignal msg = pure s ∧ s.length = 256 * msg.length) ∧
    (∃ s : List ℝ, ofdmSignal msg = pure s ∧ s.length = 2560 * ((msg.length / 2 + 1) / 2)) ∧
    (∃ s : List ℝ, fhCssSignal ρ msg = pure s ∧ s.length = 256 * msg.length) ∧
    (∃ s : List ℝ, cskSignal msg = pure s ∧ s.length = 256 * msg.length) ∧
    (∃ s : List ℝ, dcskSignal msg = pure s ∧ s.length = 512 * msg.length) ∧
    (∃ s : List ℝ, fhOfdmDcskSignal ρ msg = pure s ∧ s.length = 2560 * (msg.length / 7 + 1)) := by
  have hint : isInt (Flt.ofNat (2 ^ 16) / Flt.ofNat (2 ^ 8) : ℝ) = true := (isInt_real (by norm_num) (by norm_num)).mpr (by norm_num)
  have h2000 : ⌊(2000 : ℝ)⌋₊ = 2000 := by exact_mod_cast Nat.floor_natCast (R := ℝ) 2000
  have h10000 : ⌊(10000 : ℝ)⌋₊ = 10000 := by exact_mod_cast Nat.floor_natCast (R := ℝ) 10000
  have hc : (Flt.ofNat 2000 : ℝ) = 2000 := by simp
  have hc' : (Flt.ofNat 10000 : ℝ) = 10000 := by simp
  have ht : Flt.toNat (2000 : ℝ) ≤ 2 ^ 16 / 2 := by rw [Flt.toNat_real, h2000]; norm_num
  refine ⟨?_, ?_, ?_, ?_, ?_, ?_, ?_, ?_⟩
  · obtain ⟨s, h1, h2, -⟩ := C65_bfsk msg (fs := 2 ^ 16) (sym := 2 ^ 8) (lo := Flt.ofNat 2000 * Flt.lit 8 1) (hi := Flt.ofNat 2000)
      (by norm_num) (by norm_num) (by norm_num) (by rw [hc, h2000]; norm_num)
    exact ⟨s, h1, by rw [h2]; norm_num [mul_comm]⟩
  · obtain ⟨it, e1, e2⟩ := txBpsk_ok (yields_ofList msg) (fc := (Flt.ofNat 2000 : ℝ)) (fs := 2 ^ 16) (sym := 2 ^ 8) (by norm_num)
      (by rw [hc]; exact ht) hint
    exact ⟨_, by unfold bpskSignal pyTxBpsk; rw [e1, pure_bind, collect_of_yields e2],
      by rw [wave_length]; norm_num [mul_comm]⟩
  · have hok := (cdmaOk_real (fc := (Flt.ofNat 2000 : ℝ)) (fs := 2 ^ 16) (sym := 2 ^ 8) (L := 16) (by norm_num)).mpr
      ⟨by norm_num, by decide, by norm_num, by norm_num, by rw [hc, h2000]; norm_num⟩
    obtain ⟨it, e1, e2⟩ := txCdmaBpsk_ok (yields_ofList msg) (key := [true, false, true, false, true, false, true, false,
      true, false, true, false, true, false, true, false]) hok
    refine ⟨_, by unfold cdmaSignal; rw [C62_cdma_key, e1, pure_bind, collect_of_yields e2], ?_⟩
    rw [List.length_mapIdx, wave_length]; norm_num [mul_comm]
  · obtain ⟨s, -, h1, -, h2, -⟩ := C69_ofdm_lengths msg (n := 8) (p := 6) (fs := 2 ^ 16) (sym := 2 ^ 8) (fc := (Flt.ofNat 2000 : ℝ))
      (by norm_num) (by norm_num) (by norm_num) hint
    exact ⟨s, h1, by rw [h2]; norm_num; ring⟩
  · obtain ⟨-, -, s, -, -, h1, h2, -⟩ := C65_fh_css (ρ := ρ) msg (low := Flt.ofNat 2000) (high := Flt.ofNat 10000) (n := 8)
      (fs := 2 ^ 16) (sym := 2 ^ 8) (by norm_num) (by norm_num) (by norm_num) (by norm_num) (by norm_num)
      (by rw [hc', h10000]; norm_num)
    exact ⟨s, h1, by rw [h2]; norm_num [mul_comm]⟩
  · obtain ⟨-, -, -, -, s, -, -, -, -, h1, h2, -⟩ := C62_csk msg (fs := 2 ^ 16) (sym := 2 ^ 8) (by norm_num) (by norm_num) (by norm_num) (by norm_num)
    exact ⟨s, h1, by rw [h2]; norm_num [mul_comm]⟩
  · obtain ⟨r, g, -, -, h1⟩ := C62_dcsk msg (fs := 2 ^ 16) (sym := 2 ^ 8) (by norm_num) (by norm_num) (by norm_num) (by norm_num)
    refine ⟨_, h1, ?_⟩
    rw [flatten_length_const (k := 512), List.length_mapIdx, mul_comm]
    intro f hf
    obtain ⟨i, hi, rfl⟩ := List.mem_mapIdx.mp hf
    rw [List.length_append, List.length_replicate, List.length_replicate]; norm_num
  · obtain ⟨s, h1, h2⟩ := C69_fh_ofdm_length (ρ := ρ) msg (fs := 2 ^ 16) (sym := 2 ^ 8) (fc := (Flt.ofNat 2000 : ℝ))
      (by simp; norm_num) (by rw [hc]; exact ht) hint (by norm_num)
    exact ⟨s, h1, by rw [h2]; norm_num; ring⟩

/-- The average energy of the compiled helper is the mean square. -/
theorem avgEnergy_mean (l : List ℝ) : avgEnergy l = (l.map (· ^ 2)).sum / l.length := by
  unfold avgEnergy
  rw [rsum_eq_sum, Flt.ofNat_real]
  simp

theorem energyDetectorDb_sum (l : List ℝ) : energyDetectorDb l = 10 * Real.logb 10 (l.map (· ^ 2)).sum := by
  unfold energyDetectorDb
  rw [rsum_eq_sum]
  simp

/-- The experiment for any transmitter that never fails and whose number of samples depends on the number of bits only.  The
message is the first of 120, 130, 140, … bits that gives 4160 samples.  At the `i`-th ratio every attempt compares a
transmission in noise with as many samples of noise alone, both of standard deviation `eb / snr`, where `eb` is the mean
square of one transmission; each detector gives one number per attempt and none fails. -/
theorem C120_run {ν : Type} [RIter ν ℝ] {tx : List Bool → RM (List ℝ)} {len : ℕ → ℕ}
    (htx : ∀ msg, ∃ s, tx msg = pure s ∧ s.length = len msg.length) {k : ℕ} (hk : 4160 ≤ len (120 + 10 * k))
    (hmin : ∀ j < k, len (120 + 10 * j) < 4160) (d : Draws ν) {z w : ℕ → ℕ → ℕ → ℝ}
    (hz : ∀ i j, Gives (d.noise i j) (z i j)) (hw : ∀ i j, Gives (d.alone i j) (w i j)) (snrs : List ℝ) (attempts : ℕ) :
    ∃ (s0 : List ℝ) (sent heard quiet : ℕ → ℕ → List ℝ) (out : List (Stats ℝ)) (eb : ℝ),
      tx (randomData (d.size (120 + 10 * k)) (120 + 10 * k)) = pure s0 ∧ eb = (s0.map (· ^ 2)).sum / s0.length ∧
      (∀ i j, tx (randomData (d.data i j) (120 + 10 * k)) = pure (sent i j)) ∧
      (∀ i j snr, snrs[i]? = some snr →
        (heard i j).length = len (120 + 10 * k) ∧ (quiet i j).length = len (120 + 10 * k) ∧
        (∀ m x, (sent i j)[m]? = some x → (heard i j)[m]? = some (x + eb / snr * z i j m)) ∧
        ∀ m < len (120 + 10 * k), (quiet i j)[m]? = some (eb / snr * w i j m)) ∧
      runExperiment tx snrs attempts d = pure (120 + 10 * k, out) ∧ out.length = snrs.length ∧
      ∀ i st, out[i]? = some st →
        st.maxCut0.length = attempts ∧ st.maxCut1.length = attempts ∧ st.radiometer0.length = attempts ∧
        st.radiometer1.length = attempts ∧
        ∀ j < attempts,
          st.radiometer0[j]? = some (10 * Real.logb 10 ((quiet i j).map (· ^ 2)).sum) ∧
          st.radiometer1[j]? = some (10 * Real.logb 10 ((heard i j).map (· ^ 2)).sum) ∧
          (∃ v, st.maxCut0[j]? = some v ∧ maxCutDetector (quiet i j) = pure v) ∧
          ∃ v, st.maxCut1[j]? = some v ∧ maxCutDetector (heard i j) = pure v := by
  choose sig hsig hlen using htx
  have hmc : ∀ s : List ℝ, ∃ v, 4159 ≤ s.length → maxCutDetector s = pure v := by
    intro s
    by_cases h : 4159 ≤ s.length
    · obtain ⟨L, hL, -⟩ := (C60_max_cut_signal s).2 h
      exact ⟨_, fun _ => hL⟩
    · exact ⟨0, fun h' => absurd h' h⟩
  choose mc hmc using hmc
  set n := 120 + 10 * k with hn
  set N := len n with hN
  set s0 := sig (randomData (d.size n) n) with hs0
  set eb : ℝ := (s0.map (· ^ 2)).sum / s0.length with heb
  have hg := growBits_ok hsig hlen d.size k 120 hk hmin
  rw [← hn, ← hs0] at hg
  have hat : ∀ i n0, runAt tx d attempts n i n0 = pure _ := fun i n0 =>
    runAt_real (N := N) (n := n) hsig (fun msg hm => by rw [hlen, hm]) (by omega) d hz hw hmc attempts i n0
  refine ⟨s0, fun i j => sig (randomData (d.data i j) n),
    fun i j => (sig (randomData (d.data i j) n)).mapIdx (fun m x => x + (0 + eb / snrs.getD i 0 * z i j m)),
    fun i j => (List.range N).map (fun m => 0 + eb / snrs.getD i 0 * w i j m),
    (snrs.map (fun snr => eb / snr)).zipIdx.map (fun p =>
      ⟨(List.range attempts).map (fun j => mc ((List.range N).map (fun k => 0 + p.1 * w p.2 j k))),
       (List.range attempts).map (fun j => mc ((sig (randomData (d.data p.2 j) n)).mapIdx (fun k x => x + (0 + p.1 * z p.2 j k)))),
       (List.range attempts).map (fun j => energyDetectorDb ((List.range N).map (fun k => 0 + p.1 * w p.2 j k))),
       (List.range attempts).map (fun j =>
         energyDetectorDb ((sig (randomData (d.data p.2 j) n)).mapIdx (fun k x => x + (0 + p.1 * z p.2 j k))))⟩), eb, hsig _, rfl, fun i j => hsig _,
    fun i j snr hi => ⟨by rw [List.length_mapIdx, hlen, randomData_length], by simp, fun m x hx => ?_, fun m hm => ?_⟩,
    ?_, ?_, ?_⟩
  · rw [List.getElem?_mapIdx, hx]
    simp [List.getD, hi]
  · simp [List.getElem?_map, List.getElem?_range hm, List.getD, hi]
  · unfold runExperiment
    rw [hsig, LawfulMonad.pure_bind, hg, LawfulMonad.pure_bind]
    dsimp only
    rw [avgEnergy_mean, ← heb, mapM_ok (fun p _ => hat p.2 p.1), LawfulMonad.pure_bind]
  · simp
  · intro i st hst
    rw [List.getElem?_map, List.getElem?_zipIdx, List.getElem?_map] at hst
    rcases hsn : snrs[i]? with _ | snr
    · simp [hsn] at hst
    · simp only [hsn, Option.map_some, Option.some.injEq, Nat.zero_add] at hst
      subst hst
      have hgd : snrs.getD i 0 = snr := by simp [List.getD, hsn]
      refine ⟨by simp, by simp, by simp, by simp, fun j hj => ⟨?_, ?_, ⟨_, ?_, hmc _ (by simp; omega)⟩, ⟨_, ?_, hmc _ ?_⟩⟩⟩
      · rw [List.getElem?_map, List.getElem?_range hj, Option.map_some, energyDetectorDb_sum]; simp only [hgd]
      · rw [List.getElem?_map, List.getElem?_range hj, Option.map_some, energyDetectorDb_sum]; simp only [hgd]
      · rw [List.getElem?_map, List.getElem?_range hj, Option.map_some]; simp only [hgd]
      · rw [List.getElem?_map, List.getElem?_range hj, Option.map_some]; simp only [hgd]
      · rw [List.length_mapIdx, hlen, randomData_length]; omega

/-- Some draws: the bits are all `true`, the noise counts up. -/
noncomputable def someDraws : Draws (Map RangeFrom ℕ ℝ) :=
  ⟨fun _ _ => true, fun _ _ _ => true, fun _ _ => rmap (RangeFrom.mk 0) (fun n : ℕ => (n : ℝ)),
    fun _ _ => rmap (RangeFrom.mk 0) (fun n : ℕ => (n : ℝ))⟩

theorem someDraws_noise (i j : ℕ) : Gives (someDraws.noise i j) (fun n => ((0 + n : ℕ) : ℝ)) :=
  (gives_rangeFrom 0).rmap (fun n : ℕ => (n : ℝ))

theorem someDraws_alone (i j : ℕ) : Gives (someDraws.alone i j) (fun n => ((0 + n : ℕ) : ℝ)) :=
  (gives_rangeFrom 0).rmap (fun n : ℕ => (n : ℝ))

/-- A transmitter with ten samples per bit: the message grows to 420 bits. -/
example : ∃ out : List (Stats ℝ), runExperiment (fun msg => pure (List.replicate (10 * msg.length) (1 : ℝ))) [1, 2] 3 someDraws
    = pure (420, out) ∧ out.length = 2 := by
  obtain ⟨_, _, _, _, out, _, _, _, _, _, e, hl, -⟩ := C120_run (tx := fun msg => pure (List.replicate (10 * msg.length) (1 : ℝ)))
    (len := fun n => 10 * n) (fun msg => ⟨_, rfl, by simp⟩) (k := 30) (by norm_num) (fun j hj => by omega) someDraws
    someDraws_noise someDraws_alone [1, 2] 3
  exact ⟨out, e, hl⟩

/-- If no message of 120, 130, 140, … bits gives 4160 samples, the script searches for ever. -/
theorem C120_stuck {ν : Type} [RIter ν ℝ] {tx : List Bool → RM (List ℝ)} {len : ℕ → ℕ}
    (htx : ∀ msg, ∃ s, tx msg = pure s ∧ s.length = len msg.length) (hall : ∀ j, len (120 + 10 * j) < 4160) (d : Draws ν)
    (snrs : List ℝ) (attempts : ℕ) : runExperiment tx snrs attempts d = RM.diverge := by
  choose sig hsig hlen using htx
  unfold runExperiment
  rw [hsig, LawfulMonad.pure_bind, growBits_stuck hsig hlen d.size hall 0 _ (by rw [hlen, randomData_length]; exact hall 0)]
  rfl

example : runExperiment (fun _ => pure [(1 : ℝ)]) [1, 2] 3 someDraws = RM.diverge :=
  C120_stuck (len := fun _ => 1) (fun _ => ⟨_, rfl, rfl⟩) (fun _ => by norm_num) someDraws _ _

/-- All eight transmitters of the script: the first message of 120 bits is long enough, the experiment ends without a failure,
and every detector gives one number per attempt and ratio, with and without a transmission. -/
theorem C120_harness {ρ ν : Type} [Rng ρ] [RIter ν ℝ] {tx : List Bool → RM (List ℝ)} (htx : tx ∈ harness ρ) (d : Draws ν)
    {z w : ℕ → ℕ → ℕ → ℝ} (hz : ∀ i j, Gives (d.noise i j) (z i j)) (hw : ∀ i j, Gives (d.alone i j) (w i j))
    (snrs : List ℝ) (attempts : ℕ) :
    ∃ out : List (Stats ℝ), runExperiment tx snrs attempts d = pure (120, out) ∧ out.length = snrs.length ∧
      ∀ st ∈ out, st.maxCut0.length = attempts ∧ st.maxCut1.length = attempts ∧ st.radiometer0.length = attempts ∧
        st.radiometer1.length = attempts := by
  have key : ∀ len : ℕ → ℕ, (∀ msg, ∃ s, tx msg = pure s ∧ s.length = len msg.length) → 4160 ≤ len 120 →
      ∃ out : List (Stats ℝ), runExperiment tx snrs attempts d = pure (120, out) ∧ out.length = snrs.length ∧
        ∀ st ∈ out, st.maxCut0.length = attempts ∧ st.maxCut1.length = attempts ∧ st.radiometer0.length = attempts ∧
          st.radiometer1.length = attempts := by
    intro len h1 h2
    obtain ⟨_, _, _, _, out, _, _, _, _, _, e, hl, hs⟩ := C120_run h1 (k := 0) h2 (by omega) d hz hw snrs attempts
    refine ⟨out, e, hl, fun st hst => ?_⟩
    obtain ⟨i, hi, rfl⟩ := List.getElem_of_mem hst
    obtain ⟨a, b, c, d, -⟩ := hs i _ (List.getElem?_eq_getElem hi)
    exact ⟨a, b, c, d⟩
  simp only [harness, List.mem_cons, List.not_mem_nil, or_false] at htx
  rcases htx with rfl | rfl | rfl | rfl | rfl | rfl | rfl | rfl
  · exact key _ (fun msg => (C120_lengths (ρ := ρ) msg).1) (by norm_num)
  · exact key _ (fun msg => (C120_lengths (ρ := ρ) msg).2.1) (by norm_num)
  · exact key _ (fun msg => (C120_lengths (ρ := ρ) msg).2.2.1) (by norm_num)
  · exact key (fun n => 2560 * ((n / 2 + 1) / 2)) (fun msg => (C120_lengths (ρ := ρ) msg).2.2.2.1) (by norm_num)
  · exact key _ (fun msg => (C120_lengths (ρ := ρ) msg).2.2.2.2.1) (by norm_num)
  · exact key _ (fun msg => (C120_lengths (ρ := ρ) msg).2.2.2.2.2.1) (by norm_num)
  · exact key _ (fun msg => (C120_lengths (ρ := ρ) msg).2.2.2.2.2.2.1) (by norm_num)
  · exact key (fun n => 2560 * (n / 7 + 1)) (fun msg => (C120_lengths (ρ := ρ) msg).2.2.2.2.2.2.2) (by norm_num)

example {ρ : Type} [Rng ρ] : ∃ out : List (Stats ℝ), runExperiment (fhCssSignal ρ) [1, 2] 150 someDraws = pure (120, out) ∧
    out.length = 2 := by
  obtain ⟨out, e, hl, -⟩ := C120_harness (ρ := ρ) (tx := fhCssSignal ρ) (by simp [harness]) someDraws someDraws_noise someDraws_alone
    [1, 2] 150
  exact ⟨out, e, hl⟩

/-- The ratio that is really tested.  The mean energy of a noise sample is `(eb / snr)²`, so a transmission of mean energy
`eb` stands at `snr² / eb`; in decibels, twice the nominal ratio less the energy of the transmission.  It is the nominal ratio
only where that equals `eb`. -/
theorem C120_snr {Ω : Type} [MeasurableSpace Ω] {P : Measure Ω} {ν : Type} [RIter ν ℝ] {noise : Ω → ν} {z : ℕ → Ω → ℝ}
    (hz : Spec.White P 1 z) (hg : ∀ ω, Gives (noise ω) (fun i => z i ω)) {N : ℕ} (hN : 0 < N) {eb snr : ℝ} (he : 0 < eb)
    (hs : 0 < snr) :
    ∃ (quiet : Ω → List ℝ) (m : ℝ), (∀ ω, pureAwgn N (eb / snr) (noise ω) = pure (quiet ω)) ∧
      m = ∫ ω, (((quiet ω).map (· ^ 2)).sum / N : ℝ) ∂P ∧ m = (eb / snr) ^ 2 ∧ eb / m = snr ^ 2 / eb ∧
      10 * Real.logb 10 (eb / m) = 2 * (10 * Real.logb 10 snr) - 10 * Real.logb 10 eb ∧ (eb / m = snr ↔ snr = eb) := by
  have hm : (∫ ω, ((((List.range N).map (fun i => 0 + eb / snr * z i ω)).map (· ^ 2)).sum / N : ℝ) ∂P) = (eb / snr) ^ 2 := by
    have e : ∀ ω, ((((List.range N).map (fun i => 0 + eb / snr * z i ω)).map (· ^ 2)).sum / N : ℝ)
        = (eb / snr) ^ 2 * ((∑ i ∈ Finset.range N, (0 + z i ω) ^ 2) / N) := by
      intro ω
      have h1 := avgEnergy_range (fun i => 0 + eb / snr * z i ω) N
      rw [avgEnergy_mean, List.length_map, List.length_range] at h1
      rw [h1, ← mul_div_assoc, Finset.mul_sum]
      congr 1
      exact Finset.sum_congr rfl fun i _ => by ring
    simp only [e]
    rw [integral_const_mul, integral_div, hz.energy_mean (fun _ => 0)]
    have : (N : ℝ) ≠ 0 := by positivity
    simp [this]
  have hr : eb / (eb / snr) ^ 2 = snr ^ 2 / eb := by field_simp
  refine ⟨_, (eb / snr) ^ 2, fun ω => C56_pure_awgn N (hg ω) (eb / snr) rfl, hm.symm, rfl, hr, ?_, ?_⟩ <;> rw [hr]
  · rw [Real.logb_div (by positivity) he.ne', Real.logb_pow]
    push_cast
    ring
  · rw [div_eq_iff he.ne']
    constructor
    · intro h
      have : snr * (snr - eb) = 0 := by linear_combination h
      rcases mul_eq_zero.mp this with h | h
      · exact absurd h hs.ne'
      · linarith
    · rintro rfl; ring

/-- A nominal ratio of 1/10 (-10 dB) for a transmission of energy 1/2 is a real one of 1/50 (about -17 dB). -/
example : ∃ (quiet : (ℕ → ℝ) → List ℝ) (m : ℝ), (∀ ω, pureAwgn 4160 ((1 / 2 : ℝ) / (1 / 10)) (path ω) = pure (quiet ω)) ∧
    m = ∫ ω, (((quiet ω).map (· ^ 2)).sum / (4160 : ℕ) : ℝ) ∂(gaussPath 1) ∧ (1 / 2) / m = 1 / 50 := by
  obtain ⟨q, m, h1, h2, -, h3, -⟩ := C120_snr (white_path 1) path_gives (N := 4160) (by norm_num) (eb := 1 / 2) (snr := 1 / 10)
    (by norm_num) (by norm_num)
  exact ⟨q, m, h1, h2, by rw [h3]; norm_num⟩

/-- In double precision the experiment fails for FH-OFDM-DCSK as soon as it has a ratio and an attempt: the energy of the
transmission is not finite (C119), and neither is the standard deviation asked of the noise generator. -/
theorem C120_crash {ρ ν : Type} [Rng ρ] {L : Libm} [Fft (FloatL L)] [RIter ν (FloatL L)]
    (hD : Spreads 8 (Fft.dft (F := FloatL L))) (d : Draws ν) {snrs : List (FloatL L)} (hs : snrs ≠ []) {attempts : ℕ}
    (ha : 0 < attempts) : (runExperiment (fhOfdmDcskSignal ρ) snrs attempts d).Panics := by
  have hny : Flt.toNat (Flt.ofNat 2000 : FloatL L) ≤ 2 ^ 16 / 2 :=
    (show Flt.toNat (Flt.ofNat 2000 : Float) ≤ 2 ^ 16 / 2 by decide +kernel)
  have hint : isInt (Flt.ofNat (2 ^ 16) / Flt.ofNat (2 ^ 8) : FloatL L) = true :=
    (show isInt (Flt.ofNat (2 ^ 16) / Flt.ofNat (2 ^ 8) : Float) = true by decide +kernel)
  have htx : ∀ msg, ∃ s : List (FloatL L), fhOfdmDcskSignal ρ msg = pure s ∧
      s.length = 10 * (msg.length / 7 + 1) * (2 ^ 16 / 2 ^ 8) ∧ ∀ x ∈ s, Flt.isFinite x = false := fun msg =>
    C119_passband (ρ := ρ) hD (yields_ofList msg) hny hint (by norm_num)
  choose sig hsig hlen hbad using htx
  have hg := growBits_ok (len := fun n => 10 * (n / 7 + 1) * (2 ^ 16 / 2 ^ 8)) hsig hlen d.size 0 120 (by norm_num) (by omega)
  obtain ⟨snr, rest, rfl⟩ := List.exists_cons_of_ne_nil hs
  obtain ⟨m, rfl⟩ : ∃ m, attempts = m + 1 := ⟨attempts - 1, by omega⟩
  have hσ : Flt.isFinite (avgEnergy (sig (randomData (d.size 120) 120)) / snr) = false :=
    energy_bad (by rw [hlen, randomData_length]; norm_num) (hbad _) snr
  unfold runExperiment
  rw [hsig, LawfulMonad.pure_bind, hg, LawfulMonad.pure_bind]
  dsimp only
  have h1 : (runAt (fhOfdmDcskSignal ρ) d (m + 1) 120 0 (avgEnergy (sig (randomData (d.size 120) 120)) / snr)).Panics := by
    unfold runAt
    rw [List.range_succ_eq_map, List.mapM_cons]
    refine ⟨.unwrap, ?_⟩
    rw [hsig, LawfulMonad.pure_bind]
    unfold awgnPy normalIter
    rw [if_neg (by rw [hσ]; decide)]
    rfl
  obtain ⟨p, hp⟩ := h1
  refine ⟨p, ?_⟩
  rw [List.map_cons, List.zipIdx_cons, List.mapM_cons]
  dsimp only
  rw [hp]
  rfl

example {ρ ν : Type} [Rng ρ] {L : Libm} [RIter ν (FloatL L)] (w : Bool → ℕ → ℕ → Cx Float) (d : Draws ν) :
    letI := fftSum L w
    (runExperiment (F := FloatL L) (fhOfdmDcskSignal ρ) [Flt.ofNat 1] 150 d).Panics :=
  letI := fftSum L w
  C120_crash (spreads_sumDft w 8) d (by simp) (by norm_num)

end Verif.Props
