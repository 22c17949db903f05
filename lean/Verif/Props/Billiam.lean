import Verif.Lemmas.Billiam
import Verif.Props.Gauss
import Verif.Props.Hadamard

/-!
# Property C124: what the radiometer experiments measure

The experiments of tests/billiam.rs in exact arithmetic.  `std i j` is the generator of standard normal variates behind attempt `j` at the `i`-th
point of a curve, and `data i j` its random bits.  In the statements about means `z i j` is white Gaussian noise of standard deviation one
(Spec/Gauss) for every `i` and `j`, and the bits are arbitrary but fixed.
-/
namespace Verif.Props
open Verif Spec MeasureTheory ProbabilityTheory Billiam
set_option linter.unusedSectionVars false
variable {ι ν : Type} {Ω : Type} [MeasurableSpace Ω] {P : Measure Ω} {σ : ℝ} [RIter ν ℝ]

/-! ## The energy of one recording -/

/-- How much the measured energy scatters: its variance at every length, for every signal. -/
theorem C124_variance {z : ℕ → Ω → ℝ} (hz : White P 1 z) {noise : Ω → ν} (hg : ∀ ω, Gives (noise ω) (fun i => z i ω)) [RIter ι ℝ] {src : ι}
    {l : List ℝ} (h : Yields src l) (hl : l ≠ []) :
    ∃ rec : Ω → List ℝ, (∀ ω, (do let ch ← awgn src σ (noise ω); collect ch) = pure (rec ω)) ∧
      ∫ ω, avgEnergy (rec ω) ∂P = avgEnergy l + σ ^ 2 ∧
      Var[fun ω => avgEnergy (rec ω); P] = (2 * σ ^ 4 + 4 * σ ^ 2 * avgEnergy l) / l.length ∧
      ∀ d, 0 < d → P.real {ω | d ≤ |avgEnergy (rec ω) - (avgEnergy l + σ ^ 2)|} ≤ (2 * σ ^ 4 + 4 * σ ^ 2 * avgEnergy l) / (l.length * d ^ 2) := by
  refine ⟨fun ω => l.mapIdx (fun i s => s + (0 + σ * z i ω)), fun ω => ?_, (avg_moments hz σ hl).2.1, (avg_moments hz σ hl).2.2,
    fun d hd => avg_far hz σ hl hd⟩
  obtain ⟨it, h1, h2⟩ := C56_awgn h (hg ω) σ rfl
  rw [h1, pure_bind, collect_of_yields h2]

/-! ## What is counted -/

/-- `get_pds` of `radiometer_pd_new`: at the point `snr` it reports the number of recordings whose energy is *at most* `snr`, over `attempts`. -/
theorem C124_new {std : ℕ → ℕ → ν} {z : ℕ → ℕ → ℕ → ℝ} (hz : ∀ i j, Gives (std i j) (z i j)) {tx : List ℝ} (hE : 0 < (tx.map (· ^ 2)).sum)
    {fs nb : ℕ} (hfs : 0 < fs) (hnb : 0 < nb) {snrs : List ℝ} (hs : ∀ s ∈ snrs, s ≠ 0) {attempts : ℕ}
    (_ha : 0 < attempts) (tries : ℕ) :
    ∃ rec : ℕ → ℕ → List ℝ,
      (∀ (i : ℕ) snr, snrs[i]? = some snr → ∀ j,
        (do let ch ← awgn (ofList tx) ((tx.map (· ^ 2)).sum / (fs * nb) / snr) (std i j); collect ch) = pure (rec i j)) ∧
      getPdsNew attempts snrs tries nb fs tx std =
        pure (snrs.mapIdx (fun i snr => ((List.range tries).countP (fun j => decide (avgEnergy (rec i j) ≤ snr)) : ℝ) / attempts)) := by
  refine ⟨fun i j => tx.mapIdx (fun k x => x + (0 + ((tx.map (· ^ 2)).sum / (fs * nb) / snrs.getD i 0) * z i j k)), ?_, ?_⟩
  · intro i snr hi j
    obtain ⟨it, h1, h2⟩ := C56_awgn (yields_ofList tx) (hz i j) ((tx.map (· ^ 2)).sum / (fs * nb) / snr) rfl
    rw [h1, pure_bind, collect_of_yields h2]
    simp only [List.getD_eq_getElem?_getD, hi, Option.getD_some]
  · unfold getPdsNew
    have hb : rsum (tx.map (fun s_i => powi s_i 2)) / Flt.ofNat (fs * nb) = (tx.map (· ^ 2)).sum / (fs * nb) := by
      rw [rsum_eq_sum, Flt.ofNat_real, Nat.cast_mul]
      simp
    simp only [hb]
    refine zipIdx_mapM fun i snr hi => ?_
    have hne : snr ≠ 0 := hs snr (List.mem_of_getElem? hi)
    have hp : (0 : ℝ) < fs * nb := by positivity
    have ht : (tx.map (· ^ 2)).sum / (fs * nb) / ((tx.map (· ^ 2)).sum / (fs * nb) / snr) = snr := by field_simp
    have := attempts_ok (n := tries) (tx := fun _ => pure tx) (sig := fun _ => tx) (fun _ => rfl) (hz i) ((tx.map (· ^ 2)).sum / (fs * nb) / snr)
    simp only [pure_bind] at this
    rw [this, pure_bind, low_count, ht, Flt.ofNat_real, Flt.ofNat_real]
    simp only [List.getD_eq_getElem?_getD, hi, Option.getD_some]

/-- `get_pds` of `radiometer_pd`: at the point `eb` it reports the number of recordings whose energy is *at most* `eb`, over `attempts`. -/
theorem C124_pd {std : ℕ → ℕ → ν} {z : ℕ → ℕ → ℕ → ℝ} (hz : ∀ i j, Gives (std i j) (z i j)) {tx : List Bool → ℝ → RM (List ℝ)}
    {sig : List Bool → ℝ → List ℝ} {nb : ℕ} (htx : ∀ x e, x.length = nb → tx x e = pure (sig x e) ∧ sig x e ≠ []) (data : ℕ → ℕ → ℕ → Bool)
    (ebs : List ℝ) {attempts : ℕ} (_ha : 0 < attempts) (tries : ℕ) :
    ∃ rec : ℕ → ℕ → List ℝ,
      (∀ (i : ℕ) eb, ebs[i]? = some eb → ∀ j,
        (do let ch ← awgn (ofList (sig ((List.range nb).map (data i j)) eb)) (1 : ℝ) (std i j); collect ch) = pure (rec i j)) ∧
      getPds attempts ebs tries nb tx data std =
        pure (ebs.mapIdx (fun i eb => ((List.range tries).countP (fun j => decide (avgEnergy (rec i j) ≤ eb)) : ℝ) / attempts)) := by
  refine ⟨fun i j => (sig ((List.range nb).map (data i j)) (ebs.getD i 0)).mapIdx (fun k x => x + (0 + 1 * z i j k)), ?_, ?_⟩
  · intro i eb hi j
    obtain ⟨it, h1, h2⟩ := C56_awgn (yields_ofList (sig ((List.range nb).map (data i j)) eb)) (hz i j) (1 : ℝ) rfl
    rw [h1, pure_bind, collect_of_yields h2]
    simp only [List.getD_eq_getElem?_getD, hi, Option.getD_some]
  · unfold getPds
    refine zipIdx_mapM fun i eb hi => ?_
    have := attempts_ok (n := tries) (fun j => (htx ((List.range nb).map (data i j)) eb (by simp)).1) (hz i) 1
    simp only at this ⊢
    rw [this, pure_bind, low_count, Flt.ofNat_real, Flt.ofNat_real]
    simp only [List.getD_eq_getElem?_getD, hi, Option.getD_some]

theorem whole_43200 : WholeHalf 43200 (43200 / 900) 1800 := WholeHalf.of_nat (f := 1800) (p := 4) (by norm_num) (by norm_num)

/-- The key of the spread experiments. -/
theorem script_key : ∃ h key, hadamardNew 16 = pure h ∧ hadamardKey h 2 = pure key ∧ key.length = 16 := by
  obtain ⟨r, h1, -, h3, -⟩ := C20_key_partial 4 (hadamardNew_ok 4) 2 (by decide)
  exact ⟨_, r, hadamardNew_ok 4, h1, h3⟩

theorem script_ok {key : List Bool} (h : key.length = 16) : CdmaOk 43200 900 (1800 : ℝ) key.length := by
  rw [cdmaOk_real (by norm_num), h]
  refine ⟨by norm_num, by norm_num, by norm_num, by norm_num, ?_⟩
  rw [show (1800 : ℝ) = (1800 : ℕ) by norm_num, Nat.floor_natCast]
  norm_num

theorem script_guards : Flt.toNat (1800 : ℝ) ≤ 43200 / 2 ∧ isInt (Flt.ofNat 43200 / Flt.ofNat 900 : ℝ) = true := by
  constructor
  · rw [Flt.toNat_real, show (1800 : ℝ) = (1800 : ℕ) by norm_num, Nat.floor_natCast]; norm_num
  · rw [Flt.ofNat_real, Flt.ofNat_real]
    exact (isInt_real (by norm_num) (by norm_num)).mpr ⟨48, by norm_num⟩

/-- What the four transmitters of the experiments send: a recording of `n` samples and mean energy `S`, whatever the bits. -/
structure Sends (tx : List Bool → ℝ → RM (List ℝ)) (nb n : ℕ) (S : ℝ) : Prop where
  sends : ∀ x e, x.length = nb → ∃ l : List ℝ, tx x e = pure l ∧ l.length = n ∧ avgEnergy l = S

theorem bpskTx_sends {nb : ℕ} (h : 0 < nb) : Sends bpskTx nb (nb * 48) (1 / 2) := by
  refine ⟨fun x e hx => ?_⟩
  obtain ⟨it, h1, h2⟩ := txBpsk_ok (yields_ofList x) (fs := 43200) (sym := 900) (fc := (1800 : ℝ)) (by norm_num)
    (script_guards.1) (script_guards.2)
  have hc : (do let it ← txBpsk (ofList x) 43200 900 (1800 : ℝ); collect it) = collect it := by rw [h1, pure_bind]
  rw [collect_of_yields h2] at hc
  refine ⟨?l, ?_, ?_, ?_⟩
  rotate_left
  · unfold bpskTx
    rw [Flt.ofNat_real, Nat.cast_ofNat]
    exact hc
  · rw [wave_length, hx]
  · rw [(C78_bpsk (yields_ofList x) (by norm_num) whole_43200 hc).avg (by omega)]
    norm_num

theorem qpskTx_sends {nb : ℕ} (h : 0 < nb) : Sends qpskTx (2 * nb) (nb * 48) 1 := by
  refine ⟨fun x e hx => ?_⟩
  obtain ⟨it, h1, h2⟩ := txQpsk_ok (yields_ofList x) (fs := 43200) (sym := 900) (fc := (1800 : ℝ)) (by norm_num)
  have hc : (do let it ← txQpsk (ofList x) 43200 900 (1800 : ℝ); collect it) = collect it := by rw [h1, pure_bind]
  rw [collect_of_yields h2] at hc
  refine ⟨?l, ?_, ?_, ?_⟩
  rotate_left
  · unfold qpskTx
    rw [Flt.ofNat_real, Nat.cast_ofNat]
    exact hc
  · rw [wave_length, pairs_length, hx]; omega
  · rw [(C78_qpsk (yields_ofList x) (by norm_num) whole_43200 hc).avg (by omega)]
    norm_num

theorem cdmaBpskTx_sends {nb : ℕ} (h : 0 < nb) : Sends cdmaBpskTx nb (nb * 48) (1 / 2) := by
  refine ⟨fun x e hx => ?_⟩
  obtain ⟨m, key, k1, k2, k3⟩ := script_key
  obtain ⟨it, h1, h2⟩ := txCdmaBpsk_ok (yields_ofList x) (fs := 43200) (sym := 900) (fc := (1800 : ℝ)) (script_ok k3)
  have hc : (do let it ← txCdmaBpsk (ofList x) 43200 900 (1800 : ℝ) key; collect it) = collect it := by rw [h1, pure_bind]
  rw [collect_of_yields h2] at hc
  refine ⟨?l, ?_, ?_, ?_⟩
  rotate_left
  · unfold cdmaBpskTx
    rw [Flt.ofNat_real, Nat.cast_ofNat, k1, pure_bind, k2, pure_bind]
    exact hc
  · rw [List.length_mapIdx, wave_length, hx]
  · rw [(C78_cdma_bpsk (yields_ofList x) whole_43200 hc).avg (by omega)]
    norm_num

theorem cdmaQpskTx_sends {nb : ℕ} (h : 0 < nb) : Sends cdmaQpskTx (2 * nb) (nb * 48) 1 := by
  refine ⟨fun x e hx => ?_⟩
  obtain ⟨m, key, k1, k2, k3⟩ := script_key
  obtain ⟨it, h1, h2⟩ := txCdmaQpsk_ok (yields_ofList x) (fs := 43200) (sym := 900) (fc := (1800 : ℝ)) (script_ok k3)
  have hc : (do let it ← txCdmaQpsk (ofList x) 43200 900 (1800 : ℝ) key; collect it) = collect it := by rw [h1, pure_bind]
  rw [collect_of_yields h2] at hc
  refine ⟨?l, ?_, ?_, ?_⟩
  rotate_left
  · unfold cdmaQpskTx
    rw [Flt.ofNat_real, Nat.cast_ofNat, k1, pure_bind, k2, pure_bind]
    exact hc
  · rw [List.length_mapIdx, wave_length, pairs_length, hx]; omega
  · rw [(C78_cdma_qpsk (yields_ofList x) whole_43200 hc).avg (by omega)]
    norm_num

/-- What the script's transmitters give for a block of bits: 48 samples per symbol, with a mean energy per sample of one half for the two
binary modulations and one for the two quaternary ones. -/
theorem C124_transmitters {nb : ℕ} (h : 0 < nb) :
    Sends bpskTx nb (nb * 48) (1 / 2) ∧ Sends qpskTx (2 * nb) (nb * 48) 1 ∧ Sends cdmaBpskTx nb (nb * 48) (1 / 2) ∧
      Sends cdmaQpskTx (2 * nb) (nb * 48) 1 :=
  ⟨bpskTx_sends h, qpskTx_sends h, cdmaBpskTx_sends h, cdmaQpskTx_sends h⟩

example : ∃ l : List ℝ, qpskTx [true, false, true, true] (1 : ℝ) = pure l ∧ l.length = 96 ∧ avgEnergy l = 1 :=
  (C124_transmitters (nb := 2) (by norm_num)).2.1.sends _ _ rfl

/-! ## The two conventions -/

theorem lazy_ok {κ : Type} [RIter κ ℝ] {n : ℕ} {tx : ℕ → RM κ} {sig : ℕ → List ℝ} (htx : ∀ j, ∃ it, tx j = pure it ∧ Yields it (sig j)) {std : ℕ → ν}
    {z : ℕ → ℕ → ℝ} (hz : ∀ j, Gives (std j) (z j)) (σ : ℝ) :
    (List.range n).mapM (fun j => do
      let s ← tx j
      let ch ← awgn s σ (std j)
      let chan_sig ← collect ch
      pure (avgEnergy chan_sig)) =
    pure ((List.range n).map (fun j => avgEnergy ((sig j).mapIdx (fun i x => x + (0 + σ * z j i))))) := by
  refine mapM_ok fun j _ => ?_
  obtain ⟨s, h1, h2⟩ := htx j
  obtain ⟨it, h3, h4⟩ := C56_awgn h2 (hz j) σ rfl
  rw [h1, pure_bind, h3, pure_bind, collect_of_yields h4, pure_bind]

theorem count_split {A : Type} (l : List A) (f : A → ℝ) (t : ℝ) {n : ℕ} (hn : l.length = n) (h0 : 0 < n) :
    (l.countP (fun a => decide (t < f a)) : ℝ) / n = 1 - (l.countP (fun a => decide (f a ≤ t)) : ℝ) / n := by
  have h := List.length_eq_countP_add_countP (fun a => decide (f a ≤ t)) (l := l)
  have e : (fun a => decide ¬ (decide (f a ≤ t)) = true) = fun a => decide (t < f a) := by funext a; simp
  rw [e, hn] at h
  have hn0 : (n : ℝ) ≠ 0 := by positivity
  have h' : (n : ℝ) = (l.countP (fun a => decide (f a ≤ t)) : ℝ) + (l.countP (fun a => decide (t < f a)) : ℝ) := by exact_mod_cast h
  field_simp
  linarith

/-- On the same bits and the same noise, what `radiometer_pd` calls the probability of detection of CDMA is one minus what
`radiometer_pmd_cdma` calls the probability of missed detection, where "missed" are the recordings *above* the threshold: the first
counts as detected what stays below it. -/
theorem C124_swapped {std : ℕ → ℕ → ν} {z : ℕ → ℕ → ℕ → ℝ} (hz : ∀ i j, Gives (std i j) (z i j)) (data : ℕ → ℕ → ℕ → Bool) (ebs : List ℝ)
    {attempts nb : ℕ} (ha : 0 < attempts) (_hnb : 0 < nb) :
    ∃ (rec : ℕ → ℕ → List ℝ) (detected missed : List ℝ),
      (∀ i j, (do let s ← cdmaBpskTx ((List.range nb).map (data i j)) (0 : ℝ); awgnPy s 1 (std i j)) = pure (rec i j)) ∧
      getPds attempts ebs attempts nb cdmaBpskTx data std = pure detected ∧ pmdCdma ebs attempts nb data std = pure missed ∧
      missed = ebs.mapIdx (fun i eb => ((List.range attempts).countP (fun j => decide (eb < avgEnergy (rec i j))) : ℝ) / attempts) ∧
      missed = detected.map (1 - ·) := by
  obtain ⟨m, key, k1, k2, k3⟩ := script_key
  have hit : ∀ x : List Bool, ∃ l : List ℝ, ∃ it, txCdmaBpsk (ofList x) 43200 900 (Flt.ofNat 1800 : ℝ) key = pure it ∧ Yields it l := by
    intro x
    rw [Flt.ofNat_real, Nat.cast_ofNat]
    obtain ⟨it, h1, h2⟩ := txCdmaBpsk_ok (yields_ofList x) (fs := 43200) (sym := 900) (fc := (1800 : ℝ)) (script_ok k3)
    exact ⟨_, it, h1, h2⟩
  choose sig hsig using hit
  have htx : ∀ x (e : ℝ), cdmaBpskTx x e = pure (sig x) := by
    intro x e
    obtain ⟨it, h1, h2⟩ := hsig x
    unfold cdmaBpskTx
    rw [k1, pure_bind, k2, pure_bind, h1, pure_bind, collect_of_yields h2]
  refine ⟨fun i j => (sig ((List.range nb).map (data i j))).mapIdx (fun k x => x + (0 + 1 * z i j k)),
    ebs.mapIdx (fun i eb => ((List.range attempts).countP (fun j => decide (avgEnergy ((sig ((List.range nb).map (data i j))).mapIdx (fun k x => x + (0 + 1 * z i j k))) ≤ eb)) : ℝ) / attempts),
    _, ?_, ?_, ?_, rfl, ?_⟩
  · intro i j
    rw [htx, pure_bind, C56_awgn_py _ (hz i j) 1 rfl]
  · unfold getPds
    refine zipIdx_mapM fun i eb hi => ?_
    have := attempts_ok (n := attempts) (fun j => htx ((List.range nb).map (data i j)) eb) (hz i) 1
    simp only at this ⊢
    rw [this, pure_bind, low_count, Flt.ofNat_real, Flt.ofNat_real]
  · unfold pmdCdma
    refine zipIdx_mapM fun i eb hi => ?_
    have := lazy_ok (n := attempts) (fun j => hsig ((List.range nb).map (data i j))) (hz i) 1
    simp only at this ⊢
    rw [k1, pure_bind, k2, pure_bind, this, pure_bind, high_count, Flt.ofNat_real, Flt.ofNat_real]
  · rw [map_mapIdx']
    congr 1
    funext i eb
    exact count_split _ _ _ (by simp) ha

/-- On the same bits and the same noise, what `radiometer_pd` calls the probability of detection of CDMA over QPSK is one minus what
`radiometer_pmd_cdma_qpsk` calls the probability of missed detection, where "missed" are the recordings *above* the threshold: the first
counts as detected what stays below it. -/
theorem C124_swapped_qpsk {std : ℕ → ℕ → ν} {z : ℕ → ℕ → ℕ → ℝ} (hz : ∀ i j, Gives (std i j) (z i j)) (data : ℕ → ℕ → ℕ → Bool) (ebs : List ℝ)
    {attempts nb : ℕ} (ha : 0 < attempts) (_hnb : 2 ≤ nb) :
    ∃ (rec : ℕ → ℕ → List ℝ) (detected missed : List ℝ),
      (∀ i j, (do let s ← cdmaQpskTx ((List.range nb).map (data i j)) (0 : ℝ); awgnPy s 1 (std i j)) = pure (rec i j)) ∧
      getPds attempts ebs attempts nb cdmaQpskTx data std = pure detected ∧ pmdCdmaQpsk ebs attempts nb data std = pure missed ∧
      missed = ebs.mapIdx (fun i eb => ((List.range attempts).countP (fun j => decide (eb < avgEnergy (rec i j))) : ℝ) / attempts) ∧
      missed = detected.map (1 - ·) := by
  obtain ⟨m, key, k1, k2, k3⟩ := script_key
  have hit : ∀ x : List Bool, ∃ l : List ℝ, ∃ it, txCdmaQpsk (ofList x) 43200 900 (Flt.ofNat 1800 : ℝ) key = pure it ∧ Yields it l := by
    intro x
    rw [Flt.ofNat_real, Nat.cast_ofNat]
    obtain ⟨it, h1, h2⟩ := txCdmaQpsk_ok (yields_ofList x) (fs := 43200) (sym := 900) (fc := (1800 : ℝ)) (script_ok k3)
    exact ⟨_, it, h1, h2⟩
  choose sig hsig using hit
  have htx : ∀ x (e : ℝ), cdmaQpskTx x e = pure (sig x) := by
    intro x e
    obtain ⟨it, h1, h2⟩ := hsig x
    unfold cdmaQpskTx
    rw [k1, pure_bind, k2, pure_bind, h1, pure_bind, collect_of_yields h2]
  refine ⟨fun i j => (sig ((List.range nb).map (data i j))).mapIdx (fun k x => x + (0 + 1 * z i j k)),
    ebs.mapIdx (fun i eb => ((List.range attempts).countP (fun j => decide (avgEnergy ((sig ((List.range nb).map (data i j))).mapIdx (fun k x => x + (0 + 1 * z i j k))) ≤ eb)) : ℝ) / attempts),
    _, ?_, ?_, ?_, rfl, ?_⟩
  · intro i j
    rw [htx, pure_bind, C56_awgn_py _ (hz i j) 1 rfl]
  · unfold getPds
    refine zipIdx_mapM fun i eb hi => ?_
    have := attempts_ok (n := attempts) (fun j => htx ((List.range nb).map (data i j)) eb) (hz i) 1
    simp only at this ⊢
    rw [this, pure_bind, low_count, Flt.ofNat_real, Flt.ofNat_real]
  · unfold pmdCdmaQpsk
    refine zipIdx_mapM fun i eb hi => ?_
    have := lazy_ok (n := attempts) (fun j => hsig ((List.range nb).map (data i j))) (hz i) 1
    simp only at this ⊢
    rw [k1, pure_bind, k2, pure_bind, this, pure_bind, high_count, Flt.ofNat_real, Flt.ofNat_real]
  · rw [map_mapIdx']
    congr 1
    funext i eb
    exact count_split _ _ _ (by simp) ha

/-! ## Means -/

variable {z : ℕ → ℕ → ℕ → Ω → ℝ} {std : Ω → ℕ → ℕ → ν}

/-- What the value reported at the point `eb` means: the average over the attempts of the chance that the recording stays at or below `eb`. -/
theorem C124_mean (hz : ∀ i j, White P 1 (z i j)) (hg : ∀ ω i j, Gives (std ω i j) (fun k => z i j k ω)) {tx : List Bool → ℝ → RM (List ℝ)}
    {sig : List Bool → ℝ → List ℝ} {nb : ℕ} (htx : ∀ x e, x.length = nb → tx x e = pure (sig x e) ∧ sig x e ≠ []) (data : ℕ → ℕ → ℕ → Bool)
    (ebs : List ℝ) {attempts : ℕ} (ha : 0 < attempts) (tries : ℕ) :
    ∃ (rec : ℕ → ℕ → Ω → List ℝ) (out : Ω → List ℝ),
      (∀ ω (i : ℕ) eb, ebs[i]? = some eb → ∀ j, (do
        let s ← tx ((List.range nb).map (data i j)) eb
        let ch ← awgn (ofList s) (1 : ℝ) (std ω i j)
        collect ch) = pure (rec i j ω)) ∧
      (∀ ω, getPds attempts ebs tries nb tx data (std ω) = pure (out ω)) ∧
      ∀ (i : ℕ) eb, ebs[i]? = some eb →
        ∫ ω, (out ω).getD i 0 ∂P = (∑ j ∈ Finset.range tries, P.real {ω | avgEnergy (rec i j ω) ≤ eb}) / attempts := by
  have hP := (hz 0 0).prob
  have h := fun ω => C124_pd (hg ω) htx data ebs ha tries
  choose rec h1 h2 using h
  refine ⟨fun i j ω => rec ω i j, _, fun ω i eb hi j => ?_, h2, fun i eb hi => ?_⟩
  · rw [(htx _ eb (by simp)).1, pure_bind]
    exact h1 ω i eb hi j
  · have hrec : ∀ j ω, rec ω i j = (sig ((List.range nb).map (data i j)) eb).mapIdx (fun k x => x + (0 + 1 * z i j k ω)) := by
      intro j ω
      have := h1 ω i eb hi j
      obtain ⟨it, e1, e2⟩ := C56_awgn (yields_ofList (sig ((List.range nb).map (data i j)) eb)) (hg ω i j) (1 : ℝ) rfl
      rw [e1, pure_bind, collect_of_yields e2] at this
      exact (RM.ok_inj.mp this).symm
    have hm : ∀ j, NullMeasurableSet {ω | avgEnergy (rec ω i j) ≤ eb} P := by
      intro j
      simp only [hrec]
      exact nullMeasurableSet_le (avg_moments (hz i j) 1 (htx _ eb (by simp)).2).1.aemeasurable aemeasurable_const
    have e : ∀ ω, (ebs.mapIdx (fun i eb => ((List.range tries).countP (fun j => decide (avgEnergy (rec ω i j) ≤ eb)) : ℝ) / attempts)).getD i 0 =
        ((List.range tries).countP (fun j => decide (ω ∈ {ω | avgEnergy (rec ω i j) ≤ eb})) : ℝ) / attempts := by
      intro ω
      rw [List.getD_eq_getElem?_getD, List.getElem?_mapIdx, hi]
      rfl
    simp only [e]
    rw [integral_div, mean_count hm]

/-- The same for the other experiment, whose noise depends on the point. -/
theorem C124_mean_new (hz : ∀ i j, White P 1 (z i j)) (hg : ∀ ω i j, Gives (std ω i j) (fun k => z i j k ω)) {tx : List ℝ}
    (hE : 0 < (tx.map (· ^ 2)).sum) {fs nb : ℕ} (hfs : 0 < fs) (hnb : 0 < nb) {snrs : List ℝ} (hs : ∀ s ∈ snrs, s ≠ 0) {attempts : ℕ}
    (ha : 0 < attempts) (tries : ℕ) :
    ∃ (rec : ℕ → ℕ → Ω → List ℝ) (out : Ω → List ℝ),
      (∀ ω (i : ℕ) snr, snrs[i]? = some snr → ∀ j,
        (do let ch ← awgn (ofList tx) ((tx.map (· ^ 2)).sum / (fs * nb) / snr) (std ω i j); collect ch) = pure (rec i j ω)) ∧
      (∀ ω, getPdsNew attempts snrs tries nb fs tx (std ω) = pure (out ω)) ∧
      ∀ (i : ℕ) snr, snrs[i]? = some snr →
        ∫ ω, (out ω).getD i 0 ∂P = (∑ j ∈ Finset.range tries, P.real {ω | avgEnergy (rec i j ω) ≤ snr}) / attempts := by
  have hP := (hz 0 0).prob
  have h := fun ω => C124_new (hg ω) hE hfs hnb hs ha tries
  choose rec h1 h2 using h
  have hne : tx ≠ [] := by rintro rfl; simp at hE
  refine ⟨fun i j ω => rec ω i j, _, h1, h2, fun i snr hi => ?_⟩
  have hrec : ∀ j ω, rec ω i j = tx.mapIdx (fun k x => x + (0 + ((tx.map (· ^ 2)).sum / (fs * nb) / snr) * z i j k ω)) := by
    intro j ω
    have := h1 ω i snr hi j
    obtain ⟨it, e1, e2⟩ := C56_awgn (yields_ofList tx) (hg ω i j) ((tx.map (· ^ 2)).sum / (fs * nb) / snr) rfl
    rw [e1, pure_bind, collect_of_yields e2] at this
    exact (RM.ok_inj.mp this).symm
  have hm : ∀ j, NullMeasurableSet {ω | avgEnergy (rec ω i j) ≤ snr} P := by
    intro j
    simp only [hrec]
    exact nullMeasurableSet_le (avg_moments (hz i j) _ hne).1.aemeasurable aemeasurable_const
  have e : ∀ ω, (snrs.mapIdx (fun i snr => ((List.range tries).countP (fun j => decide (avgEnergy (rec ω i j) ≤ snr)) : ℝ) / attempts)).getD i 0 =
      ((List.range tries).countP (fun j => decide (ω ∈ {ω | avgEnergy (rec ω i j) ≤ snr})) : ℝ) / attempts := by
    intro ω
    rw [List.getD_eq_getElem?_getD, List.getElem?_mapIdx, hi]
    rfl
  simp only [e]
  rw [integral_div, mean_count hm]

theorem low_eq {z : ℕ → Ω → ℝ} (hz : White P 1 z) (hσ : 0 < σ) {l : List ℝ} {n : ℕ} (hn : l.length = n) (h0 : 0 < n) (t : ℝ) :
    P.real {ω | avgEnergy (l.mapIdx (fun i s => s + (0 + σ * z i ω))) ≤ t} = 1 - above (vec n (fun i => l.getD i 0 / σ)) (t * n / σ ^ 2) := by
  subst hn
  have hP := hz.prob
  have hl : l ≠ [] := List.length_pos_iff.mp h0
  have hN : (0 : ℝ) < l.length := by exact_mod_cast h0
  have hs : NullMeasurableSet {ω | t < avgEnergy (l.mapIdx (fun i s => s + (0 + σ * z i ω)))} P :=
    nullMeasurableSet_lt aemeasurable_const (avg_moments hz σ hl).1.aemeasurable
  rw [← hz.energy_above hσ]
  have e : {ω | t < avgEnergy (l.mapIdx (fun i s => s + (0 + σ * z i ω)))} =
      {ω | t * l.length < ∑ i ∈ Finset.range l.length, (l.getD i 0 + σ * z i ω) ^ 2} := by
    ext ω
    show t < _ ↔ t * l.length < _
    rw [avg_noisy, lt_div_iff₀ hN]
  rw [← e, ← probReal_compl_eq_one_sub₀ hs]
  congr 1
  ext ω
  simp

theorem sig_of_sends {tx : List Bool → ℝ → RM (List ℝ)} {nb n : ℕ} {S : ℝ} (hn : 0 < n) (h : Sends tx nb n S) :
    ∃ sig : List Bool → ℝ → List ℝ, (∀ x e, x.length = nb → tx x e = pure (sig x e) ∧ sig x e ≠ []) ∧
      ∀ x e, x.length = nb → (sig x e).length = n ∧ avgEnergy (sig x e) = S := by
  have : ∀ x e, ∃ l : List ℝ, x.length = nb → tx x e = pure l ∧ l.length = n ∧ avgEnergy l = S := by
    intro x e
    by_cases hx : x.length = nb
    · obtain ⟨l, hl⟩ := h.sends x e hx
      exact ⟨l, fun _ => hl⟩
    · exact ⟨[], fun h => absurd h hx⟩
  choose sig hs using this
  exact ⟨sig, fun x e hx => ⟨(hs x e hx).1, List.length_pos_iff.mp ((hs x e hx).2.1 ▸ hn)⟩, fun x e hx => (hs x e hx).2⟩

/-- One point of `get_pds` of `radiometer_pd`: the chance of a low reading, the same for every attempt. -/
theorem pd_point (hz : ∀ i j, White P 1 (z i j)) (hg : ∀ ω i j, Gives (std ω i j) (fun k => z i j k ω)) {tx : List Bool → ℝ → RM (List ℝ)}
    {nb n : ℕ} {S : ℝ} (hn : 0 < n) (h : Sends tx nb n S) (data : ℕ → ℕ → ℕ → Bool) (ebs : List ℝ) {attempts : ℕ} (ha : 0 < attempts) (tries : ℕ) :
    ∃ (out : Ω → List ℝ) (sig : List Bool → ℝ → List ℝ), (∀ x e, x.length = nb → (sig x e).length = n ∧ avgEnergy (sig x e) = S) ∧
      (∀ ω, getPds attempts ebs tries nb tx data (std ω) = pure (out ω)) ∧
      ∀ (i : ℕ) eb, ebs[i]? = some eb → ∫ ω, (out ω).getD i 0 ∂P =
        (∑ j ∈ Finset.range tries, P.real {ω | avgEnergy ((sig ((List.range nb).map (data i j)) eb).mapIdx (fun k x => x + (0 + 1 * z i j k ω))) ≤ eb}) /
          attempts := by
  obtain ⟨sig, h1, h2⟩ := sig_of_sends hn h
  obtain ⟨rec, out, r1, r2, r3⟩ := C124_mean hz hg h1 data ebs ha tries
  refine ⟨out, sig, h2, r2, fun i eb hi => ?_⟩
  rw [r3 i eb hi]
  have hrec : ∀ j ω, rec i j ω = (sig ((List.range nb).map (data i j)) eb).mapIdx (fun k x => x + (0 + 1 * z i j k ω)) := by
    intro j ω
    have := r1 ω i eb hi j
    obtain ⟨it, e1, e2⟩ := C56_awgn (yields_ofList (sig ((List.range nb).map (data i j)) eb)) (hg ω i j) (1 : ℝ) rfl
    rw [(h1 _ eb (by simp)).1, pure_bind, e1, pure_bind, collect_of_yields e2] at this
    exact (RM.ok_inj.mp this).symm
  simp only [hrec]

/-- The louder the transmission, the smaller the "probability of detection": of two transmissions with the same number of samples, the one
with more energy is reported strictly less on average, at every positive threshold; equal energies are reported alike, whatever the
messages, the modulation and the spreading. -/
theorem C124_louder (hz : ∀ i j, White P 1 (z i j)) (hg : ∀ ω i j, Gives (std ω i j) (fun k => z i j k ω)) {tx tx' : List Bool → ℝ → RM (List ℝ)}
    {nb nb' n : ℕ} {S S' : ℝ} (hn : 0 < n) (h : Sends tx nb n S) (h' : Sends tx' nb' n S') (data data' : ℕ → ℕ → ℕ → Bool) (ebs : List ℝ)
    {attempts : ℕ} (ha : 0 < attempts) :
    ∃ out out' : Ω → List ℝ, (∀ ω, getPds attempts ebs attempts nb tx data (std ω) = pure (out ω)) ∧
      (∀ ω, getPds attempts ebs attempts nb' tx' data' (std ω) = pure (out' ω)) ∧
      ∀ (i : ℕ) eb, ebs[i]? = some eb →
        (S = S' → ∫ ω, (out' ω).getD i 0 ∂P = ∫ ω, (out ω).getD i 0 ∂P) ∧
        (S < S' → 0 < eb → ∫ ω, (out' ω).getD i 0 ∂P < ∫ ω, (out ω).getD i 0 ∂P) := by
  obtain ⟨out, sig, s1, o1, o2⟩ := pd_point hz hg hn h data ebs ha attempts
  obtain ⟨out', sig', s1', o1', o2'⟩ := pd_point hz hg hn h' data' ebs ha attempts
  have hN : (0 : ℝ) < n := by exact_mod_cast hn
  have ha' : (0 : ℝ) < attempts := by exact_mod_cast ha
  have nrm : ∀ {l : List ℝ} {E : ℝ}, l.length = n → avgEnergy l = E → ‖vec n (fun i => l.getD i 0 / 1)‖ ^ 2 = E * n := by
    intro l E h1 h2
    rw [energy_vec h1, ← h2, avg_real, h1]
    field_simp
  refine ⟨out, out', o1, o1', fun i eb hi => ?_⟩
  rw [o2 i eb hi, o2' i eb hi]
  constructor
  · intro hS
    congr 1
    refine Finset.sum_congr rfl fun j _ => ?_
    obtain ⟨a1, a2⟩ := s1 ((List.range nb).map (data i j)) eb (by simp)
    obtain ⟨b1, b2⟩ := s1' ((List.range nb').map (data' i j)) eb (by simp)
    rw [low_eq (hz i j) one_pos a1 hn, low_eq (hz i j) one_pos b1 hn]
    congr 1
    refine above_congr ?_ _
    refine (pow_left_inj₀ (norm_nonneg _) (norm_nonneg _) two_ne_zero).mp ?_
    rw [nrm a1 a2, nrm b1 b2, hS]
  · intro hS heb
    refine div_lt_div_of_pos_right (Finset.sum_lt_sum_of_nonempty (by simpa using ha.ne') fun j _ => ?_) ha'
    obtain ⟨a1, a2⟩ := s1 ((List.range nb).map (data i j)) eb (by simp)
    obtain ⟨b1, b2⟩ := s1' ((List.range nb').map (data' i j)) eb (by simp)
    rw [low_eq (hz i j) one_pos a1 hn, low_eq (hz i j) one_pos b1 hn]
    refine sub_lt_sub_left (above_lt ?_ (by positivity)) 1
    refine lt_of_pow_lt_pow_left₀ 2 (norm_nonneg _) ?_
    rw [nrm a1 a2, nrm b1 b2]
    exact mul_lt_mul_of_pos_right hS hN

/-! ## The curves of the scripts are flat -/

theorem le_mean {n : ℕ} (hn : 0 < n) {f : ℕ → ℝ} {c : ℝ} (h : ∀ j, c ≤ f j) : c ≤ (∑ j ∈ Finset.range n, f j) / n := by
  have hn' : (0 : ℝ) < n := by exact_mod_cast hn
  have := Finset.card_nsmul_le_sum (Finset.range n) f c (fun j _ => h j)
  rw [Finset.card_range, nsmul_eq_mul] at this
  rwa [le_div_iff₀ hn', mul_comm]

theorem mean_le {n : ℕ} (hn : 0 < n) {f : ℕ → ℝ} {c : ℝ} (h : ∀ j, f j ≤ c) : (∑ j ∈ Finset.range n, f j) / n ≤ c := by
  have hn' : (0 : ℝ) < n := by exact_mod_cast hn
  have := Finset.sum_le_card_nsmul (Finset.range n) f c (fun j _ => h j)
  rw [Finset.card_range, nsmul_eq_mul] at this
  rwa [div_le_iff₀ hn', mul_comm]

/-- Away from signal power plus noise power the reported value is constant up to this. -/
theorem C124_flat (hz : ∀ i j, White P 1 (z i j)) (hg : ∀ ω i j, Gives (std ω i j) (fun k => z i j k ω)) {tx : List Bool → ℝ → RM (List ℝ)}
    {nb n : ℕ} {S : ℝ} (hn : 0 < n) (h : Sends tx nb n S) (data : ℕ → ℕ → ℕ → Bool) (ebs : List ℝ) {attempts : ℕ} (ha : 0 < attempts) :
    ∃ out : Ω → List ℝ, (∀ ω, getPds attempts ebs attempts nb tx data (std ω) = pure (out ω)) ∧
      ∀ (i : ℕ) eb, ebs[i]? = some eb →
        (S + 1 < eb → 1 - (2 + 4 * S) / (n * (eb - (S + 1)) ^ 2) ≤ ∫ ω, (out ω).getD i 0 ∂P) ∧
        (eb < S + 1 → ∫ ω, (out ω).getD i 0 ∂P ≤ (2 + 4 * S) / (n * (S + 1 - eb) ^ 2)) := by
  obtain ⟨out, sig, s1, o1, o2⟩ := pd_point hz hg hn h data ebs ha attempts
  refine ⟨out, o1, fun i eb hi => ?_⟩
  rw [o2 i eb hi]
  constructor
  · intro hlt
    refine le_mean ha fun j => ?_
    obtain ⟨a1, a2⟩ := s1 ((List.range nb).map (data i j)) eb (by simp)
    have := low_of_mean (hz i j) 1 (List.length_pos_iff.mp (a1 ▸ hn)) (t := eb) (d := eb - (S + 1)) (by linarith) (by rw [a2]; linarith)
    rw [a1, a2] at this
    simpa using this
  · intro hlt
    refine mean_le ha fun j => ?_
    obtain ⟨a1, a2⟩ := s1 ((List.range nb).map (data i j)) eb (by simp)
    have := high_of_mean (hz i j) 1 (List.length_pos_iff.mp (a1 ▸ hn)) (t := eb) (d := S + 1 - eb) (by linarith) (by rw [a2]; linarith)
    rw [a1, a2] at this
    simpa using this

/-- The transmitters of `radiometer_pd` with its thousand bits: at every threshold between 1.9 and 2.1 the reported value of BPSK and of CDMA
over BPSK is one up to a thousandth, at every threshold between 1.25 and 1.5 that of CDMA over QPSK is zero up to a thousandth. -/
theorem C124_scripts (hz : ∀ i j, White P 1 (z i j)) (hg : ∀ ω i j, Gives (std ω i j) (fun k => z i j k ω)) (data : ℕ → ℕ → ℕ → Bool) (ebs : List ℝ)
    {attempts : ℕ} (ha : 0 < attempts) :
    ∃ bpsk cdma qcdma : Ω → List ℝ, (∀ ω, getPds attempts ebs attempts 1000 bpskTx data (std ω) = pure (bpsk ω)) ∧
      (∀ ω, getPds attempts ebs attempts 1000 cdmaBpskTx data (std ω) = pure (cdma ω)) ∧
      (∀ ω, getPds attempts ebs attempts 1000 cdmaQpskTx data (std ω) = pure (qcdma ω)) ∧
      ∀ (i : ℕ) eb, ebs[i]? = some eb →
        (19 / 10 ≤ eb → 999 / 1000 ≤ ∫ ω, (bpsk ω).getD i 0 ∂P ∧ 999 / 1000 ≤ ∫ ω, (cdma ω).getD i 0 ∂P) ∧
        (eb ≤ 3 / 2 → ∫ ω, (qcdma ω).getD i 0 ∂P ≤ 1 / 1000) := by
  obtain ⟨b, b1, b2⟩ := C124_flat hz hg (by norm_num) (bpskTx_sends (nb := 1000) (by norm_num)) data ebs ha
  obtain ⟨c, c1, c2⟩ := C124_flat hz hg (by norm_num) (cdmaBpskTx_sends (nb := 1000) (by norm_num)) data ebs ha
  obtain ⟨q, q1, q2⟩ := C124_flat hz hg (by norm_num) (cdmaQpskTx_sends (nb := 500) (by norm_num)) data ebs ha
  have key : ∀ eb : ℝ, 19 / 10 ≤ eb → (999 / 1000 : ℝ) ≤ 1 - (2 + 4 * (1 / 2)) / ((1000 * 48 : ℕ) * (eb - (1 / 2 + 1)) ^ 2) := by
    intro eb h
    have h1 : (4 / 10 : ℝ) ^ 2 ≤ (eb - (1 / 2 + 1)) ^ 2 := pow_le_pow_left₀ (by norm_num) (by linarith) 2
    have h2 : (2 + 4 * (1 / 2) : ℝ) / ((1000 * 48 : ℕ) * (eb - (1 / 2 + 1)) ^ 2) ≤ 1 / 1000 := by
      rw [div_le_div_iff₀ (by push_cast; nlinarith) (by norm_num)]
      push_cast
      nlinarith
    linarith
  refine ⟨b, c, q, b1, c1, q1, fun i eb hi => ⟨fun h => ⟨(key eb h).trans ((b2 i eb hi).1 (by linarith)), (key eb h).trans ((c2 i eb hi).1 (by linarith))⟩,
    fun h => ((q2 i eb hi).2 (by linarith)).trans ?_⟩⟩
  have h1 : (1 / 2 : ℝ) ^ 2 ≤ (1 + 1 - eb) ^ 2 := pow_le_pow_left₀ (by norm_num) (by linarith) 2
  rw [div_le_div_iff₀ (by push_cast; nlinarith) (by norm_num)]
  push_cast
  nlinarith

/-- `radiometer_pd_new`: at a point above signal power plus noise power the reported value is `tries / attempts` up to this; with ten times as many
tries as `attempts`, as in its OFDM run, the "probability" is ten. -/
theorem C124_flat_new (hz : ∀ i j, White P 1 (z i j)) (hg : ∀ ω i j, Gives (std ω i j) (fun k => z i j k ω)) {tx : List ℝ}
    (hE : 0 < (tx.map (· ^ 2)).sum) {fs nb : ℕ} (hfs : 0 < fs) (hnb : 0 < nb) {snrs : List ℝ} (hs : ∀ s ∈ snrs, s ≠ 0) {attempts tries : ℕ}
    (ha : 0 < attempts) (ht : 0 < tries) :
    ∃ out : Ω → List ℝ, (∀ ω, getPdsNew attempts snrs tries nb fs tx (std ω) = pure (out ω)) ∧
      ∀ (i : ℕ) snr, snrs[i]? = some snr → ∀ n0, n0 = (tx.map (· ^ 2)).sum / (fs * nb) / snr → avgEnergy tx + n0 ^ 2 < snr →
        tries / attempts * (1 - (2 * n0 ^ 4 + 4 * n0 ^ 2 * avgEnergy tx) / (tx.length * (snr - (avgEnergy tx + n0 ^ 2)) ^ 2)) ≤
          ∫ ω, (out ω).getD i 0 ∂P := by
  obtain ⟨rec, out, r1, r2, r3⟩ := C124_mean_new hz hg hE hfs hnb hs ha tries
  have hne : tx ≠ [] := by rintro rfl; simp at hE
  have ha' : (0 : ℝ) < attempts := by exact_mod_cast ha
  have ht' : (0 : ℝ) < tries := by exact_mod_cast ht
  refine ⟨out, r2, fun i snr hi n0 h0 hlt => ?_⟩
  rw [r3 i snr hi]
  have hrec : ∀ j ω, rec i j ω = tx.mapIdx (fun k x => x + (0 + n0 * z i j k ω)) := by
    intro j ω
    have := r1 ω i snr hi j
    rw [← h0] at this
    obtain ⟨it, e1, e2⟩ := C56_awgn (yields_ofList tx) (hg ω i j) n0 rfl
    rw [e1, pure_bind, collect_of_yields e2] at this
    exact (RM.ok_inj.mp this).symm
  simp only [hrec]
  have := le_mean ht (fun j => low_of_mean (hz i j) n0 hne (t := snr) (d := snr - (avgEnergy tx + n0 ^ 2)) (by linarith) (by linarith))
  rw [div_mul_eq_mul_div, div_le_div_iff_of_pos_right ha']
  rwa [le_div_iff₀ ht', mul_comm] at this

/-- The fit that `radiometer_pmd_cdma_qpsk` asks for.  A curve `erfc((x - c) f) / 2` is the tail of the normal distribution with mean `c` and
variance `1 / (2 f^2)`.  The readings of the experiment have mean 2 and variance 1/4000, so that `f` is the square root of 2000, about 44.7; the test
asks for 22.2 within one half, that is, for readings of almost four times the variance. -/
theorem C124_fit {z : ℕ → Ω → ℝ} (hz : White P 1 z) {noise : Ω → ν} (hg : ∀ ω, Gives (noise ω) (fun i => z i ω)) {x : List Bool} (hx : x.length = 1000) :
    ∃ rec : Ω → List ℝ, (∀ ω, (do let s ← cdmaQpskTx x (0 : ℝ); let ch ← awgn (ofList s) (1 : ℝ) (noise ω); collect ch) = pure (rec ω)) ∧
      ∫ ω, avgEnergy (rec ω) ∂P = 2 ∧ Var[fun ω => avgEnergy (rec ω); P] = 1 / 4000 ∧
      (∀ c f y : ℝ, 0 < f → (gaussianReal c (1 / (2 * f ^ 2)).toNNReal).real (Set.Ioi y) = Erfc ((y - c) * f) / 2) ∧
      ∀ f : ℝ, |f - 22.2| ≤ 0.5 → 3.8 * Var[fun ω => avgEnergy (rec ω); P] < 1 / (2 * f ^ 2) := by
  obtain ⟨l, l1, l2, l3⟩ := (cdmaQpskTx_sends (nb := 500) (by norm_num)).sends x 0 hx
  obtain ⟨rec, r1, r2, r3, -⟩ := C124_variance (σ := 1) hz hg (yields_ofList l) (List.length_pos_iff.mp (by rw [l2]; norm_num))
  have hv : Var[fun ω => avgEnergy (rec ω); P] = 1 / 4000 := by rw [r3, l3, l2]; norm_num
  refine ⟨rec, fun ω => by rw [l1, pure_bind]; exact r1 ω, by rw [r2, l3]; norm_num, hv, ?_, ?_⟩
  · intro c f y hf
    have h1 := gauss_tail (v := 1 / (2 * f ^ 2)) (by positivity) (y - c)
    have h2 := gaussianReal_map_add_const (μ := 0) (v := (1 / (2 * f ^ 2)).toNNReal) c
    rw [zero_add] at h2
    rw [← h2, measureReal_def, Measure.map_apply (by fun_prop) measurableSet_Ioi, ← measureReal_def]
    have e : (fun x => x + c) ⁻¹' Set.Ioi y = Set.Ioi (y - c) := by ext t; simp [sub_lt_iff_lt_add]
    rw [e, h1]
    congr 2
    rw [show (2 * (1 / (2 * f ^ 2)) : ℝ) = (1 / f) ^ 2 by field_simp, Real.sqrt_sq (by positivity)]
    field_simp
  · intro f hf
    rw [abs_le] at hf
    rw [hv, lt_div_iff₀ (by nlinarith [hf.1])]
    nlinarith [hf.1, hf.2]

/-! ### Concrete cases -/

example : ∃ rec : (ℕ → ℝ) → List ℝ, (∀ ω, (do let ch ← awgn (ofList [1, -1, (0 : ℝ)]) (2 : ℝ) (path ω); collect ch) = pure (rec ω)) ∧
    Var[fun ω => avgEnergy (rec ω); gaussPath 1] = 128 / 9 := by
  obtain ⟨rec, h1, -, h3, -⟩ := C124_variance (σ := 2) (white_path 1) path_gives (yields_ofList [1, -1, (0 : ℝ)]) (by simp)
  refine ⟨rec, h1, h3.trans ?_⟩
  rw [avg_real]
  norm_num

/-- Two loud samples without noise: below the threshold 2, counted as "detected" all ten times, over one. -/
example : getPdsNew 1 [(2 : ℝ)] 10 1 1 [1, -1] (fun _ _ => Repeat.mk (0 : ℝ)) = pure [10] := by
  obtain ⟨rec, h1, h2⟩ := C124_new (std := fun _ _ => Repeat.mk (0 : ℝ)) (fun _ _ => gives_repeat (0 : ℝ)) (tx := [1, -1]) (by norm_num) (fs := 1) (nb := 1)
    one_pos one_pos (snrs := [2]) (by simp) (attempts := 1) one_pos 10
  have hr : ∀ j, rec 0 j = [1, -1] := by
    intro j
    have := h1 0 2 rfl j
    obtain ⟨it, e1, e2⟩ := C56_awgn (yields_ofList [1, (-1 : ℝ)]) (gives_repeat (0 : ℝ)) (([1, (-1 : ℝ)].map (· ^ 2)).sum / ((1 : ℕ) * (1 : ℕ)) / 2) rfl
    rw [e1, pure_bind, collect_of_yields e2] at this
    rw [← RM.ok_inj.mp this]
    simp
  have hle : avgEnergy [1, (-1 : ℝ)] ≤ 2 := by rw [avg_real]; norm_num
  rw [h2]
  simp [hr, hle]

/-- QPSK, with twice the power, is reported less than BPSK. -/
example (data : ℕ → ℕ → ℕ → Bool) : ∃ out out' : (ℕ → ℝ) → List ℝ,
    (∀ ω, getPds 5 [1 / 2] 5 32 bpskTx data (fun _ _ => path ω) = pure (out ω)) ∧
    (∀ ω, getPds 5 [1 / 2] 5 64 qpskTx data (fun _ _ => path ω) = pure (out' ω)) ∧
    ∫ ω, (out' ω).getD 0 0 ∂gaussPath 1 < ∫ ω, (out ω).getD 0 0 ∂gaussPath 1 := by
  obtain ⟨o, o', h1, h2, h3⟩ := C124_louder (fun _ _ => white_path 1) (std := fun ω _ _ => path ω) (fun ω _ _ => path_gives ω) (by norm_num)
    (bpskTx_sends (nb := 32) (by norm_num)) (qpskTx_sends (nb := 32) (by norm_num)) data data [1 / 2] (attempts := 5) (by norm_num)
  exact ⟨o, o', h1, h2, (h3 0 (1 / 2) rfl).2 (by norm_num) (by norm_num)⟩

example (data : ℕ → ℕ → ℕ → Bool) : ∃ bpsk : (ℕ → ℝ) → List ℝ, (∀ ω, getPds 100 [19 / 10, 2, 21 / 10] 100 1000 bpskTx data (fun _ _ => path ω) = pure (bpsk ω)) ∧
    999 / 1000 ≤ ∫ ω, (bpsk ω).getD 1 0 ∂gaussPath 1 := by
  obtain ⟨b, _, _, h1, _, _, h2⟩ := C124_scripts (fun _ _ => white_path 1) (std := fun ω _ _ => path ω) (fun ω _ _ => path_gives ω) data
    [19 / 10, 2, 21 / 10] (attempts := 100) (by norm_num)
  exact ⟨b, h1, ((h2 1 2 rfl).1 (by norm_num)).1⟩

/-- Ten tries for each attempt, point 2 for a signal of power 1: more than nine. -/
example : ∃ out : (ℕ → ℝ) → List ℝ, (∀ ω, getPdsNew 3 [(2 : ℝ)] 30 10 1 [1, -1] (fun _ _ => path ω) = pure (out ω)) ∧
    9 < ∫ ω, (out ω).getD 0 0 ∂gaussPath 1 := by
  obtain ⟨o, h1, h2⟩ := C124_flat_new (fun _ _ => white_path 1) (std := fun ω _ _ => path ω) (fun ω _ _ => path_gives ω) (tx := [1, -1]) (by norm_num)
    (fs := 1) (nb := 10) one_pos (by norm_num) (snrs := [2]) (by simp) (attempts := 3) (tries := 30) (by norm_num) (by norm_num)
  refine ⟨o, h1, lt_of_lt_of_le ?_ (h2 0 2 rfl (1 / 10) (by norm_num) (by rw [avg_real]; norm_num))⟩
  rw [avg_real]
  norm_num

/-- With noise, the two curves of one spread message are mirror images. -/
example (data : ℕ → ℕ → ℕ → Bool) : ∃ detected missed : List ℝ,
    getPds 7 [1, 3 / 2] 7 10 cdmaBpskTx data (fun _ _ => Repeat.mk (1 : ℝ)) = pure detected ∧
    pmdCdma [1, 3 / 2] 7 10 data (fun _ _ => Repeat.mk (1 : ℝ)) = pure missed ∧ missed = detected.map (1 - ·) := by
  obtain ⟨_, d, m, _, h1, h2, _, h3⟩ := C124_swapped (std := fun _ _ => Repeat.mk (1 : ℝ)) (fun _ _ => gives_repeat (1 : ℝ)) data [1, 3 / 2] (attempts := 7)
    (nb := 10) (by norm_num) (by norm_num)
  exact ⟨d, m, h1, h2, h3⟩

example : ∃ rec : (ℕ → ℝ) → List ℝ, Var[fun ω => avgEnergy (rec ω); gaussPath 1] = 1 / 4000 := by
  obtain ⟨rec, _, _, h, _⟩ := C124_fit (white_path 1) path_gives (x := List.replicate 1000 true) (List.length_replicate ..)
  exact ⟨rec, h⟩

end Verif.Props
