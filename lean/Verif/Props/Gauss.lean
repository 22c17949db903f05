import Verif.Lemmas.GaussEnd
import Verif.Lemmas.Driven
import Verif.Props.Receivers

/-!
# Properties C101–C103: bit errors in white Gaussian noise

Exact arithmetic.  `z` is white Gaussian noise of standard deviation one on a probability space (Spec/Gauss), and the stream
handed to `awgn` — the place of the external generator of standard normal variates — gives its samples.  For every outcome `ω` the whole chain
transmitter, `awgn`, receiver is run; the theorems say how the received bits are distributed.
-/
namespace Verif.Props
open Verif Spec MeasureTheory ProbabilityTheory
set_option linter.unusedSectionVars false
variable {ι ν ρ : Type} {Ω : Type} [MeasurableSpace Ω] {P : Measure Ω} {σ : ℝ} {z w : ℕ → Ω → ℝ} [RIter ν ℝ] {noise : Ω → ν}

/-! ## C101 one bit per symbol -/

/-- BPSK through `awgn`: a memoryless channel that flips bit `n` with the textbook probability. -/
theorem C101_bpsk (hz : White P 1 z) (hσ : 0 < σ) (hg : ∀ ω, Gives (noise ω) (fun i => z i ω)) [RIter ι Bool] {m : ι}
    {msg : List Bool} (h : Yields m msg) {fs sym : ℕ} {fc : ℝ} (hfs : fs < 2 ^ 64) (hdvd : sym ∣ fs) (hsps : 0 < fs / sym)
    (hfc : ⌊fc⌋₊ ≤ fs / 2) {tx : List ℝ} (htx : (do let it ← txBpsk m fs sym fc; collect it) = pure tx)
    (hE : ∀ n < msg.length, 0 < ((symbol (fs / sym) n tx).map (· ^ 2)).sum) :
    ∃ bits : Ω → List Bool, (∀ ω, (do
        let s ← txBpsk m fs sym fc
        let ch ← awgn s σ (noise ω)
        let rx ← rxBpsk ch fs sym fc
        collect rx) = pure (bits ω)) ∧
      Flips P msg bits (fun n => bitError ((symbol (fs / sym) n tx).map (· ^ 2)).sum σ) := by
  obtain ⟨w, hw, hn⟩ := hz.driven hg σ
  obtain ⟨it, h1, h2⟩ := txBpsk_ok h (fc := fc) hsps (by rw [Flt.toNat_real]; omega)
    ((isInt_real hfs (pos_of_sps hsps)).mpr hdvd)
  rw [h1, pure_bind, collect_of_yields h2, RM.ok_inj] at htx
  refine ⟨fun ω => (fullBlocks (fs / sym) (tx.mapIdx (fun i x => x + w i ω))).mapIdx (decBpsk fs (fs / sym) fc), ?_, ?_⟩
  · intro ω
    rw [h1, pure_bind]
    obtain ⟨ch, c1, c2⟩ := awgn_driven (h2.of_eq htx) (hn ω)
    obtain ⟨rx, r1, r2⟩ := rxBpsk_sym c2 (fc := fc) hsps
    rw [c1, pure_bind, r1, pure_bind, collect_of_yields r2]
  · refine gauss_core hw hσ hsps (fun n j => Flt.cos (phase fs fc (n * (fs / sym) + j))) _ ?_ htx.symm hE
    intro n b hb
    unfold decBpsk
    rw [rsum_mapIdx_real, hb, Flt.lt_real]

/-- CDMA over BPSK: the same, whatever the key. -/
theorem C101_cdma (hz : White P 1 z) (hσ : 0 < σ) (hg : ∀ ω, Gives (noise ω) (fun i => z i ω)) [RIter ι Bool] {m : ι}
    {msg : List Bool} (h : Yields m msg) {fs sym : ℕ} {fc : ℝ} {key : List Bool} (hfs : fs < 2 ^ 64) (hsym : 0 < sym)
    (hkey : key ≠ []) (hdvd : sym * key.length ∣ fs) (hnyq : 2 * (sym * key.length) ≤ fs) (hfc : ⌊fc⌋₊ ≤ fs / 2) {tx : List ℝ}
    (htx : (do let it ← txCdmaBpsk m fs sym fc key; collect it) = pure tx)
    (hE : ∀ n < msg.length, 0 < ((symbol (fs / sym) n tx).map (· ^ 2)).sum) :
    ∃ bits : Ω → List Bool, (∀ ω, (do
        let s ← txCdmaBpsk m fs sym fc key
        let ch ← awgn s σ (noise ω)
        let rx ← rxCdmaBpsk ch fs sym fc key
        collect rx) = pure (bits ω)) ∧
      Flips P msg bits (fun n => bitError ((symbol (fs / sym) n tx).map (· ^ 2)).sum σ) := by
  obtain ⟨w, hw, hn⟩ := hz.driven hg σ
  have hok := (cdmaOk_real (fc := fc) hfs).mpr ⟨hsym, List.length_pos_iff.mpr hkey, hdvd, hnyq, hfc⟩
  have h1 := hok.sps
  have h3 := hok.key_pos
  obtain ⟨it, e1, e2⟩ := txCdmaBpsk_ok h hok
  rw [e1, pure_bind, collect_of_yields e2, RM.ok_inj] at htx
  refine ⟨fun ω => (fullBlocks (fs / sym) (tx.mapIdx (fun i x => x + w i ω))).mapIdx (fun n b =>
    decBpsk fs (fs / sym) fc n (despreadSym key (fs / sym / key.length) (fs / sym) n b)), ?_, ?_⟩
  · intro ω
    rw [e1, pure_bind]
    obtain ⟨ch, c1, c2⟩ := awgn_driven (e2.of_eq htx) (hn ω)
    obtain ⟨rx, r1, r2⟩ := rxCdmaBpsk_sym c2 hok
    rw [c1, pure_bind, r1, pure_bind, collect_of_yields r2]
  · rw [mapIdx_wave] at htx
    refine gauss_core hw hσ (by omega) (fun n j => Flt.cos (phase fs fc (n * (fs / sym) + j))
      * bitToNrz (keyBit key (fs / sym / key.length) (n * (fs / sym) + j))) _ ?_ ?_ hE
    · intro n b hb
      unfold decBpsk despreadSym
      rw [mapIdx_mapIdx', rsum_mapIdx_real, hb, Flt.lt_real]
      congr 3
      funext j
      ring
    · rw [← htx]
      congr 1
      funext n b j
      ring

/-- Frequency hopping: the same. -/
theorem C101_hopping [Rng ρ] (hz : White P 1 z) (hσ : 0 < σ) (hg : ∀ ω, Gives (noise ω) (fun i => z i ω)) [RIter ι Bool] {m : ι}
    {msg : List Bool} (h : Yields m msg) {low high : ℝ} {nf fs sym : ℕ}
    (hn : 2 ≤ nf) (hlh : low ≤ high) (hfs : fs < 2 ^ 64) (hfs0 : 0 < fs) (hsym : 0 < sym) (hdvd : sym ∣ fs)
    (hhigh : ⌊high⌋₊ ≤ fs / 2) {tx : List ℝ} (htx : (do let it ← txFhBpsk ρ m low high nf fs sym; collect it) = pure tx)
    (hE : ∀ n < msg.length, 0 < ((symbol (fs / sym) n tx).map (· ^ 2)).sum) :
    ∃ bits : Ω → List Bool, (∀ ω, (do
        let s ← txFhBpsk ρ m low high nf fs sym
        let ch ← awgn s σ (noise ω)
        let rx ← rxFhBpsk ρ ch low high nf fs sym
        collect rx) = pure (bits ω)) ∧
      Flips P msg bits (fun n => bitError ((symbol (fs / sym) n tx).map (· ^ 2)).sum σ) := by
  obtain ⟨w, hw, hnoise⟩ := hz.driven hg σ
  have hsps : 0 < fs / sym := Nat.div_pos (Nat.le_of_dvd hfs0 hdvd) hsym
  have htn : ∀ x : ℝ, x ≤ high → Flt.toNat x ≤ fs / 2 := by
    intro x hx
    rw [Flt.toNat_real]
    exact (min_le_left _ _).trans ((Nat.floor_mono hx).trans hhigh)
  have hint := (isInt_real hfs hsym).mpr hdvd
  obtain ⟨it, e1, e2⟩ := txFhBpsk_ok (ρ := ρ) h hn hsps (htn high le_rfl) hint
    (fun x hx => htn x (hopFreqs_real hlh hx).2)
  rw [e1, pure_bind, collect_of_yields e2, RM.ok_inj] at htx
  refine ⟨fun ω => (fullBlocks (fs / sym) (tx.mapIdx (fun i x => x + w i ω))).mapIdx (decFh ρ low high nf fs), ?_, ?_⟩
  · intro ω
    rw [e1, pure_bind]
    obtain ⟨ch, c1, c2⟩ := awgn_driven (e2.of_eq htx) (hnoise ω)
    obtain ⟨rx, r1, r2⟩ := rxFhBpsk_sym (ρ := ρ) c2 (low := low) hn hsps (htn high le_rfl) hint
    rw [c1, pure_bind, r1, pure_bind, collect_of_yields r2]
  · refine gauss_core hw hσ hsps (fun n j => Flt.cos (phase fs (hopOf ρ low high nf n) j)) _ ?_ htx.symm hE
    intro n b hb
    unfold decFh
    rw [rsum_mapIdx_real, hb, Flt.lt_real]

/-! ### What follows for any such channel -/

/-- Bit `n` is wrong with probability `p n`. -/
theorem C101_bit [IsProbabilityMeasure P] {msg : List Bool} {bits : Ω → List Bool} {p : ℕ → ℝ} (h : Flips P msg bits p) {n : ℕ}
    (hn : n < msg.length) : P.real {ω | (bits ω)[n]? ≠ msg[n]?} = p n := h.wrong hn

/-- The mean of the measured bit error rate is the mean of the error probabilities. -/
theorem C101_ber [IsProbabilityMeasure P] {msg : List Bool} {bits : Ω → List Bool} {p : ℕ → ℝ} (h : Flips P msg bits p) :
    ∫ ω, (ber msg (bits ω) : ℝ) ∂P = (∑ n ∈ Finset.range msg.length, p n) / msg.length := by
  simp only [fun ω => ber_wrongAt (h.length ω)]
  rw [integral_div, integral_finsetSum _ fun n _ => (h.integral (wrongAt msg n)).1]
  congr 1
  exact Finset.sum_congr rfl fun n hn => h.wrongAt_mean (Finset.mem_range.mp hn)

/-- With equal error probabilities the number of wrong bits has the binomial distribution. -/
theorem C101_count [IsProbabilityMeasure P] {msg : List Bool} {bits : Ω → List Bool} {q : ℝ} (h : Flips P msg bits (fun _ => q)) (j : ℕ) :
    P.real {ω | wrong msg (bits ω) = j} = msg.length.choose j * q ^ j * (1 - q) ^ (msg.length - j) := by
  rw [← h.binomial j]
  congr 1
  ext ω
  simp only [Set.mem_ofPred_eq, wrong_filter _ _ (h.length ω)]

/-! ### The textbook curve -/

/-- BPSK with a carrier of whole half periods per symbol, the noise level computed from the recording the way the bit-error tests
compute it (tests/ber.rs:71-75): every bit is wrong independently with probability `erfc(sqrt snr) / 2`, which is also the mean of
the measured bit error rate. -/
theorem C101_bpsk_curve [RIter ι Bool] {m : ι} {msg : List Bool} (h : Yields m msg) (hne : msg ≠ []) {fs sym : ℕ} {fc : ℝ}
    (hfs : fs < 2 ^ 64) (hdvd : sym ∣ fs) (hsps : 0 < fs / sym) (hfc : ⌊fc⌋₊ ≤ fs / 2) (hwh : WholeHalf fs (fs / sym) fc) {tx : List ℝ}
    (htx : (do let it ← txBpsk m fs sym fc; collect it) = pure tx) {snr eb : ℝ} (hs : 0 < snr)
    (heb : eb = (tx.map (· ^ 2)).sum / msg.length) (hσ : σ = √(2 * eb / snr) / 2) (hz : White P 1 z)
    (hg : ∀ ω, Gives (noise ω) (fun i => z i ω)) :
    ∃ bits : Ω → List Bool, (∀ ω, (do
        let s ← txBpsk m fs sym fc
        let ch ← awgn s σ (noise ω)
        let rx ← rxBpsk ch fs sym fc
        collect rx) = pure (bits ω)) ∧
      Flips P msg bits (fun _ => Erfc (√snr) / 2) ∧ ∫ ω, (ber msg (bits ω) : ℝ) ∂P = Erfc (√snr) / 2 := by
  obtain ⟨w, hw, hn⟩ := hz.driven hg σ
  have hP := hw.prob
  have hE := C78_bpsk h hsps hwh htx
  have hk : (0 : ℝ) < (fs / sym : ℕ) / 2 := by have : (0 : ℝ) < (fs / sym : ℕ) := by exact_mod_cast hsps
                                               positivity
  have hl : (msg.length : ℝ) ≠ 0 := by simpa using hne
  rw [hE.total hsps, mul_div_cancel_left₀ _ hl] at heb
  have hσ0 : 0 < σ := by rw [hσ, heb]; positivity
  obtain ⟨bits, b1, b2⟩ := C101_bpsk hz hσ0 hg h hfs hdvd hsps hfc htx (fun n hn => by rw [hE.each hsps n hn]; exact hk)
  have b3 : Flips P msg bits (fun _ => Erfc (√snr) / 2) := b2.congr fun n hn => by
    rw [hE.each hsps n hn, hσ, heb, bitError_calibrated hk hs]
  refine ⟨bits, b1, b3, ?_⟩
  rw [C101_ber b3, Finset.sum_const, Finset.card_range, nsmul_eq_mul, mul_div_cancel_left₀ _ hl]

theorem C101_cdma_curve [RIter ι Bool] {m : ι} {msg : List Bool} (h : Yields m msg) (hne : msg ≠ []) {fs sym : ℕ} {fc : ℝ}
    {key : List Bool} (hfs : fs < 2 ^ 64) (hsym : 0 < sym) (hkey : key ≠ []) (hdvd : sym * key.length ∣ fs)
    (hnyq : 2 * (sym * key.length) ≤ fs) (hfc : ⌊fc⌋₊ ≤ fs / 2) (hwh : WholeHalf fs (fs / sym) fc) {tx : List ℝ}
    (htx : (do let it ← txCdmaBpsk m fs sym fc key; collect it) = pure tx) {snr eb : ℝ} (hs : 0 < snr)
    (heb : eb = (tx.map (· ^ 2)).sum / msg.length) (hσ : σ = √(2 * eb / snr) / 2) (hz : White P 1 z)
    (hg : ∀ ω, Gives (noise ω) (fun i => z i ω)) :
    ∃ bits : Ω → List Bool, (∀ ω, (do
        let s ← txCdmaBpsk m fs sym fc key
        let ch ← awgn s σ (noise ω)
        let rx ← rxCdmaBpsk ch fs sym fc key
        collect rx) = pure (bits ω)) ∧
      Flips P msg bits (fun _ => Erfc (√snr) / 2) ∧ ∫ ω, (ber msg (bits ω) : ℝ) ∂P = Erfc (√snr) / 2 := by
  obtain ⟨w, hw, hn⟩ := hz.driven hg σ
  have hP := hw.prob
  have hE := C78_cdma_bpsk h hwh htx
  have hsps := (txCdmaBpsk_collected h htx).1
  have hk : (0 : ℝ) < (fs / sym : ℕ) / 2 := by have : (0 : ℝ) < (fs / sym : ℕ) := by exact_mod_cast hsps
                                               positivity
  have hl : (msg.length : ℝ) ≠ 0 := by simpa using hne
  rw [hE.total hsps, mul_div_cancel_left₀ _ hl] at heb
  have hσ0 : 0 < σ := by rw [hσ, heb]; positivity
  obtain ⟨bits, b1, b2⟩ := C101_cdma hz hσ0 hg h hfs hsym hkey hdvd hnyq hfc htx (fun n hn => by rw [hE.each hsps n hn]; exact hk)
  have b3 : Flips P msg bits (fun _ => Erfc (√snr) / 2) := b2.congr fun n hn => by
    rw [hE.each hsps n hn, hσ, heb, bitError_calibrated hk hs]
  refine ⟨bits, b1, b3, ?_⟩
  rw [C101_ber b3, Finset.sum_const, Finset.card_range, nsmul_eq_mul, mul_div_cancel_left₀ _ hl]

theorem C101_hopping_curve [Rng ρ] [RIter ι Bool] {m : ι} {msg : List Bool} (h : Yields m msg) (hne : msg ≠ []) {low high : ℝ}
    {nf fs sym : ℕ} (hnf : 2 ≤ nf) (hlh : low ≤ high) (hfs : fs < 2 ^ 64) (hfs0 : 0 < fs) (hsym : 0 < sym) (hdvd : sym ∣ fs)
    (hhigh : ⌊high⌋₊ ≤ fs / 2) {freqs : List ℝ} (hf : Yields (linspace low high nf) freqs)
    (hwh : ∀ f ∈ freqs, WholeHalf fs (fs / sym) f) {tx : List ℝ}
    (htx : (do let it ← txFhBpsk ρ m low high nf fs sym; collect it) = pure tx) {snr eb : ℝ} (hs : 0 < snr)
    (heb : eb = (tx.map (· ^ 2)).sum / msg.length) (hσ : σ = √(2 * eb / snr) / 2) (hz : White P 1 z)
    (hg : ∀ ω, Gives (noise ω) (fun i => z i ω)) :
    ∃ bits : Ω → List Bool, (∀ ω, (do
        let s ← txFhBpsk ρ m low high nf fs sym
        let ch ← awgn s σ (noise ω)
        let rx ← rxFhBpsk ρ ch low high nf fs sym
        collect rx) = pure (bits ω)) ∧
      Flips P msg bits (fun _ => Erfc (√snr) / 2) ∧ ∫ ω, (ber msg (bits ω) : ℝ) ∂P = Erfc (√snr) / 2 := by
  obtain ⟨w, hw, hn⟩ := hz.driven hg σ
  have hP := hw.prob
  have hsps : 0 < fs / sym := Nat.div_pos (Nat.le_of_dvd hfs0 hdvd) hsym
  have hE := C78_hopping h hnf hsps hf hwh htx
  have hk : (0 : ℝ) < (fs / sym : ℕ) / 2 := by have : (0 : ℝ) < (fs / sym : ℕ) := by exact_mod_cast hsps
                                               positivity
  have hl : (msg.length : ℝ) ≠ 0 := by simpa using hne
  rw [hE.total hsps, mul_div_cancel_left₀ _ hl] at heb
  have hσ0 : 0 < σ := by rw [hσ, heb]; positivity
  obtain ⟨bits, b1, b2⟩ := C101_hopping hz hσ0 hg h hnf hlh hfs hfs0 hsym hdvd hhigh htx
    (fun n hn => by rw [hE.each hsps n hn]; exact hk)
  have b3 : Flips P msg bits (fun _ => Erfc (√snr) / 2) := b2.congr fun n hn => by
    rw [hE.each hsps n hn, hσ, heb, bitError_calibrated hk hs]
  refine ⟨bits, b1, b3, ?_⟩
  rw [C101_ber b3, Finset.sum_const, Finset.card_range, nsmul_eq_mul, mul_div_cancel_left₀ _ hl]

/-! ### Long recordings -/

theorem C101_bpsk_limit (hz : White P 1 z) (hσ : 0 < σ) (hg : ∀ ω, Gives (noise ω) (fun i => z i ω)) (g : ℕ → Bool)
    {fs sym : ℕ} {fc : ℝ} (hfs : fs < 2 ^ 64) (hdvd : sym ∣ fs) (hsps : 0 < fs / sym)
    (hfc : ⌊fc⌋₊ ≤ fs / 2) (hwh : WholeHalf fs (fs / sym) fc) :
    ∃ bits : ℕ → Ω → List Bool, (∀ N ω, (do
        let s ← txBpsk (ofList ((List.range N).map g)) fs sym fc
        let ch ← awgn s σ (noise ω)
        let rx ← rxBpsk ch fs sym fc
        collect rx) = pure (bits N ω)) ∧
      ∀ᵐ ω ∂P, Filter.Tendsto (fun N : ℕ => (ber ((List.range N).map g) (bits N ω) : ℝ)) Filter.atTop
        (nhds (bitError ((fs / sym : ℕ) / 2) σ)) := by
  obtain ⟨w, hw, hn⟩ := hz.driven hg σ
  refine ⟨_, ?_, core_limit hw hσ hsps (fun n j => Flt.cos (phase fs fc (n * (fs / sym) + j))) (decBpsk fs (fs / sym) fc) ?_ ?_
    (fun n => hwh.cos_energy hsps _) g⟩
  · intro N ω
    obtain ⟨it, h1, h2⟩ := txBpsk_ok (yields_ofList ((List.range N).map g)) (fc := fc) hsps (by rw [Flt.toNat_real]; omega)
      ((isInt_real hfs (pos_of_sps hsps)).mpr hdvd)
    obtain ⟨ch, c1, c2⟩ := awgn_driven h2 (hn ω)
    obtain ⟨rx, r1, r2⟩ := rxBpsk_sym c2 (fc := fc) hsps
    rw [h1, pure_bind, c1, pure_bind, r1, pure_bind, collect_of_yields r2]
  · intro n b hb
    unfold decBpsk
    rw [rsum_mapIdx_real, hb, Flt.lt_real]
  · have : (0 : ℝ) < (fs / sym : ℕ) := by exact_mod_cast hsps
    positivity

theorem C101_cdma_limit (hz : White P 1 z) (hσ : 0 < σ) (hg : ∀ ω, Gives (noise ω) (fun i => z i ω)) (g : ℕ → Bool)
    {fs sym : ℕ} {fc : ℝ} {key : List Bool} (hfs : fs < 2 ^ 64) (hsym : 0 < sym)
    (hkey : key ≠ []) (hdvd : sym * key.length ∣ fs) (hnyq : 2 * (sym * key.length) ≤ fs) (hfc : ⌊fc⌋₊ ≤ fs / 2)
    (hwh : WholeHalf fs (fs / sym) fc) :
    ∃ bits : ℕ → Ω → List Bool, (∀ N ω, (do
        let s ← txCdmaBpsk (ofList ((List.range N).map g)) fs sym fc key
        let ch ← awgn s σ (noise ω)
        let rx ← rxCdmaBpsk ch fs sym fc key
        collect rx) = pure (bits N ω)) ∧
      ∀ᵐ ω ∂P, Filter.Tendsto (fun N : ℕ => (ber ((List.range N).map g) (bits N ω) : ℝ)) Filter.atTop
        (nhds (bitError ((fs / sym : ℕ) / 2) σ)) := by
  obtain ⟨w, hw, hn⟩ := hz.driven hg σ
  have hok := (cdmaOk_real (fc := fc) hfs).mpr ⟨hsym, List.length_pos_iff.mpr hkey, hdvd, hnyq, hfc⟩
  have h1 := hok.sps
  have h3 := hok.key_pos
  have hsps : 0 < fs / sym := by omega
  refine ⟨_, ?_, core_limit hw hσ hsps (fun n j => Flt.cos (phase fs fc (n * (fs / sym) + j))
      * bitToNrz (keyBit key (fs / sym / key.length) (n * (fs / sym) + j))) (fun n b =>
    decBpsk fs (fs / sym) fc n (despreadSym key (fs / sym / key.length) (fs / sym) n b)) ?_ (K := (fs / sym : ℕ) / 2) ?_ ?_ g⟩
  · intro N ω
    obtain ⟨it, e1, e2⟩ := txCdmaBpsk_ok (yields_ofList ((List.range N).map g)) hok
    obtain ⟨ch, c1, c2⟩ := awgn_driven e2 (hn ω)
    obtain ⟨rx, r1, r2⟩ := rxCdmaBpsk_sym c2 hok
    rw [e1, pure_bind, c1, pure_bind, r1, pure_bind, collect_of_yields r2, mapIdx_wave]
    congr 5
    funext n b j
    ring
  · intro n b hb
    unfold decBpsk despreadSym
    rw [mapIdx_mapIdx', rsum_mapIdx_real, hb, Flt.lt_real]
    congr 3
    funext j
    ring
  · have : (0 : ℝ) < (fs / sym : ℕ) := by exact_mod_cast hsps
    positivity
  · intro n
    rw [← hwh.cos_energy hsps (n * (fs / sym))]
    exact Finset.sum_congr rfl fun j _ => by rw [mul_pow, sq (bitToNrz _), bitToNrz_sq, mul_one]

theorem C101_hopping_limit [Rng ρ] (hz : White P 1 z) (hσ : 0 < σ) (hg : ∀ ω, Gives (noise ω) (fun i => z i ω)) (g : ℕ → Bool)
    {low high : ℝ} {nf fs sym : ℕ} (hn : 2 ≤ nf) (hlh : low ≤ high) (hfs : fs < 2 ^ 64) (hfs0 : 0 < fs) (hsym : 0 < sym)
    (hdvd : sym ∣ fs) (hhigh : ⌊high⌋₊ ≤ fs / 2) {freqs : List ℝ} (hf : Yields (linspace low high nf) freqs)
    (hwh : ∀ f ∈ freqs, WholeHalf fs (fs / sym) f) :
    ∃ bits : ℕ → Ω → List Bool, (∀ N ω, (do
        let s ← txFhBpsk ρ (ofList ((List.range N).map g)) low high nf fs sym
        let ch ← awgn s σ (noise ω)
        let rx ← rxFhBpsk ρ ch low high nf fs sym
        collect rx) = pure (bits N ω)) ∧
      ∀ᵐ ω ∂P, Filter.Tendsto (fun N : ℕ => (ber ((List.range N).map g) (bits N ω) : ℝ)) Filter.atTop
        (nhds (bitError ((fs / sym : ℕ) / 2) σ)) := by
  obtain ⟨w, hw, hnoise⟩ := hz.driven hg σ
  obtain rfl := (linspace_yields low high nf).unique hf
  have hsps : 0 < fs / sym := Nat.div_pos (Nat.le_of_dvd hfs0 hdvd) hsym
  have htn : ∀ x : ℝ, x ≤ high → Flt.toNat x ≤ fs / 2 := by
    intro x hx
    rw [Flt.toNat_real]
    exact (min_le_left _ _).trans ((Nat.floor_mono hx).trans hhigh)
  have hint := (isInt_real hfs hsym).mpr hdvd
  refine ⟨_, ?_, core_limit hw hσ hsps (fun n j => Flt.cos (phase fs (hopOf ρ low high nf n) j)) (decFh ρ low high nf fs) ?_
    (K := (fs / sym : ℕ) / 2) ?_ ?_ g⟩
  · intro N ω
    obtain ⟨it, e1, e2⟩ := txFhBpsk_ok (ρ := ρ) (yields_ofList ((List.range N).map g)) hn hsps (htn high le_rfl) hint
      (fun x hx => htn x (hopFreqs_real hlh hx).2)
    obtain ⟨ch, c1, c2⟩ := awgn_driven e2 (hnoise ω)
    obtain ⟨rx, r1, r2⟩ := rxFhBpsk_sym (ρ := ρ) c2 (low := low) hn hsps (htn high le_rfl) hint
    rw [e1, pure_bind, c1, pure_bind, r1, pure_bind, collect_of_yields r2]
  · intro n b hb
    unfold decFh
    rw [rsum_mapIdx_real, hb, Flt.lt_real]
  · have : (0 : ℝ) < (fs / sym : ℕ) := by exact_mod_cast hsps
    positivity
  · intro n
    have := (hwh (hopOf ρ low high nf n) (hopAt_mem _ (by simp only [hopFreqs_length]; omega) _)).cos_energy hsps 0
    rw [← this]
    simp only [Nat.zero_add]

/-- What the probabilities are: between zero and a half, and smaller when the energy over the noise variance is larger. -/
theorem C101_bounds {E E' σ' : ℝ} (hE : 0 < E) (hσ : 0 < σ) : 0 < bitError E σ ∧ bitError E σ < 1 / 2 ∧
    (E / σ ^ 2 < E' / σ' ^ 2 → bitError E' σ' < bitError E σ) :=
  ⟨(bitError_bounds hE hσ).1, (bitError_bounds hE hσ).2, bitError_lt hE hσ⟩

/-! ### A case: three bits, unit noise -/

/-- Three bits at 16 samples per symbol in unit noise: one named bit is wrong with probability `erfc 2 / 2`. -/
example : ∃ bits : (ℕ → ℝ) → List Bool, (∀ ω, (do
        let s ← txBpsk (ofList [true, false, true]) 16000 1000 (2000 : ℝ)
        let ch ← awgn s (1 : ℝ) (path ω)
        let rx ← rxBpsk ch 16000 1000 (2000 : ℝ)
        collect rx) = pure (bits ω)) ∧
      (gaussPath 1).real {ω | (bits ω)[1]? ≠ some false} = Erfc 2 / 2 := by
  obtain ⟨a, ha, -⟩ := Cases.bpsk [true, false, true]
  have hE := C78_bpsk (yields_ofList _) (by norm_num) (WholeHalf.of_nat (f := 2000) (p := 4) (by norm_num) (by norm_num)) ha
  obtain ⟨bits, b1, b2⟩ := C101_bpsk (white_path 1) one_pos path_gives (yields_ofList _) (by norm_num) (by norm_num) (by norm_num)
    (by norm_num) ha (fun n hn => by rw [hE.each (by norm_num) n hn]; norm_num)
  refine ⟨bits, b1, ?_⟩
  have hP := (white_path 1).prob
  have := C101_bit b2 (n := 1) (by norm_num)
  rw [hE.each (by norm_num) 1 (by norm_num)] at this
  simp only [List.getElem?_cons_succ, List.getElem?_cons_zero] at this
  rw [this, bitError]
  have : √(((16000 / 1000 : ℕ) : ℝ) / 2 / (2 * 1 ^ 2)) = 2 := by
    rw [show (((16000 / 1000 : ℕ) : ℝ) / 2 / (2 * 1 ^ 2)) = 2 ^ 2 by norm_num]
    exact Real.sqrt_sq (by norm_num)
  rw [this]

theorem wh16 : WholeHalf 16000 (16000 / 1000) (2000 : ℝ) :=
  WholeHalf.of_nat (f := 2000) (p := 4) (by norm_num) (by norm_num)

/-- A spread message in noise. -/
example : ∃ bits : (ℕ → ℝ) → List Bool, (∀ ω, (do
        let s ← txCdmaBpsk (ofList [true, false, true]) 16000 1000 (2000 : ℝ) [true, false]
        let ch ← awgn s (2 : ℝ) (path ω)
        let rx ← rxCdmaBpsk ch 16000 1000 (2000 : ℝ) [true, false]
        collect rx) = pure (bits ω)) ∧ ∀ n < 3, (gaussPath 1).real {ω | (bits ω)[n]? ≠ [true, false, true][n]?} = Erfc 1 / 2 := by
  obtain ⟨a, ha, -⟩ := Cases.cdmaBpsk [true, false, true] (key := [true, false]) (.inl rfl)
  have hE := C78_cdma_bpsk (yields_ofList _) wh16 ha
  obtain ⟨bits, b1, b2⟩ := C101_cdma (white_path 1) two_pos path_gives (yields_ofList _) (by norm_num) (by norm_num)
    (by simp) (by norm_num) (by norm_num) (by norm_num) ha (fun n hn => by rw [hE.each (by norm_num) n hn]; norm_num)
  refine ⟨bits, b1, fun n hn => ?_⟩
  have hP := (white_path 1).prob
  rw [C101_bit b2 hn, hE.each (by norm_num) n hn, bitError]
  have : √(((16000 / 1000 : ℕ) : ℝ) / 2 / (2 * 2 ^ 2)) = 1 := by
    rw [show (((16000 / 1000 : ℕ) : ℝ) / 2 / (2 * 2 ^ 2)) = 1 by norm_num]
    exact Real.sqrt_one
  rw [this]

/-- A hopping station: no error at all with the product of the probabilities. -/
example [Rng ρ] : ∃ bits : (ℕ → ℝ) → List Bool, (∀ ω, (do
        let s ← txFhBpsk ρ (ofList [true, false]) (1000 : ℝ) 3000 4 16000 1000
        let ch ← awgn s (1 : ℝ) (path ω)
        let rx ← rxFhBpsk ρ ch (1000 : ℝ) 3000 4 16000 1000
        collect rx) = pure (bits ω)) ∧ (gaussPath 1).real {ω | wrong [true, false] (bits ω) = 0} = (1 - bitError 8 1) ^ 2 := by
  obtain ⟨a, ha, -⟩ := Cases.hopping ρ [true, false]
  have hwh : ∀ f ∈ ([1000, 1500, 2000, 2500] : List ℝ), WholeHalf 16000 (16000 / 1000) f := by
    intro f hf
    simp only [List.mem_cons, List.not_mem_nil, or_false] at hf
    rcases hf with rfl | rfl | rfl | rfl
    · exact WholeHalf.of_nat (f := 1000) (p := 2) (by norm_num) (by norm_num)
    · exact WholeHalf.of_nat (f := 1500) (p := 3) (by norm_num) (by norm_num)
    · exact wh16
    · exact WholeHalf.of_nat (f := 2500) (p := 5) (by norm_num) (by norm_num)
  have hE := C78_hopping (yields_ofList _) (by norm_num) (by norm_num) Cases.hop_freqs hwh ha
  obtain ⟨bits, b1, b2⟩ := C101_hopping (white_path 1) one_pos path_gives (yields_ofList _) (by norm_num) (by norm_num) (by norm_num)
    (by norm_num) (by norm_num) (by norm_num) (by norm_num) ha (fun n hn => by rw [hE.each (by norm_num) n hn]; norm_num)
  refine ⟨bits, b1, ?_⟩
  have hP := (white_path 1).prob
  have b3 : Flips (gaussPath 1) [true, false] bits (fun _ => bitError 8 1) := b2.congr fun n hn => by
    rw [hE.each (by norm_num) n hn]; norm_num
  rw [C101_count b3]
  simp

/-- Long recordings of an alternating message. -/
example : ∃ bits : ℕ → (ℕ → ℝ) → List Bool, (∀ N ω, (do
        let s ← txBpsk (ofList ((List.range N).map (fun n => decide (n % 2 = 0)))) 16000 1000 (2000 : ℝ)
        let ch ← awgn s (1 : ℝ) (path ω)
        let rx ← rxBpsk ch 16000 1000 (2000 : ℝ)
        collect rx) = pure (bits N ω)) ∧
      ∀ᵐ ω ∂(gaussPath 1), Filter.Tendsto (fun N : ℕ => (ber ((List.range N).map (fun n => decide (n % 2 = 0))) (bits N ω) : ℝ)) Filter.atTop
        (nhds (bitError ((16000 / 1000 : ℕ) / 2) 1)) :=
  C101_bpsk_limit (white_path 1) one_pos path_gives _ (by norm_num) (by norm_num) (by norm_num) (by norm_num) wh16

/-- The noise level of the tests at 0 dB. -/
example : ∃ (σ : ℝ) (bits : (ℕ → ℝ) → List Bool), (∀ ω, (do
        let s ← txBpsk (ofList [true, false, true]) 16000 1000 (2000 : ℝ)
        let ch ← awgn s σ (path ω)
        let rx ← rxBpsk ch 16000 1000 (2000 : ℝ)
        collect rx) = pure (bits ω)) ∧ ∫ ω, (ber [true, false, true] (bits ω) : ℝ) ∂(gaussPath 1) = Erfc (√1) / 2 := by
  obtain ⟨a, ha, -⟩ := Cases.bpsk [true, false, true]
  obtain ⟨bits, b1, -, b3⟩ := C101_bpsk_curve (yields_ofList _) (by simp) (by norm_num) (by norm_num) (by norm_num) (by norm_num) wh16
    ha one_pos rfl rfl (white_path 1) path_gives
  exact ⟨_, bits, b1, b3⟩

/-! ## C102 two bits per symbol -/

/-- QPSK with a carrier of whole half periods per symbol: every bit, of both rails, is flipped independently with the probability
that belongs to half the energy of the symbol. -/
theorem C102_qpsk (hz : White P 1 z) (hσ : 0 < σ) (hg : ∀ ω, Gives (noise ω) (fun i => z i ω)) [RIter ι Bool] {m : ι}
    {msg : List Bool} (h : Yields m msg) {fs sym : ℕ} {fc : ℝ} (hsps : 0 < fs / sym) (hwh : WholeHalf fs (fs / sym) fc) :
    ∃ bits : Ω → List Bool, (∀ ω, (do
        let s ← txQpsk m fs sym fc
        let ch ← awgn s σ (noise ω)
        let rx ← rxQpsk ch fs sym fc
        collect rx) = pure (bits ω)) ∧
      Flips P (msg.take (2 * (msg.length / 2))) bits (fun _ => bitError ((fs / sym : ℕ) / 2) σ) := by
  obtain ⟨w, hw, hn⟩ := hz.driven hg σ
  obtain ⟨p, hk, hs⟩ := hwh.dphi hsps
  obtain ⟨it, h1, h2⟩ := txQpsk_ok h (fc := fc) hsps
  have hK : (0 : ℝ) < (fs / sym : ℕ) / 2 := by have : (0 : ℝ) < (fs / sym : ℕ) := by exact_mod_cast hsps
                                               positivity
  refine ⟨_, ?_, gauss_quad hw hσ hsps (fun n j => Real.cos ((n * (fs / sym) + j : ℕ) * dphi fs fc))
    (fun n j => -Real.sin ((n * (fs / sym) + j : ℕ) * dphi fs fc)) (decQpsk fs (fs / sym) fc) ?_ (fun _ _ => rfl) hK rfl
    (fun n => sum_cos_sq_half hk hs _) (fun n => ?_) (fun n => ?_)⟩
  · intro ω
    obtain ⟨ch, c1, c2⟩ := awgn_driven h2 (hn ω)
    obtain ⟨rx, r1, r2⟩ := rxQpsk_sym c2 (fc := fc) hsps
    rw [h1, pure_bind, c1, pure_bind, r1, pure_bind, collect_of_yields r2]
    congr 6
    funext n p j
    simp only [phase_real, Flt.cos_real, Flt.sin_real]
    ring
  · intro n b hb
    unfold decQpsk
    rw [rsum_mapIdx_real, rsum_mapIdx_real, hb]
    simp only [Flt.le_real, phase_real, Flt.cos_real, Flt.sin_real]
  · simp only [neg_sq]; exact sum_sin_sq_half hk hs _
  · simp only [mul_neg, Finset.sum_neg_distrib, neg_eq_zero]; exact sum_cos_sin_half hk hs _

/-- CDMA over QPSK: the same, whatever the key. -/
theorem C102_cdma_qpsk (hz : White P 1 z) (hσ : 0 < σ) (hg : ∀ ω, Gives (noise ω) (fun i => z i ω)) [RIter ι Bool] {m : ι}
    {msg : List Bool} (h : Yields m msg) {fs sym : ℕ} {fc : ℝ} {key : List Bool} (hfs : fs < 2 ^ 64) (hsym : 0 < sym)
    (hkey : key ≠ []) (hdvd : sym * key.length ∣ fs) (hnyq : 2 * (sym * key.length) ≤ fs) (hfc : ⌊fc⌋₊ ≤ fs / 2)
    (hwh : WholeHalf fs (fs / sym) fc) :
    ∃ bits : Ω → List Bool, (∀ ω, (do
        let s ← txCdmaQpsk m fs sym fc key
        let ch ← awgn s σ (noise ω)
        let rx ← rxCdmaQpsk ch fs sym fc key
        collect rx) = pure (bits ω)) ∧
      Flips P (msg.take (2 * (msg.length / 2))) bits (fun _ => bitError ((fs / sym : ℕ) / 2) σ) := by
  obtain ⟨w, hw, hn⟩ := hz.driven hg σ
  have hok := (cdmaOk_real (fc := fc) hfs).mpr ⟨hsym, List.length_pos_iff.mpr hkey, hdvd, hnyq, hfc⟩
  have h1 := hok.sps
  have h3 := hok.key_pos
  have hsps : 0 < fs / sym := by omega
  obtain ⟨p, hk, hs⟩ := hwh.dphi hsps
  obtain ⟨it, e1, e2⟩ := txCdmaQpsk_ok h hok
  have hK : (0 : ℝ) < (fs / sym : ℕ) / 2 := by have : (0 : ℝ) < (fs / sym : ℕ) := by exact_mod_cast hsps
                                               positivity
  have hk2 : ∀ i, (bitToNrz (keyBit key (fs / sym / key.length) i) : ℝ) ^ 2 = 1 := by
    intro i; rw [sq, bitToNrz_sq]
  refine ⟨_, ?_, gauss_quad hw hσ hsps (fun n j => Real.cos ((n * (fs / sym) + j : ℕ) * dphi fs fc)
      * bitToNrz (keyBit key (fs / sym / key.length) (n * (fs / sym) + j)))
    (fun n j => -Real.sin ((n * (fs / sym) + j : ℕ) * dphi fs fc)
      * bitToNrz (keyBit key (fs / sym / key.length) (n * (fs / sym) + j))) (fun n b =>
      decQpsk fs (fs / sym) fc n (despreadSym key (fs / sym / key.length) (fs / sym) n b)) ?_ (fun _ _ => rfl) hK rfl
    (fun n => ?_) (fun n => ?_) (fun n => ?_)⟩
  · intro ω
    obtain ⟨ch, c1, c2⟩ := awgn_driven e2 (hn ω)
    obtain ⟨rx, r1, r2⟩ := rxCdmaQpsk_sym c2 hok
    rw [e1, pure_bind, c1, pure_bind, r1, pure_bind, collect_of_yields r2, mapIdx_wave]
    congr 6
    funext n p j
    simp only [phase_real, Flt.cos_real, Flt.sin_real]
    ring
  · intro n b hb
    unfold decQpsk despreadSym
    rw [mapIdx_mapIdx', mapIdx_mapIdx', rsum_mapIdx_real, rsum_mapIdx_real, hb]
    simp only [Flt.le_real, phase_real, Flt.cos_real, Flt.sin_real]
    congr 1
    · congr 3; funext j; ring
    · congr 4; funext j; ring
  · simp only [mul_pow, hk2, mul_one]; exact sum_cos_sq_half hk hs _
  · simp only [mul_pow, hk2, mul_one, neg_sq]; exact sum_sin_sq_half hk hs _
  · rw [← neg_eq_zero, ← sum_cos_sin_half hk hs (n * (fs / sym)), ← Finset.sum_neg_distrib]
    apply Finset.sum_congr rfl
    intro j _
    have := hk2 (n * (fs / sym) + j)
    linear_combination (Real.cos ((n * (fs / sym) + j : ℕ) * dphi fs fc) * Real.sin ((n * (fs / sym) + j : ℕ) * dphi fs fc)) * this

/-- The noise level of the bit-error tests on a QPSK recording of an even number of bits: the bit error rate is the one of BPSK at
the same signal-to-noise ratio. -/
theorem C102_curve [RIter ι Bool] {m : ι} {msg : List Bool} (h : Yields m msg) (hne : msg ≠ []) (heven : 2 ∣ msg.length)
    {fs sym : ℕ} {fc : ℝ} (hsps : 0 < fs / sym) (hwh : WholeHalf fs (fs / sym) fc) {tx : List ℝ}
    (htx : (do let it ← txQpsk m fs sym fc; collect it) = pure tx) {snr eb : ℝ} (hs : 0 < snr)
    (heb : eb = (tx.map (· ^ 2)).sum / msg.length) (hσ : σ = √(2 * eb / snr) / 2) (hz : White P 1 z)
    (hg : ∀ ω, Gives (noise ω) (fun i => z i ω)) :
    ∃ bits : Ω → List Bool, (∀ ω, (do
        let s ← txQpsk m fs sym fc
        let ch ← awgn s σ (noise ω)
        let rx ← rxQpsk ch fs sym fc
        collect rx) = pure (bits ω)) ∧
      Flips P msg bits (fun _ => Erfc (√snr) / 2) ∧ ∫ ω, (ber msg (bits ω) : ℝ) ∂P = Erfc (√snr) / 2 := by
  obtain ⟨w, hw, hn⟩ := hz.driven hg σ
  have hP := hw.prob
  have hE := C78_qpsk h hsps hwh htx
  have hk0 : (0 : ℝ) < (fs / sym : ℕ) := by exact_mod_cast hsps
  have hk : (0 : ℝ) < (fs / sym : ℕ) / 2 := by positivity
  have hl : (msg.length : ℝ) ≠ 0 := by simpa using hne
  obtain ⟨r, hr⟩ := heven
  have hr' : msg.length / 2 = r := by omega
  rw [hE.total hsps, hr'] at heb
  have heb' : eb = (fs / sym : ℕ) / 2 := by
    rw [heb, div_eq_div_iff hl two_ne_zero, hr]; push_cast; ring
  have hσ0 : 0 < σ := by rw [hσ, heb']; positivity
  obtain ⟨bits, b1, b2⟩ := C102_qpsk hz hσ0 hg h hsps hwh
  rw [hr', ← hr, List.take_length] at b2
  have b3 : Flips P msg bits (fun _ => Erfc (√snr) / 2) := b2.congr fun n hn => by
    rw [hσ, heb', bitError_calibrated hk hs]
  refine ⟨bits, b1, b3, ?_⟩
  rw [C101_ber b3, Finset.sum_const, Finset.card_range, nsmul_eq_mul, mul_div_cancel_left₀ _ hl]

/-- A symbol of two bits is received wrongly with probability `1 - (1 - q)^2 = 2 q - q^2`. -/
theorem C102_symbol [IsProbabilityMeasure P] {msg : List Bool} {bits : Ω → List Bool} {q : ℝ} (h : Flips P msg bits (fun _ => q)) {n : ℕ}
    (hn : 2 * n + 1 < msg.length) :
    P.real {ω | (bits ω)[2 * n]? ≠ msg[2 * n]? ∨ (bits ω)[2 * n + 1]? ≠ msg[2 * n + 1]?} = 2 * q - q ^ 2 := by
  have h1 := h.wrong (n := 2 * n) (by omega)
  have h2 := h.wrong (n := 2 * n + 1) hn
  have h3 := h.wrong2 (n := 2 * n) (m := 2 * n + 1) (by omega) hn (by omega)
  have h4 := measureReal_union_add_inter₀ (μ := P) (s := {ω | (bits ω)[2 * n]? ≠ msg[2 * n]?}) (h.nullMeas fun l => l[2 * n + 1]? ≠ msg[2 * n + 1]?)
  have e1 : {ω | (bits ω)[2 * n]? ≠ msg[2 * n]?} ∪ {ω | (bits ω)[2 * n + 1]? ≠ msg[2 * n + 1]?}
    = {ω | (bits ω)[2 * n]? ≠ msg[2 * n]? ∨ (bits ω)[2 * n + 1]? ≠ msg[2 * n + 1]?} := rfl
  have e2 : {ω | (bits ω)[2 * n]? ≠ msg[2 * n]?} ∩ {ω | (bits ω)[2 * n + 1]? ≠ msg[2 * n + 1]?}
    = {ω | (bits ω)[2 * n]? ≠ msg[2 * n]? ∧ (bits ω)[2 * n + 1]? ≠ msg[2 * n + 1]?} := rfl
  rw [e1, e2, h1, h2, h3] at h4
  linarith

/-- The formula the test suite and the Python scripts plot for QPSK, `erfc(x)/2 - erfc(x)^2/4`, is strictly below the bit error
rate of C102_curve, and below half the symbol error rate as well. -/
theorem C102_formula (snr : ℝ) {q : ℝ} (hq : q = Erfc (√snr) / 2) :
    1 / 2 * Erfc (√snr) - 1 / 4 * Erfc (√snr) ^ 2 < (2 * q - q ^ 2) / 2 ∧ (2 * q - q ^ 2) / 2 < q := by
  have := Erfc_pos (√snr)
  subst hq
  constructor <;> nlinarith

/-- Two QPSK symbols in noise: a symbol is wrong with probability `2 q - q^2`. -/
example : ∃ bits : (ℕ → ℝ) → List Bool, (∀ ω, (do
        let s ← txQpsk (ofList [true, false, false, true]) 16000 1000 (2000 : ℝ)
        let ch ← awgn s (2 : ℝ) (path ω)
        let rx ← rxQpsk ch 16000 1000 (2000 : ℝ)
        collect rx) = pure (bits ω)) ∧
      (gaussPath 1).real {ω | (bits ω)[2]? ≠ some false ∨ (bits ω)[3]? ≠ some true} = Erfc 1 - (Erfc 1 / 2) ^ 2 := by
  obtain ⟨bits, b1, b2⟩ := C102_qpsk (white_path 1) two_pos path_gives (yields_ofList [true, false, false, true]) (by norm_num) wh16
  refine ⟨bits, b1, ?_⟩
  have hP := (white_path 1).prob
  have hs : √(((16000 / 1000 : ℕ) : ℝ) / 2 / (2 * 2 ^ 2)) = 1 := by
    rw [show (((16000 / 1000 : ℕ) : ℝ) / 2 / (2 * 2 ^ 2)) = 1 by norm_num]
    exact Real.sqrt_one
  simp only [bitError, hs] at b2
  have h3 := C102_symbol b2 (n := 1) (by norm_num)
  simp at h3
  simp only [ne_eq]
  rw [h3]
  ring

example : ∃ bits : (ℕ → ℝ) → List Bool, (∀ ω, (do
        let s ← txCdmaQpsk (ofList [true, false, false, true]) 16000 1000 (2000 : ℝ) [true, false]
        let ch ← awgn s (2 : ℝ) (path ω)
        let rx ← rxCdmaQpsk ch 16000 1000 (2000 : ℝ) [true, false]
        collect rx) = pure (bits ω)) ∧
      Flips (gaussPath 1) [true, false, false, true] bits (fun _ => bitError ((16000 / 1000 : ℕ) / 2) 2) :=
  C102_cdma_qpsk (white_path 1) two_pos path_gives (yields_ofList [true, false, false, true]) (by norm_num) (by norm_num) (by simp)
    (by norm_num) (by norm_num) (by norm_num) wh16

example : ∃ (σ : ℝ) (bits : (ℕ → ℝ) → List Bool), (∀ ω, (do
        let s ← txQpsk (ofList [true, false, false, true]) 16000 1000 (2000 : ℝ)
        let ch ← awgn s σ (path ω)
        let rx ← rxQpsk ch 16000 1000 (2000 : ℝ)
        collect rx) = pure (bits ω)) ∧ ∫ ω, (ber [true, false, false, true] (bits ω) : ℝ) ∂(gaussPath 1) = Erfc (√4) / 2 := by
  obtain ⟨a, ha, -⟩ := Cases.qpsk [true, false, false, true]
  obtain ⟨bits, b1, -, b3⟩ := C102_curve (yields_ofList _) (by simp) (by simp) (by norm_num) wh16 ha (snr := 4) (by norm_num) rfl rfl
    (white_path 1) path_gives
  exact ⟨_, bits, b1, b3⟩

/-! ## C103 baseband symbols through `awgn_complex` -/

/-- Baseband BPSK: every bit is flipped independently with the probability of unit energy. -/
theorem C103_bpsk (hz : White P 1 z) (hσ : 0 < σ) (hg : ∀ ω, Gives (noise ω) (fun i => z i ω)) [RIter ι Bool] {m : ι}
    {msg : List Bool} (h : Yields m msg) :
    ∃ bits : Ω → List Bool, (∀ ω, (do
        let ch ← awgnComplex (txBasebandBpsk (F := ℝ) m) σ (noise ω)
        collect (rxBasebandBpsk (F := ℝ) ch)) = pure (bits ω)) ∧
      Flips P msg bits (fun _ => bitError 1 σ) := by
  obtain ⟨w, hw, hn⟩ := hz.driven hg σ
  refine ⟨_, fun ω => ?_, (gauss_sample hw hσ one_pos msg).congr fun n _ => by rw [one_pow]⟩
  have h1 := h.rmap (fun bit : Bool => if bit then (⟨1, 0⟩ : Cx ℝ) else ⟨-1, 0⟩)
  obtain ⟨ch, c1, c2⟩ := awgnComplex_driven h1 (hn ω)
  have h2 := c2.rmap (fun sample : Cx ℝ => Flt.le 0 sample.re)
  refine (congrArg (· >>= fun ch => collect (rxBasebandBpsk (F := ℝ) ch)) c1).trans ?_
  rw [pure_bind]
  refine (collect_of_yields h2).trans (congrArg pure ?_)
  rw [map_mapIdx']
  apply List.ext_getElem?
  intro i
  rw [List.getElem?_mapIdx, List.getElem?_mapIdx, List.getElem?_map, Option.map_map]
  congr 1
  funext b
  simp only [Function.comp, Flt.le_real]
  cases b <;> simp

/-- Baseband QPSK: the noise goes to the real part only, so the first bit of a symbol is flipped with the probability of energy two
(the square of the real part) and the second bit is never wrong. -/
theorem C103_qpsk (hz : White P 1 z) (hσ : 0 < σ) (hg : ∀ ω, Gives (noise ω) (fun i => z i ω)) [RIter ι Bool] {m : ι}
    {msg : List Bool} (h : Yields m msg) :
    ∃ bits : Ω → List Bool, (∀ ω, (do
        let ch ← awgnComplex (txBasebandQpsk (F := ℝ) m) σ (noise ω)
        collect (rxBasebandQpsk (F := ℝ) ch)) = pure (bits ω)) ∧
      Flips P (msg.take (2 * (msg.length / 2))) bits (fun n => if n % 2 = 0 then bitError 2 σ else 0) := by
  obtain ⟨w, hw, hn⟩ := hz.driven hg σ
  have hP := hw.prob
  have hF := (gauss_sample hw hσ (Real.sqrt_pos.mpr two_pos) ((pairs msg).map Prod.fst)).duo
  rw [show duo (pairs msg) = msg.take (2 * (msg.length / 2)) from pairs_flat msg] at hF
  refine ⟨_, fun ω => ?_, hF.congr fun n _ => by rw [Real.sq_sqrt two_pos.le]⟩
  have h1 := h.rtuples.rmap (fun p : Bool × Bool =>
    match p with
    | (true, true) => (⟨Flt.sqrt (Flt.ofNat 2), Flt.sqrt (Flt.ofNat 2)⟩ : Cx ℝ)
    | (true, false) => ⟨Flt.sqrt (Flt.ofNat 2), -(Flt.sqrt (Flt.ofNat 2))⟩
    | (false, true) => ⟨-(Flt.sqrt (Flt.ofNat 2)), Flt.sqrt (Flt.ofNat 2)⟩
    | (false, false) => ⟨-(Flt.sqrt (Flt.ofNat 2)), -(Flt.sqrt (Flt.ofNat 2))⟩)
  obtain ⟨ch, c1, c2⟩ := awgnComplex_driven h1 (hn ω)
  have h2 := c2.rflatMap (f := fun sample : Cx ℝ => (pure (ofList [Flt.le 0 sample.re, Flt.le 0 sample.im]) : RM (VecIter Bool)))
    (out := fun sample : Cx ℝ => [Flt.le 0 sample.re, Flt.le 0 sample.im]) (fun a => ⟨_, rfl, yields_ofList _⟩)
  refine (congrArg (· >>= fun ch => collect (rxBasebandQpsk (F := ℝ) ch)) c1).trans ?_
  rw [pure_bind]
  refine (collect_of_yields h2).trans (congrArg pure ?_)
  have e2 : ((2 : ℕ) : ℝ) = 2 := by norm_num
  have hs : ¬ (0 ≤ -√2) := by have := Real.sqrt_pos.mpr (two_pos (α := ℝ)); linarith
  have hz : ∀ f : ℕ → Bool → Bool, (((pairs msg).map Prod.fst).mapIdx f).zip ((pairs msg).map Prod.snd)
      = (pairs msg).mapIdx (fun i p => (f i p.1, p.2)) := fun f => by
    apply List.ext_getElem?
    intro i
    rw [List.getElem?_mapIdx, List.zip, List.getElem?_zipWith, List.getElem?_mapIdx, List.getElem?_map, List.getElem?_map]
    cases (pairs msg)[i]? <;> rfl
  rw [hz, duo, List.flatMap_def, List.flatMap_def]
  congr 1
  apply List.ext_getElem?
  intro i
  rw [List.getElem?_map, List.getElem?_map, List.getElem?_mapIdx, List.getElem?_mapIdx, List.getElem?_map, Option.map_map, Option.map_map,
    Option.map_map]
  congr 1
  funext p
  simp only [Function.comp, Flt.le_real, Flt.sqrt_real, Flt.ofNat_real, e2]
  obtain ⟨a, b⟩ := p
  cases a <;> cases b <;> simp [hs]

/-- The noise level of the baseband bit-error tests (tests/ber.rs:99-107): the measured bit error rate of BPSK follows the textbook curve on average, that of
QPSK (next theorem) half of it. -/
theorem C103_curve [RIter ι Bool] {m : ι} {msg : List Bool} (h : Yields m msg) (hne : msg ≠ []) {snr : ℝ} (hs : 0 < snr) {tx : List (Cx ℝ)}
    (htx : collect (txBasebandBpsk (F := ℝ) m) = pure tx)
    (hσ : σ = √((tx.map (fun z => z.re ^ 2 + z.im ^ 2)).sum / msg.length / (2 * snr)))
    (hz : White P 1 z) (hg : ∀ ω, Gives (noise ω) (fun i => z i ω)) :
    ∃ bits : Ω → List Bool, (∀ ω, (do
        let ch ← awgnComplex (txBasebandBpsk (F := ℝ) m) σ (noise ω)
        collect (rxBasebandBpsk (F := ℝ) ch)) = pure (bits ω)) ∧
      ∫ ω, (ber msg (bits ω) : ℝ) ∂P = Erfc (√snr) / 2 := by
  obtain ⟨w, hw, hn⟩ := hz.driven hg σ
  have hP := hw.prob
  have hl : (msg.length : ℝ) ≠ 0 := by simpa using hne
  have h1 := h.rmap (fun bit : Bool => if bit then (⟨1, 0⟩ : Cx ℝ) else ⟨-1, 0⟩)
  have h2 := (collect_of_yields h1).symm.trans htx
  rw [RM.ok_inj] at h2
  have h3 : (tx.map (fun z => z.re ^ 2 + z.im ^ 2)).sum = (msg.length : ℝ) := by
    rw [← h2, List.map_map, List.map_congr_left (g := fun _ => (1 : ℝ)) (by intro b _; cases b <;> simp)]
    simp
  rw [h3, div_self hl] at hσ
  have hσ0 : 0 < σ := by rw [hσ]; positivity
  obtain ⟨bits, b1, b2⟩ := C103_bpsk hz hσ0 hg h
  refine ⟨bits, b1, ?_⟩
  rw [C101_ber b2, Finset.sum_const, Finset.card_range, nsmul_eq_mul, mul_div_cancel_left₀ _ hl, bitError, hσ,
    Real.sq_sqrt (by positivity)]
  congr 3
  field_simp

/-- QPSK with an even number of bits. -/
theorem C103_curve_qpsk [RIter ι Bool] {m : ι} {msg : List Bool} (h : Yields m msg) (hne : msg ≠ []) (heven : 2 ∣ msg.length) {snr : ℝ}
    (hs : 0 < snr) {tx : List (Cx ℝ)} (htx : collect (txBasebandQpsk (F := ℝ) m) = pure tx)
    (hσ : σ = √((tx.map (fun z => z.re ^ 2 + z.im ^ 2)).sum / msg.length / (2 * snr)))
    (hz : White P 1 z) (hg : ∀ ω, Gives (noise ω) (fun i => z i ω)) :
    ∃ bits : Ω → List Bool, (∀ ω, (do
        let ch ← awgnComplex (txBasebandQpsk (F := ℝ) m) σ (noise ω)
        collect (rxBasebandQpsk (F := ℝ) ch)) = pure (bits ω)) ∧
      ∫ ω, (ber msg (bits ω) : ℝ) ∂P = Erfc (√snr) / 2 / 2 := by
  obtain ⟨w, hw, hn⟩ := hz.driven hg σ
  have hP := hw.prob
  have hl : (msg.length : ℝ) ≠ 0 := by simpa using hne
  obtain ⟨r, hr⟩ := heven
  have hr' : msg.length / 2 = r := by omega
  have h1 := h.rtuples.rmap (fun p : Bool × Bool =>
    match p with
    | (true, true) => (⟨Flt.sqrt (Flt.ofNat 2), Flt.sqrt (Flt.ofNat 2)⟩ : Cx ℝ)
    | (true, false) => ⟨Flt.sqrt (Flt.ofNat 2), -(Flt.sqrt (Flt.ofNat 2))⟩
    | (false, true) => ⟨-(Flt.sqrt (Flt.ofNat 2)), Flt.sqrt (Flt.ofNat 2)⟩
    | (false, false) => ⟨-(Flt.sqrt (Flt.ofNat 2)), -(Flt.sqrt (Flt.ofNat 2))⟩)
  have h2 := (collect_of_yields h1).symm.trans htx
  rw [RM.ok_inj] at h2
  have e2 : ((2 : ℕ) : ℝ) = 2 := by norm_num
  have h3 : (tx.map (fun z => z.re ^ 2 + z.im ^ 2)).sum = (4 * r : ℝ) := by
    rw [← h2, List.map_map, List.map_congr_left (g := fun _ => (4 : ℝ)) (by
      rintro ⟨a, b⟩ _
      cases a <;> cases b <;> simp only [Function.comp, Flt.sqrt_real, Flt.ofNat_real, e2, neg_sq, Real.sq_sqrt two_pos.le] <;> norm_num)]
    simp only [List.map_const', List.sum_replicate, pairs_length, hr', nsmul_eq_mul]
    ring
  have hr0 : (r : ℝ) ≠ 0 := by
    intro h0
    rw [hr] at hl
    exact hl (by push_cast; rw [h0, mul_zero])
  have h4 : (tx.map (fun z => z.re ^ 2 + z.im ^ 2)).sum / msg.length / (2 * snr) = 1 / snr := by
    rw [h3, hr]; push_cast; field_simp; norm_num
  rw [h4] at hσ
  have hσ0 : 0 < σ := by rw [hσ]; positivity
  obtain ⟨bits, b1, b2⟩ := C103_qpsk hz hσ0 hg h
  rw [hr', ← hr, List.take_length] at b2
  refine ⟨bits, b1, ?_⟩
  have hsum : ∀ r : ℕ, ∑ n ∈ Finset.range (2 * r), (if n % 2 = 0 then bitError 2 σ else 0) = r * bitError 2 σ := by
    intro r
    induction r with
    | zero => simp
    | succ r ih =>
      rw [Nat.mul_succ, Finset.sum_range_succ, Finset.sum_range_succ, ih, if_pos (by omega), if_neg (by omega)]
      push_cast
      ring
  have hb : bitError 2 σ = Erfc (√snr) / 2 := by
    rw [bitError, hσ, Real.sq_sqrt (by positivity)]
    congr 3
    field_simp
  rw [C101_ber b2, hr, hsum, hb]
  push_cast
  field_simp

/-- The second bit of a symbol is never wrong, the first one is. -/
example : ∃ bits : (ℕ → ℝ) → List Bool, (∀ ω, (do
        let ch ← awgnComplex (txBasebandQpsk (F := ℝ) (ofList [true, false, false, true])) (1 : ℝ) (path ω)
        collect (rxBasebandQpsk (F := ℝ) ch)) = pure (bits ω)) ∧
      (gaussPath 1).real {ω | (bits ω)[0]? ≠ some true} = Erfc 1 / 2 ∧ (gaussPath 1).real {ω | (bits ω)[1]? ≠ some false} = 0 := by
  obtain ⟨bits, b1, b2⟩ := C103_qpsk (white_path 1) one_pos path_gives (yields_ofList [true, false, false, true])
  have hP := (white_path 1).prob
  refine ⟨bits, b1, ?_, ?_⟩
  · have := C101_bit b2 (n := 0) (by norm_num)
    simp only [bitError] at this
    norm_num at this
    simpa using this
  · have := C101_bit b2 (n := 1) (by norm_num)
    norm_num at this
    simpa using this

example : ∃ bits : (ℕ → ℝ) → List Bool, (∀ ω, (do
        let ch ← awgnComplex (txBasebandBpsk (F := ℝ) (ofList [true, false])) (1 : ℝ) (path ω)
        collect (rxBasebandBpsk (F := ℝ) ch)) = pure (bits ω)) ∧ Flips (gaussPath 1) [true, false] bits (fun _ => bitError 1 1) :=
  C103_bpsk (white_path 1) one_pos path_gives (yields_ofList _)

end Verif.Props
