import Verif.Model.KomPyBer
import Verif.Props.GaussFloor
import Verif.Props.OfdmAny
import Verif.Props.KomPyMisc
import Verif.Lemmas.KomPySsca

/-!
# Property C115: the measurement script of the Python package

Exact arithmetic, except where another number system is named.  Point number `i` of the sweep has its own source of white Gaussian
noise `z i`.
-/
namespace Verif.Props
open Verif Spec MeasureTheory ProbabilityTheory
set_option linter.unusedSectionVars false
variable {ν : Type} {Ω : Type} [MeasurableSpace Ω] {P : Measure Ω} {z : ℕ → ℕ → Ω → ℝ} [RIter ν ℝ] {noise : ℕ → Ω → ν}

omit [RIter ν ℝ] in
/-- A sweep whose points all return. -/
theorem sweep_returns {F : Type} [Add F] [Sub F] [Mul F] [Div F] [Neg F] [Zero F] [One F] [Flt F] [RIter ν F] {fs sym : ℕ} {data : List Bool}
    (hne : data ≠ []) {tx : List F} {rx : List F → RM (List Bool)} {snrs : List F} {std : ℕ → ν} {r : ℕ → F}
    (h : ∀ i (hi : i < snrs.length), KomPy.getBer data tx rx
      (KomPy.berSigma fs sym (rsum (tx.map (fun s => s * s)) / Flt.ofNat data.length) snrs[i]) (std i) = pure (.ok (r i))) :
    KomPy.calcBer fs sym data tx rx snrs std = pure (.ok ((List.range snrs.length).map r)) := by
  unfold KomPy.calcBer
  rw [if_neg (by simpa using hne)]
  simp only []
  rw [mapM_ok (g := fun p : ℕ × F => (.ok (r p.1) : KomPy.Py F))]
  · rw [pure_bind, map_mapIdx']
    congr 1
    rw [py_mapM_ok (g := fun x : KomPy.Py F => match x with | .ok a => a | .error _ => 0)]
    · congr 1
      apply List.ext_getElem <;> simp
    · intro a ha
      obtain ⟨i, hi, rfl⟩ := List.mem_mapIdx.mp ha
      rfl
  · intro a ha
    obtain ⟨i, hi, rfl⟩ := List.mem_mapIdx.mp ha
    simp only [List.length_map] at hi
    simp only [List.getElem_map]
    exact h i hi

/-- The noise level of the script is the one of the crate's bit-error tests at the signal-to-noise ratio `snr·sym²/fs`. -/
private theorem sigma_eq {fs sym : ℕ} (hfs : 0 < fs) (hsym : 0 < sym) {eb snr : ℝ} (hs : 0 < snr) :
    KomPy.berSigma fs sym eb snr = √(2 * eb / (snr * sym ^ 2 / fs)) / 2 := by
  have h1 : (0 : ℝ) < fs := by exact_mod_cast hfs
  have h2 : (0 : ℝ) < sym := by exact_mod_cast hsym
  have hf : ∀ x : ℝ, KomPy.npNanToNum x = x := fun x => by
    unfold KomPy.npNanToNum
    have : Flt.isFinite x = true := rfl
    rw [if_pos this]
  unfold KomPy.berSigma
  rw [hf, Flt.sqrt_real, Flt.ofNat_real, Flt.ofNat_real, Flt.ofNat_real]
  have e : 2 * eb / (snr * sym ^ 2 / fs) = (2 / sym) ^ 2 * (fs * eb / (2 * snr)) := by field_simp
  rw [e, Real.sqrt_mul (by positivity), Real.sqrt_sq (by positivity)]
  push_cast
  ring

private theorem energy_eq (tx : List ℝ) (n : ℕ) : rsum (tx.map (fun s => s * s)) / Flt.ofNat n = (tx.map (· ^ 2)).sum / n := by
  rw [rsum_eq_sum, Flt.ofNat_real]
  simp only [sq]

/-- One BPSK point. -/
private theorem bpsk_point {data : List Bool} {fs sym : ℕ} {fc : ℝ} (hdvd : sym ∣ fs) (hfs : fs < 2 ^ 64) (hsps : 0 < fs / sym)
    (hfc : ⌊fc⌋₊ ≤ fs / 2) {tx : List ℝ} (htx : pyTxBpsk data fs sym fc = pure tx) {σ : ℝ} {std : ν} {w : ℕ → ℝ} (hw : Gives std w) :
    (do let s ← txBpsk (ofList data) fs sym fc
        let ch ← awgn s σ std
        let rx ← rxBpsk ch fs sym fc
        collect rx) = (do let noisy ← awgnPy tx σ std; KomPy.bpskRx fs sym fc noisy) := by
  obtain ⟨it, h1, h2⟩ := txBpsk_ok (yields_ofList data) (fc := fc) hsps (by rw [Flt.toNat_real]; omega)
    ((isInt_real hfs (pos_of_sps hsps)).mpr hdvd)
  unfold pyTxBpsk at htx
  rw [h1, pure_bind, collect_of_yields h2, RM.ok_inj] at htx
  have hs : Flt.isFinite σ = true := rfl
  obtain ⟨ch, c1, c2⟩ := awgn_driven (h2.of_eq htx) (Drives.of_gives hw σ)
  obtain ⟨rx, r1, r2⟩ := rxBpsk_sym c2 (fc := fc) hsps
  obtain ⟨rx', r1', r2'⟩ := rxBpsk_sym (yields_ofList (tx.mapIdx (fun i x => x + σ * w i))) (fc := fc) hsps
  rw [h1, pure_bind, c1, pure_bind, r1, pure_bind, collect_of_yields r2, C56_awgn_py tx hw σ hs, pure_bind]
  simp only [zero_add]
  unfold KomPy.bpskRx pyRxBpsk
  rw [r1', pure_bind, collect_of_yields r2']

/-- The BPSK curve of the script, any carrier, two or more samples per symbol, any data: point `i` returns, and its mean is never
below the textbook value at the ratio `snr·symbol_rate²/sample_rate`, below one half, and equal to the textbook value exactly if
all symbols have the same energy. -/
theorem C115_bpsk {data : List Bool} (hne : data ≠ []) {fs sym : ℕ} {fc : ℝ} (hfs : fs < 2 ^ 64) (hdvd : sym ∣ fs)
    (hsps : 2 ≤ fs / sym) (hfc : ⌊fc⌋₊ ≤ fs / 2) {tx : List ℝ} (htx : pyTxBpsk data fs sym fc = pure tx) {snrs : List ℝ}
    (hs : ∀ s ∈ snrs, 0 < s) (hz : ∀ i, White P 1 (z i)) (hg : ∀ i ω, Gives (noise i ω) (fun j => z i j ω)) :
    ∃ rates : Ω → List ℝ,
      (∀ ω, KomPy.calcBer fs sym data tx (KomPy.bpskRx fs sym fc) snrs (fun i => noise i ω) = pure (.ok (rates ω))) ∧
      (∀ ω, (rates ω).length = snrs.length) ∧
      ∀ i (hi : i < snrs.length),
        Erfc (√(snrs[i] * (sym : ℝ) ^ 2 / fs)) / 2 ≤ ∫ ω, (rates ω).getD i 0 ∂P ∧ ∫ ω, (rates ω).getD i 0 ∂P < 1 / 2 ∧
        (∫ ω, (rates ω).getD i 0 ∂P = Erfc (√(snrs[i] * (sym : ℝ) ^ 2 / fs)) / 2 ↔
          ∀ n < data.length, (((symbol (fs / sym) n tx).map (· ^ 2)).sum : ℝ) = (tx.map (· ^ 2)).sum / data.length) := by
  have hsym : 0 < sym := pos_of_sps (fs := fs) (by omega)
  have hfs0 : 0 < fs := Nat.pos_of_ne_zero (by rintro rfl; simp at hsps)
  have h1 : (0 : ℝ) < fs := by exact_mod_cast hfs0
  have h2 : (0 : ℝ) < sym := by exact_mod_cast hsym
  set eb : ℝ := (tx.map (· ^ 2)).sum / data.length with heb
  have key : ∀ i (hi : i < snrs.length), _ := fun i hi =>
    C113_bpsk (σ := KomPy.berSigma fs sym eb snrs[i]) (yields_ofList data) hne hfs hdvd hsps hfc (tx := tx) htx
      (snr := snrs[i] * (sym : ℝ) ^ 2 / fs) (by have := hs _ (List.getElem_mem hi); positivity) heb
      (sigma_eq hfs0 hsym (hs _ (List.getElem_mem hi))) (hz i) (hg i)
  choose bits hb hbf hb2 hb3 hb4 using key
  classical
  refine ⟨fun ω => (List.range snrs.length).map (fun i => if hi : i < snrs.length then (ber data (bits i hi ω) : ℝ) else 0), ?_,
    by simp, ?_⟩
  · intro ω
    apply sweep_returns hne
    intro i hi
    have e := hb i hi ω
    rw [bpsk_point hdvd hfs (by omega) hfc htx (hg i ω)] at e
    unfold KomPy.getBer
    rw [energy_eq, ← heb, ← bind_assoc, e, pure_bind, dif_pos hi, C99_ber, if_neg]
    rintro (h | h)
    · exact hne h
    · have := (hbf i hi).length ω
      rw [h] at this
      exact hne (List.length_eq_zero_iff.mp this.symm)
  · intro i hi
    simp only [List.getD_eq_getElem?_getD, List.getElem?_map, List.getElem?_range hi, Option.map_some, Option.getD_some, dif_pos hi]
    exact ⟨hb2 i hi, hb3 i hi, hb4 i hi⟩

/-- A carrier with a whole number of half periods per symbol is on the curve. -/
theorem C115_curve {data : List Bool} (hne : data ≠ []) {fs sym : ℕ} {fc : ℝ} (hfs : fs < 2 ^ 64) (hdvd : sym ∣ fs)
    (hsps : 2 ≤ fs / sym) (hfc : ⌊fc⌋₊ ≤ fs / 2) (hwh : WholeHalf fs (fs / sym) fc) {tx : List ℝ}
    (htx : pyTxBpsk data fs sym fc = pure tx) {snrs : List ℝ}
    (hs : ∀ s ∈ snrs, 0 < s) (hz : ∀ i, White P 1 (z i)) (hg : ∀ i ω, Gives (noise i ω) (fun j => z i j ω)) :
    ∃ rates : Ω → List ℝ,
      (∀ ω, KomPy.calcBer fs sym data tx (KomPy.bpskRx fs sym fc) snrs (fun i => noise i ω) = pure (.ok (rates ω))) ∧
      (∀ ω, (rates ω).length = snrs.length) ∧
      ∀ i (hi : i < snrs.length), ∫ ω, (rates ω).getD i 0 ∂P = Erfc (√(snrs[i] * (sym : ℝ) ^ 2 / fs)) / 2 := by
  obtain ⟨rates, r1, r2, r3⟩ := C115_bpsk hne hfs hdvd hsps hfc htx hs hz hg
  refine ⟨rates, r1, r2, fun i hi => (r3 i hi).2.2.mpr fun n hn => ?_⟩
  have hE := C78_bpsk (yields_ofList data) (by omega) hwh htx
  have hl : (data.length : ℝ) ≠ 0 := by simpa using hne
  rw [hE.each (by omega) n hn, hE.total (by omega), mul_div_cancel_left₀ _ hl]

/-- The script: at 65536 samples and 256 symbols per second the ratio is the ratio asked for, and with either of the two carriers of
the script the measured curve lies, on the mean, strictly above the textbook curve at every point. -/
theorem C115_script {data : List Bool} (hlen : 2 ≤ data.length) {fc : ℝ} (hfc : fc = 2121 ∨ fc = 4000) {tx : List ℝ}
    (htx : pyTxBpsk data 65536 256 fc = pure tx) {snrs : List ℝ}
    (hs : ∀ s ∈ snrs, 0 < s) (hz : ∀ i, White P 1 (z i)) (hg : ∀ i ω, Gives (noise i ω) (fun j => z i j ω)) :
    ∃ rates : Ω → List ℝ,
      (∀ ω, KomPy.calcBer 65536 256 data tx (KomPy.bpskRx 65536 256 fc) snrs (fun i => noise i ω) = pure (.ok (rates ω))) ∧
      (∀ ω, (rates ω).length = snrs.length) ∧
      ∀ i (hi : i < snrs.length), Erfc (√snrs[i]) / 2 < ∫ ω, (rates ω).getD i 0 ∂P := by
  have hne : data ≠ [] := by rintro rfl; simp at hlen
  have hfc' : ⌊fc⌋₊ ≤ 65536 / 2 := by rcases hfc with rfl | rfl <;> norm_num
  obtain ⟨rates, r1, r2, r3⟩ := C115_bpsk hne (by norm_num) (by norm_num) (by norm_num) hfc' htx hs hz hg
  refine ⟨rates, r1, r2, fun i hi => ?_⟩
  obtain ⟨a, -, c⟩ := r3 i hi
  have e : snrs[i] * ((256 : ℕ) : ℝ) ^ 2 / (65536 : ℕ) = snrs[i] := by norm_num
  rw [e] at a c
  refine lt_of_le_of_ne a fun h => ?_
  have hi1 : ∀ p : ℤ, 2 * (65536 / 256 : ℕ) * fc ≠ p * (65536 : ℕ) := by
    intro p hp
    rcases hfc with rfl | rfl <;> norm_num at hp
    · have : (1085952 : ℤ) = p * 65536 := by exact_mod_cast hp
      omega
    · have : (2048000 : ℤ) = p * 65536 := by exact_mod_cast hp
      omega
  have hi2 : ∀ p : ℤ, 2 * (2 * (65536 / 256 : ℕ) - 1) * fc ≠ p * (65536 : ℕ) := by
    intro p hp
    rcases hfc with rfl | rfl <;> norm_num at hp
    · have : (2167662 : ℤ) = p * 65536 := by exact_mod_cast hp
      omega
    · have : (4088000 : ℤ) = p * 65536 := by exact_mod_cast hp
      omega
  exact C113_unequal (yields_ofList data) hlen (by norm_num) (by norm_num) htx hi1 hi2 _ (c.mp h.symm)

/-! ### QPSK -/

private theorem ber_take {a b : List Bool} (h : b.length ≤ a.length) : (ber a b : ℝ) = ber (a.take b.length) b := by
  rw [C16_value, C16_value, List.length_take, Nat.min_eq_left h, Nat.min_eq_right h, Nat.min_self]
  congr 2
  unfold diffCount
  rw [List.zip_eq_zip_take_min, Nat.min_eq_right h, List.take_length]

/-- The QPSK curve of the script, a carrier with a whole number of half periods per symbol: the textbook value at
`snr·symbol_rate²/sample_rate`, with an odd number `N` of bits scaled by `N/(N-1)`, since the energy is divided by all bits but the
last one is not sent. -/
theorem C115_qpsk {data : List Bool} (hlen : 2 ≤ data.length) {fs sym : ℕ} {fc : ℝ} (hsps : 0 < fs / sym)
    (hwh : WholeHalf fs (fs / sym) fc) {tx : List ℝ} (htx : pyTxQpsk data fs sym fc = pure tx) {snrs : List ℝ}
    (hs : ∀ s ∈ snrs, 0 < s) (hz : ∀ i, White P 1 (z i)) (hg : ∀ i ω, Gives (noise i ω) (fun j => z i j ω)) :
    ∃ rates : Ω → List ℝ,
      (∀ ω, KomPy.calcBer fs sym data tx (KomPy.qpskRx fs sym fc) snrs (fun i => noise i ω) = pure (.ok (rates ω))) ∧
      (∀ ω, (rates ω).length = snrs.length) ∧
      ∀ i (hi : i < snrs.length), ∫ ω, (rates ω).getD i 0 ∂P
        = Erfc (√(snrs[i] * (sym : ℝ) ^ 2 / fs * (data.length / (2 * (data.length / 2) : ℕ)))) / 2 := by
  have hsym : 0 < sym := pos_of_sps (fs := fs) (by omega)
  have hfs0 : 0 < fs := Nat.pos_of_ne_zero (by rintro rfl; simp at hsps)
  have hne : data ≠ [] := by rintro rfl; simp at hlen
  have hP := (hz 0).prob
  have hk0 : (0 : ℝ) < (fs / sym : ℕ) := by exact_mod_cast hsps
  have h1 : (0 : ℝ) < fs := by exact_mod_cast hfs0
  have h2 : (0 : ℝ) < sym := by exact_mod_cast hsym
  have h3 : (0 : ℝ) < data.length := by exact_mod_cast (by omega : 0 < data.length)
  have h4 : (0 : ℝ) < (data.length / 2 : ℕ) := by exact_mod_cast (by omega : 0 < data.length / 2)
  have hE := C78_qpsk (yields_ofList data) hsps hwh htx
  set eb : ℝ := (tx.map (· ^ 2)).sum / data.length with heb
  have heb' : eb = (data.length / 2 : ℕ) * (fs / sym : ℕ) / data.length := by rw [heb, hE.total hsps]
  have hσ : ∀ i (hi : i < snrs.length), 0 < KomPy.berSigma fs sym eb snrs[i] := by
    intro i hi
    have := hs _ (List.getElem_mem hi)
    rw [sigma_eq hfs0 hsym this, heb']
    positivity
  have key : ∀ i (hi : i < snrs.length), _ := fun i hi =>
    C102_qpsk (σ := KomPy.berSigma fs sym eb snrs[i]) (hz i) (hσ i hi) (hg i) (yields_ofList data) hsps hwh
  choose bits hb hbf using key
  have htl : (data.take (2 * (data.length / 2))).length = 2 * (data.length / 2) := by
    rw [List.length_take, Nat.min_eq_left (by omega)]
  have hlb : ∀ i (hi : i < snrs.length) ω, (bits i hi ω).length = 2 * (data.length / 2) := fun i hi ω => by
    rw [(hbf i hi).length ω, htl]
  classical
  refine ⟨fun ω => (List.range snrs.length).map (fun i => if hi : i < snrs.length then (ber data (bits i hi ω) : ℝ) else 0), ?_,
    by simp, ?_⟩
  · intro ω
    apply sweep_returns hne
    intro i hi
    have e := hb i hi ω
    obtain ⟨it, e1, e2⟩ := txQpsk_ok (yields_ofList data) (fc := fc) hsps
    have htx' := htx
    unfold pyTxQpsk at htx'
    rw [e1, pure_bind, collect_of_yields e2, RM.ok_inj] at htx'
    obtain ⟨ch, c1, c2⟩ := awgn_driven (e2.of_eq htx') (Drives.of_gives (hg i ω) (KomPy.berSigma fs sym eb snrs[i]))
    obtain ⟨rx, r1, r2⟩ := rxQpsk_sym c2 (fc := fc) hsps
    obtain ⟨rx', r1', r2'⟩ := rxQpsk_sym (yields_ofList (tx.mapIdx (fun j x => x + KomPy.berSigma fs sym eb snrs[i] * z i j ω)))
      (fc := fc) hsps
    rw [e1, pure_bind, c1, pure_bind, r1, pure_bind, collect_of_yields r2, RM.ok_inj] at e
    have hfin : Flt.isFinite (KomPy.berSigma fs sym eb snrs[i]) = true := rfl
    unfold KomPy.getBer
    rw [energy_eq, ← heb, C56_awgn_py tx (hg i ω) _ hfin, pure_bind]
    simp only [zero_add]
    unfold KomPy.qpskRx pyRxQpsk
    rw [r1', pure_bind, collect_of_yields r2', pure_bind, e, dif_pos hi, C99_ber, if_neg]
    rintro (h | h)
    · exact hne h
    · have := hlb i hi ω
      rw [h, List.length_nil] at this
      omega
  · intro i hi
    have hsi := hs _ (List.getElem_mem hi)
    simp only [List.getD_eq_getElem?_getD, List.getElem?_map, List.getElem?_range hi, Option.map_some, Option.getD_some, dif_pos hi]
    have e : ∀ ω, (ber data (bits i hi ω) : ℝ) = ber (data.take (2 * (data.length / 2))) (bits i hi ω) := fun ω => by
      rw [ber_take (by rw [hlb i hi ω]; omega), hlb i hi ω]
    simp only [e]
    rw [C101_ber (hbf i hi), Finset.sum_const, Finset.card_range, nsmul_eq_mul, htl,
      mul_div_cancel_left₀ _ (by push_cast; positivity)]
    unfold bitError
    congr 3
    rw [sigma_eq hfs0 hsym hsi, div_pow, Real.sq_sqrt (by rw [heb']; positivity), heb']
    push_cast
    field_simp

/-! ### OFDM -/

section anyF
variable {F : Type} [Add F] [Sub F] [Mul F] [Div F] [Neg F] [Zero F] [One F] [Flt F] [Fft F] {μ : Type} [RIter μ F]

/-- The OFDM point of the script does not hear the channel: whatever the recording, the noise level and the noise, the result is the
same, in every number system. -/
theorem C115_ofdm_deaf (data : List Bool) (tx tx' : List F) (fs sym : ℕ) (fc n0 n0' : F) {std std' : μ} {w w' : ℕ → F}
    (hw : Gives std w) (hw' : Gives std' w') (h0 : Flt.isFinite n0 = true) (h0' : Flt.isFinite n0' = true) :
    KomPy.getBer data tx (KomPy.ofdmRx data fs sym fc) n0 std = KomPy.getBer data tx' (KomPy.ofdmRx data fs sym fc) n0' std' := by
  unfold KomPy.getBer
  rw [C56_awgn_py tx hw n0 h0, C56_awgn_py tx' hw' n0' h0', pure_bind, pure_bind]
  rfl

/-- With the 9001 bits of the script it does not return at all. -/
theorem C115_ofdm_panics {data : List Bool} (hl : data.length = 9001) (tx : List F) {fc : F}
    (hint : isInt (Flt.ofNat 65536 / Flt.ofNat 256 : F) = true) {snrs : List F} (hne : snrs ≠ []) {std : ℕ → μ} {w : ℕ → F}
    (hw : Gives (std 0) w) :
    (KomPy.calcBer 65536 256 data tx (KomPy.ofdmRx data 65536 256 fc) snrs std).Panics := by
  obtain ⟨s, snrs, rfl⟩ := List.exists_cons_of_ne_nil hne
  unfold KomPy.calcBer
  rw [if_neg (by omega)]
  simp only [List.map_cons, List.mapIdx_cons]
  have h1 : ∀ n0 : F, (KomPy.getBer data tx (KomPy.ofdmRx data 65536 256 fc) n0 (std 0)).Panics := by
    intro n0
    unfold KomPy.getBer
    by_cases h0 : Flt.isFinite n0 = true
    · rw [C56_awgn_py tx hw n0 h0, pure_bind]
      obtain ⟨q, hq⟩ := (C114_py (data.map (fun b => if b then (1 : F) else 0)) (n := 16) (p := 12) (fs := 65536) (sym := 256) (fc := fc)
        (by norm_num) (by norm_num) (by norm_num) hint).mpr (by rw [List.length_map, hl]; norm_num)
      unfold KomPy.ofdmRx
      rw [hq]
      exact ⟨q, rfl⟩
    · unfold awgnPy normalIter
      rw [if_neg h0]
      exact ⟨_, rfl⟩
  obtain ⟨q, hq⟩ := mapM_panics (l := []) (f := fun p : ℕ × F => KomPy.getBer data tx (KomPy.ofdmRx data 65536 256 fc) p.2 (std p.1))
    (l' := _) (a := (0, KomPy.berSigma 65536 256 (rsum (tx.map (fun s => s * s)) / Flt.ofNat data.length) s)) (by simp) (h1 _)
  rw [List.nil_append] at hq
  rw [hq]
  exact ⟨q, rfl⟩

end anyF

/-- No data: an exception, before any noise is drawn. -/
theorem C115_empty {F : Type} [Add F] [Sub F] [Mul F] [Div F] [Neg F] [Zero F] [One F] [Flt F] [RIter ν F] (fs sym : ℕ) (tx : List F)
    (rx : List F → RM (List Bool)) (snrs : List F) (std : ℕ → ν) :
    KomPy.calcBer fs sym [] tx rx snrs std = pure (.error .zeroDivision) := rfl

/-! ### Concrete cases -/

private theorem snrs14 : ∀ s ∈ ([1, 4] : List ℝ), 0 < s := by
  intro s hs
  simp only [List.mem_cons, List.not_mem_nil, or_false] at hs
  rcases hs with rfl | rfl <;> norm_num

/-- Two points at 16 samples per symbol: the ratio 4 comes out as `4·1000²/16000 = 250`. -/
example : ∃ (tx : List ℝ) (rates : (ℕ → ℝ) → List ℝ), pyTxBpsk [true, false, true] 16000 1000 (2000 : ℝ) = pure tx ∧
      (∀ ω, KomPy.calcBer 16000 1000 [true, false, true] tx (KomPy.bpskRx 16000 1000 2000) [1, 4] (fun _ => path ω) = pure (.ok (rates ω))) ∧
      ∫ ω, (rates ω).getD 1 0 ∂(gaussPath 1) = Erfc (√250) / 2 := by
  obtain ⟨a, ha, -⟩ := Cases.bpsk [true, false, true]
  obtain ⟨rates, r1, -, r3⟩ := C115_curve (data := [true, false, true]) (by simp) (fs := 16000) (sym := 1000) (fc := 2000) (by norm_num)
    (by norm_num) (by norm_num) (by norm_num) (WholeHalf.of_nat (f := 2000) (p := 4) (by norm_num) (by norm_num)) ha (snrs := [1, 4])
    snrs14 (fun _ => white_path 1) (fun _ => path_gives)
  refine ⟨a, rates, ha, r1, ?_⟩
  rw [r3 1 (by simp)]
  norm_num

example : ∃ (tx : List ℝ) (rates : (ℕ → ℝ) → List ℝ), pyTxBpsk [true, false, true] 16000 1000 (2000 : ℝ) = pure tx ∧
      (∀ ω, KomPy.calcBer 16000 1000 [true, false, true] tx (KomPy.bpskRx 16000 1000 2000) [1, 4] (fun _ => path ω) = pure (.ok (rates ω))) ∧
      ∫ ω, (rates ω).getD 1 0 ∂(gaussPath 1) < 1 / 2 := by
  obtain ⟨a, ha, -⟩ := Cases.bpsk [true, false, true]
  obtain ⟨rates, r1, -, r3⟩ := C115_bpsk (data := [true, false, true]) (by simp) (fs := 16000) (sym := 1000) (fc := 2000) (by norm_num)
    (by norm_num) (by norm_num) (by norm_num) ha (snrs := [1, 4]) snrs14 (fun _ => white_path 1) (fun _ => path_gives)
  exact ⟨a, rates, ha, r1, (r3 1 (by simp)).2.1⟩

/-- The script's parameters. -/
example (data : List Bool) (hl : data.length = 9001) : ∃ (tx : List ℝ) (rates : (ℕ → ℝ) → List ℝ), pyTxBpsk data 65536 256 (2121 : ℝ) = pure tx ∧
      (∀ ω, KomPy.calcBer 65536 256 data tx (KomPy.bpskRx 65536 256 2121) [1, 4] (fun _ => path ω) = pure (.ok (rates ω))) ∧
      Erfc (√4) / 2 < ∫ ω, (rates ω).getD 1 0 ∂(gaussPath 1) := by
  obtain ⟨it, e1, e2⟩ := txBpsk_ok (yields_ofList data) (fs := 65536) (sym := 256) (fc := (2121 : ℝ)) (by norm_num)
    (by rw [Flt.toNat_real]; norm_num) ((isInt_real (by norm_num) (by norm_num)).mpr (by norm_num))
  obtain ⟨a, ha⟩ : ∃ a, pyTxBpsk data 65536 256 (2121 : ℝ) = pure a :=
    ⟨_, by unfold pyTxBpsk; rw [e1, pure_bind, collect_of_yields e2]⟩
  obtain ⟨rates, r1, -, r3⟩ := C115_script (data := data) (by omega) (Or.inl rfl) ha (snrs := [1, 4]) snrs14
    (fun _ => white_path 1) (fun _ => path_gives)
  exact ⟨a, rates, ha, r1, r3 1 (by simp)⟩

/-- Five bits on QPSK: the ratio is scaled by 5/4. -/
example : ∃ (tx : List ℝ) (rates : (ℕ → ℝ) → List ℝ), pyTxQpsk [true, false, true, true, false] 16000 1000 (2000 : ℝ) = pure tx ∧
      (∀ ω, KomPy.calcBer 16000 1000 [true, false, true, true, false] tx (KomPy.qpskRx 16000 1000 2000) [1, 4] (fun _ => path ω)
        = pure (.ok (rates ω))) ∧
      ∫ ω, (rates ω).getD 0 0 ∂(gaussPath 1) = Erfc (√(62.5 * (5 / 4))) / 2 := by
  obtain ⟨a, ha, -⟩ := Cases.qpsk [true, false, true, true, false]
  obtain ⟨rates, r1, -, r3⟩ := C115_qpsk (data := [true, false, true, true, false]) (by simp) (fs := 16000) (sym := 1000) (fc := 2000)
    (by norm_num) (WholeHalf.of_nat (f := 2000) (p := 4) (by norm_num) (by norm_num)) ha (snrs := [1, 4])
    snrs14 (fun _ => white_path 1) (fun _ => path_gives)
  refine ⟨a, rates, ha, r1, ?_⟩
  rw [r3 0 (by simp)]
  norm_num

/-- A silent and a noisy channel. -/
example [Fft ℝ] (data : List Bool) (ω : ℕ → ℝ) :
    KomPy.getBer data [1, 2] (KomPy.ofdmRx data 65536 256 2121) (0 : ℝ) (path ω)
      = KomPy.getBer data [1, 2] (KomPy.ofdmRx data 65536 256 2121) (1000 : ℝ) (path ω) :=
  C115_ofdm_deaf data _ _ _ _ _ _ _ (path_gives ω) (path_gives ω) rfl rfl

/-- In IEEE arithmetic. -/
example [Fft Float] (data : List Bool) (hl : data.length = 9001) (tx : List Float) :
    (KomPy.calcBer 65536 256 data tx (KomPy.ofdmRx data 65536 256 2121) [1] (fun _ => Repeat.mk (1 : Float))).Panics :=
  C115_ofdm_panics hl tx (by decide +kernel) (by simp) (gives_repeat 1)

example : KomPy.calcBer 16000 1000 [] [1, 2] (KomPy.bpskRx 16000 1000 2000) [(1 : ℝ)] (fun _ => path (fun _ => 0)) = pure (.error .zeroDivision) :=
  C115_empty _ _ _ _ _ _

end Verif.Props
