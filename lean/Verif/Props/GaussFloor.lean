import Verif.Lemmas.ErfcConvex
import Verif.Props.Gauss

/-!
# Property C113: the textbook curve is a floor

Exact arithmetic.  The noise level is computed from the recording the way the bit-error tests compute it, and the carrier is any
carrier the transmitter accepts, so that the symbols of the recording may differ in energy.
-/
namespace Verif.Props
open Verif Spec MeasureTheory ProbabilityTheory
set_option linter.unusedSectionVars false
variable {ι ν ρ : Type} {Ω : Type} [MeasurableSpace Ω] {P : Measure Ω} {σ : ℝ} {z w : ℕ → Ω → ℝ} [RIter ν ℝ] {noise : Ω → ν}

/-- From the error probabilities of the bits to the mean of the measured rate. -/
private theorem floor_of_flips {msg : List Bool} (hne : msg ≠ []) {tx : List ℝ} {k : ℕ} (hlen : tx.length = msg.length * k)
    (hE : ∀ n < msg.length, 0 < ((symbol k n tx).map (· ^ 2)).sum) {snr eb : ℝ} (hs : 0 < snr)
    (heb : eb = (tx.map (· ^ 2)).sum / msg.length) (hσ : σ = √(2 * eb / snr) / 2) [IsProbabilityMeasure P] :
    0 < σ ∧ ∀ {bits : Ω → List Bool}, Flips P msg bits (fun n => bitError ((symbol k n tx).map (· ^ 2)).sum σ) →
      Erfc (√snr) / 2 ≤ ∫ ω, (ber msg (bits ω) : ℝ) ∂P ∧ ∫ ω, (ber msg (bits ω) : ℝ) ∂P < 1 / 2 ∧
      (∫ ω, (ber msg (bits ω) : ℝ) ∂P = Erfc (√snr) / 2 ↔ ∀ n < msg.length, ((symbol k n tx).map (· ^ 2)).sum = eb) := by
  have hl : 0 < msg.length := List.length_pos_iff.mpr hne
  have hlr : (0 : ℝ) < msg.length := by exact_mod_cast hl
  have heb' := heb
  rw [← symbols_total k msg.length tx hlen] at heb'
  have hpos : 0 < eb := by
    rw [heb']
    exact div_pos (Finset.sum_pos (fun n hn => hE n (Finset.mem_range.mp hn)) (Finset.nonempty_range_iff.mpr hl.ne')) hlr
  have hσ0 : 0 < σ := by rw [hσ]; positivity
  refine ⟨hσ0, fun {bits} hb => ?_⟩
  rw [C101_ber hb]
  exact floor_core hne hσ0 hE heb' (by rw [hσ, bitError_calibrated hpos hs])

/-- BPSK with any carrier, at two or more samples per symbol: every bit is flipped independently with the probability that belongs to the
energy of its symbol, and the mean of the measured bit error rate is never below the textbook
curve, always below one half, and on the curve exactly if all symbols have the same energy. -/
theorem C113_bpsk [RIter ι Bool] {m : ι} {msg : List Bool} (h : Yields m msg) (hne : msg ≠ []) {fs sym : ℕ} {fc : ℝ}
    (hfs : fs < 2 ^ 64) (hdvd : sym ∣ fs) (hsps : 2 ≤ fs / sym) (hfc : ⌊fc⌋₊ ≤ fs / 2) {tx : List ℝ}
    (htx : (do let it ← txBpsk m fs sym fc; collect it) = pure tx) {snr eb : ℝ} (hs : 0 < snr)
    (heb : eb = (tx.map (· ^ 2)).sum / msg.length) (hσ : σ = √(2 * eb / snr) / 2) (hz : White P 1 z)
    (hg : ∀ ω, Gives (noise ω) (fun i => z i ω)) :
    ∃ bits : Ω → List Bool, (∀ ω, (do
        let s ← txBpsk m fs sym fc
        let ch ← awgn s σ (noise ω)
        let rx ← rxBpsk ch fs sym fc
        collect rx) = pure (bits ω)) ∧
      Flips P msg bits (fun n => bitError ((symbol (fs / sym) n tx).map (· ^ 2)).sum σ) ∧
      Erfc (√snr) / 2 ≤ ∫ ω, (ber msg (bits ω) : ℝ) ∂P ∧ ∫ ω, (ber msg (bits ω) : ℝ) ∂P < 1 / 2 ∧
      (∫ ω, (ber msg (bits ω) : ℝ) ∂P = Erfc (√snr) / 2 ↔
        ∀ n < msg.length, ((symbol (fs / sym) n tx).map (· ^ 2)).sum = eb) := by
  have hP := hz.prob
  have htx' := txBpsk_collected h (by omega) htx
  have hE : ∀ n < msg.length, 0 < ((symbol (fs / sym) n tx).map (· ^ 2)).sum := by
    intro n hn
    rw [htx', wave_symbol_energy (by omega) _ _ hn]
    refine lt_of_lt_of_eq (sum_cos_sq_pos hsps (n * (fs / sym)) (dphi fs fc)) (Finset.sum_congr rfl fun j _ => ?_)
    rw [mul_pow, phase_real, Flt.cos_real, pow_two (bitToNrz msg[n]), bitToNrz_sq, one_mul]
  obtain ⟨h1, h2⟩ := floor_of_flips (P := P) hne (by rw [htx', wave_length]) hE hs heb hσ
  obtain ⟨bits, b1, b2⟩ := C101_bpsk hz h1 hg h hfs hdvd (by omega) hfc htx hE
  exact ⟨bits, b1, b2, h2 b2⟩

/-- CDMA over BPSK: the same. -/
theorem C113_cdma [RIter ι Bool] {m : ι} {msg : List Bool} (h : Yields m msg) (hne : msg ≠ []) {fs sym : ℕ} {fc : ℝ}
    {key : List Bool} (hfs : fs < 2 ^ 64) (hsym : 0 < sym) (hkey : key ≠ []) (hdvd : sym * key.length ∣ fs)
    (hnyq : 2 * (sym * key.length) ≤ fs) (hfc : ⌊fc⌋₊ ≤ fs / 2) {tx : List ℝ}
    (htx : (do let it ← txCdmaBpsk m fs sym fc key; collect it) = pure tx) {snr eb : ℝ} (hs : 0 < snr)
    (heb : eb = (tx.map (· ^ 2)).sum / msg.length) (hσ : σ = √(2 * eb / snr) / 2) (hz : White P 1 z)
    (hg : ∀ ω, Gives (noise ω) (fun i => z i ω)) :
    ∃ bits : Ω → List Bool, (∀ ω, (do
        let s ← txCdmaBpsk m fs sym fc key
        let ch ← awgn s σ (noise ω)
        let rx ← rxCdmaBpsk ch fs sym fc key
        collect rx) = pure (bits ω)) ∧
      Flips P msg bits (fun n => bitError ((symbol (fs / sym) n tx).map (· ^ 2)).sum σ) ∧
      Erfc (√snr) / 2 ≤ ∫ ω, (ber msg (bits ω) : ℝ) ∂P ∧ ∫ ω, (ber msg (bits ω) : ℝ) ∂P < 1 / 2 ∧
      (∫ ω, (ber msg (bits ω) : ℝ) ∂P = Erfc (√snr) / 2 ↔
        ∀ n < msg.length, ((symbol (fs / sym) n tx).map (· ^ 2)).sum = eb) := by
  have hP := hz.prob
  obtain ⟨-, htx'⟩ := txCdmaBpsk_collected h htx
  rw [mapIdx_wave] at htx'
  have hsps : 2 ≤ fs / sym := (Nat.le_div_iff_mul_le hsym).mpr (by
    have : sym * 1 ≤ sym * key.length := Nat.mul_le_mul_left _ (List.length_pos_iff.mpr hkey)
    omega)
  have hE : ∀ n < msg.length, 0 < ((symbol (fs / sym) n tx).map (· ^ 2)).sum := by
    intro n hn
    rw [htx', wave_symbol_energy (by omega) _ _ hn]
    refine lt_of_lt_of_eq (sum_cos_sq_pos hsps (n * (fs / sym)) (dphi fs fc)) (Finset.sum_congr rfl fun j _ => ?_)
    rw [mul_pow, mul_pow, phase_real, Flt.cos_real, pow_two (bitToNrz msg[n]), bitToNrz_sq, pow_two (bitToNrz (keyBit _ _ _)),
      bitToNrz_sq, one_mul, mul_one]
  obtain ⟨h1, h2⟩ := floor_of_flips (P := P) hne (by rw [htx', wave_length]) hE hs heb hσ
  obtain ⟨bits, b1, b2⟩ := C101_cdma hz h1 hg h hfs hsym hkey hdvd hnyq hfc htx hE
  exact ⟨bits, b1, b2, h2 b2⟩

/-- Frequency hopping: the same, for any band. -/
theorem C113_hopping [Rng ρ] [RIter ι Bool] {m : ι} {msg : List Bool} (h : Yields m msg) (hne : msg ≠ []) {low high : ℝ}
    {nf fs sym : ℕ} (hnf : 2 ≤ nf) (hlh : low ≤ high) (hfs : fs < 2 ^ 64) (hfs0 : 0 < fs) (hsym : 0 < sym) (hdvd : sym ∣ fs)
    (hhigh : ⌊high⌋₊ ≤ fs / 2) {tx : List ℝ}
    (htx : (do let it ← txFhBpsk ρ m low high nf fs sym; collect it) = pure tx) {snr eb : ℝ} (hs : 0 < snr)
    (heb : eb = (tx.map (· ^ 2)).sum / msg.length) (hσ : σ = √(2 * eb / snr) / 2) (hz : White P 1 z)
    (hg : ∀ ω, Gives (noise ω) (fun i => z i ω)) :
    ∃ bits : Ω → List Bool, (∀ ω, (do
        let s ← txFhBpsk ρ m low high nf fs sym
        let ch ← awgn s σ (noise ω)
        let rx ← rxFhBpsk ρ ch low high nf fs sym
        collect rx) = pure (bits ω)) ∧
      Flips P msg bits (fun n => bitError ((symbol (fs / sym) n tx).map (· ^ 2)).sum σ) ∧
      Erfc (√snr) / 2 ≤ ∫ ω, (ber msg (bits ω) : ℝ) ∂P ∧ ∫ ω, (ber msg (bits ω) : ℝ) ∂P < 1 / 2 ∧
      (∫ ω, (ber msg (bits ω) : ℝ) ∂P = Erfc (√snr) / 2 ↔
        ∀ n < msg.length, ((symbol (fs / sym) n tx).map (· ^ 2)).sum = eb) := by
  have hP := hz.prob
  have hsps : 0 < fs / sym := Nat.div_pos (Nat.le_of_dvd hfs0 hdvd) hsym
  have htx' := txFhBpsk_collected h hnf hsps htx
  have hE : ∀ n < msg.length, 0 < ((symbol (fs / sym) n tx).map (· ^ 2)).sum := by
    intro n hn
    rw [htx', wave_symbol_energy hsps _ _ hn]
    refine Finset.sum_pos' (fun _ _ => sq_nonneg _) ⟨0, Finset.mem_range.mpr hsps, ?_⟩
    rw [mul_pow, phase_real, Flt.cos_real, pow_two (bitToNrz msg[n]), bitToNrz_sq, one_mul]
    simp
  obtain ⟨h1, h2⟩ := floor_of_flips (P := P) hne (by rw [htx', wave_length]) hE hs heb hσ
  obtain ⟨bits, b1, b2⟩ := C101_hopping hz h1 hg h hnf hlh hfs hfs0 hsym hdvd hhigh htx hE
  exact ⟨bits, b1, b2, h2 b2⟩

/-- When the symbols differ in energy: two bits or more and a carrier that has no whole number of half periods in `k` samples nor in `2k - 1`
samples, `k` the samples per symbol.  Then the first two symbols already do. -/
theorem C113_unequal [RIter ι Bool] {m : ι} {msg : List Bool} (h : Yields m msg) (hlen : 2 ≤ msg.length) {fs sym : ℕ} {fc : ℝ}
    (hfs0 : 0 < fs) (hsps : 0 < fs / sym) {tx : List ℝ} (htx : (do let it ← txBpsk m fs sym fc; collect it) = pure tx)
    (h1 : ∀ p : ℤ, 2 * (fs / sym : ℕ) * fc ≠ p * fs) (h2 : ∀ p : ℤ, 2 * (2 * (fs / sym : ℕ) - 1) * fc ≠ p * fs) (eb : ℝ) :
    ¬ ∀ n < msg.length, ((symbol (fs / sym) n tx).map (· ^ 2)).sum = eb := by
  intro hall
  have htx' := txBpsk_collected h hsps htx
  have hen : ∀ n < msg.length, ∑ j ∈ Finset.range (fs / sym), Real.cos ((n * (fs / sym) + j : ℕ) * dphi fs fc) ^ 2 = eb := by
    intro n hn
    rw [← hall n hn, htx', wave_symbol_energy hsps _ _ hn]
    refine Finset.sum_congr rfl fun j _ => ?_
    rw [mul_pow, phase_real, Flt.cos_real, pow_two (bitToNrz msg[n]), bitToNrz_sq, one_mul]
  have hd := first_energies (fs / sym) (dphi fs fc)
  rw [hen 0 (by omega), hen 1 (by omega), sub_self, mul_zero, zero_eq_neg, mul_eq_zero, pow_eq_zero_iff two_ne_zero] at hd
  have hf : (fs : ℝ) ≠ 0 := by positivity
  have hpi := Real.pi_ne_zero
  rcases hd with hd | hd <;> obtain ⟨p, hp⟩ := Real.sin_eq_zero_iff.mp hd
  · apply h1 p
    unfold dphi at hp
    field_simp at hp
    linarith
  · apply h2 p
    unfold dphi at hp
    field_simp at hp
    linarith

/-- Such a carrier lies strictly above the curve, at every signal-to-noise ratio. -/
theorem C113_above [RIter ι Bool] {m : ι} {msg : List Bool} (h : Yields m msg) (hlen : 2 ≤ msg.length) {fs sym : ℕ} {fc : ℝ}
    (hfs : fs < 2 ^ 64) (hdvd : sym ∣ fs) (hsps : 2 ≤ fs / sym) (hfc : ⌊fc⌋₊ ≤ fs / 2)
    (h1 : ∀ p : ℤ, 2 * (fs / sym : ℕ) * fc ≠ p * fs) (h2 : ∀ p : ℤ, 2 * (2 * (fs / sym : ℕ) - 1) * fc ≠ p * fs) {tx : List ℝ}
    (htx : (do let it ← txBpsk m fs sym fc; collect it) = pure tx) {snr eb : ℝ} (hs : 0 < snr)
    (heb : eb = (tx.map (· ^ 2)).sum / msg.length) (hσ : σ = √(2 * eb / snr) / 2) (hz : White P 1 z)
    (hg : ∀ ω, Gives (noise ω) (fun i => z i ω)) :
    ∃ bits : Ω → List Bool, (∀ ω, (do
        let s ← txBpsk m fs sym fc
        let ch ← awgn s σ (noise ω)
        let rx ← rxBpsk ch fs sym fc
        collect rx) = pure (bits ω)) ∧
      Erfc (√snr) / 2 < ∫ ω, (ber msg (bits ω) : ℝ) ∂P ∧ ∫ ω, (ber msg (bits ω) : ℝ) ∂P < 1 / 2 := by
  have hne : msg ≠ [] := by rintro rfl; simp at hlen
  obtain ⟨bits, b1, -, b2, b3, b4⟩ := C113_bpsk h hne hfs hdvd hsps hfc htx hs heb hσ hz hg
  exact ⟨bits, b1, lt_of_le_of_ne b2 fun e => C113_unequal h hlen (Nat.pos_of_ne_zero (by rintro rfl; simp at hsps)) (by omega) htx h1 h2 eb (b4.mp e.symm), b3⟩

/-! ### Concrete cases -/

/-- 1700 Hz at 16 samples per symbol of 16 kHz: 1.7 periods per symbol. -/
private theorem odd17 : (∀ p : ℤ, 2 * (16000 / 1000 : ℕ) * (1700 : ℝ) ≠ p * (16000 : ℕ)) ∧
    ∀ p : ℤ, 2 * (2 * (16000 / 1000 : ℕ) - 1) * (1700 : ℝ) ≠ p * (16000 : ℕ) := by
  constructor <;> intro p hp <;> norm_num at hp
  · have : (54400 : ℤ) = p * 16000 := by exact_mod_cast hp
    omega
  · have : (105400 : ℤ) = p * 16000 := by exact_mod_cast hp
    omega

example : ∃ (σ : ℝ) (bits : (ℕ → ℝ) → List Bool), (∀ ω, (do
        let s ← txBpsk (ofList [true, false, true]) 16000 1000 (1700 : ℝ)
        let ch ← awgn s σ (path ω)
        let rx ← rxBpsk ch 16000 1000 (1700 : ℝ)
        collect rx) = pure (bits ω)) ∧ Erfc (√4) / 2 < ∫ ω, (ber [true, false, true] (bits ω) : ℝ) ∂(gaussPath 1) := by
  obtain ⟨it, e1, e2⟩ := txBpsk_ok (yields_ofList [true, false, true]) (fs := 16000) (sym := 1000) (fc := (1700 : ℝ)) (by norm_num)
    (by rw [Flt.toNat_real]; norm_num) ((isInt_real (by norm_num) (by norm_num)).mpr (by norm_num))
  obtain ⟨bits, b1, b2, -⟩ := C113_above (yields_ofList [true, false, true]) (by simp) (fs := 16000) (sym := 1000) (fc := 1700)
    (by norm_num) (by norm_num) (by norm_num) (by norm_num) odd17.1 odd17.2 (by rw [e1, pure_bind, collect_of_yields e2])
    (snr := 4) (by norm_num) rfl rfl (white_path 1) path_gives
  exact ⟨_, bits, b1, b2⟩

/-- Equal energies, on the curve: two periods per symbol. -/
example : ∃ (σ : ℝ) (bits : (ℕ → ℝ) → List Bool), (∀ ω, (do
        let s ← txBpsk (ofList [true, false, true]) 16000 1000 (2000 : ℝ)
        let ch ← awgn s σ (path ω)
        let rx ← rxBpsk ch 16000 1000 (2000 : ℝ)
        collect rx) = pure (bits ω)) ∧ ∫ ω, (ber [true, false, true] (bits ω) : ℝ) ∂(gaussPath 1) = Erfc (√4) / 2 := by
  obtain ⟨a, ha, -⟩ := Cases.bpsk [true, false, true]
  have hE := C78_bpsk (yields_ofList _) (by norm_num) (WholeHalf.of_nat (f := 2000) (p := 4) (by norm_num) (by norm_num)) ha
  obtain ⟨bits, b1, -, -, -, b4⟩ := C113_bpsk (yields_ofList [true, false, true]) (by simp) (by norm_num) (by norm_num) (by norm_num)
    (by norm_num) ha (snr := 4) (by norm_num) rfl rfl (white_path 1) path_gives
  refine ⟨_, bits, b1, b4.mpr fun n hn => ?_⟩
  rw [hE.each (by norm_num) n hn, hE.total (by norm_num)]
  norm_num

/-- A key, and a carrier of 1.7 periods per symbol. -/
example : ∃ (σ : ℝ) (bits : (ℕ → ℝ) → List Bool), (∀ ω, (do
        let s ← txCdmaBpsk (ofList [true, false]) 16000 1000 (1700 : ℝ) [true, false]
        let ch ← awgn s σ (path ω)
        let rx ← rxCdmaBpsk ch 16000 1000 (1700 : ℝ) [true, false]
        collect rx) = pure (bits ω)) ∧ Erfc (√4) / 2 ≤ ∫ ω, (ber [true, false] (bits ω) : ℝ) ∂(gaussPath 1) := by
  obtain ⟨it, e1, e2⟩ := txCdmaBpsk_ok (yields_ofList [true, false]) (fs := 16000) (sym := 1000) (fc := (1700 : ℝ)) (key := [true, false])
    ((cdmaOk_real (by norm_num)).mpr ⟨by norm_num, by simp, by norm_num, by norm_num, by norm_num⟩)
  obtain ⟨bits, b1, -, b2, -⟩ := C113_cdma (yields_ofList [true, false]) (by simp) (fs := 16000) (sym := 1000) (fc := 1700) (key := [true, false])
    (by norm_num) (by norm_num) (by simp) (by norm_num) (by norm_num) (by norm_num) (by rw [e1, pure_bind, collect_of_yields e2])
    (snr := 4) (by norm_num) rfl rfl (white_path 1) path_gives
  exact ⟨_, bits, b1, b2⟩

example [Rng ρ] : ∃ (σ : ℝ) (bits : (ℕ → ℝ) → List Bool), (∀ ω, (do
        let s ← txFhBpsk ρ (ofList [true, false]) (1000 : ℝ) 3000 4 16000 1000
        let ch ← awgn s σ (path ω)
        let rx ← rxFhBpsk ρ ch (1000 : ℝ) 3000 4 16000 1000
        collect rx) = pure (bits ω)) ∧ Erfc (√4) / 2 ≤ ∫ ω, (ber [true, false] (bits ω) : ℝ) ∂(gaussPath 1) := by
  obtain ⟨a, ha, -⟩ := Cases.hopping ρ [true, false]
  obtain ⟨bits, b1, -, b2, -⟩ := C113_hopping (yields_ofList [true, false]) (by simp) (by norm_num) (by norm_num) (by norm_num)
    (by norm_num) (by norm_num) (by norm_num) (by norm_num) ha (snr := 4) (by norm_num) rfl rfl (white_path 1) path_gives
  exact ⟨_, bits, b1, b2⟩

/-- The energies at 1700 Hz. -/
example {tx : List ℝ} (htx : (do let it ← txBpsk (ofList [true, true]) 16000 1000 (1700 : ℝ); collect it) = pure tx) :
    ¬ ∀ n < 2, ((symbol (16000 / 1000) n tx).map (· ^ 2)).sum = 8 :=
  C113_unequal (yields_ofList [true, true]) (by simp) (by norm_num) (by norm_num) htx odd17.1 odd17.2 8

end Verif.Props
