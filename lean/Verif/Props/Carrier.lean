import Verif.Lemmas.Jensen
import Verif.Props.Gauss

/-!
# C153: a carrier that does not fit the symbols can only cost

The bit-error tests and scripts choose the noise level from the average energy per bit and compare with the curve
`erfc(√snr)/2`. For a carrier that does not make whole half periods per symbol the symbols have different energies.
-/

namespace Verif.Props
open Verif Spec MeasureTheory ProbabilityTheory
set_option linter.unusedSectionVars false
variable {ι ν ρ : Type} {Ω : Type} [MeasurableSpace Ω] {P : Measure Ω} {σ : ℝ} {z w : ℕ → Ω → ℝ} [RIter ν ℝ] {noise : Ω → ν}

/-- The step common to the three links: bits flipped with the textbook probability of their symbol's energy. -/
theorem carrier_core [IsProbabilityMeasure P] {msg : List Bool} (hne : msg ≠ []) {k : ℕ} {tx : List ℝ} (hlen : tx.length = msg.length * k)
    (hE : ∀ n < msg.length, 0 < ((symbol k n tx).map (· ^ 2)).sum) {snr eb : ℝ} (hs : 0 < snr)
    (heb : eb = (tx.map (· ^ 2)).sum / msg.length) (hσ : σ = √(2 * eb / snr) / 2) :
    0 < σ ∧ ∀ bits : Ω → List Bool, Flips P msg bits (fun n => bitError ((symbol k n tx).map (· ^ 2)).sum σ) →
      Erfc (√snr) / 2 ≤ ∫ ω, (ber msg (bits ω) : ℝ) ∂P ∧
      (Erfc (√snr) / 2 = ∫ ω, (ber msg (bits ω) : ℝ) ∂P ↔ ∀ n < msg.length, ∀ n' < msg.length,
        ((symbol k n tx).map (· ^ 2)).sum = ((symbol k n' tx).map (· ^ 2)).sum) := by
  have hN : 0 < msg.length := List.length_pos_iff.mpr hne
  rw [symbol_sum _ hlen] at heb
  have hpos : 0 < eb := by
    rw [heb]
    exact div_pos (Finset.sum_pos (fun n hn => hE n (Finset.mem_range.mp hn)) ⟨0, by simpa using hN⟩) (by exact_mod_cast hN)
  refine ⟨by rw [hσ]; positivity, fun bits hb => ?_⟩
  rw [C101_ber hb]
  exact bitError_jensen hN hE hs (by rw [hσ, heb])

/-- BPSK on any carrier, the noise level computed from the recording the way the bit-error tests compute it (tests/ber.rs:71-75):
on average the measured bit error rate is at least `erfc(√snr)/2`, and equal to it only when all symbols have the same energy. -/
theorem C153_bpsk [RIter ι Bool] {m : ι} {msg : List Bool} (h : Yields m msg) (hne : msg ≠ []) {fs sym : ℕ} {fc : ℝ}
    (hfs : fs < 2 ^ 64) (hdvd : sym ∣ fs) (hsps : 0 < fs / sym) (hfc : ⌊fc⌋₊ ≤ fs / 2) {tx : List ℝ}
    (htx : (do let it ← txBpsk m fs sym fc; collect it) = pure tx)
    (hE : ∀ n < msg.length, 0 < ((symbol (fs / sym) n tx).map (· ^ 2)).sum) {snr eb : ℝ} (hs : 0 < snr)
    (heb : eb = (tx.map (· ^ 2)).sum / msg.length) (hσ : σ = √(2 * eb / snr) / 2) (hz : White P 1 z)
    (hg : ∀ ω, Gives (noise ω) (fun i => z i ω)) :
    ∃ bits : Ω → List Bool, (∀ ω, (do
        let s ← txBpsk m fs sym fc
        let ch ← awgn s σ (noise ω)
        let rx ← rxBpsk ch fs sym fc
        collect rx) = pure (bits ω)) ∧
      Erfc (√snr) / 2 ≤ ∫ ω, (ber msg (bits ω) : ℝ) ∂P ∧
      (Erfc (√snr) / 2 = ∫ ω, (ber msg (bits ω) : ℝ) ∂P ↔ ∀ n < msg.length, ∀ n' < msg.length,
        ((symbol (fs / sym) n tx).map (· ^ 2)).sum = ((symbol (fs / sym) n' tx).map (· ^ 2)).sum) := by
  have hP := hz.prob
  have hlen : tx.length = msg.length * (fs / sym) := by
    obtain ⟨it, h1, h2⟩ := txBpsk_ok h (fc := fc) hsps (by rw [Flt.toNat_real]; omega)
      ((isInt_real hfs (pos_of_sps hsps)).mpr hdvd)
    rw [h1, pure_bind, collect_of_yields h2, RM.ok_inj] at htx
    rw [← htx, wave_length]
  obtain ⟨hσ0, core⟩ := carrier_core (P := P) hne hlen hE hs heb hσ
  obtain ⟨bits, b1, b2⟩ := C101_bpsk hz hσ0 hg h hfs hdvd hsps hfc htx hE
  exact ⟨bits, b1, core bits b2⟩

/-- CDMA over BPSK: the same, whatever the key. -/
theorem C153_cdma [RIter ι Bool] {m : ι} {msg : List Bool} (h : Yields m msg) (hne : msg ≠ []) {fs sym : ℕ} {fc : ℝ}
    {key : List Bool} (hfs : fs < 2 ^ 64) (hsym : 0 < sym) (hkey : key ≠ []) (hdvd : sym * key.length ∣ fs)
    (hnyq : 2 * (sym * key.length) ≤ fs) (hfc : ⌊fc⌋₊ ≤ fs / 2) {tx : List ℝ}
    (htx : (do let it ← txCdmaBpsk m fs sym fc key; collect it) = pure tx)
    (hE : ∀ n < msg.length, 0 < ((symbol (fs / sym) n tx).map (· ^ 2)).sum) {snr eb : ℝ} (hs : 0 < snr)
    (heb : eb = (tx.map (· ^ 2)).sum / msg.length) (hσ : σ = √(2 * eb / snr) / 2) (hz : White P 1 z)
    (hg : ∀ ω, Gives (noise ω) (fun i => z i ω)) :
    ∃ bits : Ω → List Bool, (∀ ω, (do
        let s ← txCdmaBpsk m fs sym fc key
        let ch ← awgn s σ (noise ω)
        let rx ← rxCdmaBpsk ch fs sym fc key
        collect rx) = pure (bits ω)) ∧
      Erfc (√snr) / 2 ≤ ∫ ω, (ber msg (bits ω) : ℝ) ∂P ∧
      (Erfc (√snr) / 2 = ∫ ω, (ber msg (bits ω) : ℝ) ∂P ↔ ∀ n < msg.length, ∀ n' < msg.length,
        ((symbol (fs / sym) n tx).map (· ^ 2)).sum = ((symbol (fs / sym) n' tx).map (· ^ 2)).sum) := by
  have hP := hz.prob
  have hlen : tx.length = msg.length * (fs / sym) := by
    have hok := (cdmaOk_real (fc := fc) hfs).mpr ⟨hsym, List.length_pos_iff.mpr hkey, hdvd, hnyq, hfc⟩
    obtain ⟨it, e1, e2⟩ := txCdmaBpsk_ok h hok
    rw [e1, pure_bind, collect_of_yields e2, RM.ok_inj, mapIdx_wave] at htx
    rw [← htx, wave_length]
  obtain ⟨hσ0, core⟩ := carrier_core (P := P) hne hlen hE hs heb hσ
  obtain ⟨bits, b1, b2⟩ := C101_cdma hz hσ0 hg h hfs hsym hkey hdvd hnyq hfc htx hE
  exact ⟨bits, b1, core bits b2⟩

/-- A spread message on a carrier that fits: all symbols have the same energy and the mean is the curve. -/
example : ∃ (tx : List ℝ) (bits : (ℕ → ℝ) → List Bool),
    (∀ ω, (do
        let s ← txCdmaBpsk (ofList [true, false, true]) 16000 1000 (2000 : ℝ) [true, false]
        let ch ← awgn s (√(2 * ((tx.map (· ^ 2)).sum / 3) / 4) / 2) (path ω)
        let rx ← rxCdmaBpsk ch 16000 1000 (2000 : ℝ) [true, false]
        collect rx) = pure (bits ω)) ∧
      Erfc (√4) / 2 = ∫ ω, (ber [true, false, true] (bits ω) : ℝ) ∂(gaussPath 1) := by
  obtain ⟨a, ha, -⟩ := Cases.cdmaBpsk [true, false, true] (key := [true, false]) (.inl rfl)
  have hE := C78_cdma_bpsk (yields_ofList _) wh16 ha
  obtain ⟨bits, b1, -, b3⟩ := C153_cdma (yields_ofList [true, false, true]) (by simp) (by norm_num) (by norm_num) (by simp) (by norm_num)
    (by norm_num) (by norm_num) ha (fun n hn => by rw [hE.each (by norm_num) n hn]; norm_num) (snr := 4) (by norm_num) rfl rfl
    (white_path 1) path_gives
  exact ⟨a, bits, by simpa using b1, b3.mpr fun n hn k hk => by rw [hE.each (by norm_num) n hn, hE.each (by norm_num) k hk]⟩

/-- Frequency hopping, where the frequencies of the table hardly ever all fit: the same. Every hop starts at phase zero,
so no symbol is without energy. -/
theorem C153_hopping [Rng ρ] [RIter ι Bool] {m : ι} {msg : List Bool} (h : Yields m msg) (hne : msg ≠ []) {low high : ℝ}
    {nf fs sym : ℕ} (hn : 2 ≤ nf) (hlh : low ≤ high) (hfs : fs < 2 ^ 64) (hfs0 : 0 < fs) (hsym : 0 < sym) (hdvd : sym ∣ fs)
    (hhigh : ⌊high⌋₊ ≤ fs / 2) {tx : List ℝ} (htx : (do let it ← txFhBpsk ρ m low high nf fs sym; collect it) = pure tx) {snr eb : ℝ} (hs : 0 < snr)
    (heb : eb = (tx.map (· ^ 2)).sum / msg.length) (hσ : σ = √(2 * eb / snr) / 2) (hz : White P 1 z)
    (hg : ∀ ω, Gives (noise ω) (fun i => z i ω)) :
    ∃ bits : Ω → List Bool, (∀ ω, (do
        let s ← txFhBpsk ρ m low high nf fs sym
        let ch ← awgn s σ (noise ω)
        let rx ← rxFhBpsk ρ ch low high nf fs sym
        collect rx) = pure (bits ω)) ∧
      Erfc (√snr) / 2 ≤ ∫ ω, (ber msg (bits ω) : ℝ) ∂P ∧
      (Erfc (√snr) / 2 = ∫ ω, (ber msg (bits ω) : ℝ) ∂P ↔ ∀ n < msg.length, ∀ n' < msg.length,
        ((symbol (fs / sym) n tx).map (· ^ 2)).sum = ((symbol (fs / sym) n' tx).map (· ^ 2)).sum) := by
  have hP := hz.prob
  have hsps : 0 < fs / sym := Nat.div_pos (Nat.le_of_dvd hfs0 hdvd) hsym
  have htn : ∀ x : ℝ, x ≤ high → Flt.toNat x ≤ fs / 2 := by
    intro x hx
    rw [Flt.toNat_real]
    exact (min_le_left _ _).trans ((Nat.floor_mono hx).trans hhigh)
  have hw : tx = wave (fs / sym) (fun i b j => bitToNrz b * Flt.cos (phase fs (hopOf ρ low high nf i) j)) msg := by
    obtain ⟨it, e1, e2⟩ := txFhBpsk_ok (ρ := ρ) h hn hsps (htn high le_rfl) ((isInt_real hfs hsym).mpr hdvd)
      (fun x hx => htn x (hopFreqs_real hlh hx).2)
    rw [e1, pure_bind, collect_of_yields e2, RM.ok_inj] at htx
    exact htx.symm
  have hlen : tx.length = msg.length * (fs / sym) := by rw [hw, wave_length]
  have hE : ∀ n < msg.length, 0 < ((symbol (fs / sym) n tx).map (· ^ 2)).sum := by
    intro n hn'
    have hval : ∀ n (hn : n < msg.length) j, j < fs / sym →
        tx.getD (n * (fs / sym) + j) 0 = bitToNrz msg[n] * Flt.cos (phase fs (hopOf ρ low high nf n) j) := by
      intro n hn j hj
      rw [List.getD_eq_getElem?_getD, hw, wave_getElem? hsps, Nat.mul_comm, Nat.mul_add_div hsps, Nat.div_eq_of_lt hj,
        Nat.add_zero, List.getElem?_eq_getElem hn, Nat.mul_add_mod, Nat.mod_eq_of_lt hj]
      rfl
    rw [symbol_energy hsps hlen hval n hn']
    refine Finset.sum_pos' (fun j _ => sq_nonneg _) ⟨0, by simpa using hsps, ?_⟩
    rw [Flt.cos_real, phase_real']
    simp
  obtain ⟨hσ0, core⟩ := carrier_core (P := P) hne hlen hE hs heb hσ
  obtain ⟨bits, b1, b2⟩ := C101_hopping hz hσ0 hg h hn hlh hfs hfs0 hsym hdvd hhigh htx hE
  exact ⟨bits, b1, core bits b2⟩

/-- A hopping station between 1 and 3 kHz. -/
example [Rng ρ] : ∃ (tx : List ℝ) (bits : (ℕ → ℝ) → List Bool),
    (∀ ω, (do
        let s ← txFhBpsk ρ (ofList [true, false]) (1000 : ℝ) 3000 4 16000 1000
        let ch ← awgn s (√(2 * ((tx.map (· ^ 2)).sum / 2) / 4) / 2) (path ω)
        let rx ← rxFhBpsk ρ ch (1000 : ℝ) 3000 4 16000 1000
        collect rx) = pure (bits ω)) ∧
      Erfc (√4) / 2 ≤ ∫ ω, (ber [true, false] (bits ω) : ℝ) ∂(gaussPath 1) := by
  obtain ⟨a, ha, -⟩ := Cases.hopping ρ [true, false]
  obtain ⟨bits, b1, b2, -⟩ := C153_hopping (ρ := ρ) (yields_ofList [true, false]) (by simp) (by norm_num) (by norm_num) (by norm_num)
    (by norm_num) (by norm_num) (by norm_num) (by norm_num) ha (snr := 4) (by norm_num) rfl rfl (white_path 1) path_gives
  exact ⟨a, bits, by simpa using b1, b2⟩

/-- A case: two bits at two samples per symbol on a carrier of an eighth of the sample rate. The symbols have energies 3/2 and
1/2, so at Eb/N0 = 1 the mean error rate is strictly above `erfc(1)/2`. -/
example : ∃ (tx : List ℝ) (bits : (ℕ → ℝ) → List Bool),
    (do let it ← txBpsk (ofList [true, false]) 8 4 (1 : ℝ); collect it) = pure tx ∧
    (∀ ω, (do
        let s ← txBpsk (ofList [true, false]) 8 4 (1 : ℝ)
        let ch ← awgn s (√(2 * ((tx.map (· ^ 2)).sum / 2) / 1) / 2) (path ω)
        let rx ← rxBpsk ch 8 4 (1 : ℝ)
        collect rx) = pure (bits ω)) ∧
      Erfc 1 / 2 < ∫ ω, (ber [true, false] (bits ω) : ℝ) ∂(gaussPath 1) := by
  obtain ⟨it, h1, h2⟩ := txBpsk_ok (yields_ofList [true, false]) (fs := 8) (sym := 4) (fc := (1 : ℝ)) (by norm_num)
    (by rw [Flt.toNat_real]; norm_num) ((isInt_real (by norm_num) (by norm_num)).mpr (by norm_num))
  have htx : (do let it ← txBpsk (ofList [true, false]) 8 4 (1 : ℝ); collect it) = pure
      ([1, √2 / 2, 0, √2 / 2] : List ℝ) := by
    rw [h1, pure_bind, collect_of_yields h2]
    have c0 : Flt.cos (phase 8 (1 : ℝ) 0) = (1 : ℝ) := by rw [Flt.cos_real, phase_real']; simp
    have c1 : Flt.cos (phase 8 (1 : ℝ) 1) = √2 / 2 := by
      rw [Flt.cos_real, phase_real', ← Real.cos_pi_div_four]; congr 1; push_cast; ring
    have c2 : Flt.cos (phase 8 (1 : ℝ) 2) = (0 : ℝ) := by
      rw [Flt.cos_real, phase_real', ← Real.cos_pi_div_two]; congr 1; push_cast; ring
    have c3 : Flt.cos (phase 8 (1 : ℝ) 3) = -(√2 / 2) := by
      rw [Flt.cos_real, phase_real', ← Real.cos_pi_div_four, ← Real.cos_pi_sub]; congr 1; push_cast; ring
    have e : wave (8 / 4) (fun n b j => bitToNrz b * Flt.cos (phase 8 (1 : ℝ) (n * (8 / 4) + j))) [true, false]
        = [1 * Flt.cos (phase 8 (1 : ℝ) 0), 1 * Flt.cos (phase 8 (1 : ℝ) 1), -1 * Flt.cos (phase 8 (1 : ℝ) 2),
          -1 * Flt.cos (phase 8 (1 : ℝ) 3)] := rfl
    rw [e, c0, c1, c2, c3]
    norm_num
  have hq : (√2 / 2 : ℝ) ^ 2 = 1 / 2 := by rw [div_pow, Real.sq_sqrt (by norm_num)]; norm_num
  have e0 : ((symbol (8 / 4) 0 [1, √2 / 2, 0, √2 / 2]).map (fun x : ℝ => x ^ 2)).sum = 3 / 2 := by
    simp [symbol, hq]; norm_num
  have e1 : ((symbol (8 / 4) 1 [1, √2 / 2, 0, √2 / 2]).map (fun x : ℝ => x ^ 2)).sum = 1 / 2 := by
    simp [symbol, hq]
  obtain ⟨bits, b1, b2, b3⟩ := C153_bpsk (yields_ofList [true, false]) (by simp) (by norm_num) (by norm_num) (by norm_num)
    (by norm_num) htx (fun n hn => by
      have : n = 0 ∨ n = 1 := by simp at hn; omega
      rcases this with rfl | rfl
      · rw [e0]; norm_num
      · rw [e1]; norm_num) one_pos rfl rfl (white_path 1) path_gives
  refine ⟨_, bits, htx, by simpa using b1, ?_⟩
  rw [Real.sqrt_one] at b2 b3
  refine lt_of_le_of_ne b2 fun hh => ?_
  have := b3.mp hh 0 (by simp) 1 (by simp)
  rw [e0, e1] at this
  norm_num at this

end Verif.Props
