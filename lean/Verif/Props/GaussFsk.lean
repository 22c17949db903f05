import Verif.Lemmas.FskNoise
import Verif.Props.Gauss
import Verif.Lemmas.Cases

/-!
# Property C106: bit errors of frequency shift keying in noise

Exact arithmetic.  As for C101–C103, `z` is noise on a probability space and the stream handed to `awgn` gives its samples; for
every outcome `ω` the whole chain `tx_fsk`, `awgn`, `rx_fsk` is run.
-/
namespace Verif.Props
open Verif Spec MeasureTheory ProbabilityTheory
set_option linter.unusedSectionVars false
variable {ι ν : Type} {Ω : Type} [MeasurableSpace Ω] {P : Measure Ω} {σ : ℝ} {z w : ℕ → Ω → ℝ} [RIter ν ℝ] {noise : Ω → ν}

/-- The samples of `tx_fsk`. -/
theorem fsk_sample (fs k : ℕ) (fc : ℝ) : (fun (n : ℕ) (b : Bool) (j : ℕ) =>
    (Flt.cos (phase fs (fc + bitToNrz b * (fskSep fc / Flt.ofNat 2)) (n * k + j)) : ℝ))
    = fun n b j => Real.cos (tone fs fc b * (n * k + j : ℕ)) := by
  funext n b j
  rw [Flt.cos_real, phase_real', tone, bitToNrz_real, fskSep, Flt.lit_real, Flt.ofNat_real]
  congr 1
  cases b <;> simp <;> ring

/-- What the chain answers, symbol by symbol. -/
theorem fsk_chain (hn : ∀ ω, Drives σ (noise ω) (fun i => w i ω)) [RIter ι Bool] {m : ι} {msg : List Bool} (h : Yields m msg)
    {fs sym : ℕ} {fc : ℝ} (hsps : 0 < fs / sym) (ω : Ω) :
    (do
        let s ← txFsk m fs sym fc
        let ch ← awgn s σ (noise ω)
        let rx ← rxFsk ch fs sym fc
        collect rx) = pure (msg.mapIdx (fun n b => rxFskChunk fs fc n ((List.range (fs / sym)).map
          (fun j => Real.cos (tone fs fc b * (n * (fs / sym) + j : ℕ)) + w (n * (fs / sym) + j) ω)))) := by
  obtain ⟨it, e1, e2⟩ := txFsk_ok h (fc := fc) hsps
  rw [fsk_sample] at e2
  obtain ⟨ch, c1, c2⟩ := awgn_driven e2 (hn ω)
  rw [mapIdx_wave] at c2
  obtain ⟨rx, r1, r2⟩ := rxFsk_wave (fc := fc) hsps c2
  rw [e1, pure_bind, c1, pure_bind, r1, pure_bind, collect_of_yields r2]

/-- The decision on one noisy symbol. -/
theorem fsk_decision (fs k n m : ℕ) (fc : ℝ) (b : Bool) (z : ℕ → ℝ) :
    rxFskChunk fs fc n ((List.range k).map (fun j => Real.cos (tone fs fc b * (m + j : ℕ)) + z j))
      = decide (toneEnergy (tone fs fc false) k (fun j => Real.cos (tone fs fc b * (m + j : ℕ)) + z j)
        ≤ toneEnergy (tone fs fc true) k (fun j => Real.cos (tone fs fc b * (m + j : ℕ)) + z j)) := by
  rw [fskChunk_offset]
  have hg : ∀ v, toneEnergy v k (fun j => ((List.range k).map (fun j => Real.cos (tone fs fc b * (m + j : ℕ)) + z j)).getD j 0)
      = toneEnergy v k (fun j => Real.cos (tone fs fc b * (m + j : ℕ)) + z j) := by
    intro v
    unfold toneEnergy
    congr 2 <;> refine Finset.sum_congr rfl fun j hj => ?_ <;>
      simp [List.getD_eq_getElem?_getD, List.getElem?_range (Finset.mem_range.mp hj)]
  rw [List.length_map, List.length_range, hg, hg]

/-- Whatever the carrier and whatever independent noise is added: the errors on different bits are independent. -/
theorem C106_memoryless (hi : iIndepFun z P) (hm : ∀ i, AEMeasurable (z i) P) (hg : ∀ ω, Gives (noise ω) (fun i => z i ω)) (σ : ℝ)
    [RIter ι Bool] {m : ι} {msg : List Bool} (h : Yields m msg) {fs sym : ℕ} {fc : ℝ} (hsps : 0 < fs / sym) :
    ∃ (bits : Ω → List Bool) (p : ℕ → ℝ), (∀ ω, (do
        let s ← txFsk m fs sym fc
        let ch ← awgn s σ (noise ω)
        let rx ← rxFsk ch fs sym fc
        collect rx) = pure (bits ω)) ∧ Flips P msg bits p :=
  ⟨_, _, fsk_chain (w := fun i ω => σ * z i ω) (fun ω => Drives.of_gives (hg ω) σ) h hsps,
    wave_memoryless (hi.comp (fun _ x => σ * x) (fun _ => measurable_const_mul σ)) (fun i => (hm i).const_mul σ) _ (rxFskChunk fs fc)
      (fun n _ => rxFskChunk_meas fs fc n _ _) msg⟩

/-- On a carrier that makes the two tones orthogonal over a symbol, in white Gaussian noise: a memoryless channel that flips every
bit with the textbook probability for a symbol energy of half the samples per symbol. -/
theorem C106_fsk (hz : White P 1 z) (hσ : 0 < σ) (hg : ∀ ω, Gives (noise ω) (fun i => z i ω)) [RIter ι Bool] {m : ι}
    {msg : List Bool} (h : Yields m msg) {fs sym c : ℕ} (hsym : 0 < sym) (hc : 0 < c) (hdvd : sym ∣ fs) (hny : 41 * c * sym < fs) :
    ∃ bits : Ω → List Bool, (∀ ω, (do
        let s ← txFsk m fs sym ((20 * c * sym : ℕ) : ℝ)
        let ch ← awgn s σ (noise ω)
        let rx ← rxFsk ch fs sym ((20 * c * sym : ℕ) : ℝ)
        collect rx) = pure (bits ω)) ∧
      Flips P msg bits (fun _ => envelopeError ((fs / sym : ℕ) / 2) σ) := by
  obtain ⟨w, hw, hn⟩ := hz.driven hg σ
  have hsps : 0 < fs / sym := Nat.div_pos (Nat.le_of_dvd (by omega) hdvd) hsym
  have ht := tones_fsk hsym hc hdvd hny
  refine ⟨_, fsk_chain hn h hsps, (wave_memoryless hw.indep (fun i => (hw.law i).aemeasurable) _ (rxFskChunk fs _)
    (fun n _ => rxFskChunk_meas fs _ n _ _) msg).congr fun n _ => ?_⟩
  simp only [fsk_decision]
  generalize msg.getD n false = b
  unfold envelopeError
  cases b
  · have := (Tones.error hw hσ hsps ht.symm (n * (fs / sym)) (n * (fs / sym))).2
    simpa using this
  · have := (Tones.error hw hσ hsps ht (n * (fs / sym)) (n * (fs / sym))).1
    simpa using this

/-- The energy of a symbol is half the samples per symbol. -/
theorem C106_energy [RIter ι Bool] {m : ι} {msg : List Bool} (h : Yields m msg) {fs sym c : ℕ} (hsym : 0 < sym) (hc : 0 < c)
    (hdvd : sym ∣ fs) (hny : 41 * c * sym < fs) {tx : List ℝ}
    (htx : (do let it ← txFsk m fs sym ((20 * c * sym : ℕ) : ℝ); collect it) = pure tx) :
    SymbolEnergy tx (fs / sym) msg.length ((fs / sym : ℕ) / 2) := by
  have hsps : 0 < fs / sym := Nat.div_pos (Nat.le_of_dvd (by omega) hdvd) hsym
  have ht := tones_fsk hsym hc hdvd hny
  obtain ⟨it, e1, e2⟩ := txFsk_ok h (fc := ((20 * c * sym : ℕ) : ℝ)) hsps
  rw [fsk_sample] at e2
  rw [e1, pure_bind, collect_of_yields e2, RM.ok_inj] at htx
  rw [← htx]
  refine wave_energy hsps fun n b _ => ?_
  have : ∀ v u, Tones (fs / sym) v u → ∑ j ∈ Finset.range (fs / sym), Real.cos (v * (n * (fs / sym) + j : ℕ)) ^ 2 = ((fs / sym : ℕ) : ℝ) / 2 := by
    intro v u h
    rw [← h.norm (v * (n * (fs / sym) : ℕ)) 0]
    refine Finset.sum_congr rfl fun j _ => ?_
    show _ = Real.cos _ ^ 2
    congr 2
    push_cast
    ring
  cases b
  · exact this _ _ ht.symm
  · exact this _ _ ht

/-- The noise level computed from the recording the way the bit-error tests compute it (tests/ber.rs:71-75): every bit is wrong
independently with probability `exp(-snr/2)/2`, which is also the mean of the measured bit error rate. -/
theorem C106_curve [RIter ι Bool] {m : ι} {msg : List Bool} (h : Yields m msg) (hne : msg ≠ []) {fs sym c : ℕ} (hsym : 0 < sym)
    (hc : 0 < c) (hdvd : sym ∣ fs) (hny : 41 * c * sym < fs) {tx : List ℝ}
    (htx : (do let it ← txFsk m fs sym ((20 * c * sym : ℕ) : ℝ); collect it) = pure tx) {snr eb : ℝ} (hs : 0 < snr)
    (heb : eb = (tx.map (· ^ 2)).sum / msg.length) (hσ : σ = √(2 * eb / snr) / 2) (hz : White P 1 z)
    (hg : ∀ ω, Gives (noise ω) (fun i => z i ω)) :
    ∃ bits : Ω → List Bool, (∀ ω, (do
        let s ← txFsk m fs sym ((20 * c * sym : ℕ) : ℝ)
        let ch ← awgn s σ (noise ω)
        let rx ← rxFsk ch fs sym ((20 * c * sym : ℕ) : ℝ)
        collect rx) = pure (bits ω)) ∧
      Flips P msg bits (fun _ => Real.exp (-snr / 2) / 2) ∧ ∫ ω, (ber msg (bits ω) : ℝ) ∂P = Real.exp (-snr / 2) / 2 := by
  obtain ⟨w, hw, hn⟩ := hz.driven hg σ
  have hP := hw.prob
  have hsps : 0 < fs / sym := Nat.div_pos (Nat.le_of_dvd (by omega) hdvd) hsym
  have hE := C106_energy h hsym hc hdvd hny htx
  have hk : (0 : ℝ) < (fs / sym : ℕ) / 2 := by have : (0 : ℝ) < (fs / sym : ℕ) := by exact_mod_cast hsps
                                               positivity
  have hl : (msg.length : ℝ) ≠ 0 := by simpa using hne
  rw [hE.total hsps, mul_div_cancel_left₀ _ hl] at heb
  have hσ0 : 0 < σ := by rw [hσ, heb]; positivity
  obtain ⟨bits, b1, b2⟩ := C106_fsk hz hσ0 hg h hsym hc hdvd hny
  have b3 : Flips P msg bits (fun _ => Real.exp (-snr / 2) / 2) := b2.congr fun n _ => by
    unfold envelopeError
    rw [hσ, heb, div_pow, Real.sq_sqrt (by positivity)]
    congr 3
    generalize ((fs / sym : ℕ) : ℝ) / 2 = E at hk
    field_simp
  refine ⟨bits, b1, b3, ?_⟩
  rw [C101_ber b3, Finset.sum_const, Finset.card_range, nsmul_eq_mul, mul_div_cancel_left₀ _ hl]

/-- Longer and longer messages through one noise: the measured bit error rate converges almost surely to that probability. -/
theorem C106_limit (hz : White P 1 z) (hσ : 0 < σ) (hg : ∀ ω, Gives (noise ω) (fun i => z i ω)) (g : ℕ → Bool) {fs sym c : ℕ}
    (hsym : 0 < sym) (hc : 0 < c) (hdvd : sym ∣ fs) (hny : 41 * c * sym < fs) :
    ∃ bits : ℕ → Ω → List Bool, (∀ N ω, (do
        let s ← txFsk (ofList ((List.range N).map g)) fs sym ((20 * c * sym : ℕ) : ℝ)
        let ch ← awgn s σ (noise ω)
        let rx ← rxFsk ch fs sym ((20 * c * sym : ℕ) : ℝ)
        collect rx) = pure (bits N ω)) ∧
      ∀ᵐ ω ∂P, Filter.Tendsto (fun N : ℕ => (ber ((List.range N).map g) (bits N ω) : ℝ)) Filter.atTop
        (nhds (envelopeError ((fs / sym : ℕ) / 2) σ)) := by
  obtain ⟨w, hw, hn⟩ := hz.driven hg σ
  have hP := hw.prob
  have hsps : 0 < fs / sym := Nat.div_pos (Nat.le_of_dvd (by omega) hdvd) hsym
  let rec' : ℕ → Ω → List Bool := fun N ω => ((List.range N).map g).mapIdx (fun n b => rxFskChunk fs ((20 * c * sym : ℕ) : ℝ) n
    ((List.range (fs / sym)).map (fun j => Real.cos (tone fs ((20 * c * sym : ℕ) : ℝ) b * (n * (fs / sym) + j : ℕ)) + w (n * (fs / sym) + j) ω)))
  have hF : ∀ N, Flips P ((List.range N).map g) (rec' N) (fun _ => envelopeError ((fs / sym : ℕ) / 2) σ) := fun N => by
    obtain ⟨bits, b1, b2⟩ := C106_fsk hz hσ hg (yields_ofList ((List.range N).map g)) hsym hc hdvd hny
    have : bits = rec' N := by
      funext ω
      have := b1 ω
      rw [fsk_chain hn (yields_ofList _) hsps ω, RM.ok_inj] at this
      exact this.symm
    rwa [this] at b2
  refine ⟨rec', fun N ω => fsk_chain hn (yields_ofList _) hsps ω, ?_⟩
  have := Flips.strong_law hF (fun N n ω hn => by
    simp only [rec', List.getElem?_mapIdx, List.getElem?_map, List.getElem?_range hn, List.getElem?_range (Nat.lt_succ_self n)])
  filter_upwards [this] with ω hω
  refine hω.congr fun N => ?_
  rw [ber_wrongAt ((hF N).length ω), List.length_map, List.length_range]

/-- At the same symbol energy and the same noise the coherent links of C101 make strictly fewer errors, and both are better than
guessing. -/
theorem C106_worse {E σ : ℝ} (hE : 0 < E) (hσ : 0 < σ) : bitError E σ < envelopeError E σ ∧ envelopeError E σ < 1 / 2 := by
  have hx : 0 < E / (2 * σ ^ 2) := by positivity
  unfold bitError envelopeError
  constructor
  · have h1 := Erfc_le (Real.sqrt_nonneg (E / (2 * σ ^ 2)))
    rw [Real.sq_sqrt hx.le] at h1
    have h2 : Real.exp (-(E / (2 * σ ^ 2))) < Real.exp (-(E / (2 * σ ^ 2)) / 2) := Real.exp_lt_exp.mpr (by linarith)
    linarith
  · have : Real.exp (-(E / (2 * σ ^ 2)) / 2) < 1 := by rw [Real.exp_lt_one_iff]; linarith
    linarith

example : bitError 80 2 < envelopeError 80 2 := (C106_worse (by norm_num) two_pos).1

/-- Sixteen samples per symbol would not do (`41 * sym < fs`); 160 are enough.  Three bits in noise of standard deviation 2: the bits
are wrong with probability `exp(-5)/2`. -/
example : ∃ bits : (ℕ → ℝ) → List Bool, (∀ ω, (do
        let s ← txFsk (ofList [true, false, true]) 160000 1000 (20000 : ℝ)
        let ch ← awgn s (2 : ℝ) (path ω)
        let rx ← rxFsk ch 160000 1000 (20000 : ℝ)
        collect rx) = pure (bits ω)) ∧
      (gaussPath 1).real {ω | (bits ω)[1]? ≠ some false} = Real.exp (-5) / 2 := by
  have hP := (white_path 1).prob
  obtain ⟨bits, b1, b2⟩ := C106_fsk (white_path 1) two_pos path_gives (yields_ofList [true, false, true]) (fs := 160000) (sym := 1000)
    (c := 1) (by norm_num) one_pos (by norm_num) (by norm_num)
  refine ⟨bits, by simpa using b1, ?_⟩
  rw [show some false = [true, false, true][1]? from rfl, C101_bit b2 (by simp), envelopeError]
  norm_num

example : ∃ (bits : (ℕ → ℝ) → List Bool) (p : ℕ → ℝ), (∀ ω, (do
        let s ← txFsk (ofList [true, false, true]) 16000 1000 (2345 : ℝ)
        let ch ← awgn s (2 : ℝ) (path ω)
        let rx ← rxFsk ch 16000 1000 (2345 : ℝ)
        collect rx) = pure (bits ω)) ∧ Flips (gaussPath 1) [true, false, true] bits p :=
  C106_memoryless (white_path 1).indep (fun i => ((white_path 1).law i).aemeasurable) path_gives 2 (yields_ofList [true, false, true])
    (by norm_num)

example : ∃ (σ : ℝ) (bits : (ℕ → ℝ) → List Bool), (∀ ω, (do
        let s ← txFsk (ofList [true, false, true]) 160000 1000 (20000 : ℝ)
        let ch ← awgn s σ (path ω)
        let rx ← rxFsk ch 160000 1000 (20000 : ℝ)
        collect rx) = pure (bits ω)) ∧ ∫ ω, (ber [true, false, true] (bits ω) : ℝ) ∂(gaussPath 1) = Real.exp (-4 / 2) / 2 := by
  obtain ⟨a, ha, -⟩ := Cases.fsk [true, false, true]
  obtain ⟨bits, b1, -, b3⟩ := C106_curve (yields_ofList [true, false, true]) (by simp) (fs := 160000) (sym := 1000) (c := 1)
    (by norm_num) one_pos (by norm_num) (by norm_num) (tx := a) (by simpa using ha) (snr := 4) (by norm_num) rfl rfl
    (white_path 1) path_gives
  rw [show ((20 * 1 * 1000 : ℕ) : ℝ) = 20000 by norm_num] at b1
  exact ⟨_, bits, b1, b3⟩

example : ∃ bits : ℕ → (ℕ → ℝ) → List Bool, (∀ N ω, (do
        let s ← txFsk (ofList ((List.range N).map (fun i => decide (i % 3 = 0)))) 160000 1000 (20000 : ℝ)
        let ch ← awgn s (2 : ℝ) (path ω)
        let rx ← rxFsk ch 160000 1000 (20000 : ℝ)
        collect rx) = pure (bits N ω)) ∧
      ∀ᵐ ω ∂(gaussPath 1), Filter.Tendsto (fun N : ℕ => (ber ((List.range N).map (fun i => decide (i % 3 = 0))) (bits N ω) : ℝ)) Filter.atTop
        (nhds (envelopeError 80 2)) := by
  obtain ⟨bits, b1, b2⟩ := C106_limit (white_path 1) two_pos path_gives (fun i => decide (i % 3 = 0)) (fs := 160000) (sym := 1000) (c := 1)
    (by norm_num) one_pos (by norm_num) (by norm_num)
  refine ⟨bits, by simpa using b1, ?_⟩
  have e : (((160000 / 1000 : ℕ) : ℝ) / 2) = 80 := by norm_num
  rwa [e] at b2

example : ∃ a : List ℝ, (do let it ← txFsk (ofList [true, false, true]) 160000 1000 (20000 : ℝ); collect it) = pure a ∧
    SymbolEnergy a 160 3 80 := by
  obtain ⟨a, ha, -⟩ := Cases.fsk [true, false, true]
  have := C106_energy (yields_ofList [true, false, true]) (fs := 160000) (sym := 1000) (c := 1)
    (by norm_num) one_pos (by norm_num) (by norm_num) (tx := a) (by simpa using ha)
  refine ⟨a, ha, ?_⟩
  norm_num at this
  exact this

end Verif.Props
