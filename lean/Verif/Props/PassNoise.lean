import Verif.Lemmas.PassNoise
import Verif.Props.Gauss

/-!
# Property C140: passband OFDM in white noise

Exact arithmetic; the noise as in Props/Gauss.  The receiver mixes with both phases of the carrier before the discrete Fourier
transform, so that — other than at baseband, see Props/GaussOfdm — no two bits share their noise: over all frames but the last the
chain is a memoryless channel.  The correlator window is one sample late, which moves every clean value by at most 8, and the last
window of the transmission lacks a sample.
-/
namespace Verif.Props
open Verif Spec MeasureTheory ProbabilityTheory
set_option linter.unusedSectionVars false
variable {ι ν : Type} {Ω : Type} [MeasurableSpace Ω] {P : Measure Ω} {σ : ℝ} {z : ℕ → Ω → ℝ} [RIter ν ℝ] {noise : Ω → ν}

private theorem carrier_facts {fs sym : ℕ} {fc : ℝ} (hk : 12 ≤ fs / sym) {q : ℤ} (hq : (fs / sym : ℕ) * fc = q * fs)
    (hne : ∀ r : ℤ, 2 * fc ≠ r * fs) :
    Real.sin (dphi fs fc) ≠ 0 ∧ ((fs / sym : ℕ) : ℝ) * dphi fs fc = q * (2 * Real.pi) := by
  have hfs0 : (fs : ℝ) ≠ 0 := by
    intro h0
    have : fs = 0 := by exact_mod_cast h0
    simp [this] at hk
  constructor
  · intro h0
    obtain ⟨r, hr⟩ := Real.sin_eq_zero_iff.mp h0
    apply hne r
    unfold dphi at hr
    field_simp at hr
    exact hr.symm
  · unfold dphi
    field_simp
    linear_combination hq

/-- The chain for one outcome of the noise. -/
private theorem pass_chain [RIter ι Bool] {m : ι} {msg : List Bool} (h : Yields m msg) {n p fs sym : ℕ} {fc : ℝ} (h1 : 1 ≤ p)
    (h2 : p < n) (hfs : fs < 2 ^ 64) (hdvd : sym ∣ fs) (hk : 12 ≤ fs / sym) {std : ν} {v : ℕ → ℝ} (hv : Drives σ std v) :
    (do let s ← txOfdmQpsk m n p fs sym fc
        let ch ← awgn s σ std
        let rx ← rxOfdmQpsk ch n p fs sym fc
        collect rx) = pure (passBits fs (fs / sym) fc n p msg v) := by
  have hint : isInt (Flt.ofNat fs / Flt.ofNat sym : ℝ) = true := (isInt_real hfs (pos_of_sps (by omega : 0 < fs / sym))).mpr hdvd
  obtain ⟨it, e, hy⟩ := txOfdmQpsk_ok h (fc := fc) h1 h2.le (by omega : 0 < fs / sym) hint
  obtain ⟨ch, c1, c2⟩ := awgn_driven hy hv
  obtain ⟨it2, e2, hy2⟩ := rxOfdmQpsk_ok c2 (fc := fc) (S := (ofdmSamples (F := ℝ) n p msg).length) h1 h2.le (by omega)
    hint (by rw [List.length_mapIdx, wave_length]) (by rw [ofdmSamples_length]; exact ⟨_, Nat.mul_comm _ _⟩)
  rw [e, pure_bind, c1, pure_bind, e2, pure_bind, collect_of_yields hy2]
  rfl

private theorem margin {k : ℕ} (hk : 12 ≤ k) : 0 ≤ (k : ℝ) / 2 * √2 - 8 := by
  have hk' : (12 : ℝ) ≤ k := by exact_mod_cast hk
  have h2 : (1.4 : ℝ) ≤ √2 := Real.le_sqrt_of_sq_le (by norm_num)
  nlinarith

private theorem area {n k : ℕ} (hn : 2 ≤ n) (hk : 12 ≤ k) : (12 : ℝ) ≤ n * k / 2 := by
  have hk' : (12 : ℝ) ≤ k := by exact_mod_cast hk
  have hn' : (2 : ℝ) ≤ n := by exact_mod_cast hn
  nlinarith

/-- The bits of all frames but the last (`2·(n - p)` bits to a frame): a memoryless channel.  Every bit is flipped with the error
probability of an energy close to `k/n`, `k` being the number of samples to a symbol: the amplitude `k/√2` is known up to 8. -/
theorem C140_channel (hz : White P 1 z) (hσ : 0 < σ) (hg : ∀ ω, Gives (noise ω) (fun i => z i ω)) [RIter ι Bool] {m : ι}
    {msg : List Bool} (h : Yields m msg) {n p fs sym : ℕ} {fc : ℝ} (h1 : 1 ≤ p) (h2 : p < n) (he : n % 2 = 0) (hfs : fs < 2 ^ 64)
    (hdvd : sym ∣ fs) (hk : 12 ≤ fs / sym) {q : ℤ} (hq : (fs / sym : ℕ) * fc = q * fs) (hne : ∀ r : ℤ, 2 * fc ≠ r * fs) {B : ℕ}
    (hB : B ≤ 2 * (n - p) * ((msg.length / 2 + (n - p) - 1) / (n - p) - 1)) :
    ∃ (bits : Ω → List Bool) (pr : ℕ → ℝ), (∀ ω, (do
        let s ← txOfdmQpsk m n p fs sym fc
        let ch ← awgn s σ (noise ω)
        let rx ← rxOfdmQpsk ch n p fs sym fc
        collect rx) = pure (bits ω)) ∧
      Flips P (msg.take B) (fun ω => (bits ω).take B) pr ∧
      ∀ b < B, bitError (((fs / sym : ℕ) / 2 * √2 + 8) ^ 2 / (n * (fs / sym : ℕ) / 2)) σ ≤ pr b ∧
        pr b ≤ bitError (((fs / sym : ℕ) / 2 * √2 - 8) ^ 2 / (n * (fs / sym : ℕ) / 2)) σ := by
  obtain ⟨w, hw, hn⟩ := hz.driven hg σ
  obtain ⟨hs, hper⟩ := carrier_facts hk hq hne
  obtain ⟨D, hD, hbits⟩ := pass_bits (fs := fs) h1 h2 he (by omega : 2 ≤ fs / sym) hper hs msg
  have hK : 0 < n - p := by omega
  have harea := area (n := n) (by omega) hk
  set S := (ofdmSamples (F := ℝ) n p msg).length with hSdef
  set F := (msg.length / 2 + (n - p) - 1) / (n - p) with hF
  have hS : S = F * (n + n / 4) := by
    rw [hSdef, ofdmSamples_length, blocks_length _ (by omega), pairs_length]
  -- positions
  have hB2 : B ≤ 2 * (msg.length / 2) := by
    have e1 := Nat.div_add_mod (msg.length / 2 + (n - p) - 1) (n - p)
    rw [← hF] at e1
    rcases Nat.eq_zero_or_pos F with h0 | h0
    · rw [h0] at hB; simp at hB; omega
    · have e2 : (n - p) * (F - 1) + (n - p) = (n - p) * F := by
        rw [← Nat.mul_succ, Nat.succ_eq_add_one, Nat.sub_add_cancel h0]
      rw [Nat.mul_assoc] at hB
      have := Nat.mod_lt (msg.length / 2 + (n - p) - 1) hK
      omega
  have hBm : B ≤ msg.length := by omega
  have hwin : ∀ b < B, bodyAt n p (b / 2) * (fs / sym) + 1 + n * (fs / sym) ≤ S * (fs / sym) := by
    intro b hb
    have hf : b / 2 / (n - p) < F - 1 := by
      rw [Nat.div_lt_iff_lt_mul hK, Nat.mul_comm]
      rw [Nat.mul_assoc] at hB
      omega
    have h3 : bodyAt n p (b / 2) + n + 1 ≤ S := by
      have : (b / 2 / (n - p) + 2) * (n + n / 4) ≤ F * (n + n / 4) := Nat.mul_le_mul_right _ (by
        generalize b / 2 / (n - p) = x at hf ⊢
        clear_value F
        omega)
      rw [Nat.add_mul] at this
      unfold bodyAt
      omega
    have := Nat.mul_le_mul_right (fs / sym) h3
    rw [Nat.add_mul, Nat.add_mul] at this
    omega
  refine ⟨fun ω => passBits fs (fs / sym) fc n p msg (fun i => w i ω), _,
    fun ω => pass_chain h h1 h2 hfs hdvd hk (hn ω),
    flips_offsets hw hσ (M := S * (fs / sym)) (fun b => brow (dphi fs fc) (fs / sym) n p b) (K := n * (fs / sym : ℕ) / 2) D
      (by linarith) ?_ ?_ ?_ ?_, ?_⟩
  · intro ω
    rw [List.length_take, List.length_take, passBits_length h1 h2 (by omega), ← hF]
    have : B ≤ 2 * (n - p) * F := hB.trans (Nat.mul_le_mul_left _ (Nat.sub_le _ _))
    rw [Nat.min_eq_left this, Nat.min_eq_left hBm]
  · intro b hb
    rw [List.length_take] at hb
    exact brow_energy h2 (by omega) hper hs (hwin b (by omega))
  · intro b hb b' _ hbb
    rw [List.length_take] at hb
    exact brow_ortho h1 h2 (by omega) hper hs (hwin b (by omega)) hbb
  · intro ω b hb
    rw [List.length_take] at hb
    rw [List.getElem?_take_of_lt (by omega), (hbits (fun i => w i ω) b (by omega) (by omega)).2, List.getElem_take]
    rfl
  · intro b hb
    have := abs_le.mp (hD b (by omega))
    exact error_between hσ (margin hk) (by linarith) (by linarith) (by linarith) le_rfl le_rfl

/-- Every bit of the message, also in the last frame. -/
theorem C140_bit (hz : White P 1 z) (hσ : 0 < σ) (hg : ∀ ω, Gives (noise ω) (fun i => z i ω)) [RIter ι Bool] {m : ι}
    {msg : List Bool} (h : Yields m msg) {n p fs sym : ℕ} {fc : ℝ} (h1 : 1 ≤ p) (h2 : p < n) (he : n % 2 = 0) (hfs : fs < 2 ^ 64)
    (hdvd : sym ∣ fs) (hk : 12 ≤ fs / sym) {q : ℤ} (hq : (fs / sym : ℕ) * fc = q * fs) (hne : ∀ r : ℤ, 2 * fc ≠ r * fs) :
    ∃ bits : Ω → List Bool, (∀ ω, (do
        let s ← txOfdmQpsk m n p fs sym fc
        let ch ← awgn s σ (noise ω)
        let rx ← rxOfdmQpsk ch n p fs sym fc
        collect rx) = pure (bits ω)) ∧
      (∀ ω, (bits ω).length = 2 * (n - p) * ((msg.length / 2 + (n - p) - 1) / (n - p))) ∧
      ∀ b < 2 * (msg.length / 2),
        bitError (((fs / sym : ℕ) / 2 * √2 + 8) ^ 2 / (n * (fs / sym : ℕ) / 2 - 1)) σ ≤ P.real {ω | (bits ω)[b]? ≠ msg[b]?} ∧
        P.real {ω | (bits ω)[b]? ≠ msg[b]?} ≤ bitError (((fs / sym : ℕ) / 2 * √2 - 8) ^ 2 / (n * (fs / sym : ℕ) / 2)) σ := by
  obtain ⟨w, hw, hn⟩ := hz.driven hg σ
  have hP := hw.prob
  obtain ⟨hs, hper⟩ := carrier_facts hk hq hne
  obtain ⟨D, hD, hbits⟩ := pass_bits (fs := fs) h1 h2 he (by omega : 2 ≤ fs / sym) hper hs msg
  have harea := area (n := n) (by omega) hk
  refine ⟨fun ω => passBits fs (fs / sym) fc n p msg (fun i => w i ω),
    fun ω => pass_chain h h1 h2 hfs hdvd hk (hn ω), fun ω => passBits_length h1 h2 (by omega) _ _, fun b hb => ?_⟩
  have hbm : b < msg.length := by omega
  obtain ⟨e1, e2⟩ := brow_energy_near (b := b) h2 (by omega : 0 < fs / sym) hper hs (hbits 0 b hbm hb).1
  have hfl := flips_offsets hw hσ (bits := fun ω => ((passBits fs (fs / sym) fc n p msg (fun i => w i ω))[b]?).toList) (msg := [msg[b]])
    (M := (ofdmSamples (F := ℝ) n p msg).length * (fs / sym)) (fun _ => brow (dphi fs fc) (fs / sym) n p b) (fun _ => D b)
    (K := ∑ i ∈ Finset.range ((ofdmSamples (F := ℝ) n p msg).length * (fs / sym)), brow (dphi fs fc) (fs / sym) n p b i ^ 2)
    (by linarith) (fun ω => by rw [(hbits (fun i => w i ω) b hbm hb).2]; rfl) (fun _ _ => rfl)
    (fun k hk l hl hkl => by simp at hk hl; omega)
    (fun ω j hj => by
      obtain rfl : j = 0 := by simpa using hj
      rw [(hbits (fun i => w i ω) b hbm hb).2]
      rfl)
  have hwr := hfl.wrong (n := 0) (by simp)
  have hset : {ω | (passBits fs (fs / sym) fc n p msg (fun i => w i ω))[b]? ≠ msg[b]?}
      = {ω | ((passBits fs (fs / sym) fc n p msg (fun i => w i ω))[b]?).toList[0]? ≠ [msg[b]][0]?} := by
    ext ω
    show _ ≠ _ ↔ _ ≠ _
    rw [List.getElem?_eq_getElem hbm]
    cases (passBits fs (fs / sym) fc n p msg (fun i => w i ω))[b]? <;> simp
  rw [hset, hwr]
  have := abs_le.mp (hD b hb)
  exact error_between hσ (margin hk) (by linarith) (by linarith) (by linarith) e1 e2

/-- The whole message: the chance that any bit of it is wrong. -/
theorem C140_message (hz : White P 1 z) (hσ : 0 < σ) (hg : ∀ ω, Gives (noise ω) (fun i => z i ω)) [RIter ι Bool] {m : ι}
    {msg : List Bool} (h : Yields m msg) {n p fs sym : ℕ} {fc : ℝ} (h1 : 1 ≤ p) (h2 : p < n) (he : n % 2 = 0) (hfs : fs < 2 ^ 64)
    (hdvd : sym ∣ fs) (hk : 12 ≤ fs / sym) {q : ℤ} (hq : (fs / sym : ℕ) * fc = q * fs) (hne : ∀ r : ℤ, 2 * fc ≠ r * fs) :
    ∃ bits : Ω → List Bool, (∀ ω, (do
        let s ← txOfdmQpsk m n p fs sym fc
        let ch ← awgn s σ (noise ω)
        let rx ← rxOfdmQpsk ch n p fs sym fc
        collect rx) = pure (bits ω)) ∧
      P.real {ω | (bits ω).take (2 * (msg.length / 2)) ≠ msg.take (2 * (msg.length / 2))}
        ≤ msg.length * bitError (((fs / sym : ℕ) / 2 * √2 - 8) ^ 2 / (n * (fs / sym : ℕ) / 2)) σ := by
  have hP := hz.prob
  obtain ⟨bits, b1, -, b3⟩ := C140_bit hz hσ hg h h1 h2 he hfs hdvd hk hq hne
  refine ⟨bits, b1, ?_⟩
  have hsub : {ω | (bits ω).take (2 * (msg.length / 2)) ≠ msg.take (2 * (msg.length / 2))}
      ⊆ ⋃ b ∈ Finset.range (2 * (msg.length / 2)), {ω | (bits ω)[b]? ≠ msg[b]?} := by
    intro ω hω
    by_contra hc
    apply hω
    simp only [Set.mem_iUnion, Finset.mem_range, not_exists] at hc
    apply List.ext_getElem?
    intro b
    by_cases hb : b < 2 * (msg.length / 2)
    · rw [List.getElem?_take_of_lt hb, List.getElem?_take_of_lt hb]
      by_contra hx
      exact hc b hb hx
    · rw [List.getElem?_take_eq_none (by omega), List.getElem?_take_eq_none (by omega)]
  refine (measureReal_mono hsub (measure_ne_top _ _)).trans ((measureReal_biUnion_finset_le _ _).trans ?_)
  refine (Finset.sum_le_sum fun b hb => (b3 b (Finset.mem_range.mp hb)).2).trans ?_
  rw [Finset.sum_const, Finset.card_range, nsmul_eq_mul]
  refine mul_le_mul_of_nonneg_right ?_ ?_
  · exact_mod_cast (by omega : 2 * (msg.length / 2) ≤ msg.length)
  · unfold bitError
    have := Erfc_pos (√((((fs / sym : ℕ) / 2 * √2 - 8) ^ 2 / (n * (fs / sym : ℕ) / 2)) / (2 * σ ^ 2)))
    linarith

/-- The parameters of the crate's own passband OFDM test: 64 carriers, 12 of them without data, 49 samples to a symbol.  At a standard
deviation of a tenth a message of 2080 bits arrives without error but once in a million times. -/
example (msg : List Bool) (hm : msg.length = 2080) :
    ∃ bits : (ℕ → ℝ) → List Bool, (∀ ω, (do
        let s ← txOfdmQpsk (ofList msg) 64 12 44100 900 (1800 : ℝ)
        let ch ← awgn s (1 / 10 : ℝ) (path ω)
        let rx ← rxOfdmQpsk ch 64 12 44100 900 (1800 : ℝ)
        collect rx) = pure (bits ω)) ∧
      (gaussPath 1).real {ω | (bits ω).take 2080 ≠ msg} ≤ 1 / 10 ^ 6 := by
  obtain ⟨bits, b1, b2⟩ := C140_message (σ := 1 / 10) (white_path 1) (by norm_num) path_gives (yields_ofList msg) (n := 64) (p := 12)
    (fs := 44100) (sym := 900) (fc := 1800) (q := 2) (by norm_num) (by norm_num) (by norm_num) (by norm_num) (by norm_num) (by norm_num)
    (by norm_num) (fun r hr => by
      have h1 : ((3600 : ℤ) : ℝ) = (r * 44100 : ℤ) := by push_cast at hr ⊢; linarith
      have h2 : (3600 : ℤ) = r * 44100 := by exact_mod_cast h1
      omega)
  refine ⟨bits, b1, ?_⟩
  rw [hm, List.take_of_length_le (by omega : msg.length ≤ 2 * (2080 / 2))] at b2
  refine b2.trans ?_
  have hs2 : (1.414 : ℝ) ≤ √2 := Real.le_sqrt_of_sq_le (by norm_num)
  have hE : (22 : ℝ) ≤ (((44100 / 900 : ℕ) : ℝ) / 2 * √2 - 8) ^ 2 / ((64 : ℕ) * (44100 / 900 : ℕ) / 2) / (2 * (1 / 10) ^ 2) := by
    norm_num
    rw [le_div_iff₀ (by norm_num)]
    nlinarith
  unfold bitError
  set E := (((44100 / 900 : ℕ) : ℝ) / 2 * √2 - 8) ^ 2 / ((64 : ℕ) * (44100 / 900 : ℕ) / 2) / (2 * (1 / 10) ^ 2) with hEdef
  have h3 := Erfc_le (Real.sqrt_nonneg E)
  rw [Real.sq_sqrt (by linarith)] at h3
  have h4 : Real.exp (-E) ≤ 1 / 2.7 ^ 22 := by
    refine (Real.exp_le_exp.mpr (neg_le_neg hE)).trans ?_
    rw [Real.exp_neg, ← one_div]
    refine one_div_le_one_div_of_le (by norm_num) ?_
    rw [show (22 : ℝ) = (22 : ℕ) * 1 by norm_num, Real.exp_nat_mul]
    exact pow_le_pow_left₀ (by norm_num) (by linarith [Real.exp_one_gt_d9]) 22
  have h5 : (1 : ℝ) / 2.7 ^ 22 ≤ 1 / 10 ^ 9 * (19 / 20) := by norm_num
  push_cast
  linarith

/-- Two frames, and the channel over the first. -/
example (msg : List Bool) (hm : msg.length = 24) :
    ∃ (bits : (ℕ → ℝ) → List Bool) (pr : ℕ → ℝ), (∀ ω, (do
        let s ← txOfdmQpsk (ofList msg) 8 2 64000 1000 (2000 : ℝ)
        let ch ← awgn s (2 : ℝ) (path ω)
        let rx ← rxOfdmQpsk ch 8 2 64000 1000 (2000 : ℝ)
        collect rx) = pure (bits ω)) ∧
      Flips (gaussPath 1) (msg.take 12) (fun ω => (bits ω).take 12) pr ∧ ∀ b < 12, 0 < pr b ∧ pr b < 1 / 2 := by
  obtain ⟨bits, pr, b1, b2, b3⟩ := C140_channel (σ := 2) (white_path 1) (by norm_num) path_gives (yields_ofList msg) (n := 8) (p := 2)
    (fs := 64000) (sym := 1000) (fc := 2000) (q := 2) (B := 12) (by norm_num) (by norm_num) (by norm_num) (by norm_num) (by norm_num)
    (by norm_num) (by norm_num) (fun r hr => by
      have h1 : ((4000 : ℤ) : ℝ) = (r * 64000 : ℤ) := by push_cast at hr ⊢; linarith
      have h2 : (4000 : ℤ) = r * 64000 := by exact_mod_cast h1
      omega) (by rw [hm])
  refine ⟨bits, pr, b1, b2, fun b hb => ?_⟩
  obtain ⟨c1, c2⟩ := b3 b hb
  have hs2 : (1.414 : ℝ) ≤ √2 := Real.le_sqrt_of_sq_le (by norm_num)
  have hp : (0 : ℝ) < ((64000 / 1000 : ℕ) : ℝ) / 2 * √2 - 8 := by norm_num; linarith
  refine ⟨lt_of_lt_of_le (bitError_bounds ?_ (by norm_num)).1 c1, lt_of_le_of_lt c2 (bitError_bounds ?_ (by norm_num)).2⟩
  · refine div_pos (pow_pos (by linarith) 2) (by norm_num)
  · exact div_pos (pow_pos hp 2) (by norm_num)

end Verif.Props
