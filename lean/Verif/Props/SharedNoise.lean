import Verif.Lemmas.GaussRec
import Verif.Lemmas.GaussEnd
import Verif.Lemmas.Erfc
import Verif.Props.Gauss
import Verif.Props.Fdm
import Verif.Lemmas.IeeeCdma

/-!
# C121: fading, carrier phase errors, wrong keys and other stations, with noise

Exact arithmetic.  `z` is white Gaussian noise of standard deviation one (Spec/Gauss), the stream handed to `awgn` gives its
samples.  What reaches the receiver is any recording `r` of the kinds treated without noise in C79–C81 and C84, put through
`awgn`.  `marginError a E σ` (Spec/Margin) is the textbook error probability for an amplitude `a`.
-/
namespace Verif.Props
open Verif Spec MeasureTheory ProbabilityTheory
set_option linter.unusedSectionVars false
variable {κ ν : Type} {Ω : Type} [MeasurableSpace Ω] {P : Measure Ω} {σ : ℝ} {z : ℕ → Ω → ℝ} [RIter ν ℝ] {noise : Ω → ν}

/-! ## The error probability as a function of the margin -/

/-- A positive margin is worth the energy of a signal of that amplitude; a negative one gives the complementary chance; without a
margin the bit is a coin toss; and every bit of margin counts. -/
theorem C121_margin (hσ : 0 < σ) {E : ℝ} (hE : 0 < E) :
    (∀ a, 0 ≤ a → marginError a E σ = bitError (a ^ 2 * E) σ) ∧ (∀ a, marginError (-a) E σ = 1 - marginError a E σ) ∧
      marginError 0 E σ = 1 / 2 ∧ StrictAnti (fun a => marginError a E σ) := by
  have hs : 0 < √(E / (2 * σ ^ 2)) := Real.sqrt_pos.mpr (by positivity)
  have hn : ∀ a, marginError (-a) E σ = 1 - marginError a E σ := by
    intro a
    unfold marginError
    rw [neg_mul, Erfc_neg]; ring
  refine ⟨?_, hn, ?_, ?_⟩
  · intro a ha
    unfold marginError bitError
    rw [mul_div_assoc, Real.sqrt_mul (sq_nonneg a), Real.sqrt_sq ha]
  · have := hn 0
    rw [neg_zero] at this
    linarith
  · intro a b hab
    have := Erfc_strictAnti (mul_lt_mul_of_pos_right hab hs)
    unfold marginError
    simp only
    linarith

example : marginError 2 8 1 = bitError 32 1 := by
  rw [(C121_margin one_pos (by norm_num)).1 2 (by norm_num)]; norm_num

private theorem rec_getD {r : List ℝ} {N k : ℕ} {s : ℕ → ℕ → ℝ} (h : Recording r N k s) {n j : ℕ} (hn : n < N) (hj : j < k) :
    r.getD (n * k + j) 0 = s n (n * k + j) := by
  have hlt : n * k + j < N * k := by
    have := Nat.mul_le_mul_right k hn
    rw [Nat.succ_mul] at this
    omega
  have : (n * k + j) / k = n := by
    rw [Nat.mul_comm, Nat.mul_add_div (by omega), Nat.div_eq_of_lt hj, Nat.add_zero]
  rw [List.getD_eq_getElem?_getD, h.2 _ hlt, Option.getD_some, this]

/-! ## Any carrier amplitudes -/

/-- The receivers on a carrier with any amplitudes `X n` in phase and `Y n` in quadrature during symbol `n`, plus noise: against any
message one compares the answers with, they differ from it independently, each bit according to its own amplitude. -/
theorem C121_quadrature [RIter κ ℝ] (hz : White P 1 z) (hσ : 0 < σ) (hg : ∀ ω, Gives (noise ω) (fun i => z i ω))
    {fs sym N : ℕ} {fc : ℝ} (hsps : 0 < fs / sym) (hw : WholeHalf fs (fs / sym) fc) {X Y : ℕ → ℝ} {r : List ℝ}
    (h : Recording r N (fs / sym) (fun n i => X n * Real.cos (angle fs fc i) - Y n * Real.sin (angle fs fc i)))
    {rcv : κ} (hr : Yields rcv r) :
    (∀ msg : List Bool, msg.length = N → ∃ bits : Ω → List Bool, (∀ ω, (do
        let ch ← awgn rcv σ (noise ω)
        let rx ← rxBpsk ch fs sym fc
        collect rx) = pure (bits ω)) ∧
      Flips P msg bits (fun n => marginError (pm (msg.getD n false) * X n) ((fs / sym : ℕ) / 2) σ)) ∧
    (∀ msg : List Bool, msg.length = 2 * N → ∃ bits : Ω → List Bool, (∀ ω, (do
        let ch ← awgn rcv σ (noise ω)
        let rx ← rxQpsk ch fs sym fc
        collect rx) = pure (bits ω)) ∧
      Flips P msg bits (fun q => marginError (pm (msg.getD q false) * (if q % 2 = 0 then X (q / 2) else Y (q / 2)))
        ((fs / sym : ℕ) / 2) σ)) := by
  obtain ⟨w, hww, hn⟩ := hz.driven hg σ
  obtain ⟨p, hp, hs⟩ := hw.dphi hsps
  have hX : ∀ n < N, ∑ j ∈ Finset.range (fs / sym), r.getD (n * (fs / sym) + j) 0
      * Real.cos ((n * (fs / sym) + j : ℕ) * dphi fs fc) = (fs / sym : ℕ) / 2 * X n := by
    intro n hn
    rw [← (quad_corr hp hs (X n) (Y n) (n * (fs / sym))).1]
    refine Finset.sum_congr rfl fun j hj => ?_
    rw [rec_getD h hn (Finset.mem_range.mp hj), angle_dphi]
  have hY : ∀ n < N, ∑ j ∈ Finset.range (fs / sym), r.getD (n * (fs / sym) + j) 0
      * -Real.sin ((n * (fs / sym) + j : ℕ) * dphi fs fc) = (fs / sym : ℕ) / 2 * Y n := by
    intro n hn
    rw [← (quad_corr hp hs (X n) (Y n) (n * (fs / sym))).2]
    refine Finset.sum_congr rfl fun j hj => ?_
    rw [rec_getD h hn (Finset.mem_range.mp hj), angle_dphi]
  constructor
  · intro msg hm
    exact bpsk_rec hww hσ hn hr hsps hp hs (by rw [hm]; exact h.1) (fun n hn => hX n (hm ▸ hn))
  · intro msg hm
    exact qpsk_rec hww hσ hn hr hsps hp hs (by omega) h.1 hX hY

/-- The same for the receivers with a key. -/
theorem C121_quadrature_cdma [RIter κ ℝ] (hz : White P 1 z) (hσ : 0 < σ) (hg : ∀ ω, Gives (noise ω) (fun i => z i ω))
    {fs sym N : ℕ} {fc : ℝ} {key : List Bool}
    (hfs : fs < 2 ^ 64) (hsym : 0 < sym) (hL : 0 < key.length) (hdvd : sym * key.length ∣ fs)
    (hnyq : 2 * (sym * key.length) ≤ fs) (hfc : ⌊fc⌋₊ ≤ fs / 2) (hw : WholeHalf fs (fs / sym) fc) {X Y : ℕ → ℝ} {r : List ℝ}
    (h : Recording r N (fs / sym) (fun n i => (X n * Real.cos (angle fs fc i) - Y n * Real.sin (angle fs fc i))
      * chip key (fs / sym) i))
    {rcv : κ} (hr : Yields rcv r) :
    (∀ msg : List Bool, msg.length = N → ∃ bits : Ω → List Bool, (∀ ω, (do
        let ch ← awgn rcv σ (noise ω)
        let rx ← rxCdmaBpsk ch fs sym fc key
        collect rx) = pure (bits ω)) ∧
      Flips P msg bits (fun n => marginError (pm (msg.getD n false) * X n) ((fs / sym : ℕ) / 2) σ)) ∧
    (∀ msg : List Bool, msg.length = 2 * N → ∃ bits : Ω → List Bool, (∀ ω, (do
        let ch ← awgn rcv σ (noise ω)
        let rx ← rxCdmaQpsk ch fs sym fc key
        collect rx) = pure (bits ω)) ∧
      Flips P msg bits (fun q => marginError (pm (msg.getD q false) * (if q % 2 = 0 then X (q / 2) else Y (q / 2)))
        ((fs / sym : ℕ) / 2) σ)) := by
  obtain ⟨w, hww, hn⟩ := hz.driven hg σ
  have hok := (cdmaOk_real (fc := fc) hfs).mpr ⟨hsym, hL, hdvd, hnyq, hfc⟩
  have hsps : 0 < fs / sym := by have := hok.sps; omega
  obtain ⟨p, hp, hs⟩ := hw.dphi hsps
  have hchip : ∀ i, chip key (fs / sym) i * bitToNrz (keyBit key (fs / sym / key.length) i) = 1 := by
    intro i
    have : chip key (fs / sym) i = bitToNrz (keyBit key (fs / sym / key.length) i) := by rw [bitToNrz_real]; rfl
    rw [this, bitToNrz_sq]
  have hX : ∀ n < N, ∑ j ∈ Finset.range (fs / sym), r.getD (n * (fs / sym) + j) 0
      * bitToNrz (keyBit key (fs / sym / key.length) (n * (fs / sym) + j))
      * Real.cos ((n * (fs / sym) + j : ℕ) * dphi fs fc) = (fs / sym : ℕ) / 2 * X n := by
    intro n hn
    rw [← (quad_corr hp hs (X n) (Y n) (n * (fs / sym))).1]
    refine Finset.sum_congr rfl fun j hj => ?_
    rw [rec_getD h hn (Finset.mem_range.mp hj), angle_dphi, mul_assoc (_ - _), hchip, mul_one]
  have hY : ∀ n < N, ∑ j ∈ Finset.range (fs / sym), r.getD (n * (fs / sym) + j) 0
      * bitToNrz (keyBit key (fs / sym / key.length) (n * (fs / sym) + j))
      * -Real.sin ((n * (fs / sym) + j : ℕ) * dphi fs fc) = (fs / sym : ℕ) / 2 * Y n := by
    intro n hn
    rw [← (quad_corr hp hs (X n) (Y n) (n * (fs / sym))).2]
    refine Finset.sum_congr rfl fun j hj => ?_
    rw [rec_getD h hn (Finset.mem_range.mp hj), angle_dphi, mul_assoc (_ - _), hchip, mul_one]
  constructor
  · intro msg hm
    exact cdma_rec hww hσ hn hr hok hp hs (by rw [hm]; exact h.1) (fun n hn => hX n (hm ▸ hn))
  · intro msg hm
    exact cdma_qpsk_rec hww hσ hn hr hok hp hs (by omega) h.1 hX hY

/-! ## Strength and carrier phase changing from symbol to symbol -/

/-- BPSK received with strength `g n` and the carrier turned by `θ n` during symbol `n`: bit `n` is wrong with the textbook
probability for the amplitude `g n cos (θ n)`. -/
theorem C121_bpsk [RIter κ ℝ] (hz : White P 1 z) (hσ : 0 < σ) (hg : ∀ ω, Gives (noise ω) (fun i => z i ω))
    {fs sym : ℕ} {fc : ℝ} (hsps : 0 < fs / sym) (hw : WholeHalf fs (fs / sym) fc) {msg : List Bool} {g θ : ℕ → ℝ} {r : List ℝ}
    (h : Recording r msg.length (fs / sym) (fadedBpsk fs fc msg g θ)) {rcv : κ} (hr : Yields rcv r) :
    ∃ bits : Ω → List Bool, (∀ ω, (do
        let ch ← awgn rcv σ (noise ω)
        let rx ← rxBpsk ch fs sym fc
        collect rx) = pure (bits ω)) ∧
      Flips P msg bits (fun n => marginError (g n * Real.cos (θ n)) ((fs / sym : ℕ) / 2) σ) := by
  rw [show fadedBpsk fs fc msg g θ = _ from funext fun n => funext fun i => fadedBpsk_quad fs fc msg g θ n i] at h
  obtain ⟨bits, b1, b2⟩ := (C121_quadrature hz hσ hg hsps hw (X := fun n => g n * pm (msg.getD n false) * Real.cos (θ n))
    (Y := fun n => g n * pm (msg.getD n false) * Real.sin (θ n)) h hr).1 msg rfl
  refine ⟨bits, b1, b2.congr fun n _ => ?_⟩
  congr 1
  linear_combination g n * Real.cos (θ n) * pm_sq (msg.getD n false)

/-- The same for CDMA over BPSK. -/
theorem C121_cdma_bpsk [RIter κ ℝ] (hz : White P 1 z) (hσ : 0 < σ) (hg : ∀ ω, Gives (noise ω) (fun i => z i ω))
    {fs sym : ℕ} {fc : ℝ} {key : List Bool} (hfs : fs < 2 ^ 64) (hsym : 0 < sym) (hL : 0 < key.length)
    (hdvd : sym * key.length ∣ fs) (hnyq : 2 * (sym * key.length) ≤ fs) (hfc : ⌊fc⌋₊ ≤ fs / 2) (hw : WholeHalf fs (fs / sym) fc)
    {msg : List Bool} {g θ : ℕ → ℝ} {r : List ℝ}
    (h : Recording r msg.length (fs / sym) (fun n i => fadedBpsk fs fc msg g θ n i * chip key (fs / sym) i))
    {rcv : κ} (hr : Yields rcv r) :
    ∃ bits : Ω → List Bool, (∀ ω, (do
        let ch ← awgn rcv σ (noise ω)
        let rx ← rxCdmaBpsk ch fs sym fc key
        collect rx) = pure (bits ω)) ∧
      Flips P msg bits (fun n => marginError (g n * Real.cos (θ n)) ((fs / sym : ℕ) / 2) σ) := by
  simp only [fadedBpsk_quad] at h
  obtain ⟨bits, b1, b2⟩ := (C121_quadrature_cdma hz hσ hg hfs hsym hL hdvd hnyq hfc hw
    (X := fun n => g n * pm (msg.getD n false) * Real.cos (θ n))
    (Y := fun n => g n * pm (msg.getD n false) * Real.sin (θ n)) h hr).1 msg rfl
  refine ⟨bits, b1, b2.congr fun n _ => ?_⟩
  congr 1
  linear_combination g n * Real.cos (θ n) * pm_sq (msg.getD n false)

/-- QPSK: the phase error also mixes the two bits of a symbol.  Where it takes from one it gives to the other. -/
theorem C121_qpsk [RIter κ ℝ] (hz : White P 1 z) (hσ : 0 < σ) (hg : ∀ ω, Gives (noise ω) (fun i => z i ω))
    {fs sym N : ℕ} {fc : ℝ} (hsps : 0 < fs / sym) (hw : WholeHalf fs (fs / sym) fc) {msg : List Bool} (hm : msg.length = 2 * N)
    {g θ : ℕ → ℝ} {r : List ℝ} (h : Recording r N (fs / sym) (fadedQpsk fs fc msg g θ)) {rcv : κ} (hr : Yields rcv r) :
    ∃ bits : Ω → List Bool, (∀ ω, (do
        let ch ← awgn rcv σ (noise ω)
        let rx ← rxQpsk ch fs sym fc
        collect rx) = pure (bits ω)) ∧
      Flips P msg bits (fun q => marginError (g (q / 2) * (Real.cos (θ (q / 2)) + (if q % 2 = 0 then -1 else 1)
        * (pm (msg.getD (2 * (q / 2)) false) * pm (msg.getD (2 * (q / 2) + 1) false)) * Real.sin (θ (q / 2))))
        ((fs / sym : ℕ) / 2) σ) := by
  rw [show fadedQpsk fs fc msg g θ = _ from funext fun n => funext fun i => fadedQpsk_quad fs fc msg g θ n i] at h
  obtain ⟨bits, b1, b2⟩ := (C121_quadrature hz hσ hg hsps hw
    (X := fun n => g n * (pm (msg.getD (2 * n) false) * Real.cos (θ n) - pm (msg.getD (2 * n + 1) false) * Real.sin (θ n)))
    (Y := fun n => g n * (pm (msg.getD (2 * n) false) * Real.sin (θ n) + pm (msg.getD (2 * n + 1) false) * Real.cos (θ n)))
    h hr).2 msg hm
  refine ⟨bits, b1, b2.congr fun q _ => ?_⟩
  congr 1
  rcases Nat.mod_two_eq_zero_or_one q with h0 | h0
  · have e : q = 2 * (q / 2) := by omega
    simp only [h0, if_true]
    rw [show msg.getD q false = msg.getD (2 * (q / 2)) false by rw [← e]]
    linear_combination g (q / 2) * Real.cos (θ (q / 2)) * pm_sq (msg.getD (2 * (q / 2)) false)
  · have e : q = 2 * (q / 2) + 1 := by omega
    simp only [h0, one_ne_zero, if_false]
    rw [show msg.getD q false = msg.getD (2 * (q / 2) + 1) false by rw [← e]]
    linear_combination g (q / 2) * Real.cos (θ (q / 2)) * pm_sq (msg.getD (2 * (q / 2) + 1) false)

/-! ## Stations on other carriers -/

/-- Frequency division with noise: the stations on the other carriers, however strong, do not change the error probability of the
one received; it is the textbook one for its own strength. -/
theorem C121_stations [RIter κ ℝ] (hz : White P 1 z) (hσ : 0 < σ) (hg : ∀ ω, Gives (noise ω) (fun i => z i ω))
    {fs sym N : ℕ} (hsps : 0 < fs / sym) {us : List Station}
    (horth : us.Pairwise (fun u v => Spaced fs (fs / sym) u.carrier v.carrier))
    (hw : ∀ u ∈ us, WholeHalf fs (fs / sym) u.carrier) (hgain : ∀ u ∈ us, 0 < u.gain) (hN : ∀ u ∈ us, u.symbols N)
    {signals : List (List ℝ)} (htx : List.Forall₂ (Station.Sends fs sym) us signals) {channel : List ℝ}
    (hcl : channel.length = N * (fs / sym)) (hmix : Combined us signals channel) {rcv : κ} (hr : Yields rcv channel) :
    ∀ v ∈ us, ∃ bits : Ω → List Bool, (∀ ω, (do
        let ch ← awgn rcv σ (noise ω)
        v.heard fs sym ch) = pure (bits ω)) ∧
      Flips P v.msg bits (fun _ => bitError (v.gain ^ 2 * ((fs / sym : ℕ) / 2)) σ) := by
  intro v hv
  obtain ⟨w, hww, hn⟩ := hz.driven hg σ
  obtain ⟨p, hp, hs⟩ := (hw v hv).dphi hsps
  have hK : (0 : ℝ) < (fs / sym : ℕ) / 2 := by have : (0 : ℝ) < (fs / sym : ℕ) := by exact_mod_cast hsps
                                               positivity
  have hrec := onAir_of hsps hN htx hcl hmix
  have horth' : (us.map Station.carried).Pairwise (fun u v => Spaced fs (fs / sym) u.freq v.freq) := by
    rw [List.pairwise_map]; exact horth
  have hcorr := fun n => onAir_corr (pos_fs hsps) hsps horth' (List.mem_map_of_mem hv) (hw v hv) n
  have hX : ∀ n < N, ∑ j ∈ Finset.range (fs / sym), channel.getD (n * (fs / sym) + j) 0
      * Real.cos ((n * (fs / sym) + j : ℕ) * dphi fs v.carrier) = (fs / sym : ℕ) / 2 * v.carried.X n := by
    intro n hn
    rw [← (hcorr n).1]
    refine Finset.sum_congr rfl fun j hj => ?_
    rw [rec_getD hrec hn (Finset.mem_range.mp hj)]; rfl
  have hY : ∀ n < N, ∑ j ∈ Finset.range (fs / sym), channel.getD (n * (fs / sym) + j) 0
      * -Real.sin ((n * (fs / sym) + j : ℕ) * dphi fs v.carrier) = (fs / sym : ℕ) / 2 * v.carried.Y n := by
    intro n hn
    rw [← (hcorr n).2]
    refine Finset.sum_congr rfl fun j hj => ?_
    rw [rec_getD hrec hn (Finset.mem_range.mp hj)]; rfl
  have hl := hN v hv
  unfold Station.symbols at hl
  unfold Station.heard
  have hbit := (C121_margin hσ hK).1 v.gain (hgain v hv).le
  cases hq : v.qpsk
  · rw [hq] at hl
    simp only [Bool.false_eq_true, if_false] at hl ⊢
    obtain ⟨bits, b1, b2⟩ := bpsk_rec hww hσ hn hr hsps hp hs (by rw [hl]; exact hcl) (fun n hn => hX n (hl ▸ hn))
    refine ⟨bits, b1, b2.congr fun n _ => ?_⟩
    rw [← hbit]
    congr 1
    simp only [Station.carried, hq, Bool.false_eq_true, if_false]
    have := pm_sq (v.msg.getD n false)
    unfold pm at this ⊢
    linear_combination v.gain * this
  · rw [hq] at hl
    simp only [if_true] at hl ⊢
    obtain ⟨bits, b1, b2⟩ := qpsk_rec hww hσ hn hr hsps hp hs (msg := v.msg) (by omega) hcl hX hY
    refine ⟨bits, b1, b2.congr fun q _ => ?_⟩
    rw [← hbit]
    congr 1
    simp only [Station.carried, hq, if_true]
    have := pm_sq (v.msg.getD q false)
    rcases Nat.mod_two_eq_zero_or_one q with h0 | h0
    · have e : 2 * (q / 2) = q := by omega
      simp only [h0, if_true, e]
      unfold pm at this ⊢
      linear_combination v.gain * this
    · have e : 2 * (q / 2) + 1 = q := by omega
      simp only [h0, one_ne_zero, if_false, e]
      unfold pm at this ⊢
      linear_combination v.gain * this

/-! ## Stations with other keys -/

/-- The amplitude that a receiver with `key` sees of the bits number `n` of all stations: each station counts with its strength and
with the correlation of its key, `agreements - disagreements` per chip. -/
noncomputable def mixture (us : List Sender) (L : ℕ) (key : List Bool) (n : ℕ) : ℝ :=
  (us.map (fun u => u.gain * pm (u.msg.getD n false) * ((2 * (agreements u.key key : ℝ) - L) / L))).sum

private theorem collected_mixture {us : List Sender} {lane : Sender → Lane} {A : Lane → ℝ} {L spc n : ℕ} {key : List Bool} (hL : 0 < L)
    (hg : ∀ u, (lane u).gain = u.gain) (hk : ∀ u, (lane u).key = u.key) (hA : ∀ u, A (lane u) = pm (u.msg.getD n false)) :
    (spc : ℝ) / 2 * collected (us.map lane) L key A = (L * spc : ℕ) / 2 * mixture us L key n := by
  have hL' : (L : ℝ) ≠ 0 := by exact_mod_cast hL.ne'
  unfold collected mixture
  rw [List.map_map]
  induction us with
  | nil => simp
  | cons u us ih =>
    simp only [List.map_cons, List.sum_cons, Function.comp, hg, hk, hA] at ih ⊢
    rw [mul_add, ih]
    push_cast
    field_simp

/-- Any number of CDMA stations of any strengths with any keys of the same length, and noise: compared with any message, the answers of
a receiver with any key are wrong independently, bit `n` with the probability that belongs to the amplitude `mixture`. -/
theorem C121_users [RIter κ ℝ] (hz : White P 1 z) (hσ : 0 < σ) (hg : ∀ ω, Gives (noise ω) (fun i => z i ω))
    {us : List Sender} {N L fs sym : ℕ} {fc : ℝ}
    (hfs : fs < 2 ^ 64) (hsym : 0 < sym) (hL : 0 < L) (hdvd : sym * L ∣ fs) (hnyq : 2 * (sym * L) ≤ fs)
    (hfc : ⌊fc⌋₊ ≤ fs / 2) (hw : WholeHalf fs (fs / sym / L) fc)
    (hkey : ∀ u ∈ us, u.key.length = L) (hmsg : ∀ u ∈ us, u.msg.length = N)
    {signals : List (List ℝ)} (htx : List.Forall₂ (SendsBpsk fs sym fc) us signals)
    {channel : List ℝ} (hcl : channel.length = N * (fs / sym)) (hmix : Mixed us signals channel)
    {rcv : κ} (hrcv : Yields rcv channel) {key : List Bool} (hk : key.length = L) {msg : List Bool} (hm : msg.length = N) :
    ∃ bits : Ω → List Bool, (∀ ω, (do
        let ch ← awgn rcv σ (noise ω)
        let rx ← rxCdmaBpsk ch fs sym fc key
        collect rx) = pure (bits ω)) ∧
      Flips P msg bits (fun n => marginError (pm (msg.getD n false) * mixture us L key n) ((fs / sym : ℕ) / 2) σ) := by
  obtain ⟨w, hww, hn⟩ := hz.driven hg σ
  have hok := (cdmaOk_real (fc := fc) hfs).mpr ⟨hsym, hL, hdvd, hnyq, hfc⟩
  have h2 := hok.spc
  have hsps : 0 < fs / sym := by have := hok.sps; omega
  obtain ⟨p, hp, hs⟩ := hw.dphi (by omega)
  have hat : List.Forall₂ (fun u (s : List ℝ) => ∀ i < N * (fs / sym), s.getD i 0 =
      ((laneB u).X (i / (fs / sym)) * Real.cos (i * dphi fs fc) - (laneB u).Y (i / (fs / sym)) * Real.sin (i * dphi fs fc))
        * bitToNrz (keyBit u.key (fs / sym / L) i)) us signals := by
    clear hmix
    induction htx with
    | nil => exact .nil
    | @cons u s us ss h1 _ ih =>
      exact .cons (sendsB_at h1 (hkey u (by simp)) (hmsg u (by simp)))
        (ih (fun v hv => hkey v (by simp [hv])) (fun v hv => hmsg v (by simp [hv])))
  have hc := mixed_lanes hmix (lane := laneB) (fun _ => rfl) (fun _ => rfl) hcl hat
  have hsp : fs / sym = L * (fs / sym / L) := (Nat.mul_div_cancel' (dvd_sps hsym hdvd)).symm
  have hcorr := fun n => lanes_corr (us := us.map laneB) hL hsp hp hs
    (by intro u hu; obtain ⟨v, hv, rfl⟩ := List.mem_map.mp hu; exact hkey v hv) hk (by omega) n
  have hp' : ((fs / sym : ℕ) : ℝ) * dphi fs fc = ((L * p : ℤ) : ℝ) * Real.pi := by
    rw [hsp]; push_cast; linear_combination (L : ℝ) * hp
  refine cdma_rec hww hσ hn hrcv (hk ▸ hok) hp' hs (hm ▸ hcl) (fun n hn => ?_)
  have := collected_mixture (us := us) (lane := laneB) (A := fun u => u.X n) (L := L) (spc := fs / sym / L) (n := n) (key := key) hL
    (fun _ => rfl) (fun _ => rfl) (fun _ => rfl)
  rw [← hsp] at this
  rw [← this, ← (hcorr n).1, hk]
  refine Finset.sum_congr rfl fun j hj => ?_
  have hlt : n * (fs / sym) + j < N * (fs / sym) := by
    have h1 := Nat.mul_le_mul_right (fs / sym) (hm ▸ hn : n + 1 ≤ N)
    have h2 := Finset.mem_range.mp hj
    rw [Nat.add_mul, Nat.one_mul] at h1
    omega
  rw [List.getD_eq_getElem?_getD, hc _ hlt, Option.getD_some]

/-- The same for QPSK: bit `q` of the answer belongs to bits number `q` of the stations. -/
theorem C121_users_qpsk [RIter κ ℝ] (hz : White P 1 z) (hσ : 0 < σ) (hg : ∀ ω, Gives (noise ω) (fun i => z i ω))
    {us : List Sender} {N L fs sym : ℕ} {fc : ℝ}
    (hfs : fs < 2 ^ 64) (hsym : 0 < sym) (hL : 0 < L) (hdvd : sym * L ∣ fs) (hnyq : 2 * (sym * L) ≤ fs)
    (hfc : ⌊fc⌋₊ ≤ fs / 2) (hw : WholeHalf fs (fs / sym / L) fc)
    (hkey : ∀ u ∈ us, u.key.length = L) (hmsg : ∀ u ∈ us, u.msg.length = 2 * N)
    {signals : List (List ℝ)} (htx : List.Forall₂ (SendsQpsk fs sym fc) us signals)
    {channel : List ℝ} (hcl : channel.length = N * (fs / sym)) (hmix : Mixed us signals channel)
    {rcv : κ} (hrcv : Yields rcv channel) {key : List Bool} (hk : key.length = L) {msg : List Bool} (hm : msg.length = 2 * N) :
    ∃ bits : Ω → List Bool, (∀ ω, (do
        let ch ← awgn rcv σ (noise ω)
        let rx ← rxCdmaQpsk ch fs sym fc key
        collect rx) = pure (bits ω)) ∧
      Flips P msg bits (fun q => marginError (pm (msg.getD q false) * mixture us L key q) ((fs / sym : ℕ) / 2) σ) := by
  obtain ⟨w, hww, hn⟩ := hz.driven hg σ
  have hok := (cdmaOk_real (fc := fc) hfs).mpr ⟨hsym, hL, hdvd, hnyq, hfc⟩
  have h2 := hok.spc
  have hsps : 0 < fs / sym := by have := hok.sps; omega
  obtain ⟨p, hp, hs⟩ := hw.dphi (by omega)
  have hat : List.Forall₂ (fun u (s : List ℝ) => ∀ i < N * (fs / sym), s.getD i 0 =
      ((laneQ u).X (i / (fs / sym)) * Real.cos (i * dphi fs fc) - (laneQ u).Y (i / (fs / sym)) * Real.sin (i * dphi fs fc))
        * bitToNrz (keyBit u.key (fs / sym / L) i)) us signals := by
    clear hmix
    induction htx with
    | nil => exact .nil
    | @cons u s us ss h1 _ ih =>
      exact .cons (sendsQ_at h1 (hkey u (by simp)) (by rw [hmsg u (by simp)]; omega))
        (ih (fun v hv => hkey v (by simp [hv])) (fun v hv => hmsg v (by simp [hv])))
  have hc := mixed_lanes hmix (lane := laneQ) (fun _ => rfl) (fun _ => rfl) hcl hat
  have hsp : fs / sym = L * (fs / sym / L) := (Nat.mul_div_cancel' (dvd_sps hsym hdvd)).symm
  have hcorr := fun n => lanes_corr (us := us.map laneQ) hL hsp hp hs
    (by intro u hu; obtain ⟨v, hv, rfl⟩ := List.mem_map.mp hu; exact hkey v hv) hk (by omega) n
  have hp' : ((fs / sym : ℕ) : ℝ) * dphi fs fc = ((L * p : ℤ) : ℝ) * Real.pi := by
    rw [hsp]; push_cast; linear_combination (L : ℝ) * hp
  have hval : ∀ n < N, ∀ j ∈ Finset.range (fs / sym), channel.getD (n * (fs / sym) + j) 0
      = lanesAt (us.map laneQ) (fs / sym) (fs / sym / L) (dphi fs fc) (n * (fs / sym) + j) := by
    intro n hn j hj
    have hlt : n * (fs / sym) + j < N * (fs / sym) := by
      have h1 := Nat.mul_le_mul_right (fs / sym) (show n + 1 ≤ N from hn)
      have h2 := Finset.mem_range.mp hj
      rw [Nat.add_mul, Nat.one_mul] at h1
      omega
    rw [List.getD_eq_getElem?_getD, hc _ hlt, Option.getD_some]
  have hX : ∀ n < N, ∑ j ∈ Finset.range (fs / sym), channel.getD (n * (fs / sym) + j) 0
      * bitToNrz (keyBit key (fs / sym / key.length) (n * (fs / sym) + j))
      * Real.cos ((n * (fs / sym) + j : ℕ) * dphi fs fc) = (fs / sym : ℕ) / 2 * mixture us L key (2 * n) := by
    intro n hn
    have := collected_mixture (us := us) (lane := laneQ) (A := fun u => u.X n) (L := L) (spc := fs / sym / L) (n := 2 * n) (key := key) hL
      (fun _ => rfl) (fun _ => rfl) (fun _ => rfl)
    rw [← hsp] at this
    rw [← this, ← (hcorr n).1, hk]
    exact Finset.sum_congr rfl fun j hj => by rw [hval n hn j hj]
  have hY : ∀ n < N, ∑ j ∈ Finset.range (fs / sym), channel.getD (n * (fs / sym) + j) 0
      * bitToNrz (keyBit key (fs / sym / key.length) (n * (fs / sym) + j))
      * -Real.sin ((n * (fs / sym) + j : ℕ) * dphi fs fc) = (fs / sym : ℕ) / 2 * mixture us L key (2 * n + 1) := by
    intro n hn
    have := collected_mixture (us := us) (lane := laneQ) (A := fun u => u.Y n) (L := L) (spc := fs / sym / L) (n := 2 * n + 1) (key := key)
      hL (fun _ => rfl) (fun _ => rfl) (fun _ => rfl)
    rw [← hsp] at this
    rw [← this, ← (hcorr n).2, hk]
    exact Finset.sum_congr rfl fun j hj => by rw [hval n hn j hj]
  obtain ⟨bits, b1, b2⟩ := cdma_qpsk_rec hww hσ hn hrcv (hk ▸ hok) hp' hs (msg := msg) (N := N) (by omega) hcl hX hY
  refine ⟨bits, b1, b2.congr fun q _ => ?_⟩
  have : (if q % 2 = 0 then mixture us L key (2 * (q / 2)) else mixture us L key (2 * (q / 2) + 1)) = mixture us L key q := by
    split_ifs
    · congr 1; omega
    · congr 1; omega
  rw [this]; rfl

/-- With pairwise orthogonal keys only the station one listens to is left. -/
theorem mixture_own {us : List Sender} {v : Sender} (hv : v ∈ us) {L : ℕ} (hL : 0 < L) (hkey : v.key.length = L)
    (horth : us.Pairwise (fun u w => 2 * agreements u.key w.key = L)) (n : ℕ) :
    mixture us L v.key n = v.gain * pm (v.msg.getD n false) := by
  have hL' : (L : ℝ) ≠ 0 := by exact_mod_cast hL.ne'
  unfold mixture
  rw [sum_own (R := fun u w : Sender => 2 * agreements u.key w.key = L)
    (fun a b h => by rw [agreements_comm]; exact h) horth hv (fun u hu => by
      have : 2 * (agreements u.key v.key : ℝ) = L := by exact_mod_cast hu
      rw [this]; simp)]
  rw [agreements_self, hkey]
  field_simp
  ring

/-- Orthogonal keys with noise: the other stations, however strong, do not change the error probability either. -/
theorem C121_orthogonal [RIter κ ℝ] (hz : White P 1 z) (hσ : 0 < σ) (hg : ∀ ω, Gives (noise ω) (fun i => z i ω))
    {us : List Sender} {N L fs sym : ℕ} {fc : ℝ}
    (hfs : fs < 2 ^ 64) (hsym : 0 < sym) (hL : 0 < L) (hdvd : sym * L ∣ fs) (hnyq : 2 * (sym * L) ≤ fs)
    (hfc : ⌊fc⌋₊ ≤ fs / 2) (hw : WholeHalf fs (fs / sym / L) fc)
    (hkey : ∀ u ∈ us, u.key.length = L) (hmsg : ∀ u ∈ us, u.msg.length = N) (hgain : ∀ u ∈ us, 0 < u.gain)
    (horth : us.Pairwise (fun u v => 2 * agreements u.key v.key = L))
    {signals : List (List ℝ)} (htx : List.Forall₂ (SendsBpsk fs sym fc) us signals)
    {channel : List ℝ} (hcl : channel.length = N * (fs / sym)) (hmix : Mixed us signals channel)
    {rcv : κ} (hrcv : Yields rcv channel) :
    ∀ v ∈ us, ∃ bits : Ω → List Bool, (∀ ω, (do
        let ch ← awgn rcv σ (noise ω)
        let rx ← rxCdmaBpsk ch fs sym fc v.key
        collect rx) = pure (bits ω)) ∧
      Flips P v.msg bits (fun _ => bitError (v.gain ^ 2 * ((fs / sym : ℕ) / 2)) σ) := by
  intro v hv
  obtain ⟨bits, b1, b2⟩ := C121_users hz hσ hg hfs hsym hL hdvd hnyq hfc hw hkey hmsg htx hcl hmix hrcv (hkey v hv) (hmsg v hv)
  have hok := (cdmaOk_real (fc := fc) hfs).mpr ⟨hsym, hL, hdvd, hnyq, hfc⟩
  have hK : (0 : ℝ) < (fs / sym : ℕ) / 2 := by
    have : (0 : ℝ) < (fs / sym : ℕ) := by exact_mod_cast (by have := hok.sps; omega : 0 < fs / sym)
    positivity
  refine ⟨bits, b1, b2.congr fun n _ => ?_⟩
  rw [← (C121_margin hσ hK).1 v.gain (hgain v hv).le, mixture_own hv hL (hkey v hv) horth]
  congr 1
  linear_combination v.gain * pm_sq (v.msg.getD n false)

theorem C121_orthogonal_qpsk [RIter κ ℝ] (hz : White P 1 z) (hσ : 0 < σ) (hg : ∀ ω, Gives (noise ω) (fun i => z i ω))
    {us : List Sender} {N L fs sym : ℕ} {fc : ℝ}
    (hfs : fs < 2 ^ 64) (hsym : 0 < sym) (hL : 0 < L) (hdvd : sym * L ∣ fs) (hnyq : 2 * (sym * L) ≤ fs)
    (hfc : ⌊fc⌋₊ ≤ fs / 2) (hw : WholeHalf fs (fs / sym / L) fc)
    (hkey : ∀ u ∈ us, u.key.length = L) (hmsg : ∀ u ∈ us, u.msg.length = 2 * N) (hgain : ∀ u ∈ us, 0 < u.gain)
    (horth : us.Pairwise (fun u v => 2 * agreements u.key v.key = L))
    {signals : List (List ℝ)} (htx : List.Forall₂ (SendsQpsk fs sym fc) us signals)
    {channel : List ℝ} (hcl : channel.length = N * (fs / sym)) (hmix : Mixed us signals channel)
    {rcv : κ} (hrcv : Yields rcv channel) :
    ∀ v ∈ us, ∃ bits : Ω → List Bool, (∀ ω, (do
        let ch ← awgn rcv σ (noise ω)
        let rx ← rxCdmaQpsk ch fs sym fc v.key
        collect rx) = pure (bits ω)) ∧
      Flips P v.msg bits (fun _ => bitError (v.gain ^ 2 * ((fs / sym : ℕ) / 2)) σ) := by
  intro v hv
  obtain ⟨bits, b1, b2⟩ := C121_users_qpsk hz hσ hg hfs hsym hL hdvd hnyq hfc hw hkey hmsg htx hcl hmix hrcv (hkey v hv) (hmsg v hv)
  have hok := (cdmaOk_real (fc := fc) hfs).mpr ⟨hsym, hL, hdvd, hnyq, hfc⟩
  have hK : (0 : ℝ) < (fs / sym : ℕ) / 2 := by
    have : (0 : ℝ) < (fs / sym : ℕ) := by exact_mod_cast (by have := hok.sps; omega : 0 < fs / sym)
    positivity
  refine ⟨bits, b1, b2.congr fun n _ => ?_⟩
  rw [← (C121_margin hσ hK).1 v.gain (hgain v hv).le, mixture_own hv hL (hkey v hv) horth]
  congr 1
  linear_combination v.gain * pm_sq (v.msg.getD n false)

/-! ## Concrete cases -/

/-- Half strength, then turned by a third of a half turn, then by a quarter turn: eight samples a symbol. -/
example : ∃ bits : (ℕ → ℝ) → List Bool, (∀ ω, (do
        let ch ← awgn (ofList (record 3 8 (fadedBpsk 8000 1000 [true, false, true] (fun n => if n = 0 then 1 / 2 else 1) (fun n => n * (Real.pi / 4))))) (1 : ℝ) (path ω)
        let rx ← rxBpsk ch 8000 1000 (1000 : ℝ)
        collect rx) = pure (bits ω)) ∧
      (gaussPath 1).real {ω | (bits ω)[0]? ≠ some true} = bitError 1 1 ∧
      (gaussPath 1).real {ω | (bits ω)[1]? ≠ some false} = bitError 2 1 ∧
      (gaussPath 1).real {ω | (bits ω)[2]? ≠ some true} = 1 / 2 := by
  obtain ⟨bits, b1, b2⟩ := C121_bpsk (white_path 1) (σ := 1) one_pos path_gives (fs := 8000) (sym := 1000) (by norm_num) whole_8000
    (msg := [true, false, true]) (g := fun n => if n = 0 then 1 / 2 else 1) (θ := fun n => n * (Real.pi / 4))
    (record_spec _ _ _) (yields_ofList _)
  have hP := (white_path 1).prob
  have hm := C121_margin (σ := 1) one_pos (E := ((8000 / 1000 : ℕ) : ℝ) / 2) (by norm_num)
  refine ⟨bits, b1, ?_, ?_, ?_⟩
  · refine (C101_bit b2 (n := 0) (by norm_num)).trans ?_
    rw [hm.1 _ (by norm_num)]
    norm_num
  · refine (C101_bit b2 (n := 1) (by norm_num)).trans ?_
    simp only [Nat.cast_one, one_mul, one_ne_zero, if_false, Real.cos_pi_div_four]
    rw [hm.1 _ (by positivity), div_pow, Real.sq_sqrt (by norm_num)]
    norm_num
  · refine (C101_bit b2 (n := 2) (by norm_num)).trans ?_
    have : ((2 : ℕ) : ℝ) * (Real.pi / 4) = Real.pi / 2 := by push_cast; ring
    simp only [this, Real.cos_pi_div_two, mul_zero]
    exact hm.2.2.1

private theorem whole_chip : WholeHalf 8 (8 / 1 / 2) 1 := ⟨⟨1, by norm_num⟩, fun q hq => by
  have h1 : ((2 : ℤ) : ℝ) = ((8 * q : ℤ) : ℝ) := by push_cast; push_cast at hq; linarith
  have h2 : (2 : ℤ) = 8 * q := by exact_mod_cast h1
  omega⟩

/-- CDMA with the carrier turned by an eighth of a turn: half of the energy is lost. -/
example : ∃ bits : (ℕ → ℝ) → List Bool, (∀ ω, (do
        let ch ← awgn (ofList (record 2 8 (fun n i => fadedBpsk 8000 1000 [true, false] (fun _ => 1) (fun _ => Real.pi / 4) n i * chip [true, false] 8 i))) (1 : ℝ) (path ω)
        let rx ← rxCdmaBpsk ch 8000 1000 (1000 : ℝ) [true, false]
        collect rx) = pure (bits ω)) ∧
      (gaussPath 1).real {ω | (bits ω)[1]? ≠ some false} = bitError 2 1 := by
  obtain ⟨bits, b1, b2⟩ := C121_cdma_bpsk (white_path 1) (σ := 1) one_pos path_gives (fs := 8000) (sym := 1000) (fc := 1000)
    (key := [true, false]) (by norm_num) (by norm_num) (by norm_num) (by norm_num) (by norm_num) (by norm_num) whole_8000
    (msg := [true, false]) (g := fun _ => 1) (θ := fun _ => Real.pi / 4) (record_spec _ _ _) (yields_ofList _)
  have hP := (white_path 1).prob
  refine ⟨bits, b1, (C101_bit b2 (n := 1) (by norm_num)).trans ?_⟩
  rw [Real.cos_pi_div_four, (C121_margin one_pos (by norm_num)).1 _ (by positivity), one_mul, div_pow, Real.sq_sqrt (by norm_num)]
  norm_num

/-- QPSK turned by an eighth of a turn: one bit of the symbol becomes a coin toss, the other one gains. -/
example : ∃ bits : (ℕ → ℝ) → List Bool, (∀ ω, (do
        let ch ← awgn (ofList (record 1 8 (fadedQpsk 8000 1000 [true, true] (fun _ => 1) (fun _ => Real.pi / 4)))) (1 : ℝ) (path ω)
        let rx ← rxQpsk ch 8000 1000 (1000 : ℝ)
        collect rx) = pure (bits ω)) ∧
      (gaussPath 1).real {ω | (bits ω)[0]? ≠ some true} = 1 / 2 ∧
      (gaussPath 1).real {ω | (bits ω)[1]? ≠ some true} = bitError 8 1 := by
  obtain ⟨bits, b1, b2⟩ := C121_qpsk (white_path 1) (σ := 1) one_pos path_gives (fs := 8000) (sym := 1000) (N := 1) (by norm_num) whole_8000
    (msg := [true, true]) rfl (g := fun _ => 1) (θ := fun _ => Real.pi / 4) (record_spec _ _ _) (yields_ofList _)
  have hP := (white_path 1).prob
  have hm := C121_margin (σ := 1) one_pos (E := ((8000 / 1000 : ℕ) : ℝ) / 2) (by norm_num)
  refine ⟨bits, b1, ?_, ?_⟩
  · refine (C101_bit b2 (n := 0) (by norm_num)).trans ?_
    rw [← hm.2.2.1]
    congr 1
    simp [pm, Real.cos_pi_div_four, Real.sin_pi_div_four]
  · refine (C101_bit b2 (n := 1) (by norm_num)).trans ?_
    have : (1 : ℝ) * (Real.cos (Real.pi / 4) + (if 1 % 2 = 0 then -1 else 1) * (pm ([true, true].getD (2 * (1 / 2)) false)
        * pm ([true, true].getD (2 * (1 / 2) + 1) false)) * Real.sin (Real.pi / 4)) = √2 := by
      simp [pm, Real.cos_pi_div_four, Real.sin_pi_div_four]
    rw [this, hm.1 _ (by positivity), Real.sq_sqrt (by norm_num)]
    norm_num

/-- A weak station beside one a thousand times stronger with an orthogonal key, and noise: four samples a chip. -/
example : ∃ signals channel,
    List.Forall₂ (SendsBpsk 8 1 1) [⟨1, [true, true], [true, false]⟩, ⟨1000, [true, false], [false, false]⟩] signals ∧
    Mixed [⟨1, [true, true], [true, false]⟩, ⟨1000, [true, false], [false, false]⟩] signals channel ∧
    ∃ bits : (ℕ → ℝ) → List Bool, (∀ ω, (do
        let ch ← awgn (ofList channel) (1 : ℝ) (path ω)
        let rx ← rxCdmaBpsk ch 8 1 1 [true, true]
        collect rx) = pure (bits ω)) ∧ (gaussPath 1).real {ω | (bits ω)[1]? ≠ some false} = bitError 4 1 := by
  let us : List Sender := [⟨1, [true, true], [true, false]⟩, ⟨1000, [true, false], [false, false]⟩]
  have h1 : ∀ u ∈ us, u.key.length = 2 := by simp [us]
  have h2 : ∀ u ∈ us, u.msg.length = 2 := by simp [us]
  obtain ⟨s, c, e1, e2, e3⟩ := (C80_channel_exists (fs := 8) (sym := 1) (fc := 1) (by norm_num) (by norm_num) (by norm_num)
    (by norm_num) (by norm_num) (by norm_num) h1).1 2 h2
  obtain ⟨bits, b1, b2⟩ := C121_orthogonal (white_path 1) (σ := 1) one_pos path_gives (fs := 8) (sym := 1) (fc := 1) (by norm_num)
    (by norm_num) (by norm_num) (by norm_num) (by norm_num) (by norm_num) whole_chip h1 h2 (by simp [us]) (by simp [us]; decide)
    e1 e2 e3 (yields_ofList c) ⟨1, [true, true], [true, false]⟩ (by simp [us])
  have hP := (white_path 1).prob
  refine ⟨s, c, e1, e3, bits, b1, (C101_bit b2 (n := 1) (by norm_num)).trans ?_⟩
  norm_num

/-- The same with QPSK. -/
example : ∃ signals channel,
    List.Forall₂ (SendsQpsk 8 1 1) [⟨1, [true, true], [true, false]⟩, ⟨1000, [true, false], [false, false]⟩] signals ∧
    Mixed [⟨1, [true, true], [true, false]⟩, ⟨1000, [true, false], [false, false]⟩] signals channel ∧
    ∃ bits : (ℕ → ℝ) → List Bool, (∀ ω, (do
        let ch ← awgn (ofList channel) (1 : ℝ) (path ω)
        let rx ← rxCdmaQpsk ch 8 1 1 [true, true]
        collect rx) = pure (bits ω)) ∧ (gaussPath 1).real {ω | (bits ω)[1]? ≠ some false} = bitError 4 1 := by
  let us : List Sender := [⟨1, [true, true], [true, false]⟩, ⟨1000, [true, false], [false, false]⟩]
  have h1 : ∀ u ∈ us, u.key.length = 2 := by simp [us]
  have h2 : ∀ u ∈ us, u.msg.length = 2 * 1 := by simp [us]
  obtain ⟨s, c, e1, e2, e3⟩ := (C80_channel_exists (fs := 8) (sym := 1) (fc := 1) (by norm_num) (by norm_num) (by norm_num)
    (by norm_num) (by norm_num) (by norm_num) h1).2 1 h2
  obtain ⟨bits, b1, b2⟩ := C121_orthogonal_qpsk (white_path 1) (σ := 1) one_pos path_gives (fs := 8) (sym := 1) (fc := 1) (by norm_num)
    (by norm_num) (by norm_num) (by norm_num) (by norm_num) (by norm_num) whole_chip h1 h2 (by simp [us]) (by simp [us]; decide)
    e1 e2 e3 (yields_ofList c) ⟨1, [true, true], [true, false]⟩ (by simp [us])
  have hP := (white_path 1).prob
  refine ⟨s, c, e1, e3, bits, b1, (C101_bit b2 (n := 1) (by norm_num)).trans ?_⟩
  norm_num

/-- Keys of length four that agree in three places: a station three times as strong as the one listened to makes its bits worse
where the two stations send opposite bits, and better where they send the same. -/
example : ∃ signals channel,
    List.Forall₂ (SendsBpsk 16 1 2) [⟨1, [true, true, true, true], [true, true]⟩, ⟨3, [true, true, true, false], [true, false]⟩] signals ∧
    Mixed [⟨1, [true, true, true, true], [true, true]⟩, ⟨3, [true, true, true, false], [true, false]⟩] signals channel ∧
    ∃ bits : (ℕ → ℝ) → List Bool, (∀ ω, (do
        let ch ← awgn (ofList channel) (1 : ℝ) (path ω)
        let rx ← rxCdmaBpsk ch 16 1 2 [true, true, true, true]
        collect rx) = pure (bits ω)) ∧ (gaussPath 1).real {ω | (bits ω)[0]? ≠ some true} = bitError 50 1 ∧
      (gaussPath 1).real {ω | (bits ω)[1]? ≠ some true} = 1 - bitError 2 1 := by
  let us : List Sender := [⟨1, [true, true, true, true], [true, true]⟩, ⟨3, [true, true, true, false], [true, false]⟩]
  have h1 : ∀ u ∈ us, u.key.length = 4 := by simp [us]
  have h2 : ∀ u ∈ us, u.msg.length = 2 := by simp [us]
  obtain ⟨s, c, e1, e2, e3⟩ := (C80_channel_exists (fs := 16) (sym := 1) (fc := 2) (by norm_num) (by norm_num) (by norm_num)
    (by norm_num) (by norm_num) (by norm_num) h1).1 2 h2
  obtain ⟨bits, b1, b2⟩ := C121_users (white_path 1) (σ := 1) one_pos path_gives (us := us) (fs := 16) (sym := 1) (fc := 2) (by norm_num)
    (by norm_num) (by norm_num) (by norm_num) (by norm_num) (by norm_num) ⟨⟨1, by norm_num⟩, fun q hq => by
      have h1 : ((4 : ℤ) : ℝ) = ((16 * q : ℤ) : ℝ) := by push_cast; push_cast at hq; linarith
      have h2 : (4 : ℤ) = 16 * q := by exact_mod_cast h1
      omega⟩ h1 h2 e1 e2 e3 (yields_ofList c) (key := [true, true, true, true]) rfl (msg := [true, true]) rfl
  have hP := (white_path 1).prob
  have hm := C121_margin (σ := 1) one_pos (E := ((16 / 1 : ℕ) : ℝ) / 2) (by norm_num)
  refine ⟨s, c, e1, e3, bits, b1, ?_, ?_⟩
  · refine (C101_bit b2 (n := 0) (by norm_num)).trans ?_
    have : pm ([true, true].getD 0 false) * mixture us 4 [true, true, true, true] 0 = 5 / 2 := by
      simp [mixture, us, pm, agreements]; norm_num
    rw [this, hm.1 _ (by norm_num)]
    norm_num
  · refine (C101_bit b2 (n := 1) (by norm_num)).trans ?_
    have : pm ([true, true].getD 1 false) * mixture us 4 [true, true, true, true] 1 = -(1 / 2) := by
      simp [mixture, us, pm, agreements]; norm_num
    rw [this, hm.2.1, hm.1 _ (by norm_num)]
    norm_num

/-- A weak BPSK station beside a QPSK station a thousand times stronger on another carrier, and noise. -/
example : ∃ signals channel, List.Forall₂ (Station.Sends 8000 1000)
      [⟨((1 * 1000 : ℕ) : ℝ), 0.5, false, [true, false]⟩, ⟨((2 * 1000 : ℕ) : ℝ), 500, true, [true, false, false, true]⟩] signals ∧
    Combined [⟨((1 * 1000 : ℕ) : ℝ), 0.5, false, [true, false]⟩, ⟨((2 * 1000 : ℕ) : ℝ), 500, true, [true, false, false, true]⟩] signals channel ∧
    ∃ bits : (ℕ → ℝ) → List Bool, (∀ ω, (do
        let ch ← awgn (ofList channel) (1 : ℝ) (path ω)
        let rx ← rxBpsk ch 8000 1000 ((1 * 1000 : ℕ) : ℝ)
        collect rx) = pure (bits ω)) ∧ (gaussPath 1).real {ω | (bits ω)[1]? ≠ some false} = bitError 1 1 := by
  set us : List Station := [⟨((1 * 1000 : ℕ) : ℝ), 0.5, false, [true, false]⟩,
    ⟨((2 * 1000 : ℕ) : ℝ), 500, true, [true, false, false, true]⟩] with hus
  have hm : ∀ a b : ℕ, 0 < a → a ≤ 3 → 0 < b → b ≤ 3 → a ≠ b → _ := fun a b h1 h2 h3 h4 h5 =>
    C84_multiples (fs := 8000) (sym := 1000) (a := a) (b := b) (by norm_num) (by norm_num) h1 h3 h5 (by omega) (by omega)
  have hN : ∀ u ∈ us, u.symbols 2 := by
    intro u hu; simp only [hus, List.mem_cons, List.not_mem_nil, or_false] at hu; rcases hu with rfl | rfl <;> rfl
  obtain ⟨signals, channel, h1, h2, h3⟩ := C84_channel_exists (fs := 8000) (sym := 1000) (N := 2) (us := us) (by norm_num)
    (by norm_num) (by norm_num) (by
      intro u hu; simp only [hus, List.mem_cons, List.not_mem_nil, or_false] at hu
      rcases hu with rfl | rfl <;> (rw [Nat.floor_natCast]; norm_num)) hN
  obtain ⟨bits, b1, b2⟩ := C121_stations (white_path 1) (σ := 1) one_pos path_gives (us := us) (by norm_num) (by
      simp only [hus, List.pairwise_cons, List.mem_cons, List.not_mem_nil, or_false, forall_eq, false_imp_iff,
        implies_true, List.Pairwise.nil, and_true]
      exact (hm 1 2 (by norm_num) (by norm_num) (by norm_num) (by norm_num) (by norm_num)).1) (by
      intro u hu; simp only [hus, List.mem_cons, List.not_mem_nil, or_false] at hu
      rcases hu with rfl | rfl
      · exact (hm 1 2 (by norm_num) (by norm_num) (by norm_num) (by norm_num) (by norm_num)).2
      · exact (hm 2 1 (by norm_num) (by norm_num) (by norm_num) (by norm_num) (by norm_num)).2) (by
      intro u hu; simp only [hus, List.mem_cons, List.not_mem_nil, or_false] at hu
      rcases hu with rfl | rfl <;> norm_num) hN h1 h2 h3 (yields_ofList _)
    ⟨((1 * 1000 : ℕ) : ℝ), 0.5, false, [true, false]⟩ (by simp [hus])
  have hP := (white_path 1).prob
  refine ⟨signals, channel, h1, h3, bits, b1, (C101_bit b2 (n := 1) (by norm_num)).trans ?_⟩
  norm_num

end Verif.Props
