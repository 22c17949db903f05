import Verif.Lemmas.Bayes
import Verif.Lemmas.ErfcConvex
import Verif.Props.Gauss

/-!
# Property C117: no receiver makes fewer errors

Exact arithmetic and ideal white Gaussian noise.  A *rule* is any function from recordings to bits that is measurable on
recordings of the length at hand; it may depend on the carrier, the key, the noise level and all the other bits of the message.
-/
namespace Verif.Props
open Verif Spec MeasureTheory ProbabilityTheory
set_option linter.unusedSectionVars false
variable {ι ν ρ : Type} {Ω : Type} [MeasurableSpace Ω] {P : Measure Ω} {σ : ℝ} {z w : ℕ → Ω → ℝ} [RIter ν ℝ] {noise : Ω → ν}

/-- Two signals in noise, one of which was sent: whatever rule decides which, its error probability averaged over the two is
at least `½ erfc(d/(2√2σ))`, `d` being their distance. -/
theorem C117_bound (hz : White P 1 z) (hσ : 0 < σ) (hg : ∀ ω, Gives (noise ω) (fun i => z i ω)) {N : ℕ} {tx : Bool → List ℝ}
    (hlen : ∀ b, (tx b).length = N) {rec : Bool → Ω → List ℝ} (hrec : ∀ b ω, awgnPy (tx b) σ (noise ω) = pure (rec b ω))
    {rule : List ℝ → Bool} (hr : Measurable fun x : Fin N → ℝ => rule (List.ofFn x)) :
    Erfc (√((List.zipWith (fun x y => (x - y) ^ 2) (tx true) (tx false)).sum / (8 * σ ^ 2))) / 2 ≤
      (P.real {ω | rule (rec true ω) = false} + P.real {ω | rule (rec false ω) = true}) / 2 := by
  have hs : Flt.isFinite σ = true := rfl
  have hrec' : ∀ b ω, rec b ω = List.ofFn fun i : Fin N => (tx b)[i]'(by rw [hlen]; exact i.2) + σ * z i ω := by
    intro b ω
    have := hrec b ω
    rw [C56_awgn_py _ (hg ω) σ hs, RM.ok_inj] at this
    rw [← this]
    apply List.ext_getElem
    · simp [hlen]
    · intro i h1 h2
      simp
  have hget : ∀ b (i : Fin N), (tx b)[i]'(by rw [hlen]; exact i.2) = (tx b).getD i 0 := by
    intro b i
    rw [List.getD_eq_getElem?_getD, List.getElem?_eq_getElem (by rw [hlen]; exact i.2)]
    rfl
  have key := hz.two_signals hσ N (fun i => (tx true).getD i 0) (fun i => (tx false).getD i 0) hr
  have hsum : (List.zipWith (fun x y => (x - y) ^ 2) (tx true) (tx false)).sum =
      ∑ i ∈ Finset.range N, ((tx true).getD i 0 - (tx false).getD i 0) ^ 2 := by
    rw [← rsum_range, rsum_eq_sum]
    congr 1
    apply List.ext_getElem
    · simp [hlen]
    · intro i h1 h2
      have hi : i < N := by simpa using h2
      have e1 := hget true ⟨i, hi⟩
      have e2 := hget false ⟨i, hi⟩
      simp only [Fin.getElem_fin] at e1 e2
      rw [List.getElem_zipWith, List.getElem_map, List.getElem_range, e1, e2]
  rw [hsum]
  refine key.trans (le_of_eq ?_)
  simp only [hrec', hget]

private theorem dist_self (l : List ℝ) : (List.zipWith (fun x y => (x - y) ^ 2) l l).sum = 0 := by
  induction l with
  | nil => rfl
  | cons a l _ => simp

/-- The distance of two waves that differ in one symbol. -/
private theorem dist_set (k : ℕ) (w : ℕ → Bool → ℕ → ℝ) (msg : List Bool) {n : ℕ} (hn : n < msg.length) :
    (List.zipWith (fun x y => (x - y) ^ 2) (wave k w (msg.set n true)) (wave k w (msg.set n false))).sum =
      ∑ j ∈ Finset.range k, (w n true j - w n false j) ^ 2 := by
  induction msg generalizing n w with
  | nil => simp at hn
  | cons a msg ih =>
    cases n with
    | zero =>
      simp only [List.set_cons_zero, wave_cons]
      rw [List.zipWith_append (by simp), List.sum_append, dist_self, add_zero, ← rsum_range, rsum_eq_sum]
      congr 1
      apply List.ext_getElem <;> simp
    | succ n =>
      simp only [List.set_cons_succ, wave_cons]
      rw [List.zipWith_append (by simp), List.sum_append, dist_self, zero_add]
      exact ih _ (by simpa using hn)

/-- Two messages that differ in bit `n`, sent with the two signs of a carrier. -/
private theorem optimal_core (hz : White P 1 z) (hσ : 0 < σ) (hg : ∀ ω, Gives (noise ω) (fun i => z i ω)) {k : ℕ} (hk : 0 < k)
    {msg : List Bool} {n : ℕ} (hn : n < msg.length) {c : ℕ → ℕ → ℝ} {tx : Bool → List ℝ}
    (htx : ∀ b, tx b = wave k (fun m b j => bitToNrz b * c m j) (msg.set n b)) {rec : Bool → Ω → List ℝ}
    (hrec : ∀ b ω, awgnPy (tx b) σ (noise ω) = pure (rec b ω))
    {rule : List ℝ → Bool} (hr : Measurable fun x : Fin (msg.length * k) → ℝ => rule (List.ofFn x)) (b : Bool) :
    bitError ((symbol k n (tx b)).map (· ^ 2)).sum σ ≤
      (P.real {ω | rule (rec true ω) = false} + P.real {ω | rule (rec false ω) = true}) / 2 := by
  have hlen : ∀ b, (tx b).length = msg.length * k := fun b => by rw [htx, wave_length, List.length_set]
  refine le_trans (le_of_eq ?_) (C117_bound hz hσ hg hlen hrec hr)
  have hE : ((symbol k n (tx b)).map (· ^ 2)).sum = ∑ j ∈ Finset.range k, c n j ^ 2 := by
    rw [htx, wave_symbol_energy hk _ _ (by rw [List.length_set]; exact hn)]
    refine Finset.sum_congr rfl fun j _ => ?_
    rw [mul_pow, pow_two (bitToNrz _), bitToNrz_sq, one_mul]
  have hD : (List.zipWith (fun x y => (x - y) ^ 2) (tx true) (tx false)).sum = 4 * ∑ j ∈ Finset.range k, c n j ^ 2 := by
    rw [htx, htx, dist_set k _ msg hn, Finset.mul_sum]
    refine Finset.sum_congr rfl fun j _ => ?_
    rw [bitToNrz_real, bitToNrz_real]
    simp
    ring
  rw [hE, hD]
  unfold bitError
  congr 3
  field_simp
  ring

private theorem optimal_flips (hz : White P 1 z) (hσ : 0 < σ) (hg : ∀ ω, Gives (noise ω) (fun i => z i ω)) {k : ℕ} (hk : 0 < k)
    {msg : List Bool} {n : ℕ} (hn : n < msg.length) {c : ℕ → ℕ → ℝ} {tx : Bool → List ℝ}
    (htx : ∀ b, tx b = wave k (fun m b j => bitToNrz b * c m j) (msg.set n b)) {bits : Bool → Ω → List Bool}
    (hb : ∀ b, Flips P (msg.set n b) (bits b) (fun n => bitError ((symbol k n (tx b)).map (· ^ 2)).sum σ))
    (rule : List ℝ → Bool) (hr : Measurable fun x : Fin (msg.length * k) → ℝ => rule (List.ofFn x)) :
    (P.real {ω | (bits true ω)[n]? ≠ some true} + P.real {ω | (bits false ω)[n]? ≠ some false}) / 2 ≤
      (P.real {ω | rule ((tx true).mapIdx (fun i x => x + (0 + σ * z i ω))) ≠ true} +
        P.real {ω | rule ((tx false).mapIdx (fun i x => x + (0 + σ * z i ω))) ≠ false}) / 2 := by
  have hP := hz.prob
  have hs : Flt.isFinite σ = true := rfl
  have key := optimal_core hz hσ hg hk hn htx (rec := fun b ω => (tx b).mapIdx (fun i x => x + (0 + σ * z i ω)))
    (fun b ω => C56_awgn_py _ (hg ω) σ hs) hr
  have hone : ∀ b, P.real {ω | (bits b ω)[n]? ≠ some b} = bitError ((symbol k n (tx b)).map (· ^ 2)).sum σ := by
    intro b
    rw [← C101_bit (hb b) (by rw [List.length_set]; exact hn), List.getElem?_set_self hn]
  rw [hone, hone]
  simp only [Bool.not_eq_true, Bool.not_eq_false]
  linarith [key true, key false]

/-- BPSK, any carrier, two or more samples per symbol.  Bit `n` of a message is sent as one or as zero, the other bits being whatever
they are.  The receiver of the library answers bit `n` wrongly, on average over the two, no more often than any rule. -/
theorem C117_bpsk (hz : White P 1 z) (hσ : 0 < σ) (hg : ∀ ω, Gives (noise ω) (fun i => z i ω)) {msg : List Bool} {n : ℕ}
    (hn : n < msg.length) {fs sym : ℕ} {fc : ℝ} (hfs : fs < 2 ^ 64) (hdvd : sym ∣ fs) (hsps : 2 ≤ fs / sym)
    (hfc : ⌊fc⌋₊ ≤ fs / 2) :
    ∃ (rec : Bool → Ω → List ℝ) (bits : Bool → Ω → List Bool), (∀ b ω, (do
        let s ← txBpsk (ofList (msg.set n b)) fs sym fc
        let ch ← awgn s σ (noise ω)
        collect ch) = pure (rec b ω)) ∧ (∀ b ω, (do
        let s ← txBpsk (ofList (msg.set n b)) fs sym fc
        let ch ← awgn s σ (noise ω)
        let rx ← rxBpsk ch fs sym fc
        collect rx) = pure (bits b ω)) ∧
      ∀ rule : List ℝ → Bool, (Measurable fun x : Fin (msg.length * (fs / sym)) → ℝ => rule (List.ofFn x)) →
        (P.real {ω | (bits true ω)[n]? ≠ some true} + P.real {ω | (bits false ω)[n]? ≠ some false}) / 2 ≤
          (P.real {ω | rule (rec true ω) ≠ true} + P.real {ω | rule (rec false ω) ≠ false}) / 2 := by
  have hs : Flt.isFinite σ = true := rfl
  have hok : ∀ b, ∃ (tx : List ℝ), (do let it ← txBpsk (ofList (msg.set n b)) fs sym fc; collect it) = pure tx ∧
      ∀ ω, (do
        let s ← txBpsk (ofList (msg.set n b)) fs sym fc
        let ch ← awgn s σ (noise ω)
        collect ch) = pure (tx.mapIdx (fun i x => x + (0 + σ * z i ω))) := by
    intro b
    obtain ⟨it, e1, e2⟩ := txBpsk_ok (yields_ofList (msg.set n b)) (fc := fc) (show 0 < fs / sym by omega)
      (by rw [Flt.toNat_real]; omega) ((isInt_real hfs (pos_of_sps (show 0 < fs / sym by omega))).mpr hdvd)
    refine ⟨_, by rw [e1, pure_bind]; exact collect_of_yields e2, fun ω => ?_⟩
    obtain ⟨ch, c1, c2⟩ := C56_awgn e2 (hg ω) σ hs
    rw [e1, pure_bind, c1, pure_bind, collect_of_yields c2]
  choose tx htx hrec using hok
  have hw := fun b => txBpsk_collected (yields_ofList (msg.set n b)) (show 0 < fs / sym by omega) (htx b)
  have hE : ∀ b, ∀ m < (msg.set n b).length, 0 < ((symbol (fs / sym) m (tx b)).map (· ^ 2)).sum := by
    intro b m hm
    rw [hw, wave_symbol_energy (by omega) _ _ hm]
    refine lt_of_lt_of_eq (sum_cos_sq_pos hsps (m * (fs / sym)) (dphi fs fc)) (Finset.sum_congr rfl fun j _ => ?_)
    rw [mul_pow, phase_real, Flt.cos_real, pow_two (bitToNrz _), bitToNrz_sq, one_mul]
  choose bits hb hf using fun b => C101_bpsk hz hσ hg (yields_ofList (msg.set n b)) hfs hdvd (by omega) hfc (htx b) (hE b)
  exact ⟨_, bits, hrec, hb, fun rule hr => optimal_flips hz hσ hg (show 0 < fs / sym by omega) hn hw hf rule hr⟩

/-- CDMA over BPSK: the same; the rule may know the key. -/
theorem C117_cdma (hz : White P 1 z) (hσ : 0 < σ) (hg : ∀ ω, Gives (noise ω) (fun i => z i ω)) {msg : List Bool} {n : ℕ}
    (hn : n < msg.length) {fs sym : ℕ} {fc : ℝ} {key : List Bool} (hfs : fs < 2 ^ 64) (hsym : 0 < sym) (hkey : key ≠ [])
    (hdvd : sym * key.length ∣ fs) (hnyq : 2 * (sym * key.length) ≤ fs) (hfc : ⌊fc⌋₊ ≤ fs / 2) :
    ∃ (rec : Bool → Ω → List ℝ) (bits : Bool → Ω → List Bool), (∀ b ω, (do
        let s ← txCdmaBpsk (ofList (msg.set n b)) fs sym fc key
        let ch ← awgn s σ (noise ω)
        collect ch) = pure (rec b ω)) ∧ (∀ b ω, (do
        let s ← txCdmaBpsk (ofList (msg.set n b)) fs sym fc key
        let ch ← awgn s σ (noise ω)
        let rx ← rxCdmaBpsk ch fs sym fc key
        collect rx) = pure (bits b ω)) ∧
      ∀ rule : List ℝ → Bool, (Measurable fun x : Fin (msg.length * (fs / sym)) → ℝ => rule (List.ofFn x)) →
        (P.real {ω | (bits true ω)[n]? ≠ some true} + P.real {ω | (bits false ω)[n]? ≠ some false}) / 2 ≤
          (P.real {ω | rule (rec true ω) ≠ true} + P.real {ω | rule (rec false ω) ≠ false}) / 2 := by
  have hs : Flt.isFinite σ = true := rfl
  have hcok := (cdmaOk_real (fc := fc) hfs).mpr ⟨hsym, List.length_pos_iff.mpr hkey, hdvd, hnyq, hfc⟩
  have hsps : 2 ≤ fs / sym := (Nat.le_div_iff_mul_le hsym).mpr (by
    have : sym * 1 ≤ sym * key.length := Nat.mul_le_mul_left _ (List.length_pos_iff.mpr hkey)
    omega)
  have hok : ∀ b, ∃ (tx : List ℝ), (do let it ← txCdmaBpsk (ofList (msg.set n b)) fs sym fc key; collect it) = pure tx ∧
      ∀ ω, (do
        let s ← txCdmaBpsk (ofList (msg.set n b)) fs sym fc key
        let ch ← awgn s σ (noise ω)
        collect ch) = pure (tx.mapIdx (fun i x => x + (0 + σ * z i ω))) := by
    intro b
    obtain ⟨it, e1, e2⟩ := txCdmaBpsk_ok (yields_ofList (msg.set n b)) hcok
    refine ⟨_, by rw [e1, pure_bind]; exact collect_of_yields e2, fun ω => ?_⟩
    obtain ⟨ch, c1, c2⟩ := C56_awgn e2 (hg ω) σ hs
    rw [e1, pure_bind, c1, pure_bind, collect_of_yields c2]
  choose tx htx hrec using hok
  have hw : ∀ b, tx b = wave (fs / sym) (fun m b j => bitToNrz b * (Flt.cos (phase fs fc (m * (fs / sym) + j)) *
      bitToNrz (keyBit key (fs / sym / key.length) (m * (fs / sym) + j)))) (msg.set n b) := by
    intro b
    rw [(txCdmaBpsk_collected (yields_ofList (msg.set n b)) (htx b)).2, mapIdx_wave]
    congr 1
    funext m b j
    ring
  have hE : ∀ b, ∀ m < (msg.set n b).length, 0 < ((symbol (fs / sym) m (tx b)).map (· ^ 2)).sum := by
    intro b m hm
    rw [hw, wave_symbol_energy (by omega) _ _ hm]
    refine lt_of_lt_of_eq (sum_cos_sq_pos hsps (m * (fs / sym)) (dphi fs fc)) (Finset.sum_congr rfl fun j _ => ?_)
    rw [mul_pow, mul_pow, phase_real, Flt.cos_real, pow_two (bitToNrz (msg.set n b)[m]), bitToNrz_sq,
      pow_two (bitToNrz (keyBit _ _ _)), bitToNrz_sq, one_mul, mul_one]
  choose bits hb hf using fun b => C101_cdma hz hσ hg (yields_ofList (msg.set n b)) hfs hsym hkey hdvd hnyq hfc (htx b) (hE b)
  exact ⟨_, bits, hrec, hb, fun rule hr => optimal_flips hz hσ hg (show 0 < fs / sym by omega) hn hw hf rule hr⟩

/-- Frequency hopping: the same; the rule may know the hops. -/
theorem C117_hopping [Rng ρ] (hz : White P 1 z) (hσ : 0 < σ) (hg : ∀ ω, Gives (noise ω) (fun i => z i ω)) {msg : List Bool} {n : ℕ}
    (hn : n < msg.length) {low high : ℝ} {nf fs sym : ℕ} (hnf : 2 ≤ nf) (hlh : low ≤ high) (hfs : fs < 2 ^ 64) (hfs0 : 0 < fs)
    (hsym : 0 < sym) (hdvd : sym ∣ fs) (hhigh : ⌊high⌋₊ ≤ fs / 2) :
    ∃ (rec : Bool → Ω → List ℝ) (bits : Bool → Ω → List Bool), (∀ b ω, (do
        let s ← txFhBpsk ρ (ofList (msg.set n b)) low high nf fs sym
        let ch ← awgn s σ (noise ω)
        collect ch) = pure (rec b ω)) ∧ (∀ b ω, (do
        let s ← txFhBpsk ρ (ofList (msg.set n b)) low high nf fs sym
        let ch ← awgn s σ (noise ω)
        let rx ← rxFhBpsk ρ ch low high nf fs sym
        collect rx) = pure (bits b ω)) ∧
      ∀ rule : List ℝ → Bool, (Measurable fun x : Fin (msg.length * (fs / sym)) → ℝ => rule (List.ofFn x)) →
        (P.real {ω | (bits true ω)[n]? ≠ some true} + P.real {ω | (bits false ω)[n]? ≠ some false}) / 2 ≤
          (P.real {ω | rule (rec true ω) ≠ true} + P.real {ω | rule (rec false ω) ≠ false}) / 2 := by
  have hs : Flt.isFinite σ = true := rfl
  have hsps : 0 < fs / sym := Nat.div_pos (Nat.le_of_dvd hfs0 hdvd) hsym
  have htn : ∀ x : ℝ, x ≤ high → Flt.toNat x ≤ fs / 2 := by
    intro x hx
    rw [Flt.toNat_real]
    exact (min_le_left _ _).trans ((Nat.floor_mono hx).trans hhigh)
  have hok : ∀ b, ∃ (tx : List ℝ), (do let it ← txFhBpsk ρ (ofList (msg.set n b)) low high nf fs sym; collect it) = pure tx ∧
      ∀ ω, (do
        let s ← txFhBpsk ρ (ofList (msg.set n b)) low high nf fs sym
        let ch ← awgn s σ (noise ω)
        collect ch) = pure (tx.mapIdx (fun i x => x + (0 + σ * z i ω))) := by
    intro b
    obtain ⟨it, e1, e2⟩ := txFhBpsk_ok (ρ := ρ) (yields_ofList (msg.set n b)) hnf hsps (htn high le_rfl)
      ((isInt_real hfs hsym).mpr hdvd) (fun x hx => htn x (hopFreqs_real hlh hx).2)
    refine ⟨_, by rw [e1, pure_bind]; exact collect_of_yields e2, fun ω => ?_⟩
    obtain ⟨ch, c1, c2⟩ := C56_awgn e2 (hg ω) σ hs
    rw [e1, pure_bind, c1, pure_bind, collect_of_yields c2]
  choose tx htx hrec using hok
  have hw := fun b => txFhBpsk_collected (yields_ofList (msg.set n b)) hnf hsps (htx b)
  have hE : ∀ b, ∀ m < (msg.set n b).length, 0 < ((symbol (fs / sym) m (tx b)).map (· ^ 2)).sum := by
    intro b m hm
    rw [hw, wave_symbol_energy hsps _ _ hm]
    refine Finset.sum_pos' (fun _ _ => sq_nonneg _) ⟨0, Finset.mem_range.mpr hsps, ?_⟩
    rw [mul_pow, phase_real, Flt.cos_real, pow_two (bitToNrz _), bitToNrz_sq, one_mul]
    simp
  choose bits hb hf using fun b => C101_hopping (ρ := ρ) hz hσ hg (yields_ofList (msg.set n b)) hnf hlh hfs hfs0 hsym hdvd hhigh
    (htx b) (hE b)
  exact ⟨_, bits, hrec, hb, fun rule hr => optimal_flips hz hσ hg hsps hn hw hf rule hr⟩

/-- The distance of two QPSK waves whose messages differ in one bit. -/
private theorem dist_pairs (k : ℕ) (c s : ℕ → ℕ → ℝ) {K : ℝ} (hcc : ∀ n, ∑ j ∈ Finset.range k, c n j ^ 2 = K)
    (hss : ∀ n, ∑ j ∈ Finset.range k, s n j ^ 2 = K) : ∀ (msg : List Bool) (d : ℕ) {n : ℕ}, n < 2 * (msg.length / 2) →
    (List.zipWith (fun x y => (x - y) ^ 2)
      (wave k (fun n (p : Bool × Bool) j => bitToNrz p.1 * c (n + d) j + bitToNrz p.2 * s (n + d) j) (pairs (msg.set n true)))
      (wave k (fun n (p : Bool × Bool) j => bitToNrz p.1 * c (n + d) j + bitToNrz p.2 * s (n + d) j) (pairs (msg.set n false)))).sum =
      4 * K
  | [], d, n, hn => by simp at hn
  | [a], d, n, hn => by simp at hn
  | a :: b :: msg, d, 0, hn => by
    simp only [List.set_cons_zero, pairs, wave_cons]
    rw [List.zipWith_append (by simp), List.sum_append, dist_self, add_zero, ← hcc d, Finset.mul_sum, ← rsum_range, rsum_eq_sum]
    congr 1
    apply List.ext_getElem
    · simp
    · intro i h1 h2
      rw [List.getElem_zipWith, List.getElem_map, List.getElem_map, List.getElem_map, List.getElem_range, bitToNrz_real true,
        bitToNrz_real false]
      simp
      ring
  | a :: b :: msg, d, 1, hn => by
    simp only [List.set_cons_succ, List.set_cons_zero, pairs, wave_cons]
    rw [List.zipWith_append (by simp), List.sum_append, dist_self, add_zero, ← hss d, Finset.mul_sum, ← rsum_range, rsum_eq_sum]
    congr 1
    apply List.ext_getElem
    · simp
    · intro i h1 h2
      rw [List.getElem_zipWith, List.getElem_map, List.getElem_map, List.getElem_map, List.getElem_range, bitToNrz_real true,
        bitToNrz_real false]
      simp
      ring
  | a :: b :: msg, d, n + 2, hn => by
    simp only [List.set_cons_succ, pairs, wave_cons]
    rw [List.zipWith_append (by simp), List.sum_append, dist_self, zero_add, ← dist_pairs k c s hcc hss msg (d + 1) (n := n)
      (by simp only [List.length_cons] at hn; omega)]
    simp only [Nat.add_assoc, Nat.add_comm 1 d]

private theorem optimal_quad (hz : White P 1 z) (hσ : 0 < σ) (hg : ∀ ω, Gives (noise ω) (fun i => z i ω)) {k : ℕ}
    {msg : List Bool} {n : ℕ} (hn : n < 2 * (msg.length / 2)) {c s : ℕ → ℕ → ℝ} {K : ℝ}
    (hcc : ∀ n, ∑ j ∈ Finset.range k, c n j ^ 2 = K) (hss : ∀ n, ∑ j ∈ Finset.range k, s n j ^ 2 = K) {tx : Bool → List ℝ}
    (htx : ∀ b, tx b = wave k (fun n (p : Bool × Bool) j => bitToNrz p.1 * c n j + bitToNrz p.2 * s n j) (pairs (msg.set n b)))
    {bits : Bool → Ω → List Bool}
    (hb : ∀ b, Flips P ((msg.set n b).take (2 * ((msg.set n b).length / 2))) (bits b) (fun _ => bitError K σ))
    (rule : List ℝ → Bool) (hr : Measurable fun x : Fin (msg.length / 2 * k) → ℝ => rule (List.ofFn x)) :
    (P.real {ω | (bits true ω)[n]? ≠ some true} + P.real {ω | (bits false ω)[n]? ≠ some false}) / 2 ≤
      (P.real {ω | rule ((tx true).mapIdx (fun i x => x + (0 + σ * z i ω))) ≠ true} +
        P.real {ω | rule ((tx false).mapIdx (fun i x => x + (0 + σ * z i ω))) ≠ false}) / 2 := by
  have hP := hz.prob
  have hs : Flt.isFinite σ = true := rfl
  have hlen : ∀ b, (tx b).length = msg.length / 2 * k := fun b => by rw [htx, wave_length, pairs_length, List.length_set]
  have key := C117_bound hz hσ hg hlen (rec := fun b ω => (tx b).mapIdx (fun i x => x + (0 + σ * z i ω)))
    (fun b ω => C56_awgn_py _ (hg ω) σ hs) hr
  have hone : ∀ b, P.real {ω | (bits b ω)[n]? ≠ some b} = bitError K σ := by
    intro b
    rw [← C101_bit (hb b) (n := n) (by rw [List.length_take, List.length_set]; omega), List.getElem?_take_of_lt (by rw [List.length_set]; exact hn),
      List.getElem?_set_self (by omega)]
  have hD := dist_pairs k c s hcc hss msg 0 hn
  simp only [Nat.add_zero] at hD
  rw [htx true, htx false, hD] at key
  rw [hone, hone, htx, htx]
  simp only [Bool.not_eq_true, Bool.not_eq_false]
  refine le_trans (le_of_eq ?_) key
  unfold bitError
  rw [add_self_div_two]
  congr 3
  field_simp
  ring

/-- QPSK, with a whole number of half carrier periods per symbol: the same.  The rule may know the other bit of the pair. -/
theorem C117_qpsk (hz : White P 1 z) (hσ : 0 < σ) (hg : ∀ ω, Gives (noise ω) (fun i => z i ω)) {msg : List Bool} {n : ℕ}
    (hn : n < 2 * (msg.length / 2)) {fs sym : ℕ} {fc : ℝ} (hsps : 0 < fs / sym) (hwh : WholeHalf fs (fs / sym) fc) :
    ∃ (rec : Bool → Ω → List ℝ) (bits : Bool → Ω → List Bool), (∀ b ω, (do
        let s ← txQpsk (ofList (msg.set n b)) fs sym fc
        let ch ← awgn s σ (noise ω)
        collect ch) = pure (rec b ω)) ∧ (∀ b ω, (do
        let s ← txQpsk (ofList (msg.set n b)) fs sym fc
        let ch ← awgn s σ (noise ω)
        let rx ← rxQpsk ch fs sym fc
        collect rx) = pure (bits b ω)) ∧
      ∀ rule : List ℝ → Bool, (Measurable fun x : Fin (msg.length / 2 * (fs / sym)) → ℝ => rule (List.ofFn x)) →
        (P.real {ω | (bits true ω)[n]? ≠ some true} + P.real {ω | (bits false ω)[n]? ≠ some false}) / 2 ≤
          (P.real {ω | rule (rec true ω) ≠ true} + P.real {ω | rule (rec false ω) ≠ false}) / 2 := by
  have hs : Flt.isFinite σ = true := rfl
  obtain ⟨p, hk, hp⟩ := hwh.dphi hsps
  choose bits hb hf using fun b => C102_qpsk hz hσ hg (yields_ofList (msg.set n b)) hsps hwh
  obtain ⟨tx, htx⟩ : ∃ tx : Bool → List ℝ, ∀ b, tx b = wave (fs / sym) (fun m (p : Bool × Bool) j =>
      bitToNrz p.1 * Real.cos ((m * (fs / sym) + j : ℕ) * dphi fs fc) +
        bitToNrz p.2 * -Real.sin ((m * (fs / sym) + j : ℕ) * dphi fs fc)) (pairs (msg.set n b)) := ⟨_, fun _ => rfl⟩
  refine ⟨fun b ω => (tx b).mapIdx (fun i x => x + (0 + σ * z i ω)), bits, ?_, hb, fun rule hr =>
    optimal_quad hz hσ hg hn (fun n => sum_cos_sq_half hk hp _)
    (fun n => by simp only [neg_sq]; exact sum_sin_sq_half hk hp _) htx hf rule hr⟩
  intro b ω
  obtain ⟨it, e1, e2⟩ := txQpsk_ok (yields_ofList (msg.set n b)) (fc := fc) hsps
  obtain ⟨ch, c1, c2⟩ := C56_awgn e2 (hg ω) σ hs
  beta_reduce
  rw [e1, pure_bind, c1, pure_bind, collect_of_yields c2, htx]
  congr 3
  funext m p j
  simp only [phase_real, Flt.cos_real, Flt.sin_real]
  ring

/-- CDMA over QPSK: the same. -/
theorem C117_cdma_qpsk (hz : White P 1 z) (hσ : 0 < σ) (hg : ∀ ω, Gives (noise ω) (fun i => z i ω)) {msg : List Bool} {n : ℕ}
    (hn : n < 2 * (msg.length / 2)) {fs sym : ℕ} {fc : ℝ} {key : List Bool} (hfs : fs < 2 ^ 64) (hsym : 0 < sym) (hkey : key ≠ [])
    (hdvd : sym * key.length ∣ fs) (hnyq : 2 * (sym * key.length) ≤ fs) (hfc : ⌊fc⌋₊ ≤ fs / 2) (hwh : WholeHalf fs (fs / sym) fc) :
    ∃ (rec : Bool → Ω → List ℝ) (bits : Bool → Ω → List Bool), (∀ b ω, (do
        let s ← txCdmaQpsk (ofList (msg.set n b)) fs sym fc key
        let ch ← awgn s σ (noise ω)
        collect ch) = pure (rec b ω)) ∧ (∀ b ω, (do
        let s ← txCdmaQpsk (ofList (msg.set n b)) fs sym fc key
        let ch ← awgn s σ (noise ω)
        let rx ← rxCdmaQpsk ch fs sym fc key
        collect rx) = pure (bits b ω)) ∧
      ∀ rule : List ℝ → Bool, (Measurable fun x : Fin (msg.length / 2 * (fs / sym)) → ℝ => rule (List.ofFn x)) →
        (P.real {ω | (bits true ω)[n]? ≠ some true} + P.real {ω | (bits false ω)[n]? ≠ some false}) / 2 ≤
          (P.real {ω | rule (rec true ω) ≠ true} + P.real {ω | rule (rec false ω) ≠ false}) / 2 := by
  have hs : Flt.isFinite σ = true := rfl
  have hok := (cdmaOk_real (fc := fc) hfs).mpr ⟨hsym, List.length_pos_iff.mpr hkey, hdvd, hnyq, hfc⟩
  have h1 := hok.sps
  have h3 := hok.key_pos
  have hsps : 0 < fs / sym := by omega
  obtain ⟨p, hk, hp⟩ := hwh.dphi hsps
  have hk2 : ∀ i, (bitToNrz (keyBit key (fs / sym / key.length) i) : ℝ) ^ 2 = 1 := by
    intro i; rw [sq, bitToNrz_sq]
  choose bits hb hf using fun b => C102_cdma_qpsk hz hσ hg (yields_ofList (msg.set n b)) hfs hsym hkey hdvd hnyq hfc hwh
  obtain ⟨tx, htx⟩ : ∃ tx : Bool → List ℝ, ∀ b, tx b = wave (fs / sym) (fun m (p : Bool × Bool) j =>
      bitToNrz p.1 * (Real.cos ((m * (fs / sym) + j : ℕ) * dphi fs fc)
          * bitToNrz (keyBit key (fs / sym / key.length) (m * (fs / sym) + j))) +
        bitToNrz p.2 * (-Real.sin ((m * (fs / sym) + j : ℕ) * dphi fs fc)
          * bitToNrz (keyBit key (fs / sym / key.length) (m * (fs / sym) + j)))) (pairs (msg.set n b)) := ⟨_, fun _ => rfl⟩
  refine ⟨fun b ω => (tx b).mapIdx (fun i x => x + (0 + σ * z i ω)), bits, ?_, hb, fun rule hr => optimal_quad hz hσ hg hn
    (fun n => ?_) (fun n => ?_) htx hf rule hr⟩
  rotate_left
  · simp only [mul_pow, hk2, mul_one]; exact sum_cos_sq_half hk hp _
  · simp only [mul_pow, hk2, mul_one, neg_sq]; exact sum_sin_sq_half hk hp _
  intro b ω
  obtain ⟨it, e1, e2⟩ := txCdmaQpsk_ok (yields_ofList (msg.set n b)) hok
  obtain ⟨ch, c1, c2⟩ := C56_awgn e2 (hg ω) σ hs
  beta_reduce
  rw [e1, pure_bind, c1, pure_bind, collect_of_yields c2, mapIdx_wave, htx]
  congr 3
  funext m p j
  simp only [phase_real, Flt.cos_real, Flt.sin_real]
  ring

/-! ### Concrete cases -/

/-- A wrong but measurable rule (read the sign of the first sample) does no better than the receiver of the library. -/
example : ∃ (rec : Bool → (ℕ → ℝ) → List ℝ) (bits : Bool → (ℕ → ℝ) → List Bool), (∀ b ω, (do
        let s ← txBpsk (ofList ([false].set 0 b)) 16000 1000 (1700 : ℝ)
        let ch ← awgn s (3 : ℝ) (path ω)
        collect ch) = pure (rec b ω)) ∧ (∀ b ω, (do
        let s ← txBpsk (ofList ([false].set 0 b)) 16000 1000 (1700 : ℝ)
        let ch ← awgn s (3 : ℝ) (path ω)
        let rx ← rxBpsk ch 16000 1000 (1700 : ℝ)
        collect rx) = pure (bits b ω)) ∧
    ((gaussPath 1).real {ω | (bits true ω)[0]? ≠ some true} + (gaussPath 1).real {ω | (bits false ω)[0]? ≠ some false}) / 2 ≤
      ((gaussPath 1).real {ω | decide (0 < (rec true ω).headD 0) ≠ true} +
        (gaussPath 1).real {ω | decide (0 < (rec false ω).headD 0) ≠ false}) / 2 := by
  obtain ⟨rec, bits, h1, h2, h3⟩ := C117_bpsk (σ := 3) (msg := [false]) (n := 0) (white_path 1) (by norm_num) path_gives (by simp)
    (fs := 16000) (sym := 1000) (fc := 1700) (by norm_num) (by norm_num) (by norm_num) (by norm_num)
  refine ⟨rec, bits, h1, h2, h3 (fun l => decide (0 < l.headD 0)) ?_⟩
  apply measurable_to_bool
  have : (fun x : Fin (List.length [false] * (16000 / 1000)) → ℝ => decide (0 < (List.ofFn x).headD 0)) ⁻¹' {true} =
      {x | 0 < x ⟨0, by norm_num⟩} := by
    ext x
    simp
  rw [this]
  exact measurableSet_lt (f := fun _ => (0 : ℝ)) measurable_const (measurable_pi_apply (X := fun _ => ℝ) _)

/-- Two constant signals of one sample at distance 2: nothing decides between them better than `½ erfc(1/√2)`. -/
example (rec : Bool → (ℕ → ℝ) → List ℝ)
    (hrec : ∀ b ω, awgnPy (if b then [1] else [-1] : List ℝ) 1 (path ω) = pure (rec b ω)) {rule : List ℝ → Bool}
    (hr : Measurable fun x : Fin 1 → ℝ => rule (List.ofFn x)) :
    Erfc (√((List.zipWith (fun x y => (x - y) ^ 2) [1] [-1]).sum / (8 * 1 ^ 2))) / 2 ≤
      ((gaussPath 1).real {ω | rule (rec true ω) = false} + (gaussPath 1).real {ω | rule (rec false ω) = true}) / 2 := by
  simpa using C117_bound (tx := fun b => if b then [1] else [-1]) (white_path 1) (by norm_num : (0 : ℝ) < 1) path_gives
    (by intro b; cases b <;> rfl) hrec hr

/-- The hypotheses of the other four hold of the stations used throughout. -/
example := C117_cdma (σ := 2) (msg := [true, false, true]) (n := 1) (white_path 1) (by norm_num) path_gives (by simp)
  (fs := 16000) (sym := 1000) (fc := 1700) (key := [true, false, false, true]) (by norm_num) (by norm_num) (by simp)
  (by norm_num) (by norm_num) (by norm_num)

example {ρ : Type} [Rng ρ] := C117_hopping (ρ := ρ) (σ := 2) (msg := [true, false, true]) (n := 1) (white_path 1) (by norm_num) path_gives
  (by simp) (low := 1000) (high := 3000) (nf := 4) (fs := 16000) (sym := 1000) (by norm_num) (by norm_num) (by norm_num)
  (by norm_num) (by norm_num) (by norm_num) (by norm_num)

example := C117_qpsk (σ := 2) (msg := [true, false, true, true]) (n := 3) (white_path 1) (by norm_num) path_gives (by simp)
  (fs := 16000) (sym := 1000) (fc := 2000) (by norm_num) (WholeHalf.of_nat (p := 4) (by norm_num) (by norm_num))

example := C117_cdma_qpsk (σ := 2) (msg := [true, false, true, true]) (n := 3) (white_path 1) (by norm_num) path_gives (by simp)
  (fs := 16000) (sym := 1000) (fc := 2000) (key := [true, false]) (by norm_num) (by norm_num) (by simp) (by norm_num) (by norm_num)
  (by norm_num) (WholeHalf.of_nat (p := 4) (by norm_num) (by norm_num))

end Verif.Props
