import Verif.Lemmas.Fh
import Verif.Spec.Wave
import Verif.Props.Psk

/-!
# Properties C36–C39, C64: frequency hopping and chirps
-/
namespace Verif.Props
open Verif Spec
set_option linter.unusedSectionVars false

variable {ι ρ : Type} [Rng ρ]

/-- A generator for the examples: the index is the state modulo the bound. -/
def toyRng : Rng ℕ where
  seed n := n
  genIndex r n := (r % n, r + 1)
  genIndex_lt r n h := Nat.mod_lt r h

attribute [local instance] toyRng

/-! ## C36 hop table -/

section anyF
variable {F : Type} [Add F] [Sub F] [Mul F] [Div F] [Neg F] [Zero F] [One F] [Flt F]

/-- From two frequencies on, the hops never end and every block of `n` hops is a permutation of the `n` equally spaced
frequencies, in any arithmetic.
Missing with respect to C36: a single frequency, for which the claim is false (`C36_refuted`). -/
theorem C36_blocks_partial (low high : F) {n : ℕ} (hn : 2 ≤ n) (seed : ℕ) {freqs : List F}
    (hf : Yields (linspace low high n) freqs) :
    ∃ t g, hopTable ρ low high n seed = pure t ∧ Gives t g ∧
      ∀ k, ((List.range n).map (fun j => g (k * n + j))).Perm freqs := by
  obtain rfl := (linspace_yields low high n).unique hf
  refine ⟨_, _, hopTable_ok low high n seed, hopTable_gives _ _ (by rw [hopFreqs_length]; exact hn), ?_⟩
  intro k
  refine List.Perm.trans (.of_eq ?_) (shufN_perm (hopFreqs low high n, (Rng.seed seed : ρ)) (k + 1))
  apply List.ext_getElem?
  intro i
  have hl : (shufN (hopFreqs low high n, (Rng.seed seed : ρ)) (k + 1)).1.length = n := by
    rw [shufN_length]; exact hopFreqs_length low high n
  by_cases hi : i < n
  · rw [List.getElem?_map, List.getElem?_range hi, List.getElem?_eq_getElem (by omega)]
    simp only [Option.map_some, Option.some.injEq, hopAt, hopFreqs_length]
    rw [show (k * n + i) / n = k by
        rw [Nat.add_comm, Nat.add_mul_div_right _ _ (by omega), Nat.div_eq_of_lt hi, Nat.zero_add],
      show (k * n + i) % n = i by rw [Nat.add_comm, Nat.add_mul_mod_self_right, Nat.mod_eq_of_lt hi],
      List.getD_eq_getElem?_getD, List.getElem?_eq_getElem (by omega), Option.getD_some]
  · rw [List.getElem?_eq_none (by simp; omega), List.getElem?_eq_none (by omega)]

example : ∃ t g, hopTable ρ (1000 : ℝ) 3000 4 7 = pure t ∧ Gives t g ∧
    ∀ k, ((List.range 4).map (fun j => g (k * 4 + j))).Perm [1000, 1500, 2000, 2500] :=
  C36_blocks_partial 1000 3000 (by norm_num) 7 ((linspace_yields _ _ _).of_eq (by simp [hopFreqs, List.range_succ]; norm_num))

/-- With a single frequency the second hop panics; with none already the first one does. -/
theorem C36_refuted (low high : F) (seed : ℕ) :
    (∃ t, hopTable ρ low high 1 seed = pure t ∧ ∃ x t', next t = pure (some x, t') ∧ (next t').Panics) ∧
    (∃ t, hopTable ρ low high 0 seed = pure t ∧ (next t).Panics) := by
  constructor
  · refine ⟨_, hopTable_ok low high 1 seed, ?_⟩
    have hl : (shuf (hopFreqs low high 1, (Rng.seed seed : ρ))).1.length = 1 := by
      rw [(shuf_perm _).length_eq]; exact hopFreqs_length low high 1
    refine ⟨(shuf (hopFreqs low high 1, (Rng.seed seed : ρ))).1[0]'(by omega),
      ⟨(shuf (hopFreqs low high 1, (Rng.seed seed : ρ))).2, (shuf (hopFreqs low high 1, (Rng.seed seed : ρ))).1, 1⟩, ?_, ?_⟩
    · simp only [next, if_true, shuffle_eq, pure_bind]
      rw [index_lt (by omega), pure_bind]
    · simp only [next, hl]
      rw [if_neg (by decide), usub_le (by decide), pure_bind, if_neg (by decide), index_ge (by omega)]
      exact RM.panics_panic _
  · refine ⟨_, hopTable_ok low high 0 seed, ?_⟩
    have hl : (shuf (hopFreqs low high 0, (Rng.seed seed : ρ))).1.length = 0 := by
      rw [(shuf_perm _).length_eq]; exact hopFreqs_length low high 0
    simp only [next, if_true, shuffle_eq, pure_bind]
    rw [index_ge (by omega)]
    exact RM.panics_panic _
end anyF

/-- Exact arithmetic: within a block no frequency is used twice, all lie in `[low, high)`, and each of
`low + i·(high - low)/n` is used. -/
theorem C36_range {low high : ℝ} (h : low < high) {n : ℕ} (hn : 2 ≤ n) (seed : ℕ) :
    ∃ t g, hopTable ρ low high n seed = pure t ∧ Gives t g ∧ (∀ i, low ≤ g i ∧ g i < high) ∧
      (∀ k j j', j < n → j' < n → g (k * n + j) = g (k * n + j') → j = j') ∧
      (∀ k i, i < n → ∃ j, j < n ∧ g (k * n + j) = low + i * (high - low) / n) := by
  obtain ⟨t, g, h1, h2, h3⟩ := C36_blocks_partial (ρ := ρ) low high hn seed (linspace_yields low high n)
  have hn0 : (0 : ℝ) < n := by exact_mod_cast (by omega : 0 < n)
  have hnd : (hopFreqs low high n).Nodup := by
    unfold hopFreqs
    refine List.Nodup.map ?_ List.nodup_range
    intro a b hab
    simp only [Flt.ofNat_real, add_right_inj] at hab
    have hne : (high - low) / n ≠ 0 := div_ne_zero (by linarith) hn0.ne'
    exact_mod_cast mul_left_cancel₀ hne hab
  refine ⟨t, g, h1, h2, ?_, ?_, ?_⟩
  · intro i
    have hmem : g i ∈ hopFreqs low high n := by
      refine (h3 (i / n)).mem_iff.mp (List.mem_map.mpr ⟨i % n, by simpa using Nat.mod_lt _ (by omega), ?_⟩)
      rw [Nat.mul_comm, Nat.div_add_mod]
    obtain ⟨a, ha, e⟩ := List.mem_map.mp hmem
    rw [← e]
    have ha' : a < n := by simpa using ha
    have haR : (a : ℝ) < n := by exact_mod_cast ha'
    simp only [Flt.ofNat_real]
    have e1 : (high - low) / n * a = (high - low) * (a / n) := by field_simp
    have e2 : (a : ℝ) / n < 1 := by rw [div_lt_one hn0]; exact haR
    have e3 : (0 : ℝ) ≤ a / n := by positivity
    rw [e1]
    constructor <;> nlinarith
  · intro k j j' hj hj' he
    have hnd' := (h3 k).nodup_iff.mpr hnd
    exact List.inj_on_of_nodup_map hnd' (by simpa using hj) (by simpa using hj') he
  · intro k i hi
    have hmem : low + i * (high - low) / n ∈ hopFreqs low high n :=
      List.mem_map.mpr ⟨i, by simpa using hi, by simp only [Flt.ofNat_real]; ring⟩
    obtain ⟨j, hj, e⟩ := List.mem_map.mp ((h3 k).mem_iff.mpr hmem)
    exact ⟨j, by simpa using hj, e⟩

example : ∃ t g, hopTable ℕ (1000 : ℝ) 2000 4 64 = pure t ∧ Gives t g ∧ (∀ i, 1000 ≤ g i ∧ g i < 2000) := by
  obtain ⟨t, g, h1, h2, h3, -⟩ := C36_range (ρ := ℕ) (low := 1000) (high := 2000) (by norm_num) (n := 4) (by norm_num) 64
  exact ⟨t, g, h1, h2, h3⟩

/-- Determinism: the hops depend on the frequency range, their number and the seed only: two tables give the same hops. -/
theorem C36_same_hops {F : Type} [Add F] [Sub F] [Mul F] [Div F] [Neg F] [Zero F] [One F] [Flt F] (low high : F) {n : ℕ}
    (hn : 2 ≤ n) (seed : ℕ) {t t' : HopTable ρ F} (h : hopTable ρ low high n seed = pure t)
    (h' : hopTable ρ low high n seed = pure t') : ∃ g, Gives t g ∧ Gives t' g := by
  rw [h, RM.ok_inj] at h'
  subst h'
  rw [hopTable_ok, RM.ok_inj] at h
  subst h
  exact ⟨_, hopTable_gives _ _ (by rw [hopFreqs_length]; exact hn), hopTable_gives _ _ (by rw [hopFreqs_length]; exact hn)⟩

example : ∃ t t' : HopTable ρ ℝ, ∃ g, hopTable ρ 1000 3000 4 7 = pure t ∧ hopTable ρ 1000 3000 4 7 = pure t' ∧ Gives t g ∧ Gives t' g := by
  obtain ⟨g, h1, h2⟩ := C36_same_hops (ρ := ρ) (1000 : ℝ) 3000 (n := 4) (by norm_num) 7 (hopTable_ok _ _ _ _) (hopTable_ok _ _ _ _)
  exact ⟨_, _, g, hopTable_ok _ _ _ _, hopTable_ok _ _ _ _, h1, h2⟩

/-! ## C37 FH-BPSK -/

/-- Exact form of the decision of the receiver, any arithmetic: `hop i` is the hop number `i`. -/
theorem C37_decision {F : Type} [Add F] [Sub F] [Mul F] [Div F] [Neg F] [Zero F] [One F] [Flt F] [RIter ι Bool] {m : ι}
    {msg : List Bool} (h : Yields m msg) {low high : F} {n fs sym : ℕ} (hn : 2 ≤ n) (hsps : 0 < fs / sym)
    (h1 : Flt.toNat high ≤ fs / 2) (h2 : isInt (Flt.ofNat fs / Flt.ofNat sym : F) = true)
    (h3 : ∀ freqs, Yields (linspace low high n) freqs → ∀ x ∈ freqs, Flt.toNat x ≤ fs / 2) :
    ∃ t hop, hopTable ρ low high n SEED = pure t ∧ Gives t hop ∧
    (do let tx ← txFhBpsk ρ m low high n fs sym; let rx ← rxFhBpsk ρ tx low high n fs sym; collect rx)
      = pure (msg.mapIdx (fun i b => Flt.lt 0 (rsum ((List.range (fs / sym)).map (fun j =>
          bitToNrz b * Flt.cos (phase fs (hop i) j) * Flt.cos (phase fs (hop i) j)))))) := by
  refine ⟨_, _, hopTable_ok low high n SEED, hopTable_gives _ _ (by rw [hopFreqs_length]; exact hn), ?_⟩
  obtain ⟨it, e1, e2⟩ := txFhBpsk_ok (ρ := ρ) h hn hsps h1 h2 (h3 _ (linspace_yields low high n))
  obtain ⟨it', e3, e4⟩ := rxFhBpsk_wave (ρ := ρ) e2 hn hsps h1 h2 (low := low)
  rw [e1, pure_bind, e3, pure_bind, collect_of_yields e4]
  rfl

example : ∃ t hop, hopTable ρ (1000 : Float) 2000 4 SEED = pure t ∧ Gives t hop ∧
    (do let tx ← txFhBpsk ρ (ofList [true, false]) (1000 : Float) 2000 4 16000 1000
        let rx ← rxFhBpsk ρ tx (1000 : Float) 2000 4 16000 1000; collect rx)
      = pure ([true, false].mapIdx (fun i b => Flt.lt 0 (rsum ((List.range (16000 / 1000)).map (fun j =>
          bitToNrz b * Flt.cos (phase 16000 (hop i) j) * Flt.cos (phase 16000 (hop i) j)))))) := by
  refine C37_decision (yields_ofList _) (by decide) (by decide) (by decide +kernel) (by decide +kernel) (fun f hf => ?_)
  rw [hf.unique (linspace_yields _ _ _)]
  decide +kernel

/-- Round trip for every accepted parameter. -/
theorem C37_roundtrip [RIter ι Bool] {m : ι} {msg : List Bool} (h : Yields m msg) {low high : ℝ} {n fs sym : ℕ}
    (hn : 2 ≤ n) (hlh : low ≤ high) (hfs : fs < 2 ^ 64) (hfs0 : 0 < fs) (hsym : 0 < sym) (hdvd : sym ∣ fs)
    (hhigh : ⌊high⌋₊ ≤ fs / 2) :
    (do let tx ← txFhBpsk ρ m low high n fs sym; let rx ← rxFhBpsk ρ tx low high n fs sym; collect rx) = pure msg := by
  have hsps : 0 < fs / sym := Nat.div_pos (Nat.le_of_dvd hfs0 hdvd) hsym
  have htn : ∀ x : ℝ, x ≤ high → Flt.toNat x ≤ fs / 2 := by
    intro x hx
    rw [Flt.toNat_real]
    exact (min_le_left _ _).trans ((Nat.floor_mono hx).trans hhigh)
  obtain ⟨t, hop, -, -, e⟩ := C37_decision (ρ := ρ) h (low := low) (high := high) (fs := fs) (sym := sym) hn hsps (htn high le_rfl)
    (by simpa using (isInt_real hfs hsym).mpr hdvd) (fun freqs hf x hx => by
      rw [hf.unique (linspace_yields low high n)] at hx
      exact htn x (hopFreqs_real hlh hx).2)
  rw [e]
  congr 1
  apply mapIdx_eq_self
  intro i b _
  have hE : 0 < ∑ j ∈ Finset.range (fs / sym), Real.cos (phase fs (hop i) j) ^ 2 := by
    apply Finset.sum_pos'
    · intro j _; positivity
    · refine ⟨0, by simpa using hsps, ?_⟩
      rw [phase_real]; simp
  rw [rsum_range]
  have : ∀ j ∈ Finset.range (fs / sym), (bitToNrz b : ℝ) * Flt.cos (phase fs (hop i) j) * Flt.cos (phase fs (hop i) j)
      = bitToNrz b * Real.cos (phase fs (hop i) j) ^ 2 := by
    intro j _; rw [Flt.cos_real]; ring
  rw [Finset.sum_congr rfl this, ← Finset.mul_sum, Flt.lt_real, bitToNrz_real]
  cases b
  · simp only [Bool.false_eq_true, if_false, decide_eq_false_iff_not]; linarith
  · simp only [if_true, decide_eq_true_eq]; linarith

example : (do let tx ← txFhBpsk ℕ (ofList [true, false, true]) (1000 : ℝ) 2000 16 44100 900
              let rx ← rxFhBpsk ℕ tx (1000 : ℝ) 2000 16 44100 900; collect rx) = pure [true, false, true] :=
  C37_roundtrip (yields_ofList [true, false, true]) (by norm_num) (by norm_num) (by norm_num) (by norm_num) (by norm_num)
    (by norm_num) (by norm_num)

/-- The waveform: `sps` samples per bit; the oscillator restarts at phase 0 for every bit, at that bit's hop frequency. -/
theorem C37_waveform [RIter ι Bool] {m : ι} {msg : List Bool} (h : Yields m msg) {low high : ℝ} {n fs sym : ℕ}
    (hn : 2 ≤ n) (hlh : low ≤ high) (hfs : fs < 2 ^ 64) (hfs0 : 0 < fs) (hsym : 0 < sym) (hdvd : sym ∣ fs)
    (hhigh : ⌊high⌋₊ ≤ fs / 2) :
    ∃ t hop tx l, hopTable ρ low high n SEED = pure t ∧ Gives t hop ∧
      txFhBpsk ρ m low high n fs sym = pure tx ∧ Yields tx l ∧ l.length = msg.length * (fs / sym) ∧
      ∀ i b, i < msg.length * (fs / sym) → msg[i / (fs / sym)]? = some b →
        l[i]? = some ((if b then 1 else -1) * Real.cos (2 * Real.pi * hop (i / (fs / sym)) * (i % (fs / sym) : ℕ) / fs)) := by
  have hsps : 0 < fs / sym := Nat.div_pos (Nat.le_of_dvd hfs0 hdvd) hsym
  have htn : ∀ x : ℝ, x ≤ high → Flt.toNat x ≤ fs / 2 := by
    intro x hx
    rw [Flt.toNat_real]
    exact (min_le_left _ _).trans ((Nat.floor_mono hx).trans hhigh)
  obtain ⟨it, e1, e2⟩ := txFhBpsk_ok (ρ := ρ) h hn hsps (htn high le_rfl)
    (by simpa using (isInt_real hfs hsym).mpr hdvd) (fun x hx => htn x (hopFreqs_real hlh hx).2)
  refine ⟨_, _, it, _, hopTable_ok low high n SEED, hopTable_gives _ _ (by rw [hopFreqs_length]; exact hn), e1, e2,
    wave_length _ _ _, ?_⟩
  intro i b _ hb
  rw [wave_getElem? hsps, hb, Option.map_some, phase_real', Flt.cos_real, bitToNrz_real]
  rfl

example : ∃ t hop tx l, hopTable ρ (1000 : ℝ) 2000 4 SEED = pure t ∧ Gives t hop ∧
    txFhBpsk ρ (ofList [true, false]) (1000 : ℝ) 2000 4 16000 1000 = pure tx ∧ Yields tx l ∧ l.length = 2 * 16 ∧
    l[20]? = some (-1 * Real.cos (2 * Real.pi * hop 1 * (4 : ℕ) / (16000 : ℕ))) := by
  obtain ⟨t, hop, tx, l, h1, h2, h3, h4, h5, h6⟩ := C37_waveform (ρ := ρ) (yields_ofList [true, false]) (low := 1000) (high := 2000)
    (n := 4) (fs := 16000) (sym := 1000) (by norm_num) (by norm_num) (by norm_num) (by norm_num) (by norm_num) (by norm_num)
    (by norm_num)
  exact ⟨t, hop, tx, l, h1, h2, h3, h4, h5, h6 20 false (by norm_num) rfl⟩

/-! ## C38 chirps -/

section
variable {F : Type} [Add F] [Sub F] [Mul F] [Div F] [Neg F] [Zero F] [One F] [Flt F]
theorem chirp_yields (r : F) (fs : ℕ) (f0 f1 : F) :
    Yields (linearChirp r fs f0 f1) ((hopFreqs 0 (1 / r) (Flt.toNat (Flt.ofNat fs / r))).map
      (fun t => Flt.cos (Flt.ofNat 2 * Flt.pi * (f0 + (f1 - f0) / (1 / r) * t / Flt.ofNat 2) * t))) :=
  (linspace_yields _ _ _).rmap _

/-- Length in any arithmetic: the truncated quotient of sample rate and chirp rate. -/
theorem C38_length (r : F) (fs : ℕ) (f0 f1 : F) :
    ∃ l, Yields (linearChirp r fs f0 f1) l ∧ l.length = Flt.toNat (Flt.ofNat fs / r) :=
  ⟨_, chirp_yields r fs f0 f1, by rw [List.length_map, hopFreqs_length]⟩
end

/-- Sample `i` of `n = ⌊fs/rate⌋` is the chirp from `f0` to `f1` at time `i/(n·rate)`. -/
theorem C38_chirp {r : ℝ} (hr : 0 < r) (fs : ℕ) (hfs : fs / r < 2 ^ 64) (f0 f1 : ℝ) :
    ∃ l, Yields (linearChirp r fs f0 f1) l ∧ l.length = ⌊fs / r⌋₊ ∧
      ∀ i, i < ⌊fs / r⌋₊ → l[i]? = some (chirpSample f0 f1 (1 / r) (i / (⌊fs / r⌋₊ * r))) := by
  have hfl : ⌊fs / r⌋₊ < 2 ^ 64 := by
    rw [Nat.floor_lt (by positivity)]; exact_mod_cast hfs
  have hN : (Flt.toNat ((Flt.ofNat fs : ℝ) / r)) = ⌊fs / r⌋₊ := by
    rw [Flt.toNat_real, Flt.ofNat_real, min_eq_left (by omega)]
  refine ⟨_, chirp_yields r fs f0 f1, by rw [List.length_map, hopFreqs_length, hN], ?_⟩
  intro i hi
  rw [hN, List.getElem?_map, hopFreqs, List.getElem?_map, List.getElem?_range hi]
  simp only [Option.map_some, Option.some.injEq, Flt.cos_real, Flt.ofNat_real, Flt.pi_real]
  unfold chirpSample
  congr 1
  have hn0 : ((⌊fs / r⌋₊ : ℕ) : ℝ) ≠ 0 := by exact_mod_cast (by omega : ⌊fs / r⌋₊ ≠ 0)
  push_cast
  field_simp
  ring

example : ∃ l, Yields (linearChirp (10 : ℝ) 1005 100 200) l ∧ l.length = 100 := by
  obtain ⟨l, h1, h2, -⟩ := C38_chirp (r := 10) (by norm_num) 1005 (by norm_num) 100 200
  exact ⟨l, h1, h2.trans (by norm_num)⟩

/-- The centred up-chirp sweeps from `c - b/2` to `c + b/2`.
Missing with respect to C38: the centred down-chirp, which is wrong (`C38_refuted`). -/
theorem C38_upchirp_partial {r : ℝ} (hr : 0 < r) (fs : ℕ) (hfs : fs / r < 2 ^ 64) (c b : ℝ) :
    ∃ l, Yields (linearUpchirpCentered r c b fs) l ∧ l.length = ⌊fs / r⌋₊ ∧
      ∀ i, i < ⌊fs / r⌋₊ → l[i]? = some (chirpSample (c - b / 2) (c + b / 2) (1 / r) (i / (⌊fs / r⌋₊ * r))) := by
  have := C38_chirp hr fs hfs (c - b / 2) (c + b / 2)
  unfold linearUpchirpCentered
  simpa using this

/-- The centred "down-chirp" is the up-chirp. -/
theorem C38_down_is_up {F : Type} [Add F] [Sub F] [Mul F] [Div F] [Neg F] [Zero F] [One F] [Flt F] (r c b : F) (fs : ℕ) :
    linearDownchirpCentered r c b fs = linearUpchirpCentered r c b fs := rfl

/-- So it is not the chirp from high to low: rate 1, two samples, centre 1/2, bandwidth 1. -/
theorem C38_refuted : ¬ ∀ (r c b : ℝ) (fs : ℕ), 0 < r → fs / r < 2 ^ 64 →
    ∃ l, Yields (linearDownchirpCentered r c b fs) l ∧
      ∀ i, i < ⌊fs / r⌋₊ → l[i]? = some (chirpSample (c + b / 2) (c - b / 2) (1 / r) (i / (⌊fs / r⌋₊ * r))) := by
  intro h
  obtain ⟨l, h1, h2⟩ := h 1 (1 / 2) 1 2 (by norm_num) (by norm_num)
  obtain ⟨l', h3, _, h4⟩ := C38_upchirp_partial (r := 1) (by norm_num) 2 (by norm_num) (1 / 2) 1
  rw [C38_down_is_up] at h1
  obtain rfl := h1.unique h3
  have hfl : ⌊((2 : ℕ) : ℝ) / 1⌋₊ = 2 := by norm_num
  have e := h2 1 (by rw [hfl]; norm_num)
  rw [h4 1 (by rw [hfl]; norm_num), Option.some.injEq, hfl] at e
  unfold chirpSample at e
  have e1 : 2 * Real.pi * ((1 / 2 - 1 / 2) * (((1 : ℕ) : ℝ) / (((2 : ℕ) : ℝ) * 1)) +
      ((1 / 2 + 1 / 2) - (1 / 2 - 1 / 2)) / (1 / 1) * ((((1 : ℕ) : ℝ) / (((2 : ℕ) : ℝ) * 1)) ^ 2 / 2)) = Real.pi / 4 := by
    push_cast; ring
  have e2 : 2 * Real.pi * ((1 / 2 + 1 / 2) * (((1 : ℕ) : ℝ) / (((2 : ℕ) : ℝ) * 1)) +
      ((1 / 2 - 1 / 2) - (1 / 2 + 1 / 2)) / (1 / 1) * ((((1 : ℕ) : ℝ) / (((2 : ℕ) : ℝ) * 1)) ^ 2 / 2))
      = Real.pi - Real.pi / 4 := by
    push_cast; ring
  rw [e1, e2, Real.cos_pi_sub, Real.cos_pi_div_four] at e
  have : (0 : ℝ) < Real.sqrt 2 := by positivity
  linarith

example : ∃ l, Yields (linearUpchirpCentered (10 : ℝ) 1000 500 44100) l ∧ l.length = 4410 := by
  obtain ⟨l, h1, h2, -⟩ := C38_upchirp_partial (r := 10) (by norm_num) 44100 (by norm_num) 1000 500
  rw [show ⌊((44100 : ℕ) : ℝ) / 10⌋₊ = 4410 by norm_num] at h2
  exact ⟨l, h1, h2⟩

/-! ## C39 FH-CSS -/

/-- For a positive dividing symbol rate: `sps = fs/sym` samples per bit; bit number `i` is a chirp of duration `1/sym`
over the band of width `(high - low)/n` centred at the hop frequency, upwards for true and downwards for false. -/
theorem C39_waveform [RIter ι Bool] {m : ι} {msg : List Bool} (h : Yields m msg) {low high : ℝ} {n fs sym : ℕ}
    (hn : 2 ≤ n) (hfs : fs < 2 ^ 64) (hfs0 : 0 < fs) (hsym : 0 < sym) (hdvd : sym ∣ fs) (hhigh : ⌊high⌋₊ ≤ fs / 2) :
    ∃ t hop tx l, hopTable ρ low high n SEED = pure t ∧ Gives t hop ∧
      txFhCss ρ m fs sym low high n = pure tx ∧ Yields tx l ∧ l.length = msg.length * (fs / sym) ∧
      ∀ i b, msg[i / (fs / sym)]? = some b →
        l[i]? = some (if b then
          chirpSample (hop (i / (fs / sym)) - (high - low) / n / 2) (hop (i / (fs / sym)) + (high - low) / n / 2) (1 / sym)
            ((i % (fs / sym) : ℕ) / fs)
        else chirpSample (hop (i / (fs / sym)) + (high - low) / n / 2) (hop (i / (fs / sym)) - (high - low) / n / 2) (1 / sym)
            ((i % (fs / sym) : ℕ) / fs)) := by
  have hsps : 0 < fs / sym := Nat.div_pos (Nat.le_of_dvd hfs0 hdvd) hsym
  have hg := hopTable_gives (ρ := ρ) (hopFreqs low high n) (Rng.seed SEED) (by rw [hopFreqs_length]; exact hn)
  have h1 : Flt.toNat high ≤ fs / 2 := by rw [Flt.toNat_real]; exact (min_le_left _ _).trans hhigh
  have h2 : isInt (Flt.ofNat fs / Flt.ofNat sym : ℝ) = true := by simpa using (isInt_real hfs hsym).mpr hdvd
  have hsymR : (0 : ℝ) < sym := by exact_mod_cast hsym
  have hfl : ⌊(fs : ℝ) / (sym : ℝ)⌋₊ = fs / sym := Nat.floor_div_eq_div fs sym
  have hle : fs / sym ≤ fs := Nat.div_le_self _ _
  have hlt : (fs : ℝ) / sym < 2 ^ 64 := by
    have : ⌊(fs : ℝ) / (sym : ℝ)⌋₊ < 2 ^ 64 := by omega
    rw [Nat.floor_lt (by positivity)] at this
    exact_mod_cast this
  have hmul : ((fs / sym : ℕ) : ℝ) * sym = fs := by exact_mod_cast Nat.div_mul_cancel hdvd
  let f : Bool × ℝ → ℝ × ℝ := fun p =>
    if p.1 then (p.2 - (high - low) / n / 2, p.2 + (high - low) / n / 2)
      else (p.2 + (high - low) / n / 2, p.2 - (high - low) / n / 2)
  refine ⟨_, _, _, wave (fs / sym) (fun i b j => chirpSample (f (b, hopOf ρ low high n i)).1
      (f (b, hopOf ρ low high n i)).2 (1 / sym) (j / fs)) msg, hopTable_ok low high n SEED, hg,
    by rw [txFhCss, rassert_pos (by simpa using h1), rassert_pos h2, hopTable_ok]; simp only [pure_bind]; rfl, ?_,
    wave_length _ _ _, ?_⟩
  · refine (Yields.rflatMap_mem (out := fun p : Bool × ℝ => (List.range (fs / sym)).map
      (fun j : ℕ => chirpSample (f p).1 (f p).2 (1 / sym) (j / fs))) ?_ (h.rzip_gives hg)).of_eq ?_
    · intro p _
      obtain ⟨l, e1, e2, e3⟩ := C38_chirp hsymR fs hlt (f p).1 (f p).2
      refine ⟨_, rfl, Yields.of_eq (by simpa only [f, Flt.ofNat_real, Nat.cast_ofNat] using e1) ?_⟩
      rw [hfl] at e2 e3
      rw [hmul] at e3
      apply List.ext_getElem?
      intro i
      by_cases hi : i < fs / sym
      · rw [e3 i hi, List.getElem?_map, List.getElem?_range hi]
        rfl
      · rw [List.getElem?_eq_none (by omega), List.getElem?_eq_none (by simp; omega)]
    · unfold wave hopOf
      rw [List.flatMap_def, map_mapIdx']
  · intro i b hb
    rw [wave_getElem? hsps, hb, Option.map_some]
    cases b <;> rfl

example : ∃ tx l, txFhCss ℕ (ofList [true, false, true]) 44100 900 (1000 : ℝ) 2000 16 = pure tx ∧ Yields tx l ∧
    l.length = 3 * 49 := by
  obtain ⟨_, _, tx, l, _, _, h1, h2, h3, -⟩ := C39_waveform (ρ := ℕ) (yields_ofList [true, false, true]) (low := 1000)
    (high := 2000) (n := 16) (fs := 44100) (sym := 900) (by norm_num) (by norm_num) (by norm_num) (by norm_num) (by norm_num)
    (by norm_num)
  exact ⟨tx, l, h1, h2, h3⟩

/-! ## C64 legacy FH-BPSK transmitter -/

/-- Sample `j` of bit number `i` is taken at time `(i + j)/fs`: the time base of `tx_fh_bpsk_signal_old` moves one
*sample* per bit. -/
theorem C64_waveform [RIter ι Bool] {m : ι} {msg : List Bool} (h : Yields m msg) {low high fc : ℝ} {n fs sym : ℕ}
    (hn : 2 ≤ n) (hfs : fs < 2 ^ 64) (hfs0 : 0 < fs) (hsym : 0 < sym) (hdvd : sym ∣ fs) (hfc : ⌊fc⌋₊ ≤ fs / 2) :
    ∃ t hop tx l, hopTable ρ low high n SEED = pure t ∧ Gives t hop ∧
      txFhBpskOld ρ m low high n fs sym fc = pure tx ∧ Yields tx l ∧ l.length = msg.length * (fs / sym) ∧
      ∀ i j b, j < fs / sym → msg[i]? = some b →
        l[i * (fs / sym) + j]? = some ((if b then 1 else -1) * Real.cos (2 * Real.pi * fc * ((i + j : ℕ) / fs)) *
          Real.cos (2 * Real.pi * hop i * ((i + j : ℕ) / fs))) := by
  have hsps : 0 < fs / sym := Nat.div_pos (Nat.le_of_dvd hfs0 hdvd) hsym
  have hg := hopTable_gives (ρ := ρ) (hopFreqs low high n) (Rng.seed SEED) (by rw [hopFreqs_length]; exact hn)
  have h1 : Flt.toNat fc ≤ fs / 2 := by rw [Flt.toNat_real]; exact (min_le_left _ _).trans hfc
  have h2 : isInt (Flt.ofNat fs / Flt.ofNat sym : ℝ) = true := by simpa using (isInt_real hfs hsym).mpr hdvd
  refine ⟨_, _, _, wave (fs / sym) (fun i b j => bitToNrz b * Real.cos (2 * Real.pi * fc * ((i + j : ℕ) / fs)) *
          Real.cos (2 * Real.pi * hopOf ρ low high n i * ((i + j : ℕ) / fs))) msg, hopTable_ok low high n SEED, hg,
    by rw [txFhBpskOld, udiv_pos hsym, pure_bind, rassert_pos (by simpa using h1), rassert_pos h2, hopTable_ok]
       simp only [pure_bind]; rfl, ?_, wave_length _ _ _, ?_⟩
  · refine (Yields.rflatMap_mem (out := fun p : ℕ × (ℝ × ℝ) => (List.range (fs / sym)).map
      (fun j : ℕ => p.2.1 * Real.cos (2 * Real.pi * fc * ((p.1 + j : ℕ) / fs)) *
        Real.cos (2 * Real.pi * p.2.2 * ((p.1 + j : ℕ) / fs)))) ?_ (((h.rmap _).rzip_gives hg).renumerate)).of_eq ?_
    · intro p _
      refine ⟨_, rfl, ((yields_ofList _).rmap _).of_eq ?_⟩
      apply List.map_congr_left
      intro j _
      simp only [Flt.cos_real, Flt.ofNat_real, Flt.pi_real]
      push_cast
      rw [add_div]
    · unfold wave hopOf
      rw [List.flatMap_def, mapIdx_mapIdx', map_mapIdx', ← mapIdx_const, mapIdx_mapIdx']
  · intro i j b hj hb
    have hd : (i * (fs / sym) + j) / (fs / sym) = i := by
      rw [Nat.add_comm, Nat.add_mul_div_right _ _ hsps, Nat.div_eq_of_lt hj, Nat.zero_add]
    have hm : (i * (fs / sym) + j) % (fs / sym) = j := by
      rw [Nat.add_comm, Nat.add_mul_mod_self_right, Nat.mod_eq_of_lt hj]
    rw [wave_getElem? hsps, hd, hm, hb, Option.map_some, bitToNrz_real]
    rfl

example : ∃ t hop tx l, hopTable ρ (1000 : ℝ) 2000 4 SEED = pure t ∧ Gives t hop ∧
    txFhBpskOld ρ (ofList [true, false]) (1000 : ℝ) 2000 4 16000 1000 3000 = pure tx ∧ Yields tx l ∧ l.length = 2 * 16 ∧
    l[1 * 16 + 4]? = some (-1 * Real.cos (2 * Real.pi * 3000 * ((1 + 4 : ℕ) / (16000 : ℕ))) *
      Real.cos (2 * Real.pi * hop 1 * ((1 + 4 : ℕ) / (16000 : ℕ)))) := by
  obtain ⟨t, hop, tx, l, h1, h2, h3, h4, h5, h6⟩ := C64_waveform (ρ := ρ) (yields_ofList [true, false]) (low := 1000) (high := 2000)
    (fc := 3000) (n := 4) (fs := 16000) (sym := 1000) (by norm_num) (by norm_num) (by norm_num) (by norm_num) (by norm_num)
    (by norm_num)
  exact ⟨t, hop, tx, l, h1, h2, h3, h4, h5, h6 1 4 false (by norm_num) rfl⟩

end Verif.Props
