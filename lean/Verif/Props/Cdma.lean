import Verif.Lemmas.Cdma
import Verif.Props.Psk
import Verif.Props.Bch
import Verif.Props.Hadamard
import Mathlib.Data.List.GetD

/-!
# Properties C21–C23, C29–C31, C49: direct-sequence CDMA
-/
namespace Verif.Props
open Verif Spec
set_option linter.unusedSectionVars false

variable {ι κ : Type}

/-! ## C21 baseband round trip -/

/-- The spread stream: every message bit becomes the key, inverted when the bit is true. -/
theorem C21_spread [RIter ι Bool] {m : ι} {msg key : List Bool} (h : Yields m msg) (hk : key ≠ []) :
    ∃ chips, Yields (txBasebandCdma m key) chips ∧ chips.length = msg.length * key.length ∧
      chips = msg.flatMap (fun b => if b then key.map (!·) else key) := by
  refine ⟨_, txBaseband_yields h (List.length_pos_iff.mpr hk), length_flatMap_const _ _ (by simp), ?_⟩
  congr 1; funext b; cases b <;> simp

example : ∃ chips, Yields (txBasebandCdma (ofList [true, false]) [true, false, false]) chips ∧ chips.length = 6 ∧
    chips = [false, true, true, true, false, false] :=
  C21_spread (yields_ofList [true, false]) (by simp)

theorem countP_diffs_zip (b : Bool) (c key : List Bool) (h : c.length = key.length) :
    (List.zipWith (fun x k => x ^^ k) c key).countP id
      = if b then key.length - hamming (key.map (b ^^ ·)) c else hamming (key.map (b ^^ ·)) c := by
  have key' : (List.zipWith (fun x k => x ^^ k) c key).countP id + (if b then hamming (key.map (b ^^ ·)) c else 0)
      = if b then key.length else hamming (key.map (b ^^ ·)) c := by
    unfold hamming diffs
    induction c generalizing key with
    | nil => cases b <;> simp_all
    | cons x c ih =>
      cases key with
      | nil => simp at h
      | cons k key =>
        have := ih key (by simpa using h)
        simp only [List.zipWith_cons_cons, List.countP_cons, List.map_cons, List.length_cons]
        cases b <;> cases x <;> cases k <;> simp at this ⊢ <;> omega
  cases b
  · simpa using key'
  · simp only [if_true] at key' ⊢; omega

/-! ## C22 chip errors -/

/-- Decoding recovers the message when in every block of one key length fewer than half of the chips are wrong. -/
theorem C22_tolerance [RIter ι Bool] [RIter κ Bool] {m : ι} {msg key chips chips' : List Bool} (h : Yields m msg)
    (hk : key ≠ []) (hc : Yields (txBasebandCdma m key) chips) {rcv : κ} (hr : Yields rcv chips')
    (hlen : chips'.length = chips.length)
    (herr : ∀ n, 2 * hamming ((chips.drop (n * key.length)).take key.length)
      ((chips'.drop (n * key.length)).take key.length) < key.length) :
    Yields (rxBasebandCdma rcv key) msg := by
  have hk' : 0 < key.length := List.length_pos_iff.mpr hk
  have e := (txBaseband_yields h hk').unique hc
  subst e
  refine (rxBaseband_yields hr hk').of_eq ?_
  clear hr hc h
  rw [length_flatMap_const (k := key.length) _ _ (by simp)] at hlen
  induction msg generalizing chips' with
  | nil =>
    have : chips' = [] := by simpa using hlen
    subst this; simp [blocks_nil]
  | cons b msg ih =>
    have hge : key.length ≤ chips'.length := by
      rw [hlen, List.length_cons, Nat.add_mul]; omega
    have hne : chips' ≠ [] := by intro h0; rw [h0, List.length_nil] at hge; omega
    rw [blocks_cons hk' hne, List.map_cons]
    have hkl : (key.map (b ^^ ·)).length = key.length := by simp
    congr 1
    · have h0 := herr 0
      simp only [Nat.zero_mul, List.drop_zero, List.flatMap_cons] at h0
      rw [List.take_left' hkl] at h0
      rw [countP_diffs_zip b _ key (by simp; omega)]
      cases b
      · simp only [Bool.false_eq_true, if_false, decide_eq_false_iff_not]; simp only [Bool.false_bne] at h0 ⊢; omega
      · simp only [if_true, decide_eq_true_eq]; simp only [Bool.true_bne] at h0 ⊢; omega
    · apply ih
      · rw [List.length_drop, hlen, List.length_cons, Nat.add_mul]; omega
      · intro n
        have := herr (n + 1)
        rw [List.flatMap_cons, show (n + 1) * key.length = key.length + n * key.length by rw [Nat.add_mul]; omega,
          ← List.drop_drop, ← List.drop_drop, List.drop_left' hkl] at this
        exact this

/-- Two chips of five are wrong in every bit. -/
example : Yields (rxBasebandCdma (ofList [false, true, true, false, true, true, false, false, true, false])
    [false, true, false, true, false]) [true, false] := by
  have hc : Yields (txBasebandCdma (ofList [true, false]) [false, true, false, true, false])
      [true, false, true, false, true, false, true, false, true, false] := by
    obtain ⟨c, h1, -, h3⟩ := C21_spread (yields_ofList [true, false]) (key := [false, true, false, true, false]) (by simp)
    exact h1.of_eq h3
  refine C22_tolerance (yields_ofList [true, false]) (by simp) hc (yields_ofList _) rfl ?_
  intro n
  match n with
  | 0 => decide
  | 1 => decide
  | n + 2 =>
    rw [List.drop_eq_nil_of_le (by simp; omega), List.drop_eq_nil_of_le (by simp; omega)]
    decide

theorem hamming_self (l : List Bool) : hamming l l = 0 := by
  unfold hamming diffs
  rw [List.zipWith_self, List.countP_map, List.countP_eq_zero]
  simp

/-- Round trip. -/
theorem C21_roundtrip [RIter ι Bool] {m : ι} {msg key : List Bool} (h : Yields m msg) (hk : key ≠ []) :
    Yields (rxBasebandCdma (txBasebandCdma m key) key) msg := by
  have hk' : 0 < key.length := List.length_pos_iff.mpr hk
  have hy := txBaseband_yields h hk'
  exact C22_tolerance h hk hy hy rfl (fun n => by rw [hamming_self]; omega)

example : Yields (rxBasebandCdma (ofList [true, true, true, false, false, false, true, true, false, false, false, false, false, true, true])
    [false, true, false, true, false]) [true, false, false] := by
  have := rxBaseband_yields (yields_ofList [true, true, true, false, false, false, true, true, false, false, false, false, false, true, true])
    (key := [false, true, false, true, false]) (by simp)
  refine this.of_eq ?_
  rw [blocks_cons (by simp) (by simp), blocks_cons (by simp) (by simp), blocks_cons (by simp) (by simp)]
  simp [blocks_nil]

/-! ## C23 orthogonal keys -/

/-- Decoding with a key that agrees in exactly half of the positions gives `false` for every bit. -/
theorem C23_orthogonal [RIter ι Bool] {m : ι} {msg key key' : List Bool} (h : Yields m msg) (hk : key ≠ [])
    (hl : key'.length = key.length) (ho : 2 * agreements key key' = key.length) :
    Yields (rxBasebandCdma (txBasebandCdma m key) key') (List.replicate msg.length false) := by
  have hk' : 0 < key.length := List.length_pos_iff.mpr hk
  refine (rxBaseband_yields (txBaseband_yields h hk') (by omega)).of_eq ?_
  rw [hl, blocks_flatMap hk' _ _ (by simp), List.map_map, List.eq_replicate_iff]
  refine ⟨by simp, ?_⟩
  intro x hx
  obtain ⟨b, _, rfl⟩ := List.mem_map.mp hx
  simp only [Function.comp, decide_eq_false_iff_not]
  have hcount : ∀ (b : Bool) (k k' : List Bool), k'.length = k.length →
      (List.zipWith (fun x k => x ^^ k) (k.map (b ^^ ·)) k').countP id
        = if b then agreements k k' else k.length - agreements k k' := by
    intro b k k' hl
    have : (List.zipWith (fun x k => x ^^ k) (k.map (b ^^ ·)) k').countP id + (if b then 0 else agreements k k')
        = if b then agreements k k' else k.length := by
      unfold agreements
      induction k generalizing k' with
      | nil =>
        have : k' = [] := by simpa using hl
        subst this; cases b <;> simp
      | cons x k ih =>
        obtain ⟨y, k', rfl⟩ := List.exists_cons_of_length_eq_add_one (by simpa using hl : k'.length = k.length + 1)
        have := ih k' (by simpa using hl)
        simp only [List.zipWith_cons_cons, List.zip_cons_cons, List.countP_cons, List.map_cons, List.length_cons]
        cases b <;> cases x <;> cases y <;> simp at this ⊢ <;> omega
    cases b
    · simp only [Bool.false_eq_true, if_false] at this ⊢; omega
    · simpa using this
  rw [hcount b key key' hl]
  cases b <;> simp <;> omega

/-- In particular for two different rows of a Walsh–Hadamard matrix. -/
theorem C23_walsh [RIter ι Bool] {m : ι} {msg : List Bool} (h : Yields m msg) (k : ℕ) {mat : BMat}
    (hm : hadamardNew (2 ^ k) = pure mat) {i i' : ℕ} (hne : i ≠ i') {r r' : List Bool} (hr : mat[i]? = some r)
    (hr' : mat[i']? = some r') :
    Yields (rxBasebandCdma (txBasebandCdma m r) r') (List.replicate msg.length false) := by
  obtain ⟨m', hm', h2, h3⟩ := C19_entries k
  rw [hm, RM.ok_inj] at hm'
  subst hm'
  have hl : ∀ {a : ℕ} {s : List Bool}, mat[a]? = some s → s.length = 2 ^ k := by
    intro a s hs
    have ha : a < 2 ^ k := by
      have := (List.getElem?_eq_some_iff.mp hs).1
      omega
    obtain ⟨t, h1, h2, _⟩ := h3 a ha
    rw [hs] at h1; cases h1; exact h2
  have hp : 0 < 2 ^ k := Nat.two_pow_pos k
  refine C23_orthogonal h ?_ (by rw [hl hr, hl hr']) (by rw [hl hr]; exact C19_orthogonal k hm hne hr hr')
  intro h0
  have := hl hr
  rw [h0, List.length_nil] at this
  omega

example : Yields (rxBasebandCdma (txBasebandCdma (ofList [true, false, true]) [true, false, true, false])
    [true, true, false, false]) [false, false, false] :=
  C23_orthogonal (yields_ofList [true, false, true]) (by simp) (by simp) (by decide)

/-! ## C29 passband, one user -/

/-- The parameters accepted by `tx_cdma_bpsk_signal`, exact arithmetic. -/
theorem C29_guards [RIter ι Bool] (m : ι) (fs sym : ℕ) (fc : ℝ) (key : List Bool) (hfs : fs < 2 ^ 64) :
    (txCdmaBpsk m fs sym fc key).Panics ↔
      ¬ (0 < sym ∧ key ≠ [] ∧ sym * key.length ∣ fs ∧ 2 * (sym * key.length) ≤ fs ∧ ⌊fc⌋₊ ≤ fs / 2) := by
  rw [← List.length_pos_iff, ← cdmaOk_real hfs]
  constructor
  · intro hp hok
    have h1 := hok.sps
    have h3 := hok.key_pos
    unfold txCdmaBpsk at hp
    rw [hok.guards, pure_bind] at hp
    have h4 : ¬ (txBpsk m fs sym fc).Panics := by
      rw [C26_panics]
      rintro (h | h | h)
      · have := hok.sym_pos; omega
      · have := hok.car; omega
      · have := hok.int1; rw [h] at this; contradiction
    rcases RM.cases (txBpsk m fs sym fc) with ⟨a, ha⟩ | ⟨p, hpp⟩ | hd
    · rw [ha] at hp; exact RM.not_panics_ok _ hp
    · exact h4 ⟨p, hpp⟩
    · rw [hd] at hp; exact RM.not_panics_diverge hp
  · intro h
    obtain ⟨p, hp⟩ := (cdmaGuards_panics _ _ _ _).mpr h
    unfold txCdmaBpsk
    rw [hp]; simp

/-- Three chips do not divide the sixteen samples of a bit. -/
example : (txCdmaBpsk (ofList [true]) 16000 1000 (2000 : ℝ) [true, false, true]).Panics ∧
    ¬ (txCdmaBpsk (ofList [true]) 16000 1000 (2000 : ℝ) [true, false]).Panics := by
  rw [C29_guards _ _ _ _ _ (by norm_num), C29_guards _ _ _ _ _ (by norm_num)]
  simp

theorem cdmaBpsk_trip [RIter ι Bool] {m : ι} {msg : List Bool} (h : Yields m msg) {fs sym : ℕ} {fc : ℝ} {key : List Bool}
    (hfs : fs < 2 ^ 64) (hsym : 0 < sym) (hkey : key ≠ []) (hdvd : sym * key.length ∣ fs)
    (hnyq : 2 * (sym * key.length) ≤ fs) (hfc : ⌊fc⌋₊ ≤ fs / 2) :
    ∃ it it', txCdmaBpsk m fs sym fc key = pure it ∧ rxCdmaBpsk it fs sym fc key = pure it' ∧ Yields it' msg := by
  have hok := (cdmaOk_real (fc := fc) hfs).mpr ⟨hsym, List.length_pos_iff.mpr hkey, hdvd, hnyq, hfc⟩
  have h1 := hok.sps
  have h2 := hok.spc
  have h3 := hok.key_pos
  obtain ⟨it, e1, e2⟩ := txCdmaBpsk_ok h hok
  have e3 := (e2.spread h3 (show 0 < fs / sym / key.length by omega)).of_eq (despread_spread _ _ _)
  obtain ⟨it', e4, e5⟩ := rxBpsk_wave (fc := fc) (by omega) e3
  refine ⟨it, it', e1, by rw [rxCdmaBpsk, hok.guards, pure_bind, e4], e5.of_eq ?_⟩
  have hd := C25_decision h (show 0 < fs / sym by omega) hok.car hok.int1
  rw [C25_roundtrip h hfs (Dvd.dvd.trans (Dvd.intro _ rfl) hdvd) (by omega) hfc, RM.ok_inj] at hd
  exact hd.symm

/-- Round trip for all accepted parameters. -/
theorem C29_roundtrip [RIter ι Bool] {m : ι} {msg : List Bool} (h : Yields m msg) {fs sym : ℕ} {fc : ℝ} {key : List Bool}
    (hfs : fs < 2 ^ 64) (hsym : 0 < sym) (hkey : key ≠ []) (hdvd : sym * key.length ∣ fs)
    (hnyq : 2 * (sym * key.length) ≤ fs) (hfc : ⌊fc⌋₊ ≤ fs / 2) :
    (do let tx ← txCdmaBpsk m fs sym fc key; let rx ← rxCdmaBpsk tx fs sym fc key; collect rx) = pure msg := by
  obtain ⟨it, it', e1, e2, e3⟩ := cdmaBpsk_trip h hfs hsym hkey hdvd hnyq hfc
  rw [e1, pure_bind, e2, pure_bind, collect_of_yields e3]

/-- A key that is complementary (all chips inverted) inverts every bit. -/
theorem C29_complement [RIter ι Bool] {m : ι} {msg : List Bool} (h : Yields m msg) {fs sym : ℕ} {fc : ℝ} {key : List Bool}
    (hfs : fs < 2 ^ 64) (hsym : 0 < sym) (hkey : key ≠ []) (hdvd : sym * key.length ∣ fs)
    (hnyq : 2 * (sym * key.length) ≤ fs) (hfc : ⌊fc⌋₊ ≤ fs / 2) :
    (do let tx ← txCdmaBpsk m fs sym fc key; let rx ← rxCdmaBpsk tx fs sym fc (key.map (!·)); collect rx)
      = pure (msg.map (!·)) := by
  have hok := (cdmaOk_real (fc := fc) hfs).mpr ⟨hsym, List.length_pos_iff.mpr hkey, hdvd, hnyq, hfc⟩
  have h1 := hok.sps
  have h2 := hok.spc
  have h3 := hok.key_pos
  obtain ⟨it, e1, e2⟩ := txCdmaBpsk_ok h hok
  have hinv : ∀ i x, (x : ℝ) * bitToNrz (keyBit key (fs / sym / key.length) i)
      * bitToNrz (keyBit (key.map (!·)) (fs / sym / key.length) i) = -x := by
    intro i x
    have hlt : (i / (fs / sym / key.length)) % key.length < key.length := Nat.mod_lt _ h3
    simp only [keyBit, List.length_map, List.getD_eq_getElem?_getD, List.getElem?_map, List.getElem?_eq_getElem hlt,
      Option.map_some, Option.getD_some, bitToNrz_real]
    cases key[(i / (fs / sym / key.length)) % key.length] <;> simp
  have e3 := (e2.spread (key := key.map (!·)) (by simpa using h3) (show 0 < fs / sym / key.length by omega)).of_eq
    (show _ = wave (fs / sym) (fun n b j => bitToNrz b * Flt.cos (phase fs fc (n * (fs / sym) + j))) (msg.map (!·)) by
      rw [mapIdx_mapIdx', mapIdx_wave, wave_map]
      congr 1
      funext n b j
      rw [hinv, bitToNrz_real, bitToNrz_real]
      cases b <;> simp)
  obtain ⟨it', e4, e5⟩ := rxBpsk_wave (fc := fc) (by omega) e3
  have hg := hok.guards
  rw [e1, pure_bind, rxCdmaBpsk, List.length_map, hg, pure_bind, e4, pure_bind, collect_of_yields e5]
  rw [← C25_decision (yields_ofList (msg.map (!·))) (by omega) hok.car hok.int1]
  exact C25_roundtrip (yields_ofList _) hfs (Dvd.dvd.trans (Dvd.intro _ rfl) hdvd) (by omega) hfc

example : (do let tx ← txCdmaBpsk (ofList [true, false]) 16000 1000 (2000 : ℝ) [true, false, true, false]
              let rx ← rxCdmaBpsk tx 16000 1000 (2000 : ℝ) [true, false, true, false]; collect rx)
    = pure [true, false] :=
  C29_roundtrip (yields_ofList _) (by norm_num) (by norm_num) (by simp) (by simp) (by simp) (by norm_num)

/-! ## C31 CDMA/QPSK -/

/-- One user, each symbol a whole number of carrier half-periods, carrier not a multiple of half the sample rate. -/
theorem C31_roundtrip [RIter ι Bool] {m : ι} {msg : List Bool} (h : Yields m msg) {fs sym : ℕ} {fc : ℝ} {key : List Bool}
    (hfs : fs < 2 ^ 64) (hsym : 0 < sym) (hkey : key ≠ []) (hdvd : sym * key.length ∣ fs)
    (hnyq : 2 * (sym * key.length) ≤ fs) (hfc : ⌊fc⌋₊ ≤ fs / 2)
    {p : ℤ} (hp : (fs / sym : ℕ) * (2 * fc) = p * fs) (hne : ∀ q : ℤ, 2 * fc ≠ q * fs) :
    (do let tx ← txCdmaQpsk m fs sym fc key; let rx ← rxCdmaQpsk tx fs sym fc key; collect rx)
      = pure (msg.take (2 * (msg.length / 2))) := by
  have hok := (cdmaOk_real (fc := fc) hfs).mpr ⟨hsym, List.length_pos_iff.mpr hkey, hdvd, hnyq, hfc⟩
  have h1 := hok.sps
  have h2 := hok.spc
  have h3 := hok.key_pos
  have hsps : 0 < fs / sym := by omega
  obtain ⟨it, e1, e2⟩ := txCdmaQpsk_ok h hok
  have e3 := (e2.spread h3 (show 0 < fs / sym / key.length by omega)).of_eq (despread_spread _ _ _)
  obtain ⟨it', e4, e5⟩ := rxQpsk_wave (fc := fc) hsps e3
  rw [e1, pure_bind, rxCdmaQpsk, hok.guards, pure_bind, e4, pure_bind, collect_of_yields e5]
  have hq := C28_roundtrip h hsps hp hne
  obtain ⟨jt, f1, f2⟩ := txQpsk_ok h (fc := fc) hsps
  obtain ⟨jt', f3, f4⟩ := rxQpsk_wave (fc := fc) hsps f2
  rw [f1, pure_bind, f3, pure_bind, collect_of_yields f4] at hq
  exact hq

example : (do let tx ← txCdmaQpsk (ofList [true, false, false]) 16000 1000 (2000 : ℝ) [true, false, true, false]
              let rx ← rxCdmaQpsk tx 16000 1000 (2000 : ℝ) [true, false, true, false]; collect rx)
    = pure [true, false] := by
  refine C31_roundtrip (yields_ofList [true, false, false]) (by norm_num) (by norm_num) (by simp) (by simp) (by simp)
    (by norm_num) (p := 4) (by norm_num) ?_
  intro q hq
  have : (2 * 2000 : ℤ) = q * 16000 := by exact_mod_cast hq
  omega

/-! ## C30 several users -/

/-- What user `(key, message)` transmits. -/
def Transmits (fs sym : ℕ) (fc : ℝ) (u : List Bool × List Bool) (signal : List ℝ) : Prop :=
  (do let tx ← txCdmaBpsk (ofList u.2) fs sym fc u.1; collect tx) = pure signal

/-- The channel adds the signals of all users sample by sample. -/
def Superposed (signals : List (List ℝ)) (channel : List ℝ) : Prop :=
  (∀ s ∈ signals, s.length = channel.length) ∧
    ∀ i, i < channel.length → channel[i]? = some (signals.map (fun s => s.getD i 0)).sum

/-- Exact form of the receiver's decision for bit `n`: the carrier energies of the chips, weighted with the key of the
receiver and the sum of all users' contributions. -/
theorem C30_decision [RIter κ ℝ] {users : List (List Bool × List Bool)} {N L fs sym : ℕ} {fc : ℝ}
    (hfs : fs < 2 ^ 64) (hsym : 0 < sym) (hL : 0 < L) (hdvd : sym * L ∣ fs) (hnyq : 2 * (sym * L) ≤ fs)
    (hfc : ⌊fc⌋₊ ≤ fs / 2) (hkey : ∀ u ∈ users, u.1.length = L) (hmsg : ∀ u ∈ users, u.2.length = N)
    {signals : List (List ℝ)} (htx : List.Forall₂ (Transmits fs sym fc) users signals)
    {channel : List ℝ} (hclen : channel.length = N * (fs / sym)) (hsup : Superposed signals channel)
    {rcv : κ} (hrcv : Yields rcv channel) {key : List Bool} (hk : key.length = L) :
    (do let rx ← rxCdmaBpsk rcv fs sym fc key; collect rx) = pure ((List.range N).map (fun n =>
      decide (0 < ∑ c ∈ Finset.range L, chipEnergy fs (fs / sym) (fs / sym / L) fc n c *
        ((if key.getD c false then 1 else -1) * (users.map (fun u =>
          (if u.2.getD n false then 1 else -1) * (if u.1.getD c false then 1 else -1))).sum)))) := by
  have hok := (cdmaOk_real (fc := fc) hfs).mpr ⟨hsym, hL, hdvd, hnyq, hfc⟩
  have h1 := hok.sps
  have h2 := hok.spc
  have hsps : 0 < fs / sym := by omega
  -- the transmitted signals
  have hsig : signals = users.map (fun u => (wave (fs / sym) (fun n b j =>
      bitToNrz b * Flt.cos (phase fs fc (n * (fs / sym) + j))) u.2).mapIdx
        (fun i x => x * bitToNrz (keyBit u.1 (fs / sym / L) i))) := by
    clear hsup hmsg
    induction htx with
    | nil => rfl
    | @cons u s us ss ht _ ih =>
      rw [List.map_cons, ← ih (fun v hv => hkey v (by simp [hv]))]
      congr 1
      have hl := hkey u (by simp)
      obtain ⟨it, e1, e2⟩ := txCdmaBpsk_ok (yields_ofList u.2) (key := u.1) (hl ▸ hok)
      unfold Transmits at ht
      rw [e1, pure_bind, collect_of_yields e2, RM.ok_inj] at ht
      rw [← ht, hl]
  -- the channel as a waveform
  have hch : channel = wave (fs / sym) (fun n (_ : ℕ) j => (users.map (fun u =>
      (bitToNrz (u.2.getD n false) : ℝ) * Real.cos (phase fs fc (n * (fs / sym) + j))
        * bitToNrz (keyBit u.1 (fs / sym / L) (n * (fs / sym) + j)))).sum) (List.range N) := by
    apply List.ext_getElem?
    intro i
    rw [wave_getElem? hsps]
    by_cases hi : i < channel.length
    · have hin : i / (fs / sym) < N := by rw [Nat.div_lt_iff_lt_mul hsps]; omega
      rw [hsup.2 i hi, List.getElem?_range hin]
      simp only [Option.map_some, Option.some.injEq]
      rw [hsig, List.map_map]
      congr 1
      apply List.map_congr_left
      intro u hu
      simp only [Function.comp]
      rw [List.getD_eq_getElem?_getD, List.getElem?_mapIdx, wave_getElem? hsps,
        List.getElem?_eq_getElem (show i / (fs / sym) < u.2.length by rw [hmsg u hu]; exact hin)]
      simp only [Option.map_some, Option.getD_some]
      rw [List.getD_eq_getElem?_getD, List.getElem?_eq_getElem (show i / (fs / sym) < u.2.length by rw [hmsg u hu]; exact hin),
        Nat.mul_comm, Nat.div_add_mod]
      rfl
    · rw [List.getElem?_eq_none (by omega), List.getElem?_eq_none]
      · rfl
      · rw [List.length_range, Nat.le_div_iff_mul_le hsps]; omega
  have hrcv' := (hrcv.spread (key := key) (by omega) (show 0 < fs / sym / L by omega)).of_eq (by
    rw [hch, mapIdx_wave])
  obtain ⟨it', e4, e5⟩ := rxBpsk_wave (fc := fc) hsps hrcv'
  rw [rxCdmaBpsk, hk, hok.guards, pure_bind, e4, pure_bind, collect_of_yields e5]
  congr 1
  rw [← mapIdx_const (fun n => decide (0 < ∑ c ∈ Finset.range L, chipEnergy fs (fs / sym) (fs / sym / L) fc n c *
        ((if key.getD c false then (1 : ℝ) else -1) * (users.map (fun u =>
          (if u.2.getD n false then (1 : ℝ) else -1) * (if u.1.getD c false then (1 : ℝ) else -1))).sum)))]
  apply mapIdx_congr'
  intro n a ha
  have hna : a = n := by
    have hn : n < N := by
      by_contra hcon
      rw [List.getElem?_eq_none (by simp; omega)] at ha; contradiction
    rw [List.getElem?_range hn] at ha
    exact (Option.some.inj ha).symm
  subst hna
  rw [rsum_range, Flt.lt_real]
  congr 2
  have hdiv : fs / sym = L * (fs / sym / L) := by
    have : L ∣ fs / sym := by
      obtain ⟨q, rfl⟩ := hdvd
      rw [Nat.mul_assoc, Nat.mul_div_cancel_left _ hsym]
      exact Dvd.intro _ rfl
    exact (Nat.mul_div_cancel' this).symm
  generalize hS : fs / sym = sps at *
  generalize hC : sps / L = spc at *
  rw [show Finset.range sps = Finset.range (L * spc) by rw [← hdiv], sum_range_mul']
  apply Finset.sum_congr rfl
  intro c hc
  have hc' : c < L := by simpa using hc
  unfold chipEnergy
  rw [Finset.sum_mul]
  apply Finset.sum_congr rfl
  intro t ht
  have ht' : t < spc := by simpa using ht
  have hkb : ∀ k : List Bool, k.length = L → keyBit k spc (a * sps + (c * spc + t)) = k.getD c false := by
    intro k hkl
    rw [hdiv, ← hkl]
    exact keyBit_eq (by omega) ht'
  rw [hkb key hk, phase_real', Flt.cos_real]
  have hmap : (users.map (fun u => (bitToNrz (u.2.getD a false) : ℝ)
        * Real.cos (2 * Real.pi * fc * ((a * sps + (c * spc + t) : ℕ) : ℝ) / fs)
        * bitToNrz (keyBit u.1 spc (a * sps + (c * spc + t))))).sum
      = (users.map (fun u => (if u.2.getD a false then (1 : ℝ) else -1) * (if u.1.getD c false then 1 else -1))).sum
        * Real.cos (2 * Real.pi * fc * ((a * sps + (c * spc + t) : ℕ) : ℝ) / fs) := by
    rw [list_sum_map_mul_left]
    congr 1
    apply List.map_congr_left
    intro u hu
    rw [hkb u.1 (hkey u hu), bitToNrz_real, bitToNrz_real]; ring
  rw [hmap, bitToNrz_real]
  ring

/-- Separation: pairwise orthogonal keys, each chip a whole number of carrier half-periods. -/
theorem C30_separation [RIter κ ℝ] {users : List (List Bool × List Bool)} {N L fs sym : ℕ} {fc : ℝ}
    (hfs : fs < 2 ^ 64) (hsym : 0 < sym) (hL : 0 < L) (hdvd : sym * L ∣ fs) (hnyq : 2 * (sym * L) ≤ fs)
    (hfc : ⌊fc⌋₊ ≤ fs / 2) (hkey : ∀ u ∈ users, u.1.length = L) (hmsg : ∀ u ∈ users, u.2.length = N)
    (horth : users.Pairwise (fun u v => 2 * agreements u.1 v.1 = L))
    {p : ℤ} (hp : ((fs / sym / L : ℕ) : ℝ) * (2 * fc) = p * fs)
    {signals : List (List ℝ)} (htx : List.Forall₂ (Transmits fs sym fc) users signals)
    {channel : List ℝ} (hclen : channel.length = N * (fs / sym)) (hsup : Superposed signals channel)
    {rcv : κ} (hrcv : Yields rcv channel) :
    ∀ v ∈ users, (do let rx ← rxCdmaBpsk rcv fs sym fc v.1; collect rx) = pure v.2 := by
  intro v hv
  rw [C30_decision hfs hsym hL hdvd hnyq hfc hkey hmsg htx hclen hsup hrcv (hkey v hv)]
  congr 1
  have hsl : 0 < sym * L := Nat.mul_pos hsym hL
  have hfs0 : 0 < fs := by omega
  obtain ⟨E, hE⟩ := chipEnergy_const (sps := fs / sym) (spc := fs / sym / L) (fc := fc) hfs0 hp
  have hok := (cdmaOk_real (fc := fc) hfs).mpr ⟨hsym, hL, hdvd, hnyq, hfc⟩
  have hEpos : 0 < E := by rw [← hE 0 0]; exact chipEnergy_pos fc 0 0 hok.spc
  have hval : ∀ n, ∑ c ∈ Finset.range L, chipEnergy fs (fs / sym) (fs / sym / L) fc n c *
        ((if v.1.getD c false then (1 : ℝ) else -1) * (users.map (fun u =>
          (if u.2.getD n false then (1 : ℝ) else -1) * (if u.1.getD c false then 1 else -1))).sum)
      = E * (L * (if v.2.getD n false then 1 else -1)) := by
    intro n
    simp only [hE]
    rw [← Finset.mul_sum]
    congr 1
    have e1 : ∀ c, (if v.1.getD c false then (1 : ℝ) else -1) * (users.map (fun u =>
          (if u.2.getD n false then (1 : ℝ) else -1) * (if u.1.getD c false then 1 else -1))).sum
        = (users.map (fun u => (if u.2.getD n false then (1 : ℝ) else -1) *
          ((bitToNrz (u.1.getD c false) : ℝ) * bitToNrz (v.1.getD c false)))).sum := by
      intro c
      rw [mul_comm, list_sum_map_mul_left]
      congr 1
      apply List.map_congr_left
      intro u _
      rw [bitToNrz_real, bitToNrz_real]; ring
    simp only [e1]
    rw [finset_sum_list_sum]
    simp only [← Finset.mul_sum]
    obtain ⟨as, bs, rfl⟩ := List.append_of_mem hv
    rw [List.pairwise_append, List.pairwise_cons] at horth
    obtain ⟨-, ⟨ho2, -⟩, ho1⟩ := horth
    have hzero : ∀ u, u ∈ as ∨ u ∈ bs →
        ∑ c ∈ Finset.range L, (bitToNrz (u.1.getD c false) : ℝ) * bitToNrz (v.1.getD c false) = 0 := by
      intro u hu
      have hul : u.1.length = L := hkey u (by rcases hu with h | h <;> simp [h])
      rw [key_inner hul (hkey v hv)]
      have hag : 2 * agreements u.1 v.1 = L := by
        rcases hu with h | h
        · exact ho1 u h v (by simp)
        · have := ho2 u h
          rw [← this]; congr 1
          unfold agreements
          rw [← List.zip_swap, List.countP_map]
          congr 1
          funext x
          simp only [Function.comp, Prod.fst_swap, Prod.snd_swap]
          exact Bool.beq_comm
      have : (2 : ℝ) * (agreements u.1 v.1 : ℝ) = L := by exact_mod_cast hag
      linarith
    have hself : ∑ c ∈ Finset.range L, (bitToNrz (v.1.getD c false) : ℝ) * bitToNrz (v.1.getD c false) = L := by
      rw [Finset.sum_congr rfl (fun c _ => bitToNrz_sq (v.1.getD c false))]; simp
    rw [List.map_append, List.map_cons, List.sum_append, List.sum_cons, hself]
    have hz : ∀ l : List (List Bool × List Bool), (∀ u ∈ l, u ∈ as ∨ u ∈ bs) →
        (l.map (fun u => (if u.2.getD n false then (1 : ℝ) else -1) *
          ∑ c ∈ Finset.range L, (bitToNrz (u.1.getD c false) : ℝ) * bitToNrz (v.1.getD c false))).sum = 0 := by
      intro l hl
      apply List.sum_eq_zero
      intro x hx
      obtain ⟨u, hu, rfl⟩ := List.mem_map.mp hx
      rw [hzero u (hl u hu), mul_zero]
    rw [hz as (fun u h => .inl h), hz bs (fun u h => .inr h)]
    ring
  simp only [hval]
  apply List.ext_getElem?
  intro n
  have hvl := hmsg v hv
  by_cases hn : n < N
  · rw [List.getElem?_map, List.getElem?_range hn, List.getElem?_eq_getElem (by omega)]
    simp only [Option.map_some, Option.some.injEq]
    rw [List.getD_eq_getElem?_getD, List.getElem?_eq_getElem (by omega), Option.getD_some]
    have hLr : (0 : ℝ) < L := by exact_mod_cast hL
    have := mul_pos hEpos hLr
    cases v.2[n]
    · simp only [Bool.false_eq_true, if_false, decide_eq_false_iff_not]; nlinarith
    · simp only [if_true, decide_eq_true_eq]; nlinarith
  · rw [List.getElem?_eq_none (by simp; omega), List.getElem?_eq_none (by omega)]

theorem forall₂_exists {A B : Type} {R : A → B → Prop} {l : List A} (h : ∀ a ∈ l, ∃ b, R a b) : ∃ l', List.Forall₂ R l l' := by
  induction l with
  | nil => exact ⟨[], .nil⟩
  | cons a l ih =>
    obtain ⟨b, hb⟩ := h a (by simp)
    obtain ⟨l', hl⟩ := ih (fun x hx => h x (by simp [hx]))
    exact ⟨b :: l', .cons hb hl⟩

/-- All users can transmit and the signals can be superposed: the hypotheses of `C30_separation` are satisfiable for
all users. -/
theorem C30_channel_exists {users : List (List Bool × List Bool)} {N L fs sym : ℕ} {fc : ℝ}
    (hfs : fs < 2 ^ 64) (hsym : 0 < sym) (hL : 0 < L) (hdvd : sym * L ∣ fs) (hnyq : 2 * (sym * L) ≤ fs)
    (hfc : ⌊fc⌋₊ ≤ fs / 2) (hkey : ∀ u ∈ users, u.1.length = L) (hmsg : ∀ u ∈ users, u.2.length = N) :
    ∃ signals channel, List.Forall₂ (Transmits fs sym fc) users signals ∧ channel.length = N * (fs / sym) ∧
      Superposed signals channel := by
  have hok := (cdmaOk_real (fc := fc) hfs).mpr ⟨hsym, hL, hdvd, hnyq, hfc⟩
  have hsps : 0 < fs / sym := by have := hok.sps; omega
  have htr : ∀ u ∈ users, ∃ s, Transmits fs sym fc u s ∧ s.length = N * (fs / sym) := by
    intro u hu
    have hl := hkey u hu
    obtain ⟨it, e1, e2⟩ := txCdmaBpsk_ok (yields_ofList u.2) (key := u.1) (hl ▸ hok)
    refine ⟨_, by unfold Transmits; rw [e1, pure_bind, collect_of_yields e2], ?_⟩
    rw [List.length_mapIdx, wave_length, hmsg u hu]
  obtain ⟨signals, hs⟩ := forall₂_exists htr
  refine ⟨signals, (List.range (N * (fs / sym))).map (fun i => (signals.map (fun s => s.getD i 0)).sum),
    hs.imp (fun _ _ h => h.1), by simp, ?_, ?_⟩
  · intro s hsm
    obtain ⟨hlen, hget⟩ := List.forall₂_iff_get.mp hs
    obtain ⟨i, hi, rfl⟩ := List.mem_iff_getElem.mp hsm
    rw [List.length_map, List.length_range]
    exact (hget i (by omega) hi).2
  · intro i hi
    rw [List.length_map, List.length_range] at hi
    rw [List.getElem?_map, List.getElem?_range hi]; rfl

/-- A receiver whose key nobody uses (orthogonal to the only key in use) reads zeros. -/
example : ∃ channel : List ℝ, (do let rx ← rxCdmaBpsk (ofList channel) 8 1 1 [true, false]; collect rx) = pure [false] := by
  have h1 : ∀ u ∈ [([true, true], [true])], u.1.length = 2 := by simp
  have h2 : ∀ u ∈ [([true, true], [true])], u.2.length = 1 := by simp
  obtain ⟨s, c, e1, e2, e3⟩ := C30_channel_exists (fs := 8) (sym := 1) (fc := 1) (by norm_num) (by norm_num) (by norm_num)
    (by norm_num) (by norm_num) (by norm_num) h1 h2
  refine ⟨c, (C30_decision (fs := 8) (sym := 1) (fc := 1) (by norm_num) (by norm_num) (by norm_num)
    (by norm_num) (by norm_num) (by norm_num) h1 h2 e1 e2 e3 (yields_ofList c) (key := [true, false]) rfl).trans ?_⟩
  obtain ⟨E, e⟩ := chipEnergy_const (fs := 8) (sps := 8 / 1) (spc := 8 / 1 / 2) (fc := 1) (by norm_num) (p := 1) (by norm_num)
  simp only [e]
  simp [Finset.sum_range_succ]

/-- Walsh codes as keys: every set of users with pairwise different rows separates. -/
theorem C30_walsh [RIter κ ℝ] {k N fs sym : ℕ} {fc : ℝ} {mat : BMat} (hm : hadamardNew (2 ^ k) = pure mat)
    {rows : List ℕ} (hnd : rows.Nodup) {users : List (List Bool × List Bool)}
    (hrows : List.Forall₂ (fun r u => mat[r]? = some u.1 ∧ u.2.length = N) rows users)
    (hfs : fs < 2 ^ 64) (hsym : 0 < sym) (hdvd : sym * 2 ^ k ∣ fs) (hnyq : 2 * (sym * 2 ^ k) ≤ fs) (hfc : ⌊fc⌋₊ ≤ fs / 2)
    {p : ℤ} (hp : ((fs / sym / 2 ^ k : ℕ) : ℝ) * (2 * fc) = p * fs)
    {signals : List (List ℝ)} (htx : List.Forall₂ (Transmits fs sym fc) users signals)
    {channel : List ℝ} (hclen : channel.length = N * (fs / sym)) (hsup : Superposed signals channel)
    {rcv : κ} (hrcv : Yields rcv channel) :
    ∀ v ∈ users, (do let rx ← rxCdmaBpsk rcv fs sym fc v.1; collect rx) = pure v.2 := by
  have hl : ∀ {a : ℕ} {s : List Bool}, mat[a]? = some s → s.length = 2 ^ k := by
    obtain ⟨m', hm', h2, h3⟩ := C19_entries k
    rw [hm, RM.ok_inj] at hm'
    subst hm'
    intro a s hs
    have ha : a < 2 ^ k := by
      have := (List.getElem?_eq_some_iff.mp hs).1
      omega
    obtain ⟨t, h1, h2, _⟩ := h3 a ha
    rw [hs] at h1; cases h1; exact h2
  have hmem : ∀ u ∈ users, ∃ r ∈ rows, mat[r]? = some u.1 ∧ u.2.length = N := by
    intro u hu
    obtain ⟨i, hi, rfl⟩ := List.mem_iff_getElem.mp hu
    obtain ⟨h1, h2⟩ := List.forall₂_iff_get.mp hrows
    exact ⟨rows[i]'(by omega), List.getElem_mem _, h2 i (by omega) hi⟩
  refine C30_separation hfs hsym (Nat.two_pow_pos k) hdvd hnyq hfc ?_ ?_ ?_ hp htx hclen hsup hrcv
  · intro u hu
    obtain ⟨r, _, h, _⟩ := hmem u hu
    exact hl h
  · intro u hu
    obtain ⟨r, _, _, h⟩ := hmem u hu
    exact h
  · clear htx hmem
    induction hrows with
    | nil => exact List.Pairwise.nil
    | @cons r u rs us h hs ih =>
      rw [List.nodup_cons] at hnd
      rw [List.pairwise_cons]
      refine ⟨?_, ih hnd.2⟩
      intro v hv
      obtain ⟨i, hi, rfl⟩ := List.mem_iff_getElem.mp hv
      obtain ⟨h1, h2⟩ := List.forall₂_iff_get.mp hs
      refine C19_orthogonal k hm ?_ h.1 (h2 i (by omega) hi).1
      rintro rfl
      exact hnd.1 (List.getElem_mem _)

/-- Rows 1 and 2 of the 4 × 4 matrix. -/
example : ∃ channel : List ℝ, (do let rx ← rxCdmaBpsk (ofList channel) 16 1 2 [true, false, true, false]; collect rx) = pure [true, false] ∧
    (do let rx ← rxCdmaBpsk (ofList channel) 16 1 2 [true, true, false, false]; collect rx) = pure [false, false] := by
  have hm := hadamardNew_ok 2
  have w1 : (List.range (2 ^ 2)).map (walsh 1) = [true, false, true, false] := by decide +kernel
  have w2 : (List.range (2 ^ 2)).map (walsh 2) = [true, true, false, false] := by decide +kernel
  have h1 : ∀ u ∈ [([true, false, true, false], [true, false]), ([true, true, false, false], [false, false])],
    u.1.length = 4 := by simp
  have h2 : ∀ u ∈ [([true, false, true, false], [true, false]), ([true, true, false, false], [false, false])],
    u.2.length = 2 := by simp
  obtain ⟨s, c, e1, e2, e3⟩ := C30_channel_exists (fs := 16) (sym := 1) (fc := 2) (by norm_num) (by norm_num) (by norm_num)
    (by norm_num) (by norm_num) (by norm_num) h1 h2
  have := C30_walsh (k := 2) (fs := 16) (sym := 1) (fc := 2) hm (rows := [1, 2]) (by decide)
    (users := [([true, false, true, false], [true, false]), ([true, true, false, false], [false, false])]) (N := 2)
    (.cons ⟨by simp [← w1], rfl⟩ (.cons ⟨by simp [← w2], rfl⟩ .nil)) (by norm_num) (by norm_num) (by norm_num) (by norm_num) (by norm_num)
    (p := 1) (by norm_num) e1 e2 e3 (yields_ofList c)
  exact ⟨c, this _ (List.mem_cons_self ..), this _ (List.mem_cons_of_mem _ (List.mem_cons_self ..))⟩

/-- Two users, four samples per chip, half a carrier period per chip. -/
example : ∃ signals channel, List.Forall₂ (Transmits 8 1 1) [([true, true], [true]), ([true, false], [false])] signals ∧
    Superposed signals channel ∧
    (do let rx ← rxCdmaBpsk (ofList channel) 8 1 1 [true, true]; collect rx) = pure [true] ∧
    (do let rx ← rxCdmaBpsk (ofList channel) 8 1 1 [true, false]; collect rx) = pure [false] := by
  have h1 : ∀ u ∈ [([true, true], [true]), ([true, false], [false])], u.1.length = 2 := by simp
  have h2 : ∀ u ∈ [([true, true], [true]), ([true, false], [false])], u.2.length = 1 := by simp
  obtain ⟨s, c, e1, e2, e3⟩ := C30_channel_exists (fs := 8) (sym := 1) (fc := 1) (by norm_num) (by norm_num) (by norm_num)
    (by norm_num) (by norm_num) (by norm_num) h1 h2
  have := C30_separation (fs := 8) (sym := 1) (fc := 1) (by norm_num) (by norm_num) (by norm_num)
    (by norm_num) (by norm_num) (by norm_num) h1 h2 (by simp; decide) (p := 1) (by norm_num) e1 e2 e3 (yields_ofList c)
  exact ⟨s, c, e1, e3, this ([true, true], [true]) (by simp), this ([true, false], [false]) (by simp)⟩

/-! ## C63 two users need no orthogonality -/

/-- Two users whose keys are neither equal nor complementary are separated at every accepted carrier. -/
theorem C63_two_users [RIter κ ℝ] {u v : List Bool × List Bool} {N L fs sym : ℕ} {fc : ℝ}
    (hfs : fs < 2 ^ 64) (hsym : 0 < sym) (hL : 0 < L) (hdvd : sym * L ∣ fs) (hnyq : 2 * (sym * L) ≤ fs)
    (hfc : ⌊fc⌋₊ ≤ fs / 2) (hku : u.1.length = L) (hkv : v.1.length = L) (hmu : u.2.length = N) (hmv : v.2.length = N)
    (hne : u.1 ≠ v.1) (hnc : u.1 ≠ v.1.map (!·))
    {su sv channel : List ℝ} (hu : Transmits fs sym fc u su) (hv : Transmits fs sym fc v sv)
    (hclen : channel.length = N * (fs / sym)) (hsup : Superposed [su, sv] channel) {rcv : κ} (hrcv : Yields rcv channel) :
    (do let rx ← rxCdmaBpsk rcv fs sym fc u.1; collect rx) = pure u.2 := by
  have hok := (cdmaOk_real (fc := fc) hfs).mpr ⟨hsym, hL, hdvd, hnyq, hfc⟩
  rw [C30_decision (users := [u, v]) hfs hsym hL hdvd hnyq hfc (by simp [hku, hkv]) (by simp [hmu, hmv])
    (.cons hu (.cons hv .nil)) hclen hsup hrcv hku]
  congr 1
  have hpos : ∀ n c, 0 < chipEnergy fs (fs / sym) (fs / sym / L) fc n c := fun n c => chipEnergy_pos fc n c hok.spc
  -- a position where the keys differ and one where they agree
  obtain ⟨c1, hc1, hd1⟩ : ∃ c, c < L ∧ u.1.getD c false ≠ v.1.getD c false := by
    by_contra hcon
    push Not at hcon
    apply hne
    apply List.ext_getElem (by omega)
    intro i hi hi'
    have := hcon i (by omega)
    rwa [List.getD_eq_getElem _ _ hi, List.getD_eq_getElem _ _ hi'] at this
  obtain ⟨c2, hc2, hd2⟩ : ∃ c, c < L ∧ u.1.getD c false = v.1.getD c false := by
    by_contra hcon
    push Not at hcon
    apply hnc
    apply List.ext_getElem (by simp; omega)
    intro i hi hi'
    have := hcon i (by omega)
    rw [List.getD_eq_getElem _ _ hi, List.getD_eq_getElem _ _ (by omega)] at this
    rw [List.getElem_map]
    revert this
    cases u.1[i] <;> cases v.1[i]'(by omega) <;> simp
  have hval : ∀ n, (0 < ∑ c ∈ Finset.range L, chipEnergy fs (fs / sym) (fs / sym / L) fc n c *
        ((if u.1.getD c false then (1 : ℝ) else -1) * (([u, v]).map (fun u =>
          (if u.2.getD n false then (1 : ℝ) else -1) * (if u.1.getD c false then 1 else -1))).sum))
      ↔ u.2.getD n false = true := by
    intro n
    set E := fun c => chipEnergy fs (fs / sym) (fs / sym / L) fc n c with hE
    have hterm : ∀ c, E c * ((if u.1.getD c false then (1 : ℝ) else -1) * (([u, v]).map (fun u =>
          (if u.2.getD n false then (1 : ℝ) else -1) * (if u.1.getD c false then 1 else -1))).sum)
        = (if u.2.getD n false then (1 : ℝ) else -1) * (E c * (1 + (if u.2.getD n false = v.2.getD n false then 1 else -1)
          * (if u.1.getD c false = v.1.getD c false then 1 else -1))) := by
      intro c
      simp only [List.map_cons, List.map_nil, List.sum_cons, List.sum_nil, add_zero]
      cases u.1.getD c false <;> cases v.1.getD c false <;> cases u.2.getD n false <;> cases v.2.getD n false <;>
        simp <;> ring
    have hsum : 0 < ∑ c ∈ Finset.range L, E c * (1 + (if u.2.getD n false = v.2.getD n false then (1 : ℝ) else -1)
          * (if u.1.getD c false = v.1.getD c false then 1 else -1)) := by
      apply Finset.sum_pos'
      · intro c _
        apply mul_nonneg (hpos n c).le
        split <;> split <;> norm_num
      · by_cases hb : u.2.getD n false = v.2.getD n false
        · refine ⟨c2, by simpa using hc2, ?_⟩
          have := hpos n c2
          rw [if_pos hb, if_pos hd2]; simp only [hE]; nlinarith
        · refine ⟨c1, by simpa using hc1, ?_⟩
          have := hpos n c1
          rw [if_neg hb, if_neg hd1]; simp only [hE]; nlinarith
    rw [Finset.sum_congr rfl (fun c _ => hterm c), ← Finset.mul_sum]
    generalize ∑ c ∈ Finset.range L, E c * (1 + (if u.2.getD n false = v.2.getD n false then (1 : ℝ) else -1)
          * (if u.1.getD c false = v.1.getD c false then 1 else -1)) = S at hsum ⊢
    cases u.2.getD n false
    · simp only [Bool.false_eq_true, if_false, iff_false]; linarith
    · simp only [if_true, iff_true]; linarith
  apply List.ext_getElem?
  intro n
  by_cases hn : n < N
  · rw [List.getElem?_map, List.getElem?_range hn, List.getElem?_eq_getElem (by omega)]
    simp only [Option.map_some, Option.some.injEq]
    have hv' := hval n
    rw [List.getD_eq_getElem u.2 _ (show n < u.2.length by omega)] at hv'
    rw [Bool.eq_iff_iff, decide_eq_true_iff]
    exact hv'
  · rw [List.getElem?_eq_none (by simp; omega), List.getElem?_eq_none (by omega)]

/-- Keys agreeing in two of three chips, carrier unrelated to the rates. -/
example : ∃ su sv channel, Transmits 60 5 7 ([true, true, true], [true, false]) su ∧
    Transmits 60 5 7 ([true, true, false], [true, true]) sv ∧ Superposed [su, sv] channel ∧
    (do let rx ← rxCdmaBpsk (ofList channel) 60 5 7 [true, true, true]; collect rx) = pure [true, false] := by
  have h1 : ∀ u ∈ [([true, true, true], [true, false]), ([true, true, false], [true, true])], u.1.length = 3 := by simp
  have h2 : ∀ u ∈ [([true, true, true], [true, false]), ([true, true, false], [true, true])], u.2.length = 2 := by simp
  obtain ⟨s, c, e1, e2, e3⟩ := C30_channel_exists (fs := 60) (sym := 5) (fc := 7) (by norm_num) (by norm_num) (by norm_num)
    (by norm_num) (by norm_num) (by norm_num) h1 h2
  cases e1 with
  | cons hu e1 =>
    cases e1 with
    | cons hv e1 =>
      cases e1
      exact ⟨_, _, c, hu, hv, e3, C63_two_users (L := 3) (by norm_num) (by norm_num) (by norm_num) (by norm_num) (by norm_num)
        (by norm_num) rfl rfl (N := 2) rfl rfl (by simp) (by simp) hu hv e2 e3 (yields_ofList c)⟩

/-! ## C49 coded CDMA -/

/-- Round trip; `false` bits pad the message to whole bytes. -/
theorem C49_roundtrip [RIter ι Bool] {rs : RS} (hrs : rs.Contract) {m : ι} {msg : List Bool} (h : Yields m msg)
    {fs sym : ℕ} {fc : ℝ} {key : List Bool}
    (hfs : fs < 2 ^ 64) (hsym : 0 < sym) (hkey : key ≠ []) (hdvd : sym * key.length ∣ fs)
    (hnyq : 2 * (sym * key.length) ≤ fs) (hfc : ⌊fc⌋₊ ≤ fs / 2) :
    ∃ pad, pad < 8 ∧ (msg.length + pad) % 8 = 0 ∧
      (do let tx ← txCodedCdmaBpsk rs m fs sym fc key; let rx ← rxCodedCdmaBpsk rs tx fs sym fc key; collect rx)
        = pure (msg ++ List.replicate pad false) := by
  have henc := bchEncode_yields hrs h
  obtain ⟨it, it', e1, e2, e3⟩ := cdmaBpsk_trip henc hfs hsym hkey hdvd hnyq hfc
  obtain ⟨pad, p1, p2, p3⟩ := C48_corrects hrs h henc e3 ⟨rfl, fun e he => by
    have hz : ∀ x ∈ e, x = false := by
      intro x hx
      have := List.mem_flatten.mpr ⟨e, he, hx⟩
      rw [blocks_flatten _ (by decide)] at this
      unfold diffs at this
      rw [List.zipWith_self] at this
      obtain ⟨y, _, rfl⟩ := List.mem_map.mp this
      simp
    rw [List.countP_eq_zero.mpr]
    · omega
    · intro x hx; simp [hz x hx]⟩
  refine ⟨pad, p1, p2, ?_⟩
  rw [txCodedCdmaBpsk, e1, pure_bind, rxCodedCdmaBpsk, e2, pure_bind, pure_bind, collect_of_yields p3]

/-- With interference: as long as the uncoded receiver gets at most 2 bytes of each 12-byte frame wrong, the coded
receiver returns the message. -/
theorem C49_corrects [RIter ι Bool] [RIter κ ℝ] {rs : RS} (hrs : rs.Contract) {m : ι} {msg : List Bool} (h : Yields m msg)
    {fs sym : ℕ} {fc : ℝ} {key : List Bool} {enc : List Bool} (henc : Yields (bchStreamEncode rs m) enc) {rcv : κ}
    {bits' : List Bool} {it : RxBpsk (Spread κ ℝ) ℝ} (hrx : rxCdmaBpsk rcv fs sym fc key = pure it) (hy : Yields it bits')
    (herr : FrameErrors 12 2 enc bits') :
    ∃ pad, pad < 8 ∧ (msg.length + pad) % 8 = 0 ∧
      (do let rx ← rxCodedCdmaBpsk rs rcv fs sym fc key; collect rx) = pure (msg ++ List.replicate pad false) := by
  obtain ⟨pad, p1, p2, p3⟩ := C48_corrects hrs h henc hy herr
  refine ⟨pad, p1, p2, ?_⟩
  rw [rxCodedCdmaBpsk, hrx, pure_bind, pure_bind, collect_of_yields p3]

example : ∃ pad, pad < 8 ∧ (9 + pad) % 8 = 0 ∧
    (do let tx ← txCodedCdmaBpsk rsIdeal (ofList [true, false, true, true, false, true, true, true, true]) 16000 1000
          (2000 : ℝ) [true, false]
        let rx ← rxCodedCdmaBpsk rsIdeal tx 16000 1000 (2000 : ℝ) [true, false]; collect rx)
      = pure ([true, false, true, true, false, true, true, true, true] ++ List.replicate pad false) :=
  C49_roundtrip rsIdeal_contract (yields_ofList [true, false, true, true, false, true, true, true, true]) (by norm_num)
    (by norm_num) (by simp) (by simp) (by simp) (by norm_num)

end Verif.Props
