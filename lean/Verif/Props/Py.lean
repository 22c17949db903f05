import Verif.Model.Py
import Verif.Props.Chaos
import Verif.Props.Cdma
import Verif.Props.Fh
import Verif.Props.Fsk
import Verif.Lemmas.Adapters
import Verif.Lemmas.Symbols

/-!
# Properties C62, C65: the Python entry points
-/
namespace Verif.Props
open Verif Spec
set_option linter.unusedSectionVars false

/-- Guard of `tx_csk` and `tx_dcsk`, exact arithmetic: rates that do not divide (or a zero symbol rate) panic. -/
theorem C62_guard (msg : List Bool) {fs sym : ℕ} (hfs : fs < 2 ^ 64) (h : sym = 0 ∨ ¬ sym ∣ fs) :
    (pyTxCsk ℝ msg fs sym).Panics ∧ (pyTxDcsk ℝ msg fs sym).Panics := by
  unfold pyTxCsk pyTxDcsk
  rcases Nat.eq_zero_or_pos sym with rfl | hs
  · have hz : isInt ((Flt.ofNat fs : ℝ) / Flt.ofNat 0) = true := by
      simp [isInt]
    rw [rassert_pos hz, pure_bind, pure_bind]; simp
  · have hd : ¬ sym ∣ fs := by rcases h with h | h; · omega
                               · exact h
    have : isInt ((Flt.ofNat fs : ℝ) / Flt.ofNat sym) = false := by
      rw [← Bool.not_eq_true]
      simpa [isInt_real hfs hs] using hd
    rw [this]; simp [rassert]

example : (pyTxCsk ℝ [true] 9 2).Panics ∧ (pyTxDcsk ℝ [true] 9 2).Panics := C62_guard _ (by norm_num) (by norm_num)

/-- `tx_csk`: `sps` equal samples per bit, the value being the carrier of the bit at that step. -/
theorem C62_csk (msg : List Bool) {fs sym : ℕ} (hfs : fs < 2 ^ 64) (h0 : 0 < fs) (hsym : 0 < sym) (hd : sym ∣ fs) :
    ∃ r1 r2 g1 g2 l, LogisticMap.new (3.9 : ℝ) 0.1 = pure r1 ∧ LogisticMap.new (3.9 : ℝ) 0.15 = pure r2 ∧
      Gives r1 g1 ∧ Gives r2 g2 ∧ pyTxCsk ℝ msg fs sym = pure l ∧ l.length = msg.length * (fs / sym) ∧
      ∀ i b, msg[i / (fs / sym)]? = some b → l[i]? = some (if b then g1 (i / (fs / sym)) else g2 (i / (fs / sym))) := by
  have hsps : 0 < fs / sym := Nat.div_pos (Nat.le_of_dvd h0 hd) hsym
  have h1 : LogisticMap.new (3.9 : ℝ) 0.1 = pure ⟨3.9, 0.1⟩ := by
    unfold LogisticMap.new; rw [rassert_pos (by simp; norm_num), pure_bind]
  have h2 : LogisticMap.new (3.9 : ℝ) 0.15 = pure ⟨3.9, 0.15⟩ := by
    unfold LogisticMap.new; rw [rassert_pos (by simp; norm_num), pure_bind]
  obtain ⟨tx, rx, e1, _, e3, _⟩ := C46_decision (yields_ofList msg) (by rw [lit39, lit1, h1]) (by rw [lit39, lit15, h2])
    (gives_logistic (3.9 : ℝ) 0.1) (gives_logistic (3.9 : ℝ) 0.15)
  refine ⟨_, _, _, _, (msg.mapIdx (fun i b => if b then orbit (logisticMap (3.9 : ℝ)) 0.1 i
      else orbit (logisticMap (3.9 : ℝ)) 0.15 i)).flatMap (List.replicate (fs / sym)), h1, h2, gives_logistic _ _,
    gives_logistic _ _, ?_, ?_, ?_⟩
  · unfold pyTxCsk
    rw [rassert_pos (by simpa using (isInt_real hfs hsym).mpr hd), pure_bind, udiv_pos hsym, pure_bind, e1, pure_bind,
      collect_of_yields (e3.inflate hsps)]
  · rw [flatMap_replicate_eq_wave, wave_length, List.length_mapIdx]
  · intro i b hb
    rw [flatMap_replicate_eq_wave, wave_getElem? hsps, List.getElem?_mapIdx, hb]
    rfl

/-- `tx_dcsk`: `2·sps` samples per bit: `sps` copies of the reference, then `sps` copies of plus or minus the reference. -/
theorem C62_dcsk (msg : List Bool) {fs sym : ℕ} (hfs : fs < 2 ^ 64) (h0 : 0 < fs) (hsym : 0 < sym) (hd : sym ∣ fs) :
    ∃ r g, LogisticMap.new (3.9 : ℝ) 0.1 = pure r ∧ Gives r g ∧
      pyTxDcsk ℝ msg fs sym = pure ((msg.mapIdx (fun i b =>
        List.replicate (fs / sym) (g i) ++ List.replicate (fs / sym) (if b then g i else -g i))).flatten) := by
  have hsps : 0 < fs / sym := Nat.div_pos (Nat.le_of_dvd h0 hd) hsym
  have h1 : LogisticMap.new (3.9 : ℝ) 0.1 = pure ⟨3.9, 0.1⟩ := by
    unfold LogisticMap.new; rw [rassert_pos (by simp; norm_num), pure_bind]
  obtain ⟨tx, e1, e3, _⟩ := C45_decision (yields_ofList msg) (by rw [lit39, lit1, h1]) (gives_logistic (3.9 : ℝ) 0.1)
  refine ⟨_, _, h1, gives_logistic _ _, ?_⟩
  unfold pyTxDcsk
  rw [rassert_pos (by simpa using (isInt_real hfs hsym).mpr hd), pure_bind, udiv_pos hsym, pure_bind, e1, pure_bind,
      collect_of_yields (e3.inflate hsps)]
  congr 1
  rw [List.flatMap_def, List.map_flatten, List.flatten_flatten, map_mapIdx', map_mapIdx']
  congr 1
  apply mapIdx_congr'
  intro i b _
  rw [bitToNrz_real]
  cases b <;> simp

example : ∃ l, pyTxCsk ℝ [true, false] 8000 1000 = pure l ∧ l.length = 2 * 8 := by
  obtain ⟨_, _, _, _, l, _, _, _, _, h, hl, -⟩ := C62_csk [true, false] (fs := 8000) (sym := 1000) (by norm_num) (by norm_num)
    (by norm_num) (by norm_num)
  exact ⟨l, h, hl⟩

/-- With sample rate 0 the guard lets the call through and it never returns on a non-empty message. -/
theorem C62_zero_rate (b : Bool) (msg : List Bool) {sym : ℕ} (hsym : 0 < sym) :
    pyTxCsk ℝ (b :: msg) 0 sym = RM.diverge ∧ pyTxDcsk ℝ (b :: msg) 0 sym = RM.diverge := by
  have h1 : LogisticMap.new (3.9 : ℝ) 0.1 = pure ⟨3.9, 0.1⟩ := by
    unfold LogisticMap.new; rw [rassert_pos (by simp; norm_num), pure_bind]
  have h2 : LogisticMap.new (3.9 : ℝ) 0.15 = pure ⟨3.9, 0.15⟩ := by
    unfold LogisticMap.new; rw [rassert_pos (by simp; norm_num), pure_bind]
  obtain ⟨tx, rx, e1, _, e3, _⟩ := C46_decision (yields_ofList (b :: msg)) (by rw [lit39, lit1, h1]) (by rw [lit39, lit15, h2])
    (gives_logistic (3.9 : ℝ) 0.1) (gives_logistic (3.9 : ℝ) 0.15)
  obtain ⟨tx', e4, e5, _⟩ := C45_decision (yields_ofList (b :: msg)) (by rw [lit39, lit1, h1]) (gives_logistic (3.9 : ℝ) 0.1)
  have hg : rassert (isInt ((Flt.ofNat 0 : ℝ) / Flt.ofNat sym)) = pure () :=
    rassert_pos (by simpa using (isInt_real (a := 0) (by norm_num) hsym).mpr (by simp))
  rw [List.mapIdx_cons] at e3 e5
  rw [List.flatten_cons] at e5
  constructor
  · unfold pyTxCsk
    rw [hg, pure_bind, udiv_pos hsym, pure_bind, e1, pure_bind, Nat.zero_div]
    exact collect_of_gives (inflate_zero_gives e3)
  · unfold pyTxDcsk
    rw [hg, pure_bind, udiv_pos hsym, pure_bind, e4, pure_bind, Nat.zero_div]
    exact collect_of_gives (inflate_zero_gives e5)

example : pyTxCsk ℝ [true] 0 2 = RM.diverge := (C62_zero_rate true [] (by norm_num)).1

/-- `tx_cdma_bpsk` spreads with the alternating 16-chip code (row 1 of the Walsh matrix). -/
theorem C62_cdma_key {F : Type} [Add F] [Sub F] [Mul F] [Div F] [Neg F] [Zero F] [One F] [Flt F] (msg : List Bool)
    (fs sym : ℕ) (fc : F) :
    pyTxCdmaBpsk msg fs sym fc = (do
      let tx ← txCdmaBpsk (ofList msg) fs sym fc [true, false, true, false, true, false, true, false,
        true, false, true, false, true, false, true, false]
      collect tx) := by
  unfold pyTxCdmaBpsk
  have h : hadamardNew 16 = _ := hadamardNew_ok 4
  rw [h, pure_bind]
  have hk : hadamardKey ((List.range (2 ^ 4)).map (fun i => (List.range (2 ^ 4)).map (walsh i))) 0
      = pure [true, false, true, false, true, false, true, false, true, false, true, false, true, false, true, false] := by
    decide +kernel
  rw [hk, pure_bind]

/-! ## C65 round trips through the Python entry points -/

/-- `rx_bpsk(tx_bpsk(m)) = m`. -/
theorem C65_bpsk (msg : List Bool) {fs sym : ℕ} {fc : ℝ} (hfs : fs < 2 ^ 64) (hdvd : sym ∣ fs)
    (hsps : 2 ≤ fs / sym) (hfc : ⌊fc⌋₊ ≤ fs / 2) :
    (do let s ← pyTxBpsk msg fs sym fc; pyRxBpsk s fs sym fc) = pure msg := by
  have hrt := C25_roundtrip (yields_ofList msg) hfs hdvd hsps hfc
  obtain ⟨it, e1, e2⟩ := txBpsk_ok (yields_ofList msg) (fc := fc) (fs := fs) (sym := sym) (by omega)
    (by rw [Flt.toNat_real]; omega) ((isInt_real hfs (pos_of_sps (by omega : 0 < fs / sym))).mpr hdvd)
  obtain ⟨r1, e3, e4⟩ := rxBpsk_ok e2 (fc := fc) (by omega : 0 < fs / sym)
  obtain ⟨r2, e5, e6⟩ := rxBpsk_ok (yields_ofList _) (fc := fc) (by omega : 0 < fs / sym)
  rw [e1, pure_bind, e3, pure_bind, collect_of_yields e4] at hrt
  unfold pyTxBpsk pyRxBpsk
  rw [e1, pure_bind, collect_of_yields e2, pure_bind, e5, pure_bind, collect_of_yields e6, hrt]

/-- `rx_qpsk(tx_qpsk(m)) = m` for messages of even length, when the symbol carries a whole number of carrier half
periods. -/
theorem C65_qpsk (msg : List Bool) (heven : Even msg.length) {fs sym : ℕ} {fc : ℝ} (hsps : 0 < fs / sym) {p : ℤ}
    (hp : (fs / sym : ℕ) * (2 * fc) = p * fs) (hne : ∀ q : ℤ, 2 * fc ≠ q * fs) :
    (do let s ← pyTxQpsk msg fs sym fc; pyRxQpsk s fs sym fc) = pure msg := by
  have hrt := C28_roundtrip (yields_ofList msg) hsps hp hne
  obtain ⟨it, e1, e2⟩ := txQpsk_ok (yields_ofList msg) (fc := fc) (fs := fs) (sym := sym) hsps
  obtain ⟨r1, e3, e4⟩ := rxQpsk_ok e2 (fc := fc) hsps
  obtain ⟨r2, e5, e6⟩ := rxQpsk_ok (yields_ofList _) (fc := fc) hsps
  rw [e1, pure_bind, e3, pure_bind, collect_of_yields e4, Nat.mul_div_cancel' heven.two_dvd, List.take_length] at hrt
  unfold pyTxQpsk pyRxQpsk
  rw [e1, pure_bind, collect_of_yields e2, pure_bind, e5, pure_bind, collect_of_yields e6, hrt]

example : (do let s ← pyTxBpsk [true, false, true] 44100 900 (1800 : ℝ); pyRxBpsk s 44100 900 (1800 : ℝ))
    = pure [true, false, true] :=
  C65_bpsk [true, false, true] (by norm_num) (by norm_num) (by norm_num) (by norm_num)

example : (do let s ← pyTxQpsk [true, false, true, true] 44100 900 (1800 : ℝ); pyRxQpsk s 44100 900 (1800 : ℝ))
    = pure [true, false, true, true] :=
  C65_qpsk [true, false, true, true] (by decide) (by norm_num) (p := 4) (by norm_num) (by
    intro q h
    have h' : (3600 : ℤ) = q * 44100 := by have : (3600 : ℝ) = q * 44100 := by norm_num at h ⊢; linarith
                                           exact_mod_cast this
    omega)

/-- `tx_bfsk` returns `sps` samples per bit, of the tone belonging to the bit. -/
theorem C65_bfsk (msg : List Bool) {fs sym : ℕ} {lo hi : ℝ} (hfs : fs < 2 ^ 64) (h0 : 0 < fs) (hdvd : sym ∣ fs)
    (hhi : ⌊hi⌋₊ ≤ fs / 2) :
    ∃ l, pyTxBfsk msg fs sym lo hi = pure l ∧ l.length = msg.length * (fs / sym) ∧
      ∀ i, l[i]? = msg[i / (fs / sym)]?.map (fun b => Real.cos (2 * Real.pi * (if b then hi else lo) * i / fs)) := by
  obtain ⟨it, l, h1, h2, h3⟩ := C40_waveform (yields_ofList msg) (lo := lo) hfs h0 hdvd hhi
  exact ⟨l, by unfold pyTxBfsk; rw [h1, pure_bind, collect_of_yields h2], h3⟩

example : ∃ l, pyTxBfsk [true, false] 16000 1000 (2000 : ℝ) 3000 = pure l ∧ l.length = 32 := by
  obtain ⟨l, h1, h2, -⟩ := C65_bfsk [true, false] (fs := 16000) (sym := 1000) (lo := 2000) (hi := 3000) (by norm_num) (by norm_num)
    (by norm_num) (by norm_num)
  exact ⟨l, h1, h2⟩

/-- `tx_fh_css` returns `sps` samples per bit: a chirp about the hop frequency of the bit, upwards for true. -/
theorem C65_fh_css {ρ : Type} [Rng ρ] (msg : List Bool) {low high : ℝ} {n fs sym : ℕ}
    (hn : 2 ≤ n) (hfs : fs < 2 ^ 64) (hfs0 : 0 < fs) (hsym : 0 < sym) (hdvd : sym ∣ fs) (hhigh : ⌊high⌋₊ ≤ fs / 2) :
    ∃ t hop l, hopTable ρ low high n SEED = pure t ∧ Gives t hop ∧
      pyTxFhCss ρ msg fs sym low high n = pure l ∧ l.length = msg.length * (fs / sym) ∧
      ∀ i b, msg[i / (fs / sym)]? = some b →
        l[i]? = some (if b then
          chirpSample (hop (i / (fs / sym)) - (high - low) / n / 2) (hop (i / (fs / sym)) + (high - low) / n / 2) (1 / sym)
            ((i % (fs / sym) : ℕ) / fs)
        else chirpSample (hop (i / (fs / sym)) + (high - low) / n / 2) (hop (i / (fs / sym)) - (high - low) / n / 2) (1 / sym)
            ((i % (fs / sym) : ℕ) / fs)) := by
  obtain ⟨t, hop, it, l, a1, a2, h1, h2, h3⟩ := C39_waveform (ρ := ρ) (yields_ofList msg) (low := low) hn hfs hfs0 hsym hdvd hhigh
  exact ⟨t, hop, l, a1, a2, by unfold pyTxFhCss; rw [h1, pure_bind, collect_of_yields h2], h3⟩

example {ρ : Type} [Rng ρ] : ∃ l, pyTxFhCss ρ [true, false] 16000 1000 (1000 : ℝ) 3000 4 = pure l ∧ l.length = 32 := by
  obtain ⟨t, hop, l, -, -, h1, h2, -⟩ := C65_fh_css (ρ := ρ) [true, false] (low := 1000) (high := 3000) (n := 4) (fs := 16000) (sym := 1000)
    (by norm_num) (by norm_num) (by norm_num) (by norm_num) (by norm_num) (by norm_num)
  exact ⟨l, h1, h2⟩

/-- `chirp(rate, fs, f0, f1)` returns `⌊fs/rate⌋` samples of the chirp from `f0` to `f1`. -/
theorem C65_chirp {r : ℝ} (hr : 0 < r) (fs : ℕ) (hfs : fs / r < 2 ^ 64) (f0 f1 : ℝ) :
    ∃ l, pyChirp r fs f0 f1 = pure l ∧ l.length = ⌊fs / r⌋₊ ∧
      ∀ i, i < ⌊fs / r⌋₊ → l[i]? = some (chirpSample f0 f1 (1 / r) (i / (⌊fs / r⌋₊ * r))) := by
  obtain ⟨l, h1, h2⟩ := C38_chirp hr fs hfs f0 f1
  exact ⟨l, collect_of_yields h1, h2⟩

example : ∃ l, pyChirp (10 : ℝ) 8000 100 200 = pure l ∧ l.length = 800 := by
  obtain ⟨l, h1, h2, -⟩ := C65_chirp (r := 10) (by norm_num) 8000 (by norm_num) 100 200
  exact ⟨l, h1, by rw [h2]; norm_num⟩

/-- `tx_baseband_bpsk` returns one point, one or minus one, per bit. -/
theorem C65_baseband_bpsk (msg : List Bool) :
    pyTxBasebandBpsk Float msg = pure (msg.map (fun b => ⟨if b then 1 else -1, 0⟩)) :=
  collect_of_yields (C24_symbols (yields_ofList msg))

/-- What `tx_cdma_bpsk` sends is decoded by the library's receiver with the alternating 16-chip key. -/
theorem C65_cdma_bpsk (msg : List Bool) {fs sym : ℕ} {fc : ℝ} (hfs : fs < 2 ^ 64) (hsym : 0 < sym) (hdvd : sym * 16 ∣ fs)
    (hnyq : 2 * (sym * 16) ≤ fs) (hfc : ⌊fc⌋₊ ≤ fs / 2) :
    (do let s ← pyTxCdmaBpsk msg fs sym fc
        let rx ← rxCdmaBpsk (ofList s) fs sym fc [true, false, true, false, true, false, true, false,
          true, false, true, false, true, false, true, false]
        collect rx) = pure msg := by
  have hrt := C29_roundtrip (yields_ofList msg) (key := [true, false, true, false, true, false, true, false,
          true, false, true, false, true, false, true, false]) hfs hsym (by simp) hdvd hnyq hfc
  have hok := (cdmaOk_real (fc := fc) (L := 16) hfs).mpr ⟨hsym, by decide, hdvd, hnyq, hfc⟩
  obtain ⟨it, e1, e2⟩ := txCdmaBpsk_ok (yields_ofList msg) (key := [true, false, true, false, true, false, true, false,
          true, false, true, false, true, false, true, false]) hok
  have hsps : 0 < fs / sym := by have := hok.sps; omega
  obtain ⟨r1, e3, e4⟩ := rxCdmaBpsk_sym e2 (key := [true, false, true, false, true, false, true, false,
          true, false, true, false, true, false, true, false]) hok
  obtain ⟨r2, e5, e6⟩ := rxCdmaBpsk_sym (yields_ofList _) (key := [true, false, true, false, true, false, true, false,
          true, false, true, false, true, false, true, false]) hok
  rw [e1, pure_bind, e3, pure_bind, collect_of_yields e4] at hrt
  rw [C62_cdma_key, e1, pure_bind, collect_of_yields e2, pure_bind, e5, pure_bind, collect_of_yields e6, hrt]

example : (do let s ← pyTxCdmaBpsk [true, false, true] 48000 1000 (1800 : ℝ)
              let rx ← rxCdmaBpsk (ofList s) 48000 1000 (1800 : ℝ) [true, false, true, false, true, false, true, false,
                true, false, true, false, true, false, true, false]
              collect rx) = pure [true, false, true] :=
  C65_cdma_bpsk [true, false, true] (by norm_num) (by norm_num) (by norm_num) (by norm_num) (by norm_num)

end Verif.Props
