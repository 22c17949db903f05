import Verif.Props.Fading
import Verif.Props.Fh

/-!
# C82: receivers listening to the signals of other schemes

Exact arithmetic, the carrier making a whole number of half periods per symbol (per chip where the keys differ).
-/
namespace Verif.Props
open Verif Spec
set_option linter.unusedSectionVars false
variable {ι κ : Type}

/-! ## BPSK and QPSK -/

/-- The BPSK receiver, listening to QPSK, hears the first bit of every pair. -/
theorem C82_bpsk_hears_qpsk [RIter ι Bool] {m : ι} {msg : List Bool} (h : Yields m msg) {fs sym : ℕ} {fc : ℝ}
    (hsps : 0 < fs / sym) (hw : WholeHalf fs (fs / sym) fc) :
    (do let tx ← txQpsk m fs sym fc; let rx ← rxBpsk tx fs sym fc; collect rx)
      = pure ((List.range (msg.length / 2)).map (fun n => msg.getD (2 * n) false)) := by
  obtain ⟨it, e1, e2⟩ := txQpsk_ok h (fc := fc) hsps
  have hc := C81_clean_qpsk h hsps (by rw [e1, pure_bind, collect_of_yields e2])
  rw [show fadedQpsk fs fc msg (fun _ => 1) (fun _ => 0) = _ from
    funext fun n => funext fun i => fadedQpsk_quad fs fc msg _ _ n i] at hc
  rw [e1, pure_bind, (C81_quadrature hsps hw hc e2).1]
  congr 1
  apply List.map_congr_left
  intro n _
  rw [Real.cos_zero, Real.sin_zero]
  cases msg.getD (2 * n) false <;> simp [pm] <;> norm_num

/-- The QPSK receiver, listening to BPSK, hears each bit followed by `true`. -/
theorem C82_qpsk_hears_bpsk [RIter ι Bool] {m : ι} {msg : List Bool} (h : Yields m msg) {fs sym : ℕ} {fc : ℝ}
    (hsps : 0 < fs / sym) (hw : WholeHalf fs (fs / sym) fc) (hfs : fs < 2 ^ 64) (hdvd : sym ∣ fs) (hfc : ⌊fc⌋₊ ≤ fs / 2) :
    (do let tx ← txBpsk m fs sym fc; let rx ← rxQpsk tx fs sym fc; collect rx) = pure (msg.flatMap (fun b => [b, true])) := by
  obtain ⟨it, e1, e2⟩ := txBpsk_ok h (fc := fc) hsps (by rw [Flt.toNat_real]; omega)
    ((isInt_real hfs (pos_of_sps hsps)).mpr hdvd)
  have hc := C81_clean_bpsk h hsps (by rw [e1, pure_bind, collect_of_yields e2])
  rw [show fadedBpsk fs fc msg (fun _ => 1) (fun _ => 0) = _ from
    funext fun n => funext fun i => fadedBpsk_quad fs fc msg _ _ n i] at hc
  rw [e1, pure_bind, (C81_quadrature hsps hw hc e2).2]
  congr 1
  have : msg = (List.range msg.length).map (fun n => msg.getD n false) := by
    rw [range_map_getD msg (fun _ b => b)]; exact (mapIdx_eq_self (fun _ _ _ => rfl)).symm
  conv_rhs => rw [this, List.flatMap_map]
  rw [List.flatMap_def, List.flatMap_def]
  congr 1
  apply List.map_congr_left
  intro n _
  rw [Real.cos_zero, Real.sin_zero]
  cases msg.getD n false <;> simp [pm]

/-! ## CDMA and its unspread counterparts -/

theorem despread_ones {L spc : ℕ} (hL : 0 < L) (l : List ℝ) :
    l.mapIdx (fun i x => x * bitToNrz (keyBit (List.replicate L true) spc i)) = l := by
  apply mapIdx_eq_self
  intro i x _
  have : keyBit (List.replicate L true) spc i = true := by
    unfold keyBit
    rw [List.getD_eq_getElem?_getD, List.length_replicate, List.getElem?_replicate, if_pos (Nat.mod_lt _ hL), Option.getD_some]
  rw [this, bitToNrz_real]; simp

/-- The receivers without a key do what the receivers with a key of only `true` chips do. -/
theorem C82_no_key [RIter κ ℝ] {r : κ} {l : List ℝ} (h : Yields r l) {fs sym L : ℕ} {fc : ℝ} (hfs : fs < 2 ^ 64)
    (hsym : 0 < sym) (hL : 0 < L) (hdvd : sym * L ∣ fs) (hnyq : 2 * (sym * L) ≤ fs) (hfc : ⌊fc⌋₊ ≤ fs / 2) :
    (do let rx ← rxBpsk r fs sym fc; collect rx)
      = (do let rx ← rxCdmaBpsk r fs sym fc (List.replicate L true); collect rx) ∧
    (do let rx ← rxQpsk r fs sym fc; collect rx)
      = (do let rx ← rxCdmaQpsk r fs sym fc (List.replicate L true); collect rx) := by
  have hok := (cdmaOk_real (fc := fc) hfs).mpr ⟨hsym, hL, hdvd, hnyq, hfc⟩
  have h1 := hok.sps
  have h2 := hok.spc
  have hsps : 0 < fs / sym := by omega
  have hr := (h.spread (key := List.replicate L true) (spc := fs / sym / L) (by simpa using hL) (by omega)).of_eq
    (despread_ones hL l)
  constructor
  · obtain ⟨it, e1, e2⟩ := rxBpsk_ok h (fc := fc) hsps
    obtain ⟨jt, f1, f2⟩ := rxBpsk_ok hr (fc := fc) hsps
    rw [rxCdmaBpsk, List.length_replicate, hok.guards, pure_bind, e1, f1, pure_bind, pure_bind, collect_of_yields e2,
      collect_of_yields f2]
  · obtain ⟨it, e1, e2⟩ := rxQpsk_ok h (fc := fc) hsps
    obtain ⟨jt, f1, f2⟩ := rxQpsk_ok hr (fc := fc) hsps
    rw [rxCdmaQpsk, List.length_replicate, hok.guards, pure_bind, e1, f1, pure_bind, pure_bind, collect_of_yields e2,
      collect_of_yields f2]

theorem agreements_ones (key : List Bool) : agreements key (List.replicate key.length true) = key.countP id := by
  unfold agreements
  induction key with
  | nil => rfl
  | cons b t ih =>
    rw [List.length_cons, List.replicate_succ, List.zip_cons_cons, List.countP_cons, ih, List.countP_cons]
    cases b <;> rfl

/-- The BPSK receiver, listening to a CDMA station, hears the message if more than half of the chips of the key are true, the
complement if fewer, and only `false` if the key is balanced. -/
theorem C82_bpsk_hears_cdma [RIter ι Bool] {m : ι} {msg : List Bool} (h : Yields m msg) {fs sym : ℕ} {fc : ℝ}
    {key : List Bool} (hfs : fs < 2 ^ 64) (hsym : 0 < sym) (hkey : key ≠ []) (hdvd : sym * key.length ∣ fs)
    (hnyq : 2 * (sym * key.length) ≤ fs) (hfc : ⌊fc⌋₊ ≤ fs / 2) (hw : WholeHalf fs (fs / sym / key.length) fc) :
    (do let tx ← txCdmaBpsk m fs sym fc key; let rx ← rxBpsk tx fs sym fc; collect rx)
      = pure (readWith (key.countP id) key.length false msg) := by
  have hok := (cdmaOk_real (fc := fc) hfs).mpr ⟨hsym, List.length_pos_iff.mpr hkey, hdvd, hnyq, hfc⟩
  obtain ⟨it, e1, e2⟩ := txCdmaBpsk_ok h hok
  have := C79_wrong_key_bpsk h hfs hsym hkey hdvd hnyq hfc hw (key' := List.replicate key.length true) (by simp)
  rw [e1, pure_bind] at this ⊢
  rw [(C82_no_key e2 hfs hsym (List.length_pos_iff.mpr hkey) hdvd hnyq hfc).1, this, agreements_ones]

/-- The same for QPSK; a balanced key leaves only `true`. -/
theorem C82_qpsk_hears_cdma [RIter ι Bool] {m : ι} {msg : List Bool} (h : Yields m msg) {fs sym : ℕ} {fc : ℝ}
    {key : List Bool} (hfs : fs < 2 ^ 64) (hsym : 0 < sym) (hkey : key ≠ []) (hdvd : sym * key.length ∣ fs)
    (hnyq : 2 * (sym * key.length) ≤ fs) (hfc : ⌊fc⌋₊ ≤ fs / 2) (hw : WholeHalf fs (fs / sym / key.length) fc) :
    (do let tx ← txCdmaQpsk m fs sym fc key; let rx ← rxQpsk tx fs sym fc; collect rx)
      = pure (readWith (key.countP id) key.length true (msg.take (2 * (msg.length / 2)))) := by
  have hok := (cdmaOk_real (fc := fc) hfs).mpr ⟨hsym, List.length_pos_iff.mpr hkey, hdvd, hnyq, hfc⟩
  obtain ⟨it, e1, e2⟩ := txCdmaQpsk_ok h hok
  have := C79_wrong_key_qpsk h hfs hsym hkey hdvd hnyq hfc hw (key' := List.replicate key.length true) (by simp)
  rw [e1, pure_bind] at this ⊢
  rw [(C82_no_key e2 hfs hsym (List.length_pos_iff.mpr hkey) hdvd hnyq hfc).2, this, agreements_ones]

/-- The CDMA receiver, listening to plain BPSK. -/
theorem C82_cdma_hears_bpsk [RIter ι Bool] {m : ι} {msg : List Bool} (h : Yields m msg) {fs sym : ℕ} {fc : ℝ}
    {key : List Bool} (hfs : fs < 2 ^ 64) (hsym : 0 < sym) (hkey : key ≠ []) (hdvd : sym * key.length ∣ fs)
    (hnyq : 2 * (sym * key.length) ≤ fs) (hfc : ⌊fc⌋₊ ≤ fs / 2) (hw : WholeHalf fs (fs / sym / key.length) fc) :
    (do let tx ← txBpsk m fs sym fc; let rx ← rxCdmaBpsk tx fs sym fc key; collect rx)
      = pure (readWith (key.countP id) key.length false msg) := by
  have hL := List.length_pos_iff.mpr hkey
  have hok := (cdmaOk_real (fc := fc) hfs).mpr ⟨hsym, hL, hdvd, hnyq, hfc⟩
  have hok1 : CdmaOk fs sym fc (List.replicate key.length true).length := by rwa [List.length_replicate]
  have hsps : 0 < fs / sym := by have := hok.sps; omega
  obtain ⟨it, e1, e2⟩ := txBpsk_ok h (fc := fc) hsps (by rw [Flt.toNat_real]; omega) hok.int1
  obtain ⟨jt, f1, f2⟩ := txCdmaBpsk_ok h (key := List.replicate key.length true) hok1
  have := C79_wrong_key_bpsk h hfs hsym (key := List.replicate key.length true) (key' := key)
    (by rw [← List.length_pos_iff, List.length_replicate]; exact hL)
    (by rwa [List.length_replicate]) (by rwa [List.length_replicate]) hfc (by rwa [List.length_replicate]) (by simp)
  rw [f1, pure_bind] at this
  rw [e1, pure_bind]
  have hcomm : agreements (List.replicate key.length true) key = key.countP id := by
    rw [← agreements_ones]
    unfold agreements
    clear * -
    generalize List.replicate key.length true = a
    induction key generalizing a with
    | nil => cases a <;> rfl
    | cons b t ih =>
      cases a with
      | nil => rfl
      | cons c s =>
        rw [List.zip_cons_cons, List.zip_cons_cons, List.countP_cons, List.countP_cons, ih]
        congr 1
        cases b <;> cases c <;> rfl
  rw [hcomm, List.length_replicate] at this
  rw [← this]
  have f2' := f2.of_eq (despread_ones (by simpa using hL) _)
  obtain ⟨r1, g1, g2⟩ := rxCdmaBpsk_sym e2 hok
  obtain ⟨r2, g3, g4⟩ := rxCdmaBpsk_sym f2' hok
  rw [g1, g3, pure_bind, pure_bind, collect_of_yields g2, collect_of_yields g4]

/-! ## FSK -/

/-- The FSK receiver decodes two-tone signals whose tones are 2.5 % below and above its carrier. -/
theorem C82_fsk_hears_bfsk [RIter ι Bool] {m : ι} {msg : List Bool} (h : Yields m msg) {fs sym c : ℕ}
    (hfs : fs < 2 ^ 64) (hsym : 0 < sym) (hc : 0 < c) (hdvd : sym ∣ fs) (hny : (41 * c * sym : ℕ) < fs) :
    (do let tx ← txBfsk m fs sym ((39 * c * sym : ℕ) / 2 : ℝ) ((41 * c * sym : ℕ) / 2 : ℝ)
        let rx ← rxFsk tx fs sym ((20 * c * sym : ℕ) : ℝ); collect rx) = pure msg := by
  have hfs0 : 0 < fs := by omega
  have hsps : 0 < fs / sym := Nat.div_pos (Nat.le_of_dvd hfs0 hdvd) hsym
  obtain ⟨it, l, e1, e2, e3, e4⟩ := C40_waveform h (lo := ((39 * c * sym : ℕ) / 2 : ℝ)) (hi := ((41 * c * sym : ℕ) / 2 : ℝ))
    hfs hfs0 hdvd (by
      rw [Nat.floor_div_ofNat, Nat.floor_natCast]; exact Nat.div_le_div_right hny.le)
  rw [e1, pure_bind]
  apply C81_fsk hsym hc hdvd hny (g := fun _ => 1) (θ := fun _ => 0) (fun _ _ => one_ne_zero) ⟨e3, ?_⟩ e2
  intro i hi
  have hin : i / (fs / sym) < msg.length := by rw [Nat.div_lt_iff_lt_mul hsps]; exact hi
  rw [e4, List.getElem?_eq_getElem hin, Option.map_some, fadedFsk, angle, List.getD_eq_getElem?_getD,
    List.getElem?_eq_getElem hin, Option.getD_some, one_mul, add_zero]
  congr 2
  cases msg[i / (fs / sym)] <;> simp only [Bool.false_eq_true, if_true, if_false] <;> push_cast <;> ring

/-! ## Frequency hopping over a single frequency -/

/-- With equal band edges the hopping transmitter stays on one frequency; if the carrier makes a whole number of periods per
symbol, its signal is the BPSK signal, and the BPSK receiver decodes it. -/
theorem C82_bpsk_hears_hopping {ρ : Type} [Rng ρ] [RIter ι Bool] {m : ι} {msg : List Bool} (h : Yields m msg) {fs sym n : ℕ}
    {fc : ℝ} (hn : 2 ≤ n) (hfs : fs < 2 ^ 64) (hfs0 : 0 < fs) (hsym : 0 < sym) (hdvd : sym ∣ fs) (hsps : 2 ≤ fs / sym)
    (hfc : ⌊fc⌋₊ ≤ fs / 2) {p : ℤ} (hp : ((fs / sym : ℕ) : ℝ) * fc = p * fs) :
    (∃ l, (do let tx ← txFhBpsk ρ m fc fc n fs sym; collect tx) = pure l ∧
      (do let tx ← txBpsk m fs sym fc; collect tx) = pure l) ∧
    (do let tx ← txFhBpsk ρ m fc fc n fs sym; let rx ← rxBpsk tx fs sym fc; collect rx) = pure msg := by
  have hsps0 : 0 < fs / sym := by omega
  have hg : Flt.toNat fc ≤ fs / 2 := by rw [Flt.toNat_real]; exact (min_le_left _ _).trans hfc
  have hi : isInt (Flt.ofNat fs / Flt.ofNat sym : ℝ) = true := (isInt_real hfs hsym).mpr hdvd
  have hfreq : ∀ x ∈ hopFreqs fc fc n, x = fc := fun x hx => le_antisymm (hopFreqs_real le_rfl hx).2 (hopFreqs_real le_rfl hx).1
  obtain ⟨it, e1, e2⟩ := txFhBpsk_ok (ρ := ρ) h (low := fc) (high := fc) hn hsps0 hg hi (fun x hx => by rw [hfreq x hx]; exact hg)
  obtain ⟨jt, f1, f2⟩ := txBpsk_ok h (fc := fc) hsps0 hg hi
  have hfsR : (fs : ℝ) ≠ 0 := by exact_mod_cast hfs0.ne'
  have hsame : wave (fs / sym) (fun i b j => (bitToNrz b : ℝ) * Flt.cos (phase fs (hopOf ρ fc fc n i) j)) msg
      = wave (fs / sym) (fun i b j => bitToNrz b * Flt.cos (phase fs fc (i * (fs / sym) + j))) msg := by
    congr 1
    funext i b j
    have hh : hopOf ρ fc fc n i = fc := hfreq _ (hopAt_mem (hopFreqs fc fc n, (Rng.seed SEED : ρ)) (by
      show 0 < (hopFreqs fc fc n).length
      rw [hopFreqs_length]; omega) i)
    rw [hh, phase_real, phase_real, Flt.cos_real, Flt.cos_real]
    congr 1
    have : ((i * (fs / sym) + j : ℕ) : ℝ) * dphi fs fc = j * dphi fs fc + ((i * p : ℤ) : ℝ) * (2 * Real.pi) := by
      unfold dphi
      push_cast
      field_simp
      linear_combination (i : ℝ) * hp
    rw [this, Real.cos_add_int_mul_two_pi]
  rw [hsame] at e2
  refine ⟨⟨_, by rw [e1, pure_bind]; exact collect_of_yields e2, by rw [f1, pure_bind]; exact collect_of_yields f2⟩, ?_⟩
  have := C25_roundtrip h hfs hdvd hsps hfc
  obtain ⟨r1, g1, g2⟩ := rxBpsk_ok e2 (fc := fc) hsps0
  obtain ⟨r2, g3, g4⟩ := rxBpsk_ok f2 (fc := fc) hsps0
  rw [f1, pure_bind, g3, pure_bind, collect_of_yields g4] at this
  rw [e1, pure_bind, g1, pure_bind, collect_of_yields g2, this]

/-! ## Instances -/

example : (do let tx ← txQpsk (ofList [true, false, false, true]) 8000 1000 (1000 : ℝ)
              let rx ← rxBpsk tx 8000 1000 (1000 : ℝ); collect rx) = pure [true, false] :=
  C82_bpsk_hears_qpsk (yields_ofList [true, false, false, true]) (by norm_num) whole_8000

example : (do let tx ← txBpsk (ofList [true, false]) 8000 1000 (1000 : ℝ)
              let rx ← rxQpsk tx 8000 1000 (1000 : ℝ); collect rx) = pure [true, true, false, true] :=
  C82_qpsk_hears_bpsk (yields_ofList [true, false]) (by norm_num) whole_8000 (by norm_num) (by norm_num) (by norm_num)

/-- Two samples per chip and half a carrier period per chip. -/
theorem whole_chip : WholeHalf 8000 (8000 / 1000 / 4) 2000 := by
  refine ⟨⟨1, by norm_num⟩, fun q h => ?_⟩
  have : (1 : ℝ) = (q * 2 : ℤ) := by push_cast at h ⊢; linarith
  have h2 : (1 : ℤ) = q * 2 := by exact_mod_cast this
  omega

/-- A balanced key hides the message from a receiver without key. -/
example : (do let tx ← txCdmaBpsk (ofList [true, false, true]) 8000 1000 (2000 : ℝ) [true, false, false, true]
              let rx ← rxBpsk tx 8000 1000 (2000 : ℝ); collect rx) = pure [false, false, false] :=
  C82_bpsk_hears_cdma (yields_ofList [true, false, true]) (key := [true, false, false, true]) (by norm_num) (by norm_num) (by simp)
    (by decide) (by decide) (by norm_num) whole_chip

/-- A key with three true chips out of four does not. -/
example : (do let tx ← txCdmaBpsk (ofList [true, false, true]) 8000 1000 (2000 : ℝ) [true, true, false, true]
              let rx ← rxBpsk tx 8000 1000 (2000 : ℝ); collect rx) = pure [true, false, true] :=
  C82_bpsk_hears_cdma (yields_ofList [true, false, true]) (key := [true, true, false, true]) (by norm_num) (by norm_num) (by simp)
    (by decide) (by decide) (by norm_num) whole_chip

example : (do let tx ← txCdmaQpsk (ofList [true, false]) 8000 1000 (2000 : ℝ) [true, false, false, false]
              let rx ← rxQpsk tx 8000 1000 (2000 : ℝ); collect rx) = pure [false, true] :=
  C82_qpsk_hears_cdma (yields_ofList [true, false]) (key := [true, false, false, false]) (by norm_num) (by norm_num) (by simp)
    (by decide) (by decide) (by norm_num) whole_chip

example : (do let tx ← txBpsk (ofList [true, false]) 8000 1000 (2000 : ℝ)
              let rx ← rxCdmaBpsk tx 8000 1000 (2000 : ℝ) [true, false, false, false]; collect rx) = pure [false, true] :=
  C82_cdma_hears_bpsk (yields_ofList [true, false]) (key := [true, false, false, false]) (by norm_num) (by norm_num) (by simp)
    (by decide) (by decide) (by norm_num) whole_chip

example : (do let tx ← txBfsk (ofList [true, false]) 44100 100 ((39 * 1 * 100 : ℕ) / 2 : ℝ) ((41 * 1 * 100 : ℕ) / 2 : ℝ)
              let rx ← rxFsk tx 44100 100 ((20 * 1 * 100 : ℕ) : ℝ); collect rx) = pure [true, false] :=
  C82_fsk_hears_bfsk (yields_ofList [true, false]) (by norm_num) (by norm_num) (by norm_num) (by norm_num) (by norm_num)

example {ρ : Type} [Rng ρ] : (do let tx ← txFhBpsk ρ (ofList [true, false]) (1000 : ℝ) 1000 4 8000 1000
                                 let rx ← rxBpsk tx 8000 1000 (1000 : ℝ); collect rx) = pure [true, false] :=
  (C82_bpsk_hears_hopping (yields_ofList [true, false]) (p := 1) (by norm_num) (by norm_num) (by norm_num) (by norm_num) (by norm_num)
    (by norm_num) (by norm_num) (by norm_num)).2

end Verif.Props
