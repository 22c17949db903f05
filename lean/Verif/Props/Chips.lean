import Verif.Lemmas.Chips
import Verif.Props.Cdma
import Verif.Props.Psk
import Verif.Props.Energy

/-!
# Property C161: a spread transmission is a transmission of its chips, and its key can be read off the air

Exact arithmetic.
-/
namespace Verif.Props
open Verif Spec
set_option linter.unusedSectionVars false
variable {ι : Type}

/-- **C161, BPSK**: what `tx_cdma_bpsk_signal` sends is what `tx_bpsk_signal` sends for the chips at the chip rate. -/
theorem C161_bpsk [RIter ι Bool] {m : ι} {msg : List Bool} (h : Yields m msg) {fs sym : ℕ} {fc : ℝ} {key : List Bool}
    (hfs : fs < 2 ^ 64) (hsym : 0 < sym) (hkey : key ≠ []) (hdvd : sym * key.length ∣ fs)
    (hnyq : 2 * (sym * key.length) ≤ fs) (hfc : ⌊fc⌋₊ ≤ fs / 2) :
    ∃ l, (do let tx ← txCdmaBpsk m fs sym fc key; collect tx) = pure l ∧
      (do let tx ← txBpsk (ofList (chips key msg)) fs (sym * key.length) fc; collect tx) = pure l := by
  have hok := (cdmaOk_real (fc := fc) hfs).mpr ⟨hsym, List.length_pos_iff.mpr hkey, hdvd, hnyq, hfc⟩
  obtain ⟨r1, r2, -⟩ := chip_rate hfs hok
  have hL := hok.key_pos
  have hc : 0 < fs / sym / key.length := by have := hok.spc; omega
  have hs : 0 < fs / sym := by have := hok.sps; omega
  obtain ⟨it, e, hy⟩ := txCdmaBpsk_ok h hok
  obtain ⟨it', e', hy'⟩ := txBpsk_ok (yields_ofList (chips key msg)) (fs := fs) (sym := sym * key.length) (fc := fc)
    (by rw [r1]; exact hc) hok.car (by have := hok.int2; simp only [Flt.ofNat_real] at this ⊢; push_cast; exact this)
  rw [r1] at hy'
  refine ⟨_, by rw [e]; exact collect_of_yields hy, ?_⟩
  rw [e', pure_bind, collect_of_yields hy']
  congr 1
  apply List.ext_getElem?
  intro i
  rw [wave_getElem? hc, chips_getElem? hL, List.getElem?_mapIdx, wave_getElem? hs, Option.map_map, Option.map_map,
    Nat.div_div_eq_div_mul i, ← r2]
  congr 1
  funext b
  simp only [Function.comp_apply]
  rw [Nat.div_add_mod', Nat.div_add_mod', keyBit, ← nrz_mul]
  ring

/-- **C161, QPSK**: the same for `tx_cdma_qpsk_signal` and `tx_qpsk_signal`. -/
theorem C161_qpsk [RIter ι Bool] {m : ι} {msg : List Bool} (h : Yields m msg) {fs sym : ℕ} {fc : ℝ} {key : List Bool}
    (hfs : fs < 2 ^ 64) (hsym : 0 < sym) (hkey : key ≠ []) (hdvd : sym * key.length ∣ fs)
    (hnyq : 2 * (sym * key.length) ≤ fs) (hfc : ⌊fc⌋₊ ≤ fs / 2) :
    ∃ l, (do let tx ← txCdmaQpsk m fs sym fc key; collect tx) = pure l ∧
      (do let tx ← txQpsk (ofList (chips2 key msg)) fs (sym * key.length) fc; collect tx) = pure l := by
  have hok := (cdmaOk_real (fc := fc) hfs).mpr ⟨hsym, List.length_pos_iff.mpr hkey, hdvd, hnyq, hfc⟩
  obtain ⟨r1, r2, -⟩ := chip_rate hfs hok
  have hL := hok.key_pos
  have hc : 0 < fs / sym / key.length := by have := hok.spc; omega
  have hs : 0 < fs / sym := by have := hok.sps; omega
  obtain ⟨it, e, hy⟩ := txCdmaQpsk_ok h hok
  obtain ⟨it', e', hy'⟩ := txQpsk_ok (yields_ofList (chips2 key msg)) (fs := fs) (sym := sym * key.length) (fc := fc)
    (by rw [r1]; exact hc)
  rw [r1] at hy'
  refine ⟨_, by rw [e]; exact collect_of_yields hy, ?_⟩
  rw [e', pure_bind, collect_of_yields hy']
  congr 1
  apply List.ext_getElem?
  intro i
  rw [wave_getElem? hc, pairs_chips2, getElem?_flatMap_const hL _ _ (by simp), List.getElem?_mapIdx, wave_getElem? hs,
    Nat.div_div_eq_div_mul i, ← r2]
  cases (pairs msg)[i / (fs / sym)]? with
  | none => rfl
  | some p =>
    have hlt := Nat.mod_lt (i / (fs / sym / key.length)) hL
    simp only [Option.bind_some, List.getElem?_map, List.getElem?_eq_getElem hlt, Option.map_some]
    rw [Nat.div_add_mod', Nat.div_add_mod', keyBit, List.getD_eq_getElem?_getD, List.getElem?_eq_getElem hlt, ← nrz_mul, ← nrz_mul]
    congr 1
    simp only [Option.getD_some]
    ring

/-- **C161, the chips are public**: the plain BPSK receiver, which has no key, reads the chips of a spread transmission. -/
theorem C161_overheard [RIter ι Bool] {m : ι} {msg : List Bool} (h : Yields m msg) {fs sym : ℕ} {fc : ℝ} {key : List Bool}
    (hfs : fs < 2 ^ 64) (hsym : 0 < sym) (hkey : key ≠ []) (hdvd : sym * key.length ∣ fs)
    (hnyq : 2 * (sym * key.length) ≤ fs) (hfc : ⌊fc⌋₊ ≤ fs / 2) :
    ∃ l, (do let tx ← txCdmaBpsk m fs sym fc key; collect tx) = pure l ∧
      (do let rx ← rxBpsk (ofList l) fs (sym * key.length) fc; collect rx) = pure (chips key msg) := by
  have hok := (cdmaOk_real (fc := fc) hfs).mpr ⟨hsym, List.length_pos_iff.mpr hkey, hdvd, hnyq, hfc⟩
  obtain ⟨r1, r2, -⟩ := chip_rate hfs hok
  have h2 : 2 ≤ fs / (sym * key.length) := by rw [r1]; exact hok.spc
  obtain ⟨l, e1, e2⟩ := C161_bpsk h hfs hsym hkey hdvd hnyq hfc
  refine ⟨l, e1, ?_⟩
  have hr := C25_roundtrip (yields_ofList (chips key msg)) hfs hdvd h2 hfc
  obtain ⟨it, e, hy⟩ := txBpsk_ok (yields_ofList (chips key msg)) (fs := fs) (sym := sym * key.length) (fc := fc)
    (by omega) hok.car (by have := hok.int2; simp only [Flt.ofNat_real] at this ⊢; push_cast; exact this)
  rw [e, pure_bind, collect_of_yields hy] at e2
  injection e2 with e2; injection e2 with e2
  subst e2
  rw [e, pure_bind] at hr
  obtain ⟨a, ea, ya⟩ := rxBpsk_ok hy (fs := fs) (fc := fc) (sym := sym * key.length) (by omega)
  obtain ⟨b, eb, yb⟩ := rxBpsk_ok (yields_ofList _) (fc := fc) (sym := sym * key.length) (fs := fs) (by omega)
  rw [ea, pure_bind, collect_of_yields ya] at hr
  rw [eb, pure_bind, collect_of_yields yb]
  exact hr

/-- **C161, QPSK chips are public**: so does the plain QPSK receiver, with a whole number of half carrier cycles in a chip. -/
theorem C161_overheard_qpsk [RIter ι Bool] {m : ι} {msg : List Bool} (h : Yields m msg) {fs sym : ℕ} {fc : ℝ} {key : List Bool}
    (hfs : fs < 2 ^ 64) (hsym : 0 < sym) (hkey : key ≠ []) (hdvd : sym * key.length ∣ fs)
    (hnyq : 2 * (sym * key.length) ≤ fs) (hfc : ⌊fc⌋₊ ≤ fs / 2) (hw : WholeHalf fs (fs / (sym * key.length)) fc) :
    ∃ l, (do let tx ← txCdmaQpsk m fs sym fc key; collect tx) = pure l ∧
      (do let rx ← rxQpsk (ofList l) fs (sym * key.length) fc; collect rx) = pure (chips2 key msg) := by
  have hok := (cdmaOk_real (fc := fc) hfs).mpr ⟨hsym, List.length_pos_iff.mpr hkey, hdvd, hnyq, hfc⟩
  obtain ⟨r1, r2, -⟩ := chip_rate hfs hok
  have h2 : 0 < fs / (sym * key.length) := by rw [r1]; have := hok.spc; omega
  obtain ⟨l, e1, e2⟩ := C161_qpsk h hfs hsym hkey hdvd hnyq hfc
  refine ⟨l, e1, ?_⟩
  obtain ⟨⟨p, hp⟩, hne⟩ := hw
  have hr := C28_roundtrip (yields_ofList (chips2 key msg)) h2 hp hne
  rw [← chips2_even, List.take_length] at hr
  obtain ⟨it, e, hy⟩ := txQpsk_ok (yields_ofList (chips2 key msg)) (fs := fs) (sym := sym * key.length) (fc := fc) h2
  rw [e, pure_bind, collect_of_yields hy] at e2
  injection e2 with e2; injection e2 with e2
  subst e2
  rw [e, pure_bind] at hr
  obtain ⟨a, ea, ya⟩ := rxQpsk_ok hy (fs := fs) (fc := fc) (sym := sym * key.length) h2
  obtain ⟨b, eb, yb⟩ := rxQpsk_ok (yields_ofList _) (fc := fc) (sym := sym * key.length) (fs := fs) h2
  rw [ea, pure_bind, collect_of_yields ya] at hr
  rw [eb, pure_bind, collect_of_yields yb]
  exact hr

/-- **C161, the key is on the air**: the first `key.length` bits the plain receiver reads are a working key. With it the spread
receiver returns the message if its first bit is a 1, and the inverted message otherwise. -/
theorem C161_key [RIter ι Bool] {m : ι} {b : Bool} {t : List Bool} (h : Yields m (b :: t)) {fs sym : ℕ} {fc : ℝ} {key : List Bool}
    (hfs : fs < 2 ^ 64) (hsym : 0 < sym) (hkey : key ≠ []) (hdvd : sym * key.length ∣ fs)
    (hnyq : 2 * (sym * key.length) ≤ fs) (hfc : ⌊fc⌋₊ ≤ fs / 2) :
    ∃ l heard, (do let tx ← txCdmaBpsk m fs sym fc key; collect tx) = pure l ∧
      (do let rx ← rxBpsk (ofList l) fs (sym * key.length) fc; collect rx) = pure heard ∧
      (do let tx ← txCdmaBpsk m fs sym fc key; let rx ← rxCdmaBpsk tx fs sym fc (heard.take key.length); collect rx)
        = pure (if b then b :: t else (b :: t).map (!·)) := by
  obtain ⟨l, e1, e2⟩ := C161_overheard h hfs hsym hkey hdvd hnyq hfc
  refine ⟨l, _, e1, e2, ?_⟩
  rw [chips_take]
  cases b
  · rw [if_neg (by simp), if_neg (by simp)]
    exact C29_complement h hfs hsym hkey hdvd hnyq hfc
  · rw [if_pos rfl, if_pos rfl]
    exact C29_roundtrip h hfs hsym hkey hdvd hnyq hfc

/-- **C161, baseband and passband spread with opposite signs**: the chips on the air are those `tx_baseband_cdma` makes of the
inverted message, so `rx_baseband_cdma`, given the right key and the chips of a passband transmission, returns every bit inverted. -/
theorem C161_inverted [RIter ι Bool] {m : ι} {msg : List Bool} (h : Yields m msg) {fs sym : ℕ} {fc : ℝ} {key : List Bool}
    (hfs : fs < 2 ^ 64) (hsym : 0 < sym) (hkey : key ≠ []) (hdvd : sym * key.length ∣ fs)
    (hnyq : 2 * (sym * key.length) ≤ fs) (hfc : ⌊fc⌋₊ ≤ fs / 2) :
    ∃ l heard, (do let tx ← txCdmaBpsk m fs sym fc key; collect tx) = pure l ∧
      (do let rx ← rxBpsk (ofList l) fs (sym * key.length) fc; collect rx) = pure heard ∧
      collect (txBasebandCdma (ofList (msg.map (!·))) key) = pure heard ∧
      collect (rxBasebandCdma (ofList heard) key) = pure (msg.map (!·)) := by
  obtain ⟨l, e1, e2⟩ := C161_overheard h hfs hsym hkey hdvd hnyq hfc
  have hy : Yields (txBasebandCdma (ofList (msg.map (!·))) key) (chips key msg) := by
    refine (txBaseband_yields (yields_ofList _) (List.length_pos_iff.mpr hkey)).of_eq ?_
    rw [chips, List.flatMap_map]
    refine List.flatMap_congr fun b _ => List.map_congr_left fun k _ => ?_
    cases b <;> cases k <;> rfl
  refine ⟨l, _, e1, e2, collect_of_yields hy, collect_of_yields ?_⟩
  exact C22_tolerance (yields_ofList (msg.map (!·))) hkey hy (yields_ofList _) rfl
    (fun n => by rw [hamming_self]; have := List.length_pos_iff.mpr hkey; omega)

/-- **C161, nothing else is hidden**: two transmissions with keys of the same length are the same signal exactly if message and
key are the same, or both inverted. -/
theorem C161_ambiguity {msg msg' key key' : List Bool} (hne : msg ≠ []) (hne' : msg' ≠ []) (hl : key'.length = key.length)
    {fs sym : ℕ} {fc : ℝ} (hfs : fs < 2 ^ 64) (hsym : 0 < sym) (hkey : key ≠ []) (hdvd : sym * key.length ∣ fs)
    (hnyq : 2 * (sym * key.length) ≤ fs) (hfc : ⌊fc⌋₊ ≤ fs / 2) :
    (do let tx ← txCdmaBpsk (ofList msg) fs sym fc key; collect tx)
        = (do let tx ← txCdmaBpsk (ofList msg') fs sym fc key'; collect tx) ↔
      key' = key ∧ msg' = msg ∨ key' = key.map (!·) ∧ msg' = msg.map (!·) := by
  have hk := List.length_pos_iff.mpr hkey
  have hkey' : key' ≠ [] := List.length_pos_iff.mp (by omega)
  rw [← chips_eq_iff hk hl hne hne']
  have hd' : sym * key'.length ∣ fs := by rw [hl]; exact hdvd
  have hn' : 2 * (sym * key'.length) ≤ fs := by rw [hl]; exact hnyq
  constructor
  · intro h
    obtain ⟨l, e1, e2⟩ := C161_overheard (yields_ofList msg) hfs hsym hkey hdvd hnyq hfc
    obtain ⟨l', e1', e2'⟩ := C161_overheard (yields_ofList msg') hfs hsym hkey' hd' hn' hfc
    rw [e1, e1', RM.ok_inj] at h
    subst h
    rw [hl, e2, RM.ok_inj] at e2'
    exact e2'
  · intro h
    obtain ⟨l, e1, e2⟩ := C161_bpsk (yields_ofList msg) hfs hsym hkey hdvd hnyq hfc
    obtain ⟨l', e1', e2'⟩ := C161_bpsk (yields_ofList msg') hfs hsym hkey' hd' hn' hfc
    rw [hl, ← h, e2] at e2'
    rw [e1, e1', e2']

/-! ### Cases: 16 samples per symbol, a key of four chips -/

example : chips [true, false, false, true] [true, false] = [true, false, false, true, false, true, true, false] := rfl

example : chips2 [true, false] [true, false, true, true] = [true, false, false, true, true, true, false, false] := rfl

example : ∃ l, (do let tx ← txCdmaBpsk (ofList [true, false]) 16000 1000 (2000 : ℝ) [true, false, false, true]; collect tx) = pure l ∧
    (do let rx ← rxBpsk (ofList l) 16000 4000 (2000 : ℝ); collect rx)
      = pure [true, false, false, true, false, true, true, false] :=
  C161_overheard (yields_ofList [true, false]) (key := [true, false, false, true]) (sym := 1000) (by norm_num) (by norm_num) (by simp)
    (by norm_num) (by norm_num) (by norm_num)

example : ∃ l, (do let tx ← txCdmaQpsk (ofList [true, false, true, true]) 16000 1000 (2000 : ℝ) [true, false]; collect tx) = pure l ∧
    (do let tx ← txQpsk (ofList [true, false, false, true, true, true, false, false]) 16000 2000 (2000 : ℝ); collect tx) = pure l :=
  C161_qpsk (yields_ofList [true, false, true, true]) (key := [true, false]) (sym := 1000) (by norm_num) (by norm_num) (by simp)
    (by norm_num) (by norm_num) (by norm_num)

example : ∃ l, (do let tx ← txCdmaQpsk (ofList [true, false, true, true]) 16000 1000 (2000 : ℝ) [true, false]; collect tx) = pure l ∧
    (do let rx ← rxQpsk (ofList l) 16000 2000 (2000 : ℝ); collect rx)
      = pure [true, false, false, true, true, true, false, false] :=
  C161_overheard_qpsk (yields_ofList [true, false, true, true]) (key := [true, false]) (sym := 1000) (by norm_num) (by norm_num) (by simp)
    (by norm_num) (by norm_num) (by norm_num) (WholeHalf.of_nat (f := 2000) (p := 2) (by norm_num) (by norm_num))

/-- Another key with the same number of chips: another signal, whatever the messages of two bits. -/
example (a b c d : Bool) : (do let tx ← txCdmaBpsk (ofList [a, b]) 16000 1000 (2000 : ℝ) [true, false, false, true]; collect tx)
    ≠ (do let tx ← txCdmaBpsk (ofList [c, d]) 16000 1000 (2000 : ℝ) [true, false, true, true]; collect tx) := by
  rw [Ne, C161_ambiguity (key := [true, false, false, true]) (key' := [true, false, true, true]) (by simp) (by simp) rfl (by norm_num) (by norm_num) (by simp) (by norm_num) (by norm_num) (by norm_num)]
  simp

/-- A message that begins with a 0: the overheard key is the inverted one, and the message comes out inverted. -/
example : ∃ l heard, (do let tx ← txCdmaBpsk (ofList [false, true, true]) 16000 1000 (2000 : ℝ) [true, false, false, true]; collect tx) = pure l ∧
    (do let rx ← rxBpsk (ofList l) 16000 4000 (2000 : ℝ); collect rx) = pure heard ∧
    (do let tx ← txCdmaBpsk (ofList [false, true, true]) 16000 1000 (2000 : ℝ) [true, false, false, true]
        let rx ← rxCdmaBpsk tx 16000 1000 (2000 : ℝ) (heard.take 4); collect rx) = pure [true, false, false] :=
  C161_key (yields_ofList [false, true, true]) (key := [true, false, false, true]) (sym := 1000) (by norm_num) (by norm_num) (by simp)
    (by norm_num) (by norm_num) (by norm_num)

example : ∃ l heard, (do let tx ← txCdmaBpsk (ofList [false, true, true]) 16000 1000 (2000 : ℝ) [true, false, false, true]; collect tx) = pure l ∧
    (do let rx ← rxBpsk (ofList l) 16000 4000 (2000 : ℝ); collect rx) = pure heard ∧
    collect (txBasebandCdma (ofList [true, false, false]) [true, false, false, true]) = pure heard ∧
    collect (rxBasebandCdma (ofList heard) [true, false, false, true]) = pure [true, false, false] :=
  C161_inverted (yields_ofList [false, true, true]) (key := [true, false, false, true]) (sym := 1000) (by norm_num) (by norm_num) (by simp)
    (by norm_num) (by norm_num) (by norm_num)

end Verif.Props
