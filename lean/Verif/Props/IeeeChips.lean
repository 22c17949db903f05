import Verif.Lemmas.IeeeChips
import Verif.Props.Chips
import Verif.Props.Ieee

/-! # C161 in double precision: bit for bit the same samples, whatever the mathematical library -/
namespace Verif.Props
open Verif Spec F64
set_option linter.unusedSectionVars false
variable {ι : Type}

/-- **C161 in double precision**: with any mathematical library, even one whose cosine is wrong or not a number, the samples of
`tx_cdma_bpsk_signal` are bit for bit those of `tx_bpsk_signal` for the chips at the chip rate. -/
theorem C161_bpsk_ieee [RIter ι Bool] (L : Libm) {m : ι} {msg : List Bool} (h : Yields m msg) {fs sym : ℕ} {fc : FloatL L}
    {key : List Bool} (hfs : fs < 2 ^ 53) (hsym : 0 < sym) (hkey : key ≠ []) (hdvd : sym * key.length ∣ fs)
    (hnyq : 2 * (sym * key.length) ≤ fs) (hf : Fin fc) (hfc : ⌊val fc⌋₊ ≤ fs / 2) :
    ∃ l, (do let tx ← txCdmaBpsk m fs sym fc key; collect tx) = pure l ∧
      (do let tx ← txBpsk (ofList (chips key msg)) fs (sym * key.length) fc; collect tx) = pure l := by
  have hL := List.length_pos_iff.mpr hkey
  have hok : CdmaOk fs sym fc key.length := (cdmaOk_ieee hfs hf).mpr ⟨hsym, hL, hdvd, hnyq, hfc⟩
  have r1 : fs / (sym * key.length) = fs / sym / key.length := (Nat.div_div_eq_div_mul _ _ _).symm
  have r2 : fs / sym = fs / sym / key.length * key.length :=
    (Nat.div_mul_cancel ((Nat.dvd_div_iff_mul_dvd (Dvd.dvd.trans (Dvd.intro _ rfl) hdvd)).mpr hdvd)).symm
  have hc : 0 < fs / sym / key.length := by have := hok.spc; omega
  have hs : 0 < fs / sym := by have := hok.sps; omega
  obtain ⟨it, e, hy⟩ := txCdmaBpsk_ok h hok
  have hi : isInt (Flt.ofNat fs / Flt.ofNat (sym * key.length) : FloatL L) = true :=
    (guard_iff hfs (show sym * key.length < 2 ^ 53 by omega)).mpr ⟨(Nat.mul_pos hsym hL).ne', hdvd⟩
  obtain ⟨it', e', hy'⟩ := txBpsk_ok (F := FloatL L) (yields_ofList (chips key msg)) (fs := fs) (sym := sym * key.length) (fc := fc)
    (by rw [r1]; exact hc) hok.car hi
  rw [r1] at hy'
  refine ⟨_, by rw [e]; exact collect_of_yields hy, ?_⟩
  rw [e', pure_bind, collect_of_yields hy']
  congr 1
  apply List.ext_getElem?
  intro i
  rw [wave_getElem? hc, chips_getElem? hL, List.getElem?_mapIdx, wave_getElem? hs, Option.map_map, Option.map_map,
    Nat.div_div_eq_div_mul i, ← r2]
  congr 1
  funext b
  simp only [Function.comp_apply]
  rw [Nat.div_add_mod', Nat.div_add_mod', keyBit, nrz_mul_nrz]

/-- **C161 overheard, in double precision**: with a mathematical library accurate to `2^-10`, the plain receiver reads the chips
exactly, for every carrier up to 7/16 of the sample rate of which a chip spans at least a sixteenth of a period, up to `2^32`
samples. -/
theorem C161_overheard_ieee [RIter ι Bool] {L : Libm} {ε : ℝ} (hε : ε ≤ 1 / 2 ^ 10) (hL : Accurate L ε (2 ^ 40)) {m : ι}
    {msg : List Bool} (h : Yields m msg) {fs sym : ℕ} {fc : FloatL L}
    {key : List Bool} (hfs : fs < 2 ^ 53) (hsym : 0 < sym) (hkey : key ≠ []) (hdvd : sym * key.length ∣ fs)
    (hnyq : 2 * (sym * key.length) ≤ fs) (hf : Fin fc) (hlen : msg.length * (fs / sym) ≤ 2 ^ 32) (hhi : val fc ≤ 7 / 16 * fs)
    (hlo : 1 / 16 ≤ (((fs / (sym * key.length) : ℕ) : ℝ) - 1) * (val fc / fs)) :
    ∃ l, (do let tx ← txCdmaBpsk m fs sym fc key; collect tx) = pure l ∧
      (do let rx ← rxBpsk (ofList l) fs (sym * key.length) fc; collect rx) = pure (chips key msg) := by
  have hk := List.length_pos_iff.mpr hkey
  have hp := Nat.mul_pos hsym hk
  have hfc : ⌊val fc⌋₊ ≤ fs / 2 := by
    rw [Nat.le_div_iff_mul_le two_pos]
    have h0 : (0 : ℝ) ≤ fs := Nat.cast_nonneg _
    rcases le_or_gt 0 (val fc) with hv | hv
    · have := Nat.floor_le hv
      have : ((⌊val fc⌋₊ * 2 : ℕ) : ℝ) ≤ fs := by push_cast; linarith
      exact_mod_cast this
    · rw [Nat.floor_of_nonpos hv.le]; omega
  have h2 : 0 < fs / (sym * key.length) := Nat.div_pos (by omega) hp
  have hi : isInt (Flt.ofNat fs / Flt.ofNat (sym * key.length) : FloatL L) = true :=
    (guard_iff hfs (show sym * key.length < 2 ^ 53 by omega)).mpr ⟨hp.ne', hdvd⟩
  have hok : CdmaOk fs sym fc key.length := (cdmaOk_ieee hfs hf).mpr ⟨hsym, hk, hdvd, hnyq, hfc⟩
  obtain ⟨l, e1, e2⟩ := C161_bpsk_ieee L h hfs hsym hkey hdvd hnyq hf hfc
  refine ⟨l, e1, ?_⟩
  have hcl : (chips key msg).length * (fs / (sym * key.length)) ≤ 2 ^ 32 := by
    have e : (chips key msg).length = msg.length * key.length := length_flatMap_const _ _ (by simp)
    rw [e, Nat.mul_assoc, ← Nat.div_div_eq_div_mul]
    exact (Nat.mul_le_mul_left _ (Nat.mul_div_le _ _)).trans hlen
  have hr := C25_accurate hε hL (yields_ofList (chips key msg)) hfs hdvd hcl hf hhi hlo
  obtain ⟨it, e, hy⟩ := txBpsk_ok (F := FloatL L) (yields_ofList (chips key msg)) (fs := fs) (sym := sym * key.length) (fc := fc)
    h2 hok.car hi
  rw [e, pure_bind, collect_of_yields hy, RM.ok_inj] at e2
  rw [e, pure_bind] at hr
  obtain ⟨a, ea, ya⟩ := rxBpsk_ok (hy.of_eq e2) (fs := fs) (fc := fc) (sym := sym * key.length) h2
  obtain ⟨b, eb, yb⟩ := rxBpsk_ok (yields_ofList l) (fc := fc) (sym := sym * key.length) (fs := fs) h2
  rw [ea, pure_bind, collect_of_yields ya] at hr
  rw [eb, pure_bind, collect_of_yields yb]
  exact hr

example (L : Libm) : ∃ l, (do let tx ← txCdmaBpsk (ofList [true, false]) 16000 1000 (Flt.ofNat 2000 : FloatL L) [true, false]; collect tx) = pure l ∧
    (do let tx ← txBpsk (ofList [true, false, false, true]) 16000 2000 (Flt.ofNat 2000 : FloatL L); collect tx) = pure l := by
  obtain ⟨f, v⟩ := ofNat_exact (n := 2000) (by norm_num)
  exact C161_bpsk_ieee L (yields_ofList [true, false]) (key := [true, false]) (sym := 1000) (by norm_num) (by norm_num) (by simp)
    (by norm_num) (by norm_num) f (by
      show ⌊val (F64.ofNat 2000)⌋₊ ≤ _
      rw [v]; norm_num)

example : ∃ l, (do let tx ← txCdmaBpsk (ofList [true, false]) 16000 1000 (Flt.ofNat 2000 : FloatL Libm.rounded) [true, false]; collect tx) = pure l ∧
    (do let rx ← rxBpsk (ofList l) 16000 2000 (Flt.ofNat 2000 : FloatL Libm.rounded); collect rx) = pure [true, false, false, true] := by
  obtain ⟨f, v⟩ := ofNat_exact (n := 2000) (by norm_num)
  exact C161_overheard_ieee (ε := 1 / 2 ^ 52) (by norm_num) (accurate_rounded _) (yields_ofList [true, false]) (key := [true, false])
    (sym := 1000) (by norm_num) (by norm_num) (by simp) (by norm_num) (by norm_num) f (by norm_num)
    (by show val (F64.ofNat 2000) ≤ _; rw [v]; norm_num)
    (by show _ ≤ _ * (val (F64.ofNat 2000) / _); rw [v]; norm_num)

end Verif.Props
