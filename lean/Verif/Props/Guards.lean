import Verif.Lemmas.Guards
import Verif.Props.Ieee
import Verif.Props.IeeeRadio
import Verif.Model.PyOfdm

/-! Claim C149: what every signal function refuses when it is called, in double precision. -/

namespace Verif.Props
open Verif Verif.F64
set_option linter.unusedSectionVars false

variable {ι ρ : Type} [Rng ρ] {L : Libm}

/-- A sample rate that is a whole multiple of the symbol rate, which is not zero. -/
def Divides (fs sym : ℕ) : Prop := sym ≠ 0 ∧ sym ∣ fs

/-- A frequency whose whole part is at most half the sample rate (rounded down). -/
def Nyquist (fs : ℕ) (f : Float) : Prop := ⌊val f⌋₊ ≤ fs / 2

theorem whole_ieee {fs sym : ℕ} (hfs : fs < 2 ^ 53) (hsym : sym < 2 ^ 53) : Whole (FloatL L) fs sym ↔ Divides fs sym :=
  C18_guard hfs hsym

theorem below_ieee {fs : ℕ} (hfs : fs < 2 ^ 53) {f : FloatL L} (hf : F64.Fin f) : Below fs f ↔ Nyquist fs f := by
  have h : Flt.toNat f = min ⌊val f⌋₊ (2 ^ 64 - 1) := toNat_val hf
  unfold Below Nyquist
  rw [h]
  omega

/-- Only a symbol rate of zero is refused: the BPSK receiver, both sides of QPSK and of `tx_fsk`/`rx_fsk`, and `tx_fm`.
Any arithmetic. -/
theorem C149_unchecked {F : Type} [Add F] [Sub F] [Mul F] [Div F] [Neg F] [Zero F] [One F] [Flt F] {κ : Type} [RIter ι Bool]
    [RIter κ F] (m : ι) (s : κ) (fs sym : ℕ) (fc : F) :
    Guarded (rxBpsk s fs sym fc) (sym ≠ 0) ∧ Guarded (txQpsk m fs sym fc) (sym ≠ 0) ∧ Guarded (rxQpsk s fs sym fc) (sym ≠ 0) ∧
    Guarded (txFsk m fs sym fc) (sym ≠ 0) ∧ Guarded (rxFsk s fs sym fc) (sym ≠ 0) ∧ Guarded (txFm s fs sym fc) (sym ≠ 0) :=
  ⟨rxBpsk_guarded s fs sym fc, txQpsk_guarded m fs sym fc, rxQpsk_guarded s fs sym fc, txFsk_guarded m fs sym fc,
    rxFsk_guarded s fs sym fc, txFm_guarded s fs sym fc⟩

/-- The BPSK transmitter. -/
theorem C149_bpsk [RIter ι Bool] (m : ι) {fs sym : ℕ} (hfs : fs < 2 ^ 53) (hsym : sym < 2 ^ 53) {fc : FloatL L}
    (hf : F64.Fin fc) : Guarded (txBpsk m fs sym fc) (Divides fs sym ∧ Nyquist fs fc) :=
  (txBpsk_guarded m fs sym fc).congr (by
    rw [whole_ieee hfs hsym, below_ieee hfs hf]; unfold Divides; tauto)

/-- The keying transmitters with chosen tones: only the upper tone is looked at. -/
theorem C149_bfsk [RIter ι Bool] (m : ι) {fs sym : ℕ} (hfs : fs < 2 ^ 53) (hsym : sym < 2 ^ 53) {hi : FloatL L}
    (hf : F64.Fin hi) (lo : FloatL L) (k : ℕ) (l : List (FloatL L)) :
    Guarded (txBfsk m fs sym lo hi) (Divides fs sym ∧ Nyquist fs hi) ∧
    Guarded (txMfsk m fs sym lo hi k) (Divides fs sym ∧ Nyquist fs hi) ∧
    Guarded (txFskSignal m fs sym (hi :: lo :: l)) (Divides fs sym ∧ Nyquist fs hi) := by
  have e : (sym ≠ 0 ∧ Below fs hi ∧ Whole (FloatL L) fs sym) ↔ (Divides fs sym ∧ Nyquist fs hi) := by
    rw [whole_ieee hfs hsym, below_ieee hfs hf]; unfold Divides; tauto
  exact ⟨(txBfsk_guarded m fs sym lo hi).congr e, (txMfsk_guarded m fs sym lo hi k).congr e,
    (txFskSignal_guarded m fs sym hi lo l).congr e⟩

/-- The five keyed functions: the chip rate has to divide the sample rate and stay within half of it. -/
theorem C149_cdma {κ : Type} [RIter ι Bool] [RIter κ (FloatL L)] (rs : RS) (m : ι) (s : κ) {fs sym : ℕ} (hfs : fs < 2 ^ 53)
    {fc : FloatL L} (hf : F64.Fin fc) (key : List Bool) {ok : Prop}
    (hok : ok ↔ (0 < sym ∧ key ≠ [] ∧ sym * key.length ∣ fs ∧ 2 * (sym * key.length) ≤ fs ∧ Nyquist fs fc)) :
    Guarded (txCdmaBpsk m fs sym fc key) ok ∧ Guarded (rxCdmaBpsk s fs sym fc key) ok ∧
    Guarded (txCdmaQpsk m fs sym fc key) ok ∧ Guarded (rxCdmaQpsk s fs sym fc key) ok ∧
    Guarded (txCodedCdmaBpsk rs m fs sym fc key) ok ∧ Guarded (rxCodedCdmaBpsk rs s fs sym fc key) ok := by
  have e : CdmaOk fs sym fc key.length ↔ ok := by
    rw [cdmaOk_ieee hfs hf, hok, ← List.length_pos_iff]; rfl
  exact ⟨(txCdmaBpsk_guarded m fs sym fc key).congr e, (rxCdmaBpsk_guarded s fs sym fc key).congr e,
    (txCdmaQpsk_guarded m fs sym fc key).congr e, (rxCdmaQpsk_guarded s fs sym fc key).congr e,
    (txCdmaBpsk_guarded (bchStreamEncode rs m) fs sym fc key).congr e, (rxCodedCdmaBpsk_guarded rs s fs sym fc key).congr e⟩

/-- The frequency hoppers: the upper end of the band (the older transmitter: its carrier). -/
theorem C149_hop {κ : Type} [RIter ι Bool] [RIter κ (FloatL L)] (m : ι) (s : κ) {fs sym : ℕ} (hfs : fs < 2 ^ 53)
    (hsym : sym < 2 ^ 53) {high fc : FloatL L} (hh : F64.Fin high) (hf : F64.Fin fc) (low : FloatL L) (n : ℕ) :
    Guarded (txFhBpsk ρ m low high n fs sym) (Divides fs sym ∧ Nyquist fs high) ∧
    Guarded (rxFhBpsk ρ s low high n fs sym) (Divides fs sym ∧ Nyquist fs high) ∧
    Guarded (txFhCss ρ m fs sym low high n) (Divides fs sym ∧ Nyquist fs high) ∧
    Guarded (txFhBpskOld ρ m low high n fs sym fc) (Divides fs sym ∧ Nyquist fs fc) := by
  have w := whole_ieee (L := L) hfs hsym
  have b := below_ieee hfs hh
  have c := below_ieee hfs hf
  unfold Divides at *
  exact ⟨(txFhBpsk_guarded m low high n fs sym).congr (by rw [w, b]; tauto),
    (rxFhBpsk_guarded s low high n fs sym).congr (by rw [w, b]; tauto),
    (txFhCss_guarded m fs sym low high n).congr (by rw [w, b]; tauto),
    (txFhBpskOld_guarded m low high n fs sym fc).congr (by rw [w, c]; tauto)⟩

/-- Passband OFDM: any carrier at all is accepted. -/
theorem C149_ofdm {κ : Type} [RIter ι Bool] [RIter κ (FloatL L)] [Fft (FloatL L)] (m : ι) (s : κ) {fs sym : ℕ}
    (hfs : fs < 2 ^ 53) (hsym : sym < 2 ^ 53) (n p : ℕ) (fc : FloatL L) :
    Guarded (txOfdmQpsk m n p fs sym fc) (Divides fs sym ∧ 1 ≤ p ∧ p ≤ n) ∧
    Guarded (rxOfdmQpsk s n p fs sym fc) (Divides fs sym ∧ 1 ≤ p ∧ p ≤ n) := by
  have w := whole_ieee (L := L) hfs hsym
  unfold Divides at *
  exact ⟨(txOfdmQpsk_guarded m n p fs sym fc).congr (by rw [w]; tauto),
    (rxOfdmQpsk_guarded s n p fs sym fc).congr (by rw [w]; tauto)⟩

/-- Frequency hopping over chaotic OFDM. -/
theorem C149_dcsk [RIter ι Bool] [Fft (FloatL L)] (m : ι) {fs sym : ℕ} (hfs : fs < 2 ^ 53) (hsym : sym < 2 ^ 53)
    {high fc : FloatL L} (hh : F64.Fin high) (hf : F64.Fin fc) (low : FloatL L) (n : ℕ) :
    Guarded (txFhOfdm ρ m low high n fs sym) (Divides fs sym ∧ Nyquist fs high) ∧
    Guarded (txFhOfdm2 ρ m fs sym fc) (Divides fs sym ∧ Nyquist fs fc) := by
  have w := whole_ieee (L := L) hfs hsym
  have b := below_ieee hfs hh
  have c := below_ieee hfs hf
  have d : (Flt.le (-1) (Flt.lit 5 1 : FloatL L) && Flt.le (Flt.lit 5 1 : FloatL L) 1) = true := by
    show (Flt.le (-1) (Flt.lit 5 1 : Float) && Flt.le (Flt.lit 5 1 : Float) 1) = true
    decide +kernel
  unfold Divides at *
  exact ⟨(txFhOfdm_guarded m low high n fs sym).congr (by rw [w, b, d]; tauto),
    (txFhOfdm2_guarded m fs sym fc).congr (by rw [w, c, d]; tauto)⟩

/-- The checks let a carrier that is not a number, or minus infinity, through; plus infinity is refused. -/
theorem C149_nan [RIter ι Bool] (m : ι) {fs sym : ℕ} (hfs : fs < 2 ^ 53) (hsym : sym < 2 ^ 53) {fc : FloatL L} :
    (fc = F64.nan ∨ fc = -F64.inf → Guarded (txBpsk m fs sym fc) (Divides fs sym)) ∧
    (fc = F64.inf → (txBpsk m fs sym fc).Panics) := by
  have w := whole_ieee (L := L) hfs hsym
  have h1 : Flt.toNat (F64.nan : Float) = 0 := by decide +kernel
  have h2 : Flt.toNat (-F64.inf : Float) = 0 := by decide +kernel
  have h3 : Flt.toNat (F64.inf : Float) = 2 ^ 64 - 1 := by decide +kernel
  unfold Divides at *
  constructor
  · intro h
    have h0 : Flt.toNat fc = 0 := by
      rcases h with h | h
      · rw [h]; exact h1
      · rw [h]; exact h2
    refine (txBpsk_guarded m fs sym _).congr ?_
    rw [w, Below, h0]
    constructor
    · rintro ⟨-, -, h⟩; exact h
    · intro h; exact ⟨h.1, Nat.zero_le _, h⟩
  · intro h
    have h0 : Flt.toNat fc = 2 ^ 64 - 1 := by rw [h]; exact h3
    refine (txBpsk_guarded m fs sym _).2 ?_
    rintro ⟨-, h, -⟩
    rw [Below, h0] at h
    omega

/-! Concrete cases. -/

theorem fin_nat (n : ℕ) (h : n ≤ 2 ^ 53) :
    F64.Fin (Flt.ofNat n : FloatL L) ∧ ∀ fs, Nyquist fs (Flt.ofNat n : FloatL L) ↔ n ≤ fs / 2 := by
  obtain ⟨h1, h2⟩ := ofNat_exact h
  refine ⟨h1, fun fs => ?_⟩
  unfold Nyquist
  rw [show val (Flt.ofNat n : FloatL L) = n from h2, Nat.floor_natCast]

/-- 44100 samples a second, 441 or 443 symbols a second, a band up to 18 kHz or 23 kHz. -/
example (msg : List Bool) :
    (txFhBpsk ρ (ofList msg) (Flt.ofNat 1000 : FloatL L) (Flt.ofNat 18000) 8 44100 441).IsOk ∧
    (txFhBpsk ρ (ofList msg) (Flt.ofNat 1000 : FloatL L) (Flt.ofNat 23000) 8 44100 441).Panics ∧
    (txFhBpsk ρ (ofList msg) (Flt.ofNat 1000 : FloatL L) (Flt.ofNat 18000) 8 44100 443).Panics ∧
    (txFhBpsk ρ (ofList msg) (Flt.ofNat 1000 : FloatL L) (Flt.ofNat 18000) 8 44100 0).Panics := by
  obtain ⟨a1, a2⟩ := fin_nat (L := L) 18000 (by norm_num)
  obtain ⟨b1, b2⟩ := fin_nat (L := L) 23000 (by norm_num)
  refine ⟨(C149_hop _ (ofList ([] : List (FloatL L))) (by norm_num) (by norm_num) a1 a1 _ 8).1.1 ?_,
    (C149_hop _ (ofList ([] : List (FloatL L))) (by norm_num) (by norm_num) b1 b1 _ 8).1.2 ?_,
    (C149_hop _ (ofList ([] : List (FloatL L))) (by norm_num) (by norm_num) a1 a1 _ 8).1.2 ?_,
    (C149_hop _ (ofList ([] : List (FloatL L))) (by norm_num) (by norm_num) a1 a1 _ 8).1.2 ?_⟩
  · rw [a2]; unfold Divides; norm_num
  · rw [b2]; norm_num
  · unfold Divides; norm_num
  · unfold Divides; norm_num

/-- A rate that does not divide is refused by the BPSK transmitter and accepted by the QPSK transmitter. -/
example (msg : List Bool) : (txBpsk (ofList msg) 44100 443 (Flt.ofNat 1000 : FloatL L)).Panics ∧
    (txQpsk (ofList msg) 44100 443 (Flt.ofNat 1000 : FloatL L)).IsOk := by
  obtain ⟨a1, a2⟩ := fin_nat (L := L) 1000 (by norm_num)
  refine ⟨(C149_bpsk _ (by norm_num) (by norm_num) a1).2 (by unfold Divides; norm_num),
    (C149_unchecked _ (ofList ([] : List (FloatL L))) _ _ _).2.1.1 (by norm_num)⟩

/-- Two tones, the upper one above and the lower one below half the rate: refused; swapped: accepted. -/
example (msg : List Bool) : (txBfsk (ofList msg) 16000 1000 (Flt.ofNat 2000) (Flt.ofNat 9000 : FloatL L)).Panics ∧
    (txBfsk (ofList msg) 16000 1000 (Flt.ofNat 9000) (Flt.ofNat 2000 : FloatL L)).IsOk ∧
    (txMfsk (ofList msg) 16000 1000 (Flt.ofNat 9000) (Flt.ofNat 2000 : FloatL L) 4).IsOk ∧
    (txFskSignal (ofList msg) 16000 1000 [(Flt.ofNat 2000 : FloatL L), Flt.ofNat 9000]).IsOk := by
  obtain ⟨a1, a2⟩ := fin_nat (L := L) 9000 (by norm_num)
  obtain ⟨b1, b2⟩ := fin_nat (L := L) 2000 (by norm_num)
  have h := C149_bfsk (ofList msg) (fs := 16000) (sym := 1000) (by norm_num) (by norm_num) b1 (Flt.ofNat 9000) 4 []
  have ok : Divides 16000 1000 ∧ Nyquist 16000 (Flt.ofNat 2000 : FloatL L) := by
    rw [b2]; unfold Divides; norm_num
  refine ⟨(C149_bfsk (ofList msg) (by norm_num) (by norm_num) a1 _ 0 []).1.2 ?_, h.1.1 ok, h.2.1.1 ok, h.2.2.1 ok⟩
  rw [a2]; norm_num

/-- Eight chips a bit. -/
example (msg : List Bool) (l : List (FloatL L)) (rs : RS) :
    (txCodedCdmaBpsk rs (ofList msg) 16000 1000 (Flt.ofNat 2000 : FloatL L) (List.replicate 8 true)).IsOk ∧
    (rxCodedCdmaBpsk rs (ofList l) 16000 1000 (Flt.ofNat 2000 : FloatL L) (List.replicate 16 true)).Panics := by
  obtain ⟨b1, b2⟩ := fin_nat (L := L) 2000 (by norm_num)
  refine ⟨(C149_cdma rs (ofList msg) (ofList l) (by norm_num) b1 _ Iff.rfl).2.2.2.2.1.1 ?_,
    (C149_cdma rs (ofList msg) (ofList l) (by norm_num) b1 _ Iff.rfl).2.2.2.2.2.2 ?_⟩
  · rw [b2]; norm_num
  · rw [b2]; norm_num

/-- The number of pilots; a carrier far above half the sample rate is accepted by OFDM, not by chaotic OFDM. -/
example [Fft (FloatL L)] (msg : List Bool) : (txOfdmQpsk (ofList msg) 64 12 44100 900 (Flt.ofNat 1000000 : FloatL L)).IsOk ∧
    (txOfdmQpsk (ofList msg) 64 65 44100 900 (Flt.ofNat 1000 : FloatL L)).Panics ∧
    (txFhOfdm2 ρ (ofList msg) 44100 900 (Flt.ofNat 1000000 : FloatL L)).Panics := by
  obtain ⟨a1, a2⟩ := fin_nat (L := L) 1000000 (by norm_num)
  refine ⟨(C149_ofdm _ (ofList ([] : List (FloatL L))) (by norm_num) (by norm_num) _ _ _).1.1 ?_,
    (C149_ofdm _ (ofList ([] : List (FloatL L))) (by norm_num) (by norm_num) _ _ _).1.2 ?_,
    (C149_dcsk _ (by norm_num) (by norm_num) a1 a1 (Flt.ofNat 0) 0).2.2 ?_⟩
  · unfold Divides; norm_num
  · norm_num
  · rw [a2]; norm_num

end Verif.Props
