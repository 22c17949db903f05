import Verif.Lemmas.CskSim
import Verif.Lemmas.Billiam
import Verif.Props.IeeeChaos
import Verif.Props.IeeeFh
import Verif.Props.IeeeRadio
import Verif.Props.Ieee
import Verif.Props.IeeeOfdm
import Verif.Props.Ofdm
import Verif.Props.Bch
import Verif.Props.Bits
import Verif.Props.Psk
import Verif.Props.Hadamard
import Verif.Props.Helpers
import Verif.Props.Chaos
import Verif.Props.FhOfdm
import Verif.Lemmas.RsExists

/-!
# C132: the assertions of the library's own unit tests, for every data set they can draw

The unit tests of the crate draw one random data set per run.  Each theorem below is one test: its parameters are the numbers written in
the test, its data are arbitrary.  The tests collect the transmission into a vector and receive from there; here the receiver reads the
transmitter's stream.  Everything is in double precision with any sufficiently accurate sine and cosine, except where the tests call the
FFT and the mixer together (exact arithmetic).
-/
namespace Verif.Props
open Verif Verif.F64 Spec
set_option linter.unusedSectionVars false
set_option warn.classDefReducibility false
variable {ι ρ : Type} [Rng ρ]

/-! ## Bits and bytes -/

/-- `bitstream_conversions` — src/lib.rs:281-292. -/
theorem C132_bitstream {data : List Bool} (h : data.length = 33) :
    ∃ bytes bits, collect (boolsToU8s (ofList data)) = pure bytes ∧ bytes.length = 40 / 8 ∧
      collect (u8sToBools (ofList bytes)) = pure bits ∧ bits.take 33 = data := by
  obtain ⟨bytes, h1, h2, -⟩ := C02_bits_to_bytes (yields_ofList data)
  obtain ⟨pad, -, -, h3⟩ := C02_bits_roundtrip (yields_ofList data)
  have h4 : Yields (u8sToBools (ofList bytes)) (data ++ List.replicate pad false) := by
    exact (h1.u8sToBools.unique h3) ▸ (yields_ofList bytes).u8sToBools
  exact ⟨bytes, _, collect_of_yields h1, by rw [h2, h], collect_of_yields h4, by rw [← h, List.take_left]⟩

/-- `stream_bch_works` — src/bch.rs:80-94. -/
theorem C132_bch {rs : RS} (hrs : rs.Contract) {data : List Bool} (_h : data.length = 100) :
    ∃ decoded, collect (bchStreamDecode rs (bchStreamEncode rs (ofList data))) = pure decoded ∧ decoded.take data.length = data := by
  obtain ⟨pad, -, -, h3⟩ := C48_roundtrip hrs (yields_ofList data)
  exact ⟨_, collect_of_yields h3, List.take_left⟩

/-! ## Baseband -/

/-- `baseband` — src/bpsk.rs:68-78. -/
theorem C132_baseband_bpsk {data : List Bool} (_h : data.length = 9001) :
    collect (rxBasebandBpsk (F := Float) (txBasebandBpsk (F := Float) (ofList data))) = pure data :=
  collect_of_yields (C24_roundtrip (yields_ofList data))

/-- `baseband_qpsk` — src/qpsk.rs:75-87. -/
theorem C132_baseband_qpsk {data : List Bool} (h : data.length = 9002) :
    collect (rxBasebandQpsk (F := Float) (txBasebandQpsk (F := Float) (ofList data))) = pure data := by
  have := C27_roundtrip (yields_ofList data)
  rw [h, List.take_of_length_le (by omega)] at this
  exact collect_of_yields this

/-- `baseband_dcsk` — src/dcsk.rs:23-33. -/
theorem C132_dcsk {data : List Bool} (_h : data.length = 9001) :
    (do let tx ← txDcsk Float (ofList data); collect (rxDcsk (F := Float) tx)) = pure data :=
  C45_roundtrip_ieee (yields_ofList data)

/-- Chaos shift keying in double precision returns every message of up to 9001 bits: in exact arithmetic the two carriers never meet, and with
rounding they do not meet within the first 9001 values. -/
theorem C132_csk_any [RIter ι Bool] {m : ι} {msg : List Bool} (h : Yields m msg) (hlen : msg.length ≤ 9001) :
    (do let tx ← txCsk Float m; let rx ← rxCsk (F := Float) tx; collect rx) = pure msg := by
  have l39 : (3.9 : Float) = F64.lit 39 1 := by decide +kernel
  have l1 : (0.1 : Float) = F64.lit 1 1 := by decide +kernel
  have l15 : (0.15 : Float) = F64.lit 15 2 := by decide +kernel
  have e1 : LogisticMap.new (3.9 : Float) 0.1 = pure ⟨F64.lit 39 1, F64.lit 1 1⟩ := by
    rw [← l39, ← l1]; unfold LogisticMap.new; rw [rassert_pos (by decide +kernel), pure_bind]
  have e2 : LogisticMap.new (3.9 : Float) 0.15 = pure ⟨F64.lit 39 1, F64.lit 15 2⟩ := by
    rw [← l39, ← l15]; unfold LogisticMap.new; rw [rassert_pos (by decide +kernel), pure_bind]
  refine (C46_iff_ieee h e1 e2 (gives_logistic _ _) (gives_logistic _ _)).mpr fun i hi => ?_
  have : i < msg.length := by
    by_contra hc
    rw [List.getElem?_eq_none (by omega)] at hi
    exact absurd hi (by simp)
  exact CskOrbit.carriers_apart (by omega)

/-- `baseband_csk` — src/csk.rs:30-40. -/
theorem C132_csk {data : List Bool} (h : data.length = 9001) :
    (do let tx ← txCsk Float (ofList data); let rx ← rxCsk (F := Float) tx; collect rx) = pure data :=
  C132_csk_any (yields_ofList data) h.le

/-! ## With a carrier -/

private theorem carrier_nat {L : Libm} {n : ℕ} (hn : n ≤ 2 ^ 53) : ∃ x : FloatL L, (Flt.ofNat n : FloatL L) = x ∧ F64.Fin x ∧ val x = n :=
  ⟨_, rfl, ofNat_exact hn⟩

/-- `full_bpsk` — src/bpsk.rs:80-117. -/
theorem C132_full_bpsk {L : Libm} {ε : ℝ} (hε : ε ≤ 1 / 2 ^ 10) (hL : Accurate L ε (2 ^ 40)) {data : List Bool} (h : data.length = 4000) :
    (do let tx ← txBpsk (ofList data) 44100 900 (Flt.ofNat 1800 : FloatL L)
        let rx ← rxBpsk tx 44100 900 (Flt.ofNat 1800 : FloatL L); collect rx) = pure data := by
  obtain ⟨x, e, f, v⟩ := carrier_nat (L := L) (n := 1800) (by norm_num)
  simp only [e]
  norm_num at v
  refine C25_accurate hε hL (yields_ofList data) (by norm_num) (by norm_num) (by rw [h]; norm_num) f ?_ ?_
  · rw [v]; norm_num
  · rw [v]; norm_num

/-- `full_qpsk` — src/qpsk.rs:89-118. -/
theorem C132_full_qpsk {L : Libm} {ε : ℝ} (hε : ε ≤ 1 / 2 ^ 10) (hL : Accurate L ε (2 ^ 40)) {data : List Bool} (h : data.length = 20) :
    (do let tx ← txQpsk (ofList data) 44100 900 (Flt.ofNat 1800 : FloatL L)
        let rx ← rxQpsk tx 44100 900 (Flt.ofNat 1800 : FloatL L); collect rx) = pure data := by
  obtain ⟨x, e, f, v⟩ := carrier_nat (L := L) (n := 1800) (by norm_num)
  simp only [e]
  norm_num at v
  refine (C28_accurate hε hL (yields_ofList data) (by norm_num) (by norm_num) (by rw [h]; norm_num) f ?_ ?_ (p := 4) ?_).trans ?_
  · rw [v]; norm_num
  · rw [v]; norm_num
  · rw [v]; norm_num
  · rw [h, List.take_of_length_le (by omega)]

/-- `fh_bpsk_works` — src/fh.rs:183-215, for every random generator behind the hop table. -/
theorem C132_hopping {L : Libm} {ε : ℝ} (hε : ε ≤ 1 / 2 ^ 10) (hL : Accurate L ε (2 ^ 40)) {data : List Bool} (_h : data.length = 9002) :
    (do let tx ← txFhBpsk ρ (ofList data) (Flt.ofNat 1000 : FloatL L) (Flt.ofNat 2000) 16 44100 900
        let rx ← rxFhBpsk ρ tx (Flt.ofNat 1000 : FloatL L) (Flt.ofNat 2000) 16 44100 900; collect rx) = pure data := by
  obtain ⟨x, e, f, v⟩ := carrier_nat (L := L) (n := 1000) (by norm_num)
  obtain ⟨x', e', f', v'⟩ := carrier_nat (L := L) (n := 2000) (by norm_num)
  simp only [e, e']
  norm_num at v v'
  refine C37_roundtrip_ieee hε hL (yields_ofList data) f f' ?_ ?_ (by norm_num) (by norm_num) (by norm_num) (by norm_num) (by norm_num) ?_
    (by norm_num)
  · rw [v]; exact le_trans (div_le_one_of_le₀ (one_le_pow₀ (by norm_num)) (by positivity)) (by norm_num)
  · rw [v, v']; norm_num
  · rw [v']; norm_num

/-! ## Spreading -/

/-- Key number 0 of the Walsh codes of a size that is a power of two from 2 on. -/
theorem walsh_key0 {k : ℕ} (hk : 1 ≤ k) : ∃ mat key, hadamardNew (2 ^ k) = pure mat ∧ hadamardKey mat 0 = pure key ∧ key.length = 2 ^ k := by
  obtain ⟨mat, hm, -⟩ := C19_entries k
  have h2 : 2 ≤ 2 ^ k := by
    calc 2 = 2 ^ 1 := rfl
      _ ≤ 2 ^ k := Nat.pow_le_pow_right (by norm_num) hk
  obtain ⟨key, h1, -, h3, -⟩ := C20_key_partial k hm 0 (by rw [Nat.zero_mod]; omega)
  exact ⟨mat, key, hm, h1, h3⟩

/-- `baseband_cdma` — src/cdma.rs:186-209: sizes 2, 4, 8, 16 and 256. -/
theorem C132_baseband_cdma {k : ℕ} (hk : k ∈ [1, 2, 3, 4, 8]) {data : List Bool} (_h : data.length = 16960) :
    ∃ mat key, hadamardNew (2 ^ k) = pure mat ∧ hadamardKey mat 0 = pure key ∧
      collect (rxBasebandCdma (txBasebandCdma (ofList data) key) key) = pure data := by
  obtain ⟨mat, key, h1, h2, h3⟩ := walsh_key0 (k := k) (by simp at hk; omega)
  refine ⟨mat, key, h1, h2, collect_of_yields (C21_roundtrip (yields_ofList data) ?_)⟩
  rintro rfl
  exact absurd h3 (Nat.two_pow_pos k).ne

/-- The sizes of the three single-user tests of src/cdma.rs: 2, 4, 8, 16, 32 and 64. -/
private theorem walsh_rates {k : ℕ} (hk : k ∈ [1, 2, 3, 4, 5, 6]) {key : List Bool} (hl : key.length = 2 ^ k) :
    key ≠ [] ∧ 1000 * key.length ∣ 128000 ∧ 2 * (1000 * key.length) ≤ 128000 := by
  rw [hl]
  refine ⟨?_, ?_, ?_⟩
  · rintro rfl
    exact absurd hl (Nat.two_pow_pos k).ne
  all_goals
    simp only [List.mem_cons, List.not_mem_nil, or_false] at hk
    rcases hk with rfl | rfl | rfl | rfl | rfl | rfl <;> norm_num

/-- `bpsk_cdma_single_user` — src/cdma.rs:254-295. -/
theorem C132_cdma_bpsk {L : Libm} {ε : ℝ} (hε : ε ≤ 1 / 2 ^ 10) (hL : Accurate L ε (2 ^ 40)) {k : ℕ} (hk : k ∈ [1, 2, 3, 4, 5, 6])
    {data : List Bool} (h : data.length = 4000) :
    ∃ mat key, hadamardNew (2 ^ k) = pure mat ∧ hadamardKey mat 0 = pure key ∧
      (do let tx ← txCdmaBpsk (ofList data) 128000 1000 (Flt.ofNat 2500 : FloatL L) key
          let rx ← rxCdmaBpsk tx 128000 1000 (Flt.ofNat 2500 : FloatL L) key; collect rx) = pure data := by
  obtain ⟨mat, key, h1, h2, h3⟩ := walsh_key0 (k := k) (by simp at hk; omega)
  obtain ⟨k1, k2, k3⟩ := walsh_rates hk h3
  obtain ⟨x, e, f, v⟩ := carrier_nat (L := L) (n := 2500) (by norm_num)
  simp only [e]
  norm_num at v
  refine ⟨mat, key, h1, h2, C29_accurate hε hL (yields_ofList data) (by norm_num) (by norm_num) k1 k2 k3 (by rw [h]; norm_num) f ?_ ?_⟩
  · rw [v]; norm_num
  · rw [v]; norm_num

/-- `qpsk_cdma_single_user` — src/cdma.rs:297-338. -/
theorem C132_cdma_qpsk {L : Libm} {ε : ℝ} (hε : ε ≤ 1 / 2 ^ 10) (hL : Accurate L ε (2 ^ 40)) {k : ℕ} (hk : k ∈ [1, 2, 3, 4, 5, 6])
    {data : List Bool} (h : data.length = 4000) :
    ∃ mat key, hadamardNew (2 ^ k) = pure mat ∧ hadamardKey mat 0 = pure key ∧
      (do let tx ← txCdmaQpsk (ofList data) 128000 1000 (Flt.ofNat 2500 : FloatL L) key
          let rx ← rxCdmaQpsk tx 128000 1000 (Flt.ofNat 2500 : FloatL L) key; collect rx) = pure data := by
  obtain ⟨mat, key, h1, h2, h3⟩ := walsh_key0 (k := k) (by simp at hk; omega)
  obtain ⟨k1, k2, k3⟩ := walsh_rates hk h3
  obtain ⟨x, e, f, v⟩ := carrier_nat (L := L) (n := 2500) (by norm_num)
  simp only [e]
  norm_num at v
  refine ⟨mat, key, h1, h2, (C31_accurate hε hL (yields_ofList data) (by norm_num) (by norm_num) k1 k2 k3 (by rw [h]; norm_num) f ?_ ?_
    (p := 5) ?_).trans (by rw [h, List.take_of_length_le (by omega)])⟩
  · rw [v]; exact le_trans (div_le_one_of_le₀ (one_le_pow₀ (by norm_num)) (by positivity)) (by norm_num)
  · rw [v]; norm_num
  · rw [v]; norm_num

/-- `coded_bpsk_cdma_single_user` — src/cdma.rs:211-252: 4000 bits fill their bytes, so nothing is appended. -/
theorem C132_coded {rs : RS} (hrs : rs.Contract) {L : Libm} {ε : ℝ} (hε : ε ≤ 1 / 2 ^ 10) (hL : Accurate L ε (2 ^ 40)) {k : ℕ}
    (hk : k ∈ [1, 2, 3, 4, 5, 6]) {data : List Bool} (h : data.length = 4000) :
    ∃ mat key, hadamardNew (2 ^ k) = pure mat ∧ hadamardKey mat 0 = pure key ∧
      (do let tx ← txCodedCdmaBpsk rs (ofList data) 128000 1000 (Flt.ofNat 2500 : FloatL L) key
          let rx ← rxCodedCdmaBpsk rs tx 128000 1000 (Flt.ofNat 2500 : FloatL L) key; collect rx) = pure data := by
  obtain ⟨mat, key, h1, h2, h3⟩ := walsh_key0 (k := k) (by simp at hk; omega)
  obtain ⟨k1, k2, k3⟩ := walsh_rates hk h3
  obtain ⟨x, e, f, v⟩ := carrier_nat (L := L) (n := 2500) (by norm_num)
  simp only [e]
  norm_num at v
  obtain ⟨enc, e1, e2⟩ := C48_length hrs (yields_ofList data) (n := 500) (by rw [h])
  obtain ⟨pad, p1, p2, p3⟩ := C49_accurate hrs hε hL (yields_ofList data) e1 (fs := 128000) (sym := 1000) (by norm_num) (by norm_num) k1 k2 k3
    (by rw [e2]; norm_num) f (by rw [v]; norm_num) (by rw [v]; norm_num)
  obtain rfl : pad = 0 := by omega
  exact ⟨mat, key, h1, h2, by simpa using p3⟩

/-! ## OFDM -/

/-- `test_baseband_qpsk_ofdm` — src/ofdm.rs:156-180: the 2080 bits fill twenty frames of 52 carriers, so nothing is appended. -/
theorem C132_baseband_ofdm {L : Libm} [Fft (FloatL L)] {δ : ℝ} (hD : AccurateDft (Fft.dft (F := FloatL L)) δ) (hδ0 : 0 ≤ δ)
    (hδ : δ * 64 ≤ 1 / 8) {data : List Bool} (h : data.length = 2080) :
    (do let tx ← txBasebandOfdm (F := FloatL L) (txBasebandQpsk (F := FloatL L) (ofList data)) 64 12
        let rx ← rxBasebandOfdm (F := FloatL L) tx 64 12
        collect (rxBasebandQpsk (F := FloatL L) rx)) = pure data := by
  obtain ⟨junk, j1, j2⟩ := C33_bits_ieee_partial hD hδ0 (n := 64) (p := 12) (by exact_mod_cast hδ) (yields_ofList data) (by rw [h])
    (by norm_num) (by norm_num) (by norm_num) (by norm_num)
  obtain ⟨it, e, hy⟩ := txBasebandOfdm_ok ((yields_ofList data).txBasebandQpsk (F := FloatL L)) (n := 64) (p := 12) (by norm_num) (by norm_num)
  obtain ⟨it2, e2, hy2⟩ := rxBasebandOfdm_ok hy (n := 64) (p := 12) (by norm_num) (by norm_num) (by
    rw [length_flatMap_const (k := 64 + 64 / 4) _ _ (fun b _ => frameL_length 64 12 b)]; exact ⟨_, Nat.mul_comm _ _⟩)
  rw [e, pure_bind, e2, pure_bind, collect_of_yields hy2.rxBasebandQpsk, RM.ok_inj] at j1
  rw [e, pure_bind, e2, pure_bind, collect_of_yields hy2.rxBasebandQpsk, j1]
  have hl := congrArg List.length j1
  rw [length_flatMap_const (k := 2) _ _ (fun _ _ => rfl), length_flatMap_const (k := 52) _ _ (fun b _ => deframeL_length (by norm_num)
    (by norm_num) _), List.length_append, h] at hl
  have : junk = [] := List.eq_nil_of_length_eq_zero (by omega)
  rw [this, List.append_nil]

/-- `test_qpsk_ofdm` — src/ofdm.rs:182-216, in exact arithmetic. -/
theorem C132_ofdm {data : List Bool} (h : data.length = 2080) :
    (do let tx ← txOfdmQpsk (ofList data) 64 12 44100 900 (1800 : ℝ)
        let rx ← rxOfdmQpsk tx 64 12 44100 900 (1800 : ℝ)
        collect rx) = pure data := by
  refine C66_roundtrip_full (yields_ofList data) (by norm_num) (by norm_num) (by norm_num) (by norm_num) (by norm_num) (by norm_num)
    (q := 2) (by norm_num) (fun r hr => ?_) (by rw [h]; norm_num)
  norm_num at hr
  have : (3600 : ℤ) = r * 44100 := by exact_mod_cast hr
  omega

/-- The ignored `baseband` — src/fh_ofdm_dcsk.rs:156-174, in exact arithmetic, for every generator: without rounding the test would pass (what
rounding does to it is in `C119`). -/
theorem C132_fh_ofdm {data : List Bool} (h : data.length = 14) :
    ∃ rx, (do let tx ← txBasebandFhOfdm ρ ℝ (ofList data); collect (rxBasebandFhOfdm ρ ℝ tx)) = pure rx ∧
      7 ≤ rx.length ∧ rx.take (rx.length - 7) = data := by
  refine ⟨_, C47_roundtrip (yields_ofList data), ?_, ?_⟩ <;> rw [List.length_append, List.length_replicate, h]
  · norm_num
  · rw [show 14 + (7 - 14 % 7) - 7 = data.length by rw [h], List.take_left]

/-! ## One data set -/

example : ∃ bytes bits, collect (boolsToU8s (ofList (List.replicate 33 true))) = pure bytes ∧ bytes.length = 40 / 8 ∧
    collect (u8sToBools (ofList bytes)) = pure bits ∧ bits.take 33 = List.replicate 33 true := C132_bitstream (List.length_replicate ..)

example : ∃ decoded, collect (bchStreamDecode rsIdeal (bchStreamEncode rsIdeal (ofList (List.replicate 100 true)))) = pure decoded ∧
    decoded.take (List.replicate 100 true).length = List.replicate 100 true := C132_bch rsIdeal_contract (List.length_replicate ..)

example (data : List Bool) (h : data.length = 9001) :
    collect (rxBasebandBpsk (F := Float) (txBasebandBpsk (F := Float) (ofList data))) = pure data ∧
      (do let tx ← txDcsk Float (ofList data); collect (rxDcsk (F := Float) tx)) = pure data ∧
      (do let tx ← txCsk Float (ofList data); let rx ← rxCsk (F := Float) tx; collect rx) = pure data :=
  ⟨C132_baseband_bpsk h, C132_dcsk h, C132_csk h⟩

example (data : List Bool) (h : data.length = 4000) :
    (do let tx ← txBpsk (ofList data) 44100 900 (Flt.ofNat 1800 : FloatL Libm.rounded)
        let rx ← rxBpsk tx 44100 900 (Flt.ofNat 1800 : FloatL Libm.rounded); collect rx) = pure data :=
  C132_full_bpsk (ε := 1 / 2 ^ 52) (by norm_num) (accurate_rounded _) h

example (data : List Bool) (h : data.length = 4000) : ∃ mat key, hadamardNew (2 ^ 6) = pure mat ∧ hadamardKey mat 0 = pure key ∧
    (do let tx ← txCodedCdmaBpsk rsIdeal (ofList data) 128000 1000 (Flt.ofNat 2500 : FloatL Libm.rounded) key
        let rx ← rxCodedCdmaBpsk rsIdeal tx 128000 1000 (Flt.ofNat 2500 : FloatL Libm.rounded) key; collect rx) = pure data :=
  C132_coded rsIdeal_contract (ε := 1 / 2 ^ 52) (by norm_num) (accurate_rounded _) (k := 6) (by simp) h

end Verif.Props
