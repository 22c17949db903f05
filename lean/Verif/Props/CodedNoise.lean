import Verif.Lemmas.CodedNoise
import Verif.Lemmas.RsExists
import Verif.Props.Gauss
import Verif.Props.GaussChaos
import Verif.Props.Energy
import Verif.Props.Bch

/-! # C138 — the coded link in white noise -/
set_option linter.unusedSectionVars false
namespace Verif.Props
open Verif Spec MeasureTheory ProbabilityTheory
variable {Ω : Type} [MeasurableSpace Ω] {P : Measure Ω}

/-- **C138.** On any link that flips the bits of the code independently, bit `n` with probability `p n ≤ q`, the decoder
returns something other than the message (filled up to whole bytes) with probability at most
`220 · frames · (1 - (1 - q)⁸)³`: some three of the twelve bytes of a frame have to be hit at once. -/
theorem C138_any [IsProbabilityMeasure P] [RIter ι Bool] {rs : RS} (hrs : rs.Contract) {src : ι} {msg enc : List Bool}
    (h : Yields src msg) (henc : Yields (bchStreamEncode rs src) enc) {bits : Ω → List Bool} {p : ℕ → ℝ}
    (hf : Flips P enc bits p) {q : ℝ} (hp : ∀ n < enc.length, p n ≤ q) (hq : q ≤ 1) :
    ∃ pad, pad < 8 ∧ (msg.length + pad) % 8 = 0 ∧
      P.real {ω | collect (bchStreamDecode rs (ofList (bits ω))) ≠ pure (msg ++ List.replicate pad false)}
        ≤ 220 * ((msg.length + 55) / 56 : ℕ) * (1 - (1 - q) ^ 8) ^ 3 := by
  obtain ⟨h8, hF⟩ := enc_length hrs h henc
  refine ⟨(8 - msg.length % 8) % 8, by omega, by omega, ?_⟩
  rw [← hF]
  refine le_trans (measureReal_mono ?_ (measure_ne_top _ _)) (hf.frames h8 hq hp)
  intro ω hω hfe
  apply hω
  obtain ⟨pad, p1, p2, p3⟩ := C48_corrects hrs h henc (yields_ofList (bits ω)) hfe
  rw [collect_of_yields p3, show pad = (8 - msg.length % 8) % 8 by omega]

/-- In particular at most `112640 · frames · q³`: a bit error rate `q` of the link turns into its cube. -/
theorem C138_cube [IsProbabilityMeasure P] [RIter ι Bool] {rs : RS} (hrs : rs.Contract) {src : ι} {msg enc : List Bool}
    (h : Yields src msg) (henc : Yields (bchStreamEncode rs src) enc) {bits : Ω → List Bool} {p : ℕ → ℝ}
    (hf : Flips P enc bits p) {q : ℝ} (hp : ∀ n < enc.length, p n ≤ q) (hq0 : 0 ≤ q) (hq : q ≤ 1) :
    ∃ pad, pad < 8 ∧ (msg.length + pad) % 8 = 0 ∧
      P.real {ω | collect (bchStreamDecode rs (ofList (bits ω))) ≠ pure (msg ++ List.replicate pad false)}
        ≤ 112640 * ((msg.length + 55) / 56 : ℕ) * q ^ 3 := by
  obtain ⟨pad, p1, p2, p3⟩ := C138_any hrs h henc hf hp hq
  refine ⟨pad, p1, p2, p3.trans ?_⟩
  have hb : 1 - (1 - q) ^ 8 ≤ 8 * q := by
    have := one_add_mul_le_pow (a := -q) (by linarith) 8
    rw [← sub_eq_add_neg] at this
    push_cast at this
    linarith
  have h0 : 0 ≤ 1 - (1 - q) ^ 8 := by
    rw [sub_nonneg]; exact pow_le_one₀ (by linarith) (by linarith)
  have := pow_le_pow_left₀ h0 hb 3
  calc _ ≤ 220 * ((msg.length + 55) / 56 : ℕ) * (8 * q) ^ 3 := mul_le_mul_of_nonneg_left this (by positivity)
    _ = _ := by ring

variable {ν : Type} [RIter ν ℝ] {z : ℕ → Ω → ℝ} {noise : Ω → ν} {σ : ℝ}

/-- The coded CDMA link in white noise: every symbol sent carries at least the energy `E`. -/
theorem C138_cdma (hz : White P 1 z) (hσ : 0 < σ) (hg : ∀ ω, Gives (noise ω) (fun i => z i ω)) [RIter ι Bool] {rs : RS}
    (hrs : rs.Contract) {m : ι} {msg enc : List Bool} (h : Yields m msg) (henc : Yields (bchStreamEncode rs m) enc) {fs sym : ℕ} {fc : ℝ}
    {key : List Bool} (hfs : fs < 2 ^ 64) (hsym : 0 < sym) (hkey : key ≠ []) (hdvd : sym * key.length ∣ fs)
    (hnyq : 2 * (sym * key.length) ≤ fs) (hfc : ⌊fc⌋₊ ≤ fs / 2) {tx : List ℝ}
    (htx : (do let it ← txCodedCdmaBpsk rs m fs sym fc key; collect it) = pure tx) {E : ℝ} (hE0 : 0 < E)
    (hE : ∀ n < enc.length, E ≤ ((symbol (fs / sym) n tx).map (· ^ 2)).sum) :
    ∃ pad, pad < 8 ∧ (msg.length + pad) % 8 = 0 ∧
      P.real {ω | (do
          let s ← txCodedCdmaBpsk rs m fs sym fc key
          let ch ← awgn s σ (noise ω)
          let rx ← rxCodedCdmaBpsk rs ch fs sym fc key
          collect rx) ≠ pure (msg ++ List.replicate pad false)}
        ≤ 220 * ((msg.length + 55) / 56 : ℕ) * (1 - (1 - bitError E σ) ^ 8) ^ 3 := by
  obtain ⟨w, hw, hn⟩ := hz.driven hg σ
  have hP := hw.prob
  obtain ⟨h8, hF⟩ := enc_length hrs h henc
  have hok := (cdmaOk_real (fc := fc) hfs).mpr ⟨hsym, List.length_pos_iff.mpr hkey, hdvd, hnyq, hfc⟩
  obtain ⟨bits, b1, b2⟩ := C101_cdma hz hσ hg henc hfs hsym hkey hdvd hnyq hfc htx (fun n hn => hE0.trans_le (hE n hn))
  refine ⟨(8 - msg.length % 8) % 8, by omega, by omega, ?_⟩
  rw [← hF]
  refine le_trans (measureReal_mono ?_ (measure_ne_top _ _))
    (b2.frames h8 (q := bitError E σ) (by have := (bitError_bounds hE0 hσ).2; linarith) (fun n hn => bitError_anti hE0 hσ (hE n hn)))
  intro ω hω hfe
  apply hω
  obtain ⟨it, h1, h2⟩ := txCdmaBpsk_ok henc hok
  obtain ⟨ch, c1, c2⟩ := awgn_driven h2 (hn ω)
  obtain ⟨rx, r1, r2⟩ := rxCdmaBpsk_sym c2 hok
  have hb := b1 ω
  rw [h1, pure_bind, c1, pure_bind, r1, pure_bind, collect_of_yields r2, RM.ok_inj] at hb
  obtain ⟨pad, p1, p2, p3⟩ := C49_corrects hrs h henc r1 (r2.of_eq hb) hfe
  rw [txCodedCdmaBpsk, h1, pure_bind, c1, pure_bind, p3, show pad = (8 - msg.length % 8) % 8 by omega]

/-- With a carrier that fits the symbols, in terms of the samples per symbol `k` alone: the failure probability falls three times as fast,
in the exponent, as the bit error rate. -/
theorem C138_exponent (hz : White P 1 z) (hσ : 0 < σ) (hg : ∀ ω, Gives (noise ω) (fun i => z i ω)) [RIter ι Bool] {rs : RS}
    (hrs : rs.Contract) {m : ι} {msg : List Bool} (h : Yields m msg) {fs sym : ℕ} {fc : ℝ}
    {key : List Bool} (hfs : fs < 2 ^ 64) (hsym : 0 < sym) (hkey : key ≠ []) (hdvd : sym * key.length ∣ fs)
    (hnyq : 2 * (sym * key.length) ≤ fs) (hfc : ⌊fc⌋₊ ≤ fs / 2) (hwh : WholeHalf fs (fs / sym) fc) :
    ∃ pad, pad < 8 ∧ (msg.length + pad) % 8 = 0 ∧
      P.real {ω | (do
          let s ← txCodedCdmaBpsk rs m fs sym fc key
          let ch ← awgn s σ (noise ω)
          let rx ← rxCodedCdmaBpsk rs ch fs sym fc key
          collect rx) ≠ pure (msg ++ List.replicate pad false)}
        ≤ 14080 * ((msg.length + 55) / 56 : ℕ) * Real.exp (-3 * ((fs / sym : ℕ) / (4 * σ ^ 2))) := by
  have henc := bchEncode_yields hrs h
  have hok := (cdmaOk_real (fc := fc) hfs).mpr ⟨hsym, List.length_pos_iff.mpr hkey, hdvd, hnyq, hfc⟩
  obtain ⟨it, h1, h2⟩ := txCdmaBpsk_ok henc hok
  obtain ⟨tx, htx⟩ : ∃ tx : List ℝ, (do let it ← txCdmaBpsk (bchStreamEncode rs m) fs sym fc key; collect it) = pure tx :=
    ⟨_, by rw [h1, pure_bind]; exact collect_of_yields h2⟩
  have hSE := C78_cdma_bpsk henc hwh htx
  have hk : 0 < fs / sym := (txCdmaBpsk_collected henc htx).1
  have hE0 : (0 : ℝ) < (fs / sym : ℕ) / 2 := by
    have : (0 : ℝ) < (fs / sym : ℕ) := by exact_mod_cast hk
    positivity
  obtain ⟨pad, p1, p2, p3⟩ := C138_cdma hz hσ hg hrs h henc hfs hsym hkey hdvd hnyq hfc htx hE0
    (fun n hn => (hSE.each hk n hn).ge)
  refine ⟨pad, p1, p2, p3.trans ?_⟩
  generalize hE : ((fs / sym : ℕ) : ℝ) = k at *
  have hb := bitError_bounds hE0 hσ
  have hq : bitError (k / 2) σ ≤ Real.exp (-(k / (4 * σ ^ 2))) / 2 := by
    unfold bitError
    have := Erfc_le (x := √(k / 2 / (2 * σ ^ 2))) (Real.sqrt_nonneg _)
    rw [Real.sq_sqrt (by positivity), show k / 2 / (2 * σ ^ 2) = k / (4 * σ ^ 2) by field_simp; ring] at this
    rw [show k / 2 / (2 * σ ^ 2) = k / (4 * σ ^ 2) by field_simp; ring]
    linarith
  have hb8 : 1 - (1 - bitError (k / 2) σ) ^ 8 ≤ 4 * Real.exp (-(k / (4 * σ ^ 2))) := by
    have := one_add_mul_le_pow (a := -bitError (k / 2) σ) (by linarith) 8
    rw [← sub_eq_add_neg] at this
    push_cast at this
    linarith
  have h0 : 0 ≤ 1 - (1 - bitError (k / 2) σ) ^ 8 := by
    rw [sub_nonneg]; exact pow_le_one₀ (by linarith) (by linarith)
  calc _ ≤ 220 * ((msg.length + 55) / 56 : ℕ) * (4 * Real.exp (-(k / (4 * σ ^ 2)))) ^ 3 :=
        mul_le_mul_of_nonneg_left (pow_le_pow_left₀ h0 hb8 3) (by positivity)
    _ = _ := by
      rw [mul_pow, ← Real.exp_nat_mul, show ((3 : ℕ) : ℝ) * -(k / (4 * σ ^ 2)) = -3 * (k / (4 * σ ^ 2)) by push_cast; ring]
      ring

/-- Nine bits over a chip pair at sixteen samples per symbol, noise of deviation one: a wrong answer at most once in ten. -/
example : ∃ pad, pad < 8 ∧ ([true, false, true, true, false, true, true, true, true].length + pad) % 8 = 0 ∧
    (gaussPath 1).real {ω | (do
        let s ← txCodedCdmaBpsk rsIdeal (ofList [true, false, true, true, false, true, true, true, true]) 16000 1000 (2000 : ℝ) [true, false]
        let ch ← awgn s (1 : ℝ) (path ω)
        let rx ← rxCodedCdmaBpsk rsIdeal ch 16000 1000 (2000 : ℝ) [true, false]
        collect rx) ≠ pure ([true, false, true, true, false, true, true, true, true] ++ List.replicate pad false)} ≤ 1 / 10 := by
  obtain ⟨pad, p1, p2, p3⟩ := C138_exponent (white_path 1) one_pos path_gives rsIdeal_contract
    (yields_ofList [true, false, true, true, false, true, true, true, true]) (fs := 16000) (sym := 1000) (fc := (2000 : ℝ)) (key := [true, false])
    (by norm_num) (by norm_num) (by simp) (by simp) (by simp) (by norm_num) wh16
  refine ⟨pad, p1, p2, p3.trans ?_⟩
  have h1 : Real.exp (-12) ≤ 1 / 150000 := by
    rw [Real.exp_neg, ← one_div]
    refine one_div_le_one_div_of_le (by norm_num) ?_
    rw [show (12 : ℝ) = ((12 : ℕ) : ℝ) * 1 by norm_num, Real.exp_nat_mul]
    exact le_trans (by norm_num) (pow_le_pow_left₀ (by norm_num) Real.exp_one_gt_d9.le 12)
  rw [show (-3 * (((16000 / 1000 : ℕ) : ℝ) / (4 * 1 ^ 2))) = -12 by norm_num]
  simp only [List.length_cons, List.length_nil]
  norm_num
  linarith

/-- The code over plain BPSK: one byte, symbols of energy eight against noise of deviation one. -/
example : ∃ bits : (ℕ → ℝ) → List Bool, (∀ ω, (do
      let s ← txBpsk (bchStreamEncode rsIdeal (ofList [true, false, true, true, false, true, true, true])) 16000 1000 (2000 : ℝ)
      let ch ← awgn s (1 : ℝ) (path ω)
      let rx ← rxBpsk ch 16000 1000 (2000 : ℝ)
      collect rx) = pure (bits ω)) ∧
    ∃ pad, pad < 8 ∧ (8 + pad) % 8 = 0 ∧
      (gaussPath 1).real {ω | collect (bchStreamDecode rsIdeal (ofList (bits ω)))
          ≠ pure ([true, false, true, true, false, true, true, true] ++ List.replicate pad false)}
        ≤ 112640 * 1 * (bitError 8 1) ^ 3 := by
  have hm := yields_ofList [true, false, true, true, false, true, true, true]
  have henc := bchEncode_yields rsIdeal_contract hm
  obtain ⟨it, h1, h2⟩ := txBpsk_ok henc (fs := 16000) (sym := 1000) (fc := (2000 : ℝ)) (by norm_num) (by rw [Flt.toNat_real]; norm_num)
    ((isInt_real (by norm_num) (by norm_num)).mpr (by norm_num))
  obtain ⟨tx, htx⟩ : ∃ tx : List ℝ, (do
      let it ← txBpsk (bchStreamEncode rsIdeal (ofList [true, false, true, true, false, true, true, true])) 16000 1000 (2000 : ℝ)
      collect it) = pure tx := ⟨_, by rw [h1, pure_bind]; exact collect_of_yields h2⟩
  have hE := C78_bpsk henc (by norm_num) wh16 htx
  obtain ⟨bits, b1, b2⟩ := C101_bpsk (white_path 1) one_pos path_gives henc (by norm_num) (by norm_num) (by norm_num)
    (by norm_num) htx (fun n hn => by rw [hE.each (by norm_num) n hn]; norm_num)
  have hb := bitError_bounds (E := 8) (σ := 1) (by norm_num) one_pos
  have hP := (white_path 1).prob
  obtain ⟨pad, p1, p2, p3⟩ := C138_cube rsIdeal_contract hm henc b2 (q := bitError 8 1)
    (fun n hn => by rw [hE.each (by norm_num) n hn]; norm_num) hb.1.le (by linarith)
  refine ⟨bits, b1, pad, p1, by simpa using p2, p3.trans (le_of_eq ?_)⟩
  norm_num

end Verif.Props
