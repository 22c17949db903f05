import Verif.F64.Carrier
import Verif.Props.Psk

/-! Properties C17, C18 and the IEEE double versions of C25 and C26. -/
namespace Verif.Props
open Verif Verif.F64

/-! ## C17 `no_nans` -/

/-- The claim, for real vectors: `no_nans` accepts exactly the vectors without NaN and without infinity. -/
def C17_claim : Prop := ∀ v : List Float, noNans v = true ↔ ∀ x ∈ v, x.isNaN = false ∧ x.isInf = false

/-- It fails: a vector consisting of a NaN is accepted. -/
theorem C17_false : ¬ C17_claim := by
  intro h
  have h1 : noNans [F64.nan] = true := by decide +kernel
  have h2 := ((h [F64.nan]).mp h1) F64.nan (by simp)
  have h3 : F64.nan.isNaN = true := by decide +kernel
  rw [h3] at h2
  exact absurd h2.1 (by simp)

/-- The same for complex vectors. -/
theorem C17_complex_false : ¬ ∀ v : List (Cx Float), noNansC v = true ↔ ∀ z ∈ v, (z.re.isNaN = false ∧ z.re.isInf = false)
    ∧ z.im.isNaN = false ∧ z.im.isInf = false := by
  intro h
  have h1 : noNansC [⟨0, F64.nan⟩] = true := by decide +kernel
  have h2 := ((h [⟨0, F64.nan⟩]).mp h1) ⟨0, F64.nan⟩ (by simp)
  have h3 : F64.nan.isNaN = true := by decide +kernel
  have h4 := h2.2.1
  simp only [h3] at h4
  exact absurd h4 (by simp)

/-- What does hold, for every vector: infinities are rejected and nothing else is, so NaN is never detected. -/
theorem C17_partial (v : List Float) : noNans v = true ↔ ∀ x ∈ v, x.isInf = false := by
  unfold noNans
  simp only [isNan_eq_isInf, Bool.not_eq_true', List.any_eq_false, Bool.not_eq_true]

/-- Vectors of finite numbers are accepted. -/
theorem C17_finite_partial (v : List Float) (h : ∀ x ∈ v, x.isFinite = true) : noNans v = true := by
  rw [C17_partial]
  intro x hx
  have := h x hx
  rw [finite_iff] at this
  simp only [Bool.and_eq_true, Bool.not_eq_true'] at this
  exact this.2

/-- Complex vectors: rejected exactly when some real or imaginary part is infinite. -/
theorem C17_complex_partial (v : List (Cx Float)) :
    noNansC v = true ↔ ∀ z ∈ v, z.re.isInf = false ∧ z.im.isInf = false := by
  unfold noNansC
  simp only [isNanC_eq, Bool.not_eq_true', List.any_eq_false, Bool.not_eq_true, Bool.or_eq_false_iff]

example : noNans [0, F64.inf, 1] = false ∧ noNans [0, F64.nan, 1] = true ∧ noNans [0, 1] = true := by decide +kernel

/-! ## C18 the integer-rate guard -/

/-- `is_int` accepts exactly the doubles whose value is a natural number up to `2^64`. -/
theorem C18_is_int (x : Float) : isInt x = true ↔ x.isFinite = true ∧ ∃ n : ℕ, n ≤ 2 ^ 64 ∧ val x = n := isInt_iff x

/-- The guard `is_int(sample_rate as f64 / symbol_rate as f64)` accepts exactly the dividing symbol rates. -/
theorem C18_guard {fs sym : ℕ} (hfs : fs < 2 ^ 53) (hsym : sym < 2 ^ 53) :
    isInt (Flt.ofNat fs / Flt.ofNat sym : Float) = true ↔ sym ≠ 0 ∧ sym ∣ fs := guard_iff hfs hsym

/-- Above `2^53` the guard is fooled by rounding: 9007199254740993 is odd and passes as a multiple of 2. -/
theorem C18_bound_sharp : isInt (Flt.ofNat (2 ^ 53 + 1) / Flt.ofNat 2 : Float) = true ∧ ¬ 2 ∣ 2 ^ 53 + 1 := by
  refine ⟨by decide +kernel, by norm_num⟩

example : isInt (Flt.ofNat 44100 / Flt.ofNat 441 : Float) = true ∧ isInt (Flt.ofNat 44100 / Flt.ofNat 443 : Float) = false := by
  rw [← Bool.not_eq_true, C18_guard (by norm_num) (by norm_num), C18_guard (by norm_num) (by norm_num)]
  decide

/-! ## C26 the guards of the BPSK transmitter -/

/-- IEEE arithmetic, any mathematical library: the transmitter panics exactly when the symbol rate is zero or does not
divide the sample rate, or the truncated carrier frequency is above half the sample rate. -/
theorem C26_panics_ieee {ι : Type} [RIter ι Bool] (L : Libm) (m : ι) {fs sym : ℕ} (fc : FloatL L) (hfs : fs < 2 ^ 53)
    (hsym : sym < 2 ^ 53) : (txBpsk m fs sym fc).Panics ↔ sym = 0 ∨ ¬ sym ∣ fs ∨ fs / 2 < Flt.toNat fc := by
  rw [C26_panics]
  have h := C18_guard hfs hsym
  rw [← Bool.not_eq_true]
  rw [show (isInt (Flt.ofNat fs / Flt.ofNat sym : FloatL L) = true) ↔ _ from h]
  tauto

example (L : Libm) : (txBpsk (ofList [true]) 44100 443 (Flt.ofNat 1000 : FloatL L)).Panics := by
  rw [C26_panics_ieee L _ _ (by norm_num) (by norm_num)]
  exact .inr (.inl (by norm_num))

/-! ## C25 the BPSK round trip -/

/-- IEEE arithmetic, any mathematical library: the receiver returns the message if the library's cosines are finite at
the sample phases and in every symbol one of them is large enough for its square not to vanish.  Rounding and overflow
of the correlation sum do not matter. -/
theorem C25_roundtrip_ieee {ι : Type} [RIter ι Bool] (L : Libm) {m : ι} {msg : List Bool} (h : Yields m msg)
    {fs sym : ℕ} {fc : FloatL L} (hfs : fs < 2 ^ 53) (hdvd : sym ∣ fs) (hsps : 0 < fs / sym) (hfc : Flt.toNat fc ≤ fs / 2)
    (hfin : ∀ i < msg.length * (fs / sym), Fin (L.cos (phase fs fc i)))
    (hbig : ∀ n < msg.length, ∃ j < fs / sym,
      (2 : ℝ) ^ (-537 : ℤ) ≤ |val (L.cos (phase fs fc (n * (fs / sym) + j)))|) :
    (do let tx ← txBpsk m fs sym fc; let rx ← rxBpsk tx fs sym fc; collect rx) = pure msg := by
  have hsym : sym ≠ 0 := by rintro rfl; simp at hsps
  have hfs0 : fs ≠ 0 := by rintro rfl; simp at hsps
  have hle : sym ≤ fs := Nat.le_of_dvd (by omega) hdvd
  rw [C25_decision h hsps hfc (show isInt (Flt.ofNat fs / Flt.ofNat sym : FloatL L) = true from
    (C18_guard hfs (by omega)).mpr ⟨hsym, hdvd⟩)]
  congr 1
  apply mapIdx_eq_self
  intro n b hn
  have hlt : n < msg.length := by
    rcases Nat.lt_or_ge n msg.length with h | h
    · exact h
    · rw [List.getElem?_eq_none h] at hn; cases hn
  obtain ⟨j, hj, hjb⟩ := hbig n hlt
  refine correlate_sign (a := fun j => L.cos (phase fs fc (n * (fs / sym) + j))) (c := 2 ^ (-1074 : ℤ)) ?_
    (isF_zpow (by norm_num)) (two_zpow_pos _) ⟨j, hj, ?_⟩ b
  · intro j hj
    refine hfin _ ?_
    calc n * (fs / sym) + j < n * (fs / sym) + fs / sym := by omega
      _ = (n + 1) * (fs / sym) := by ring
      _ ≤ msg.length * (fs / sym) := Nat.mul_le_mul_right _ hlt
  · rw [← sq_abs, show (2 : ℝ) ^ (-1074 : ℤ) = (2 ^ (-537 : ℤ)) ^ 2 by rw [← zpow_natCast, ← zpow_mul]; norm_num]
    exact pow_le_pow_left₀ (two_zpow_pos _).le hjb 2

/-- The conditions hold for instance for a library whose cosine is constantly `-1`. -/
example (msg : List Bool) (s e l : Float → Float) (p : Float → Float → Float) :
    let L : Libm := ⟨s, fun _ => -1, e, l, p⟩
    (do let tx ← txBpsk (ofList msg) 8 4 (Flt.ofNat 3 : FloatL L); let rx ← rxBpsk tx 8 4 (Flt.ofNat 3 : FloatL L)
        collect rx) = pure msg := by
  intro L
  refine C25_roundtrip_ieee L (yields_ofList _) (by norm_num) (by norm_num) (by norm_num) ?_ (fun _ _ => ?_)
    (fun _ _ => ⟨0, by norm_num, ?_⟩)
  · exact (show Flt.toNat (Flt.ofNat 3 : Float) ≤ 8 / 2 by decide +kernel)
  · exact neg_fin.mpr fin_one
  · show (2 : ℝ) ^ (-537 : ℤ) ≤ |val (-1)|
    rw [neg_val, val_one, abs_neg, abs_one]
    exact zpow_le_one_of_nonpos₀ (by norm_num) (by norm_num)

/-- IEEE arithmetic with a mathematical library accurate to `2^-10` (real ones are accurate to about `2^-52`): the
round trip returns the message for every carrier up to 7/16 of the sample rate of which a symbol spans at least a
sixteenth of a period, up to `2^32` samples. -/
theorem C25_accurate {ι : Type} [RIter ι Bool] {L : Libm} {ε : ℝ} (hε : ε ≤ 1 / 2 ^ 10) (hL : Accurate L ε (2 ^ 40))
    {m : ι} {msg : List Bool} (h : Yields m msg) {fs sym : ℕ} {fc : FloatL L} (hfs : fs < 2 ^ 53) (hdvd : sym ∣ fs)
    (hlen : msg.length * (fs / sym) ≤ 2 ^ 32) (hf : Fin fc) (hhi : val fc ≤ 7 / 16 * fs)
    (hlo : 1 / 16 ≤ (((fs / sym : ℕ) : ℝ) - 1) * (val fc / fs)) :
    (do let tx ← txBpsk m fs sym fc; let rx ← rxBpsk tx fs sym fc; collect rx) = pure msg := by
  have hfs0 : 0 < fs := by
    rcases Nat.eq_zero_or_pos fs with h | h
    · subst h; norm_num at hlo
    · exact h
  have hsym : 0 < sym := Nat.pos_of_dvd_of_pos hdvd hfs0
  have hsps : 0 < fs / sym := Nat.div_pos (Nat.le_of_dvd hfs0 hdvd) hsym
  obtain ⟨s, hs⟩ : ∃ s, fs / sym = s + 1 := ⟨fs / sym - 1, by omega⟩
  have hfsR : (0 : ℝ) < fs := by exact_mod_cast hfs0
  have hsfs : s + 1 ≤ fs := hs ▸ Nat.div_le_self _ _
  have hsfsR : (s : ℝ) + 1 ≤ fs := by exact_mod_cast hsfs
  rw [hs] at hlo hlen
  push_cast at hlo
  rw [add_sub_cancel_right] at hlo
  have hv0 : 0 < val fc / fs := by
    by_contra hn
    have : (s : ℝ) * (val fc / fs) ≤ 0 := mul_nonpos_of_nonneg_of_nonpos (by positivity) (not_lt.mp hn)
    linarith
  have hvpos : 0 < val fc := by
    have := mul_pos hv0 hfsR
    rwa [div_mul_cancel₀ _ hfsR.ne'] at this
  have hv : 1 / 16 ≤ val fc := by
    have e : val fc = fs * (val fc / fs) := by field_simp
    rw [e]
    refine hlo.trans (mul_le_mul_of_nonneg_right (by linarith) hv0.le)
  have hv' : 1 / 2 ^ 100 ≤ val fc := le_trans (by norm_num) hv
  refine C25_roundtrip_ieee L h hfs hdvd hsps ?_ ?_ ?_
  · refine (toNat_val hf).le.trans (floor_le_half ?_)
    linarith
  · rw [hs]
    intro i hi
    exact (carrier_near hL hfs0 hfs (by omega) hf hv' (by linarith)).1.1
  · rw [hs]
    intro n hn
    have : (n + 1) * (s + 1) ≤ msg.length * (s + 1) := Nat.mul_le_mul_right _ hn
    obtain ⟨j, hj, hb⟩ := exists_large hε hL (i := n * (s + 1)) (s := s) hfs0 hfs (by nlinarith) hf hlo hhi hv'
    refine ⟨j, by omega, le_trans ?_ hb⟩
    rw [show (1 : ℝ) / 16 = 2 ^ (-4 : ℤ) by norm_num [zpow_neg]]
    exact zpow_le_zpow_right₀ (by norm_num) (by norm_num)

/-- 44.1 kHz, 100 symbols per second, 2 kHz carrier, any message of up to 9 million bits, correctly rounded library. -/
example {msg : List Bool} (hlen : msg.length ≤ 9000000) :
    (do let tx ← txBpsk (ofList msg) 44100 100 (Flt.ofNat 2000 : FloatL Libm.rounded)
        let rx ← rxBpsk tx 44100 100 (Flt.ofNat 2000 : FloatL Libm.rounded)
        collect rx) = pure msg := by
  obtain ⟨h1, h2⟩ := ofNat_exact (n := 2000) (by norm_num)
  refine C25_accurate (ε := 1 / 2 ^ 52) (by norm_num) (accurate_rounded _) (yields_ofList _) (by norm_num) (by norm_num)
    (by norm_num; omega) h1 ?_ ?_
  · show val (F64.ofNat 2000) ≤ _; rw [h2]; norm_num
  · show _ ≤ _ * (val (F64.ofNat 2000) / _); rw [h2]; norm_num

end Verif.Props
