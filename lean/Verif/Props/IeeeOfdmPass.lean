import Verif.Lemmas.IeeeOfdmPass
import Verif.Props.IeeeRx
import Verif.Props.IeeeOfdm
import Verif.Props.Ofdm

/-!
# C133 — OFDM on a carrier in double precision

src/ofdm.rs: `tx_ofdm_qpsk_signal`, `rx_ofdm_qpsk_signal`.  The mathematical library is accurate to `ε` and the Fourier transform to `δ`
(`Accurate`, `AccurateDft`); the library's `exp(0)` is 1.
-/
namespace Verif.Props
open Verif Spec F64
variable {ι κ : Type} {L : Libm}

/-- The number of samples on the air: `⌈(bits / 2) / (n - p)⌉` frames of `n + n/4` symbols of `k` samples. -/
def ofdmOnAir (bits n p k : ℕ) : ℕ := (bits / 2 + (n - p) - 1) / (n - p) * (n + n / 4) * k

theorem ofdmOnAir_samples {F : Type} [Add F] [Sub F] [Mul F] [Div F] [Neg F] [Zero F] [One F] [Flt F] [Fft F] {n p : ℕ} (h2 : p < n) (k : ℕ)
    (msg : List Bool) : (ofdmSamples (F := F) n p msg).length * k = ofdmOnAir msg.length n p k := by
  rw [ofdmSamples_length, blocks_length _ (by omega), pairs_length, ofdmOnAir]

/-- What goes on the air is, sample by sample, what exact arithmetic gives, up to `6 δ + 5 (ε + 2⁻¹⁵)`. -/
theorem C133_transmitter [Fft (FloatL L)] [RIter ι Bool] {δ ε : ℝ} (hD : AccurateDft (Fft.dft (F := FloatL L)) δ) (hδ : 0 ≤ δ)
    (hL : Accurate L ε (2 ^ 40)) (hE : L.exp 0 = 1) {m : ι} {msg : List Bool} (h : Yields m msg) {n p fs sym : ℕ} {fc : FloatL L}
    (h1 : 1 ≤ p) (h2 : p < n) (hn : n ≤ 2 ^ 40) (hfs : fs < 2 ^ 53) (hdvd : sym ∣ fs) (hk : 0 < fs / sym)
    (hf : Fin fc) (hlo : 1 / 2 ^ 100 ≤ val fc) (hhi : val fc ≤ fs / 2) (hlen : ofdmOnAir msg.length n p (fs / sym) ≤ 2 ^ 32)
    (hsmall : δ + ε ≤ 1 / 50) :
    ∃ (a : List (FloatL L)) (b : List ℝ),
      (do let tx ← txOfdmQpsk m n p fs sym fc; collect tx) = pure a ∧
      (do let tx ← txOfdmQpsk m n p fs sym (val fc); collect tx) = pure b ∧
      a.length = ofdmOnAir msg.length n p (fs / sym) ∧ b.length = ofdmOnAir msg.length n p (fs / sym) ∧
      ∀ (i : ℕ) (x : FloatL L) (y : ℝ), a[i]? = some x → b[i]? = some y →
        Fin x ∧ |val x - y| ≤ 6 * δ + 5 * (ε + 1 / 2 ^ 15) := by
  have hε : 0 ≤ ε := ((hL 0 fin_zero (by rw [val_zero]; norm_num)).1).nonneg
  have hsym : sym ≠ 0 := by rintro rfl; simp at hk
  have hfs0 : 0 < fs := Nat.pos_of_ne_zero (by rintro rfl; simp at hk)
  have hsym' : sym < 2 ^ 53 := lt_of_le_of_lt (Nat.le_of_dvd hfs0 hdvd) hfs
  have hint : isInt (Flt.ofNat fs / Flt.ofNat sym : FloatL L) = true := (guard_iff hfs hsym').mpr ⟨hsym, hdvd⟩
  obtain ⟨it, e, hy⟩ := txOfdmQpsk_ok (F := FloatL L) h (fc := fc) h1 h2.le hk hint
  obtain ⟨it', e', hy'⟩ := txOfdmQpsk_ok (F := ℝ) h (fc := val fc) h1 h2.le hk
    ((isInt_real (hfs.trans (by norm_num)) (Nat.pos_of_ne_zero hsym)).mpr hdvd)
  refine ⟨_, _, by rw [e, pure_bind, collect_of_yields hy], by rw [e', pure_bind, collect_of_yields hy'], ?_, ?_, ?_⟩
  · rw [wave_length, ofdmOnAir_samples h2]
  · rw [wave_length, ofdmOnAir_samples h2]
  · intro i x y hx hy
    have hw := pass_near hL hE hfs0 hfs hf hlo hhi hk (samples_near hD hδ (by linarith) h1 h2 hn msg) (samples_norm msg)
      (by rw [ofdmOnAir_samples h2]; exact hlen) (by norm_num; linarith) (by norm_num; linarith) hε
    have := forall₂_get? hw hx hy
    exact this.mono (by norm_num; linarith)

/-- The receiver: if every sample is at most `τ` away from what was sent, every transmitted bit comes back. -/
theorem C133_receiver [Fft (FloatL L)] [RIter ι Bool] [RIter κ (FloatL L)] {δ ε τ : ℝ} (hD : AccurateDft (Fft.dft (F := FloatL L)) δ)
    (hδ : 0 ≤ δ) (hL : Accurate L ε (2 ^ 40)) (hE : L.exp 0 = 1) {m : ι} {msg : List Bool} (h : Yields m msg) {n p fs sym : ℕ}
    {fc : FloatL L} (h1 : 1 ≤ p) (h2 : p < n) (he : n % 2 = 0) (hn : n ≤ 2 ^ 40) (hfs : fs < 2 ^ 53) (hdvd : sym ∣ fs)
    (hk : 16 ≤ fs / sym) (hf : Fin fc) (hlo : 1 / 2 ^ 100 ≤ val fc) (hhi : val fc < fs / 2) {q : ℤ}
    (hq : (fs / sym : ℕ) * val fc = q * fs) (hlen : ofdmOnAir msg.length n p (fs / sym) ≤ 2 ^ 32) (hτ : 0 ≤ τ)
    (hsmall : n * (δ + ε + 1 / 2 ^ 15 + τ) ≤ 1 / 80)
    {a r : List (FloatL L)} (ha : (do let tx ← txOfdmQpsk m n p fs sym fc; collect tx) = pure a) (hd : Disturbed τ a r)
    {rcv : κ} (hr : Yields rcv r) :
    ∃ out : List Bool, (do let rx ← rxOfdmQpsk rcv n p fs sym fc; collect rx) = pure out ∧
      out.take (2 * (msg.length / 2)) = msg.take (2 * (msg.length / 2)) ∧
      out.length = 2 * (n - p) * ((msg.length / 2 + (n - p) - 1) / (n - p)) := by
  have hε : 0 ≤ ε := ((hL 0 fin_zero (by rw [val_zero]; norm_num)).1).nonneg
  have hsym : sym ≠ 0 := by rintro rfl; simp at hk
  have hfs0 : 0 < fs := Nat.pos_of_ne_zero (by rintro rfl; simp at hk)
  have hfsR : (0 : ℝ) < fs := by exact_mod_cast hfs0
  have hsym' : sym < 2 ^ 53 := lt_of_le_of_lt (Nat.le_of_dvd hfs0 hdvd) hfs
  have hint : isInt (Flt.ofNat fs / Flt.ofNat sym : FloatL L) = true := (guard_iff hfs hsym').mpr ⟨hsym, hdvd⟩
  have hk0 : 0 < fs / sym := by omega
  have hkfs : fs / sym ≤ fs := Nat.div_le_self _ _
  -- the bound
  set X : ℝ := δ + ε + 1 / 2 ^ 15 + τ with hX
  have hX0 : 0 ≤ X := by positivity
  have hn2 : (2 : ℝ) ≤ n := by exact_mod_cast (show 2 ≤ n by omega)
  have hX160 : X ≤ 1 / 160 := by
    have := mul_le_mul_of_nonneg_right hn2 hX0
    linarith
  obtain ⟨it, e, hy⟩ := txOfdmQpsk_ok (F := FloatL L) h (fc := fc) h1 h2.le hk0 hint
  rw [e, pure_bind, collect_of_yields hy, RM.ok_inj] at ha
  have hw := pass_near hL hE hfs0 hfs hf hlo hhi.le hk0 (samples_near hD hδ (by linarith) h1 h2 hn msg) (samples_norm msg)
    (by rw [ofdmOnAir_samples h2]; exact hlen) (by norm_num at *; linarith) (by norm_num at *; linarith) hε
  rw [ha] at hw
  set y := wave (fs / sym) (fun i (z : Cx ℝ) j => (z * Cx.exp ⟨0, phase fs (val fc) (i * (fs / sym) + j)⟩).re)
    (ofdmSamples (F := ℝ) n p msg) with hydef
  have hyl : y.length = (ofdmSamples (F := ℝ) n p msg).length * (fs / sym) := wave_length _ _ _
  have hyb : ∀ z ∈ y, |z| ≤ 2 := by
    intro z hz
    obtain ⟨t, ht⟩ := List.mem_iff_getElem?.mp hz
    rw [hydef, wave_getElem? hk0, Option.map_eq_some_iff] at ht
    obtain ⟨w, hw, rfl⟩ := ht
    rw [passR_eq]
    exact passR_abs (samples_norm msg w (List.mem_of_getElem? hw)) _
  have hal : a.length = y.length := hw.length_eq
  have hrl : r.length = y.length := by rw [hd.1, hal]
  -- the recording against the exact waveform
  have hrec : List.Forall₂ (fun (x : FloatL L) b => Ap x b (τ + (6 * δ + 4.6 * (ε + 1 / 2 ^ 15)))) r y := by
    refine forall₂_of_get? hrl fun i u b hu hb => ?_
    have hi : i < a.length := by rw [hal]; exact (List.getElem?_eq_some_iff.mp hb).1
    obtain ⟨v, u', hv, hu', hfin, hdist⟩ := hd.2 i hi
    obtain rfl : u = u' := by rw [hu] at hu'; exact Option.some.inj hu'
    have hvb : Ap v b _ := forall₂_get? hw hv hb
    refine ⟨hfin, ?_⟩
    have h3 : |val u - b| ≤ |val u - val v| + |val v - b| := abs_sub_le _ _ _
    have h4 : |val u - val v| ≤ τ := hdist
    have h5 := hvb.2
    refine h3.trans (add_le_add h4 (h5.trans ?_))
    norm_num
    linarith
  have hrx := rx_near hL hfs0 hfs hf hlo hhi.le (by omega : 2 ≤ fs / sym) (S := (ofdmSamples (F := ℝ) n p msg).length) hrec hyb hyl
    (by rw [ofdmOnAir_samples h2]; exact hlen) (by norm_num at *; linarith) (by positivity) (by norm_num at *; linarith) hε
  -- the exact receiver
  have hs : Real.sin (dphi fs (val fc)) ≠ 0 := by
    have h0 : (0 : ℝ) < val fc := lt_of_lt_of_le (by norm_num) hlo
    have hd0 : 0 < dphi fs (val fc) := by unfold dphi; have := Real.pi_pos; positivity
    have hd1 : dphi fs (val fc) < Real.pi := by
      have : dphi fs (val fc) = val fc / fs * (2 * Real.pi) := by unfold dphi; ring
      rw [this]
      have h6 : val fc / fs < 1 / 2 := by rw [div_lt_iff₀ hfsR]; linarith
      nlinarith [Real.pi_pos]
    exact (Real.sin_pos_of_pos_of_lt_pi hd0 hd1).ne'
  have hper : ((fs / sym : ℕ) : ℝ) * dphi fs (val fc) = q * (2 * Real.pi) := by
    have : ((fs / sym : ℕ) : ℝ) * dphi fs (val fc) = ((fs / sym : ℕ) * val fc) / fs * (2 * Real.pi) := by unfold dphi; ring
    rw [this, hq, mul_div_assoc, div_self hfsR.ne', mul_one]
  rw [hydef, ofdmRxSamples_real (by omega) hper hs] at hrx
  have hSl : (ofdmSamples (F := FloatL L) n p msg).length = (ofdmSamples (F := ℝ) n p msg).length := by
    rw [ofdmSamples_length, ofdmSamples_length]
  obtain ⟨it2, e2, hy2⟩ := rxOfdmQpsk_ok hr (fc := fc) (S := (ofdmSamples (F := ℝ) n p msg).length) h1 h2.le (by omega)
    hint (by rw [hrl, hyl]) (by rw [ofdmSamples_length]; exact ⟨_, Nat.mul_comm _ _⟩)
  refine ⟨_, by rw [e2, pure_bind, collect_of_yields hy2], ?_, ?_⟩
  · have hkR : (16 : ℝ) ≤ (fs / sym : ℕ) := by exact_mod_cast hk
    generalize fs / sym = k at *
    have he3 : (k : ℝ) * (τ + (6 * δ + 4.6 * (ε + 1 / 2 ^ 15)) + 2.2 * (ε + 1 / 2 ^ 15) + 1 / 2 ^ 18) ≤ k * (7 * X) := by
      refine mul_le_mul_of_nonneg_left ?_ (by positivity)
      rw [hX]
      norm_num
      linarith
    refine ofdm_bits_near hD h1 h2 he hn hk (hkfs.trans hfs.le) msg (e := k * (7 * X)) (by positivity) ?_ ?_ ?_
    · have : (k : ℝ) * (7 * X) ≤ k * 1 := mul_le_mul_of_nonneg_left (by linarith) (by positivity)
      linarith
    · exact hrx.imp (fun a b hab => hab.mono he3)
    · have hδX : δ ≤ X := by rw [hX]; have : (0 : ℝ) ≤ 1 / 2 ^ 15 := by norm_num
                             linarith
      have hnX0 : (0 : ℝ) ≤ n * X := by positivity
      have a1 : δ * n * (1.25 * k + k * (7 * X)) ≤ X * n * (1.25 * k + k * (7 * X)) := by
        refine mul_le_mul_of_nonneg_right (mul_le_mul_of_nonneg_right hδX (by positivity)) (by positivity)
      have a2 : X * n * (1.25 * k + k * (7 * X)) + n * (2 * (k * (7 * X))) = k * (n * X) * (15.25 + 7 * X) := by ring
      have a3 : (k : ℝ) * (n * X) * (15.25 + 7 * X) ≤ k * (1 / 80) * (15.25 + 7 * (1 / 160)) := by
        refine mul_le_mul (mul_le_mul_of_nonneg_left hsmall (by positivity)) (by linarith) (by positivity) (by positivity)
      have a4 : (k : ℝ) * (1 / 80) * (15.25 + 7 * (1 / 160)) ≤ 0.195 * k := by
        have : (k : ℝ) * (1 / 80) * (15.25 + 7 * (1 / 160)) = ((1 / 80) * (15.25 + 7 * (1 / 160))) * k := by ring
        rw [this]
        exact mul_le_mul_of_nonneg_right (by norm_num) (by positivity)
      linarith
  · rw [length_flatMap_const (k := 2) _ _ (fun _ _ => rfl),
      length_flatMap_const (k := n - p) _ _ (fun b _ => deframeL_length h1 h2.le b), blocks_length _ (by omega),
      ofdmRxSamples_length, if_neg (by omega), ofdmSamples_length, blocks_length _ (by omega), pairs_length]
    set N := (msg.length / 2 + (n - p) - 1) / (n - p)
    have : (N * (n + n / 4) + (n + n / 4) - 1) / (n + n / 4) = N := by
      rw [Nat.add_sub_assoc (by omega), Nat.mul_comm, Nat.mul_add_div (by omega), Nat.div_eq_of_lt (by omega), Nat.add_zero]
    rw [this]; ring

/-- Transmitter and receiver in double precision. -/
theorem C133_roundtrip [Fft (FloatL L)] [RIter ι Bool] {δ ε : ℝ} (hD : AccurateDft (Fft.dft (F := FloatL L)) δ) (hδ : 0 ≤ δ)
    (hL : Accurate L ε (2 ^ 40)) (hE : L.exp 0 = 1) {m : ι} {msg : List Bool} (h : Yields m msg) {n p fs sym : ℕ}
    {fc : FloatL L} (h1 : 1 ≤ p) (h2 : p < n) (he : n % 2 = 0) (hn : n ≤ 2 ^ 40) (hfs : fs < 2 ^ 53) (hdvd : sym ∣ fs)
    (hk : 16 ≤ fs / sym) (hf : Fin fc) (hlo : 1 / 2 ^ 100 ≤ val fc) (hhi : val fc < fs / 2) {q : ℤ}
    (hq : (fs / sym : ℕ) * val fc = q * fs) (hlen : ofdmOnAir msg.length n p (fs / sym) ≤ 2 ^ 32)
    (hsmall : n * (δ + ε + 1 / 2 ^ 15) ≤ 1 / 80) :
    ∃ out : List Bool,
      (do let tx ← txOfdmQpsk m n p fs sym fc
          let rx ← rxOfdmQpsk tx n p fs sym fc
          collect rx) = pure out ∧
      out.take (2 * (msg.length / 2)) = msg.take (2 * (msg.length / 2)) ∧
      out.length = 2 * (n - p) * ((msg.length / 2 + (n - p) - 1) / (n - p)) := by
  have hε : 0 ≤ ε := ((hL 0 fin_zero (by rw [val_zero]; norm_num)).1).nonneg
  have hsym : sym ≠ 0 := by rintro rfl; simp at hk
  have hfs0 : 0 < fs := Nat.pos_of_ne_zero (by rintro rfl; simp at hk)
  have hsym' : sym < 2 ^ 53 := lt_of_le_of_lt (Nat.le_of_dvd hfs0 hdvd) hfs
  have hn2 : (2 : ℝ) ≤ n := by exact_mod_cast (show 2 ≤ n by omega)
  have hX160 : δ + ε + 1 / 2 ^ 15 ≤ 1 / 160 := by
    have := mul_le_mul_of_nonneg_right hn2 (show 0 ≤ δ + ε + 1 / 2 ^ 15 by positivity)
    linarith
  obtain ⟨a, b, ha, _, hal, hbl, hab⟩ := C133_transmitter hD hδ hL hE h h1 h2 hn hfs hdvd (by omega) hf hlo hhi.le hlen
    (by norm_num at *; linarith)
  have hint : isInt (Flt.ofNat fs / Flt.ofNat sym : FloatL L) = true := (guard_iff hfs hsym').mpr ⟨hsym, hdvd⟩
  obtain ⟨it, e, hy⟩ := txOfdmQpsk_ok (F := FloatL L) h (fc := fc) h1 h2.le (show 0 < fs / sym by omega) hint
  have ha' := ha
  rw [e, pure_bind, collect_of_yields hy, RM.ok_inj] at ha'
  rw [e, pure_bind]
  refine C133_receiver hD hδ hL hE h h1 h2 he hn hfs hdvd hk hf hlo hhi hq hlen le_rfl (by rw [add_zero]; exact hsmall) ha
    (disturbed_self le_rfl (fun x hx => ?_)) (ha' ▸ hy)
  obtain ⟨i, hi⟩ := List.mem_iff_getElem?.mp hx
  have hib : i < b.length := by rw [hbl, ← hal]; exact (List.getElem?_eq_some_iff.mp hi).1
  exact (hab i x _ hi (List.getElem?_eq_getElem hib)).1

/-- A message that fills its frames comes back exactly. -/
theorem C133_roundtrip_full [Fft (FloatL L)] [RIter ι Bool] {δ ε : ℝ} (hD : AccurateDft (Fft.dft (F := FloatL L)) δ) (hδ : 0 ≤ δ)
    (hL : Accurate L ε (2 ^ 40)) (hE : L.exp 0 = 1) {m : ι} {msg : List Bool} (h : Yields m msg) {n p fs sym : ℕ}
    {fc : FloatL L} (h1 : 1 ≤ p) (h2 : p < n) (he : n % 2 = 0) (hn : n ≤ 2 ^ 40) (hfs : fs < 2 ^ 53) (hdvd : sym ∣ fs)
    (hk : 16 ≤ fs / sym) (hf : Fin fc) (hlo : 1 / 2 ^ 100 ≤ val fc) (hhi : val fc < fs / 2) {q : ℤ}
    (hq : (fs / sym : ℕ) * val fc = q * fs) (hlen : ofdmOnAir msg.length n p (fs / sym) ≤ 2 ^ 32)
    (hsmall : n * (δ + ε + 1 / 2 ^ 15) ≤ 1 / 80) (hm : 2 * (n - p) ∣ msg.length) :
    (do let tx ← txOfdmQpsk m n p fs sym fc
        let rx ← rxOfdmQpsk tx n p fs sym fc
        collect rx) = pure msg := by
  obtain ⟨out, e, h3, h4⟩ := C133_roundtrip hD hδ hL hE h h1 h2 he hn hfs hdvd hk hf hlo hhi hq hlen hsmall
  obtain ⟨c, hc⟩ := hm
  have hhalf : msg.length / 2 = (n - p) * c := by rw [hc, Nat.mul_assoc, Nat.mul_div_cancel_left _ (by norm_num)]
  have hceil : (msg.length / 2 + (n - p) - 1) / (n - p) = c := by
    rw [hhalf, Nat.add_sub_assoc (by omega), Nat.mul_add_div (by omega), Nat.div_eq_of_lt (by omega), Nat.add_zero]
  rw [hceil, Nat.mul_assoc, ← hhalf] at h4
  rw [List.take_of_length_le (by omega), List.take_of_length_le (by rw [hhalf, hc, Nat.mul_assoc])] at h3
  rw [e, h3]

/-- The unit test `test_qpsk_ofdm` (src/ofdm.rs:183-216), in double precision, for every draw of its 2080 bits. -/
theorem C133_test [Fft (FloatL L)] {δ ε : ℝ} (hD : AccurateDft (Fft.dft (F := FloatL L)) δ) (hδ : 0 ≤ δ)
    (hL : Accurate L ε (2 ^ 40)) (hE : L.exp 0 = 1) (hsmall : δ + ε ≤ 1 / 2 ^ 13) {data : List Bool} (hdata : data.length = 2080) :
    (do let tx ← txOfdmQpsk (ofList data) 64 12 44100 900 (Flt.ofNat 1800 : FloatL L)
        let rx ← rxOfdmQpsk tx 64 12 44100 900 (Flt.ofNat 1800 : FloatL L)
        collect rx) = pure data := by
  obtain ⟨fc, e, hf, hv⟩ : ∃ x : FloatL L, (Flt.ofNat 1800 : FloatL L) = x ∧ Fin x ∧ val x = (1800 : ℕ) :=
    ⟨_, rfl, ofNat_exact (by norm_num)⟩
  simp only [e]
  refine C133_roundtrip_full hD hδ hL hE (yields_ofList data) (by norm_num) (by norm_num) (by norm_num) (by norm_num) (by norm_num)
    (by norm_num) (by norm_num) hf (by rw [hv]; norm_num) (by rw [hv]; norm_num) (q := 2) (by rw [hv]; norm_num)
    (by rw [hdata]; unfold ofdmOnAir; norm_num) ?_ (by rw [hdata]; norm_num)
  norm_num at *
  linarith

/-! ## A library and a transform -/

/-- Correctly rounded sine and cosine, and `exp` that is right at 0. -/
noncomputable def libm0 : Libm := { Libm.rounded with exp := fun _ => 1 }

theorem accurate_libm0 : Accurate libm0 (1 / 2 ^ 52) (2 ^ 40) := accurate_rounded _

example (data : List Bool) (h : data.length = 2080) :
    letI := fftRounded libm0
    (do let tx ← txOfdmQpsk (F := FloatL libm0) (ofList data) 64 12 44100 900 (Flt.ofNat 1800 : FloatL libm0)
        let rx ← rxOfdmQpsk tx 64 12 44100 900 (Flt.ofNat 1800 : FloatL libm0)
        collect rx) = pure data :=
  letI := fftRounded libm0
  C133_test (δ := 1 / 2 ^ 51) accurate_roundedDft (by norm_num) accurate_libm0 rfl (by norm_num) h

/-- Four carriers, one pilot, 16 samples per symbol, two periods per symbol: a disturbance of 1/400 of every sample does no harm. -/
example (data : List Bool) (h : data.length = 60) {a r : List (FloatL libm0)} {fc : FloatL libm0} (hf : Fin fc) (hv : val fc = 2000)
    (ha : letI := fftRounded libm0
          (do let tx ← txOfdmQpsk (F := FloatL libm0) (ofList data) 4 1 16000 1000 fc; collect tx) = pure a)
    (hd : Disturbed (1 / 400) a r) :
    letI := fftRounded libm0
    ∃ out : List Bool, (do let rx ← rxOfdmQpsk (F := FloatL libm0) (ofList r) 4 1 16000 1000 fc; collect rx) = pure out ∧ out = data := by
  let := fftRounded libm0
  obtain ⟨out, e, h3, h4⟩ := C133_receiver (δ := 1 / 2 ^ 51) (ε := 1 / 2 ^ 52) (τ := 1 / 400) (q := 2) accurate_roundedDft (by norm_num)
    accurate_libm0 rfl (yields_ofList data) (by norm_num) (by norm_num) (by norm_num) (by norm_num) (by norm_num) (by norm_num)
    (by norm_num) hf (by rw [hv]; norm_num) (by rw [hv]; norm_num) (by rw [hv]; norm_num) (by rw [h]; unfold ofdmOnAir; norm_num)
    (by norm_num) (by norm_num) ha hd (yields_ofList r)
  rw [h] at h3 h4
  refine ⟨out, e, ?_⟩
  rwa [List.take_of_length_le (by rw [h4]), List.take_of_length_le (by rw [h])] at h3

end Verif.Props
