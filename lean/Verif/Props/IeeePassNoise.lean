import Verif.Lemmas.IeeePassNoise
import Verif.Props.IeeeOfdmPass
import Verif.Props.IeeeOfdmNoise
import Verif.Props.PassNoise

/-!
# C158: the error rate of OFDM on a carrier in double precision
-/
namespace Verif.Props
open Verif Spec F64 MeasureTheory ProbabilityTheory
variable {Ω : Type} [MeasurableSpace Ω] {P : Measure Ω} {z : ℕ → Ω → ℝ} {ι ν : Type} {L : Libm}

/-- What rounding and generator may take from a received symbol of `n` carriers and `k` samples each, the samples being bounded by `S`. -/
noncomputable def passLoss (n k : ℕ) (δ ε η σ S : ℝ) : ℝ := n * k * (6 * S * δ + 7 * S * (ε + 1 / 2 ^ 15) + 2 * (σ * η))

/-- The symbols of the noisy recording in double precision against those of exact arithmetic. -/
theorem pass_received [Fft (FloatL L)] {δ ε : ℝ} (hD : AccurateDft (Fft.dft (F := FloatL L)) δ) (hδ : 0 ≤ δ)
    (hL : Accurate L ε (2 ^ 40)) (hE : L.exp 0 = 1) {n p fs k : ℕ} {fc : FloatL L} (h1 : 1 ≤ p) (h2 : p < n) (hn : n ≤ 2 ^ 40)
    (hfs0 : 0 < fs) (hfs : fs < 2 ^ 53) (hk : 2 ≤ k) (hkfs : k ≤ 2 ^ 53) (hf : Fin fc) (hlo : 1 / 2 ^ 100 ≤ val fc) (hhi : val fc ≤ fs / 2)
    (msg : List Bool) (hlen : ofdmOnAir msg.length n p k ≤ 2 ^ 32) (hsmall : δ + ε ≤ 1 / 50)
    {η Z S : ℝ} {d : ℕ → FloatL L} {t : ℕ → ℝ} {σ : FloatL L} (hd : ∀ i < ofdmOnAir msg.length n p k, Ap (d i) (t i) η ∧ |t i| ≤ Z)
    (hη : 0 ≤ η) (hZ : 0 ≤ Z) (hσf : Fin σ) (h0 : 0 ≤ val σ) (hS : 4 + val σ * (Z + η) ≤ S) (hS2 : S ≤ 2 ^ 40) :
    CNear L (passLoss n k δ ε η (val σ) S)
      (deframeAll n p (ofdmRxSamples fs k fc (ofdmSamples (F := ℝ) n p msg).length
        ((wave k (fun i (z : Cx (FloatL L)) j => (z * Cx.exp ⟨0, phase fs fc (i * k + j)⟩).re) (ofdmSamples n p msg)).mapIdx
          (fun i x => x + (0 + σ * d i)))))
      (deframeAll n p (ofdmRxSamples fs k (val fc) (ofdmSamples (F := ℝ) n p msg).length
        ((wave k (fun i (z : Cx ℝ) j => (z * Cx.exp ⟨0, phase fs (val fc) (i * k + j)⟩).re) (ofdmSamples n p msg)).mapIdx
          (fun i x => x + val σ * t i)))) := by
  have hε : 0 ≤ ε := ((hL 0 fin_zero (by rw [val_zero]; norm_num)).1).nonneg
  have hk0 : 0 < k := by omega
  have hZ0 := mul_nonneg h0 hZ
  have hη0 := mul_nonneg h0 hη
  have hS' : 4 + val σ * Z + val σ * η ≤ S := by rw [mul_add] at hS; linarith
  have hS4 : 4 ≤ S := by linarith
  have hw := pass_near hL hE hfs0 hfs hf hlo hhi hk0 (samples_near hD hδ (by linarith) h1 h2 hn msg) (samples_norm msg)
    (by rw [ofdmOnAir_samples h2]; exact hlen) (by norm_num at *; linarith) (by norm_num at *; linarith) hε
  set y := wave k (fun i (z : Cx ℝ) j => (z * Cx.exp ⟨0, phase fs (val fc) (i * k + j)⟩).re) (ofdmSamples (F := ℝ) n p msg) with hydef
  have hyl : y.length = (ofdmSamples (F := ℝ) n p msg).length * k := wave_length _ _ _
  have hyb : ∀ z ∈ y, |z| ≤ 2 := by
    intro z hz
    obtain ⟨t, ht⟩ := List.mem_iff_getElem?.mp hz
    rw [hydef, wave_getElem? hk0, Option.map_eq_some_iff] at ht
    obtain ⟨w, hw, rfl⟩ := ht
    rw [passR_eq]
    exact passR_abs (samples_norm msg w (List.mem_of_getElem? hw)) _
  have hlt : ∀ {i : ℕ} {b : ℝ}, y[i]? = some b → i < ofdmOnAir msg.length n p k := fun {i b} hb => by
    rw [← ofdmOnAir_samples (F := ℝ) h2, ← hyl]; exact (List.getElem?_eq_some_iff.mp hb).1
  set e1 : ℝ := 2 * (3 * δ + 1 / 2 ^ 45) + 4.5 * (ε + 1 / 2 ^ 15) with he1
  have he1' : e1 ≤ 1 / 2 := by rw [he1]; norm_num; linarith
  have he10 : 0 ≤ e1 := by rw [he1]; positivity
  have hch : List.Forall₂ (fun (x : FloatL L) b => Ap x b (e1 + val σ * η + S / 2 ^ 48))
      ((wave k (fun i (z : Cx (FloatL L)) j => (z * Cx.exp ⟨0, phase fs fc (i * k + j)⟩).re) (ofdmSamples n p msg)).mapIdx
          (fun i x => x + (0 + σ * d i))) (y.mapIdx (fun i x => x + val σ * t i)) := by
    refine forall₂_of_get? (by rw [List.length_mapIdx, List.length_mapIdx, hw.length_eq]) fun i a b ha hb => ?_
    rw [List.getElem?_mapIdx, Option.map_eq_some_iff] at ha hb
    obtain ⟨a, ha, rfl⟩ := ha
    obtain ⟨b, hb, rfl⟩ := hb
    obtain ⟨k1, k2⟩ := hd i (hlt hb)
    have hab : Ap a b e1 := forall₂_get? hw ha hb
    have m1 := mul_le_mul_of_nonneg_left k2 h0
    have hb2 := hyb b (List.mem_of_getElem? hb)
    exact awgn_sample hab k1 hσf h0 hη he10 (S := S) (by rw [mul_add]; linarith) (by linarith)
      (hS2.trans (pow_le_pow_right₀ (by norm_num) (by norm_num)))
  have hb : ∀ z ∈ y.mapIdx (fun i x => x + val σ * t i), |z| ≤ S := by
    intro z hz
    obtain ⟨i, hi⟩ := List.mem_iff_getElem?.mp hz
    rw [List.getElem?_mapIdx, Option.map_eq_some_iff] at hi
    obtain ⟨b, hb, rfl⟩ := hi
    obtain ⟨-, k2⟩ := hd i (hlt hb)
    have m1 := mul_le_mul_of_nonneg_left k2 h0
    have hb2 := hyb b (List.mem_of_getElem? hb)
    refine (abs_add_le _ _).trans ?_
    rw [abs_mul, abs_of_nonneg h0]
    linarith
  set e2 : ℝ := e1 + val σ * η + S / 2 ^ 48 with he2
  have he20 : 0 ≤ e2 := by positivity
  have he2S : e2 ≤ S := by
    have : S / 2 ^ 48 ≤ 1 := by rw [div_le_one (by norm_num)]; exact hS2.trans (by norm_num)
    linarith
  have hrx := rx_near_of (A := S) (by linarith) hS2 hL hfs0 hfs hf hlo hhi hk (S := (ofdmSamples (F := ℝ) n p msg).length) hch hb
    (by rw [List.length_mapIdx, hyl]) (by rw [ofdmOnAir_samples h2]; exact hlen) he2S he20 (by norm_num at *; linarith) hε
  have hbd := rx_bound (fs := fs) (k := k) (S := (ofdmSamples (F := ℝ) n p msg).length) (fc := val fc) (by linarith : (0 : ℝ) ≤ S) hb
  have hkR : (2 : ℝ) ≤ k := by exact_mod_cast hk
  have hkR2 : (k : ℝ) ≤ 2 ^ 53 := by exact_mod_cast hkfs
  have hnR : (0 : ℝ) < n := by exact_mod_cast (show 0 < n by omega)
  set e3 : ℝ := e2 + 2.2 * S * (ε + 1 / 2 ^ 15) + S / 2 ^ 18 with he3
  have he30 : 0 ≤ e3 := by positivity
  have hSe : S * (ε + 1 / 2 ^ 15) ≤ S * (1 / 40) := mul_le_mul_of_nonneg_left (by norm_num at *; linarith) (by linarith)
  have he3S : e3 ≤ 2 * S := by rw [he3]; norm_num at *; linarith
  have hk3 : (k : ℝ) * e3 ≤ k * (2 * S) := mul_le_mul_of_nonneg_left he3S (by linarith)
  have hkS : (k : ℝ) * S ≤ 2 ^ 53 * 2 ^ 40 := mul_le_mul hkR2 hS2 (by linarith) (by norm_num)
  have h2S : 8 ≤ (k : ℝ) * S := by nlinarith
  have := deframeAll_cnear hD h1 h2 hn hrx hbd (by
      rw [ofdmRxSamples_length, if_neg (by omega), ofdmSamples_length]; exact ⟨_, Nat.mul_comm _ _⟩)
    (by have : (0 : ℝ) ≤ k * e3 := by positivity
        norm_num; linarith) (by norm_num at *; linarith)
  refine this.imp fun a b hab => hab.mono ?_
  have hSδ : 0 ≤ S * δ := by positivity
  have a1 : δ * n * (k * S + k * e3) ≤ δ * n * (3 * (k * S)) := mul_le_mul_of_nonneg_left (by linarith) (by positivity)
  have a2 : e3 ≤ 1.5 * (S * δ) + 3.49 * (S * (ε + 1 / 2 ^ 15)) + val σ * η := by
    have b1 : 4 * δ ≤ S * δ := mul_le_mul_of_nonneg_right hS4 hδ
    have b2 : 4 * (ε + 1 / 2 ^ 15) ≤ S * (ε + 1 / 2 ^ 15) := mul_le_mul_of_nonneg_right hS4 (by positivity)
    have b3 : S * (1 / 2 ^ 15) ≤ S * (ε + 1 / 2 ^ 15) := mul_le_mul_of_nonneg_left (by linarith) (by linarith)
    rw [he3, he2, he1]
    norm_num at *
    linarith
  have a3 : (n * k : ℝ) * (2 * e3) ≤ n * k * (2 * (1.5 * (S * δ) + 3.49 * (S * (ε + 1 / 2 ^ 15)) + val σ * η)) :=
    mul_le_mul_of_nonneg_left (by linarith) (by positivity)
  have a4 : (0 : ℝ) ≤ n * k * (S * (ε + 1 / 2 ^ 15)) := by positivity
  unfold passLoss
  linarith

/-- **C158.** OFDM on a carrier through `awgn`, all in double precision: every bit of the message comes back with the error rate of an energy
that is `k/n` up to the late window of the receiver (amplitude `k/√2` up to 8), up to the rounding and the generator. -/
theorem C158_rates (hz : White P 1 z) [Fft (FloatL L)] {δ ε : ℝ} (hD : AccurateDft (Fft.dft (F := FloatL L)) δ) (hδ : 0 ≤ δ)
    (hL : Accurate L ε (2 ^ 40)) (hE : L.exp 0 = 1) (hsmall : δ + ε ≤ 1 / 50) {Z η : ℝ} (hZ : 0 ≤ Z) (hη : 0 ≤ η) {d : ℕ → Ω → FloatL L}
    (hd : Sampled Z η z d) [RIter ν (FloatL L)] {noise : Ω → ν} (hg : ∀ ω, Gives (noise ω) (fun i => d i ω)) {σ : FloatL L} (hσf : F64.Fin σ)
    (hσ : 0 < val σ) [RIter ι Bool] {m : ι} {msg : List Bool} (hm : Yields m msg) (hev : msg.length % 2 = 0) {n p fs sym : ℕ} {fc : FloatL L}
    (h1 : 1 ≤ p) (h2 : p < n) (he : n % 2 = 0) (hn : n ≤ 2 ^ 40) (hfs : fs < 2 ^ 53) (hdvd : sym ∣ fs) (hk : 16 ≤ fs / sym) (hf : F64.Fin fc)
    (hlo : 1 / 2 ^ 100 ≤ val fc) (hhi : val fc < fs / 2) {q : ℤ} (hq : (fs / sym : ℕ) * val fc = q * fs)
    (hlen : ofdmOnAir msg.length n p (fs / sym) ≤ 2 ^ 32) {S : ℝ} (hS : 4 + val σ * (Z + η) ≤ S) (hS2 : S ≤ 2 ^ 40)
    (hl : ((fs / sym : ℕ) / 2 * √2 + 8) / (n * (fs / sym : ℕ) / 2 - 1) * passLoss n (fs / sym) δ ε η (val σ) S
      ≤ ((fs / sym : ℕ) / 2 * √2 - 8) ^ 2 / (n * (fs / sym : ℕ) / 2)) :
    ∃ E : ℕ → ℝ, (∀ b < msg.length, ((fs / sym : ℕ) / 2 * √2 - 8) ^ 2 / (n * (fs / sym : ℕ) / 2) ≤ E b ∧
        E b ≤ ((fs / sym : ℕ) / 2 * √2 + 8) ^ 2 / (n * (fs / sym : ℕ) / 2 - 1)) ∧
      Rates P (fun ω => do
          let tx ← txOfdmQpsk m n p fs sym fc
          let ch ← awgn tx σ (noise ω)
          let rx ← rxOfdmQpsk ch n p fs sym fc
          let out ← collect rx
          pure (out.take msg.length)) msg E
        (((fs / sym : ℕ) / 2 * √2 + 8) / (n * (fs / sym : ℕ) / 2 - 1) * passLoss n (fs / sym) δ ε η (val σ) S) (val σ)
        (ofdmOnAir msg.length n p (fs / sym) * Real.exp (-Z ^ 2 / 2)) := by
  have hε : 0 ≤ ε := ((hL 0 fin_zero (by rw [val_zero]; norm_num)).1).nonneg
  have hsym : sym ≠ 0 := by rintro rfl; simp at hk
  have hfs0 : 0 < fs := Nat.pos_of_ne_zero (by rintro rfl; simp at hk)
  have hfsR : (0 : ℝ) < fs := by exact_mod_cast hfs0
  have hsym' : sym < 2 ^ 53 := lt_of_le_of_lt (Nat.le_of_dvd hfs0 hdvd) hfs
  have hint : isInt (Flt.ofNat fs / Flt.ofNat sym : FloatL L) = true := (guard_iff hfs hsym').mpr ⟨hsym, hdvd⟩
  have hkfs : fs / sym ≤ fs := Nat.div_le_self _ _
  have hS0 : 0 ≤ S := by
    have : 0 ≤ val σ * (Z + η) := by positivity
    linarith
  have hs : Real.sin (dphi fs (val fc)) ≠ 0 := by
    have h0 : (0 : ℝ) < val fc := lt_of_lt_of_le (by norm_num) hlo
    have hd0 : 0 < dphi fs (val fc) := by unfold dphi; have := Real.pi_pos; positivity
    have hd1 : dphi fs (val fc) < Real.pi := by
      have : dphi fs (val fc) = val fc / fs * (2 * Real.pi) := by unfold dphi; ring
      rw [this]
      have h6 : val fc / fs < 1 / 2 := by rw [div_lt_iff₀ hfsR]; linarith
      nlinarith [Real.pi_pos]
    exact (Real.sin_pos_of_pos_of_lt_pi hd0 hd1).ne'
  have hper : ((fs / sym : ℕ) : ℝ) * dphi fs (val fc) = q * (2 * Real.pi) := by
    have : ((fs / sym : ℕ) : ℝ) * dphi fs (val fc) = ((fs / sym : ℕ) * val fc) / fs * (2 * Real.pi) := by unfold dphi; ring
    rw [this, hq, mul_div_assoc, div_self hfsR.ne', mul_one]
  obtain ⟨D, hDb, hval⟩ := pass_values (fs := fs) h1 h2 he (by omega : 2 ≤ fs / sym) hper hs msg
  have hair : (ofdmSamples (F := ℝ) n p msg).length * (fs / sym) = ofdmOnAir msg.length n p (fs / sym) := ofdmOnAir_samples h2 _ msg
  have hlink : ∀ ω, (do
          let tx ← txOfdmQpsk m n p fs sym fc
          let ch ← awgn tx σ (noise ω)
          let rx ← rxOfdmQpsk ch n p fs sym fc
          let out ← collect rx
          pure (out.take msg.length)) = pure (((deframeAll n p (ofdmRxSamples fs (fs / sym) fc (ofdmSamples (F := ℝ) n p msg).length
        ((wave (fs / sym) (fun i (z : Cx (FloatL L)) j => (z * Cx.exp ⟨0, phase fs fc (i * (fs / sym) + j)⟩).re) (ofdmSamples n p msg)).mapIdx
          (fun i x => x + (0 + σ * d i ω))))).flatMap (fun z => [Flt.le 0 z.re, Flt.le 0 z.im])).take msg.length) := by
    intro ω
    obtain ⟨it, e, hy⟩ := txOfdmQpsk_ok (F := FloatL L) hm (fc := fc) h1 h2.le (by omega : 0 < fs / sym) hint
    obtain ⟨ch, c1, c2⟩ := awgn_yields hy (hg ω) (σ := σ) hσf
    obtain ⟨it2, e2, hy2⟩ := rxOfdmQpsk_ok c2 (fc := fc) (S := (ofdmSamples (F := ℝ) n p msg).length) h1 h2.le (by omega)
      hint (by rw [List.length_mapIdx, wave_length, ofdmSamples_length, ofdmSamples_length])
      (by rw [ofdmSamples_length]; exact ⟨_, Nat.mul_comm _ _⟩)
    rw [e, pure_bind, c1, pure_bind, e2, pure_bind, collect_of_yields hy2, pure_bind]
    rfl
  have hkR : (16 : ℝ) ≤ (fs / sym : ℕ) := by exact_mod_cast hk
  have hnR : (2 : ℝ) ≤ n := by exact_mod_cast (show 2 ≤ n by omega)
  have hkfs' : fs / sym ≤ 2 ^ 53 := by omega
  generalize hkk : fs / sym = k at *
  have hsq : (1.4 : ℝ) ≤ √2 := Real.le_sqrt_of_sq_le (by norm_num)
  have hX : (0 : ℝ) < k / 2 * √2 - 8 := by nlinarith
  have hY : (0 : ℝ) < n * k / 2 - 1 := by nlinarith
  set X : ℝ := passLoss n k δ ε η (val σ) S with hXdef
  have hX0 : 0 ≤ X := by rw [hXdef]; unfold passLoss; positivity
  set K : ℕ → ℝ := fun b => ∑ i ∈ Finset.range (ofdmOnAir msg.length n p k), brow (dphi fs (val fc)) k n p b i ^ 2 with hK
  have hKb : ∀ b < msg.length, (n * k / 2 : ℝ) - 1 ≤ K b ∧ K b ≤ n * k / 2 := by
    intro b hb
    have := brow_energy_near (b := b) h2 (by omega : 0 < k) hper hs (hval 0 b hb (by omega)).1
    rw [hair] at this
    exact this
  have hDD : ∀ b < msg.length, (k / 2 * √2 - 8 : ℝ) ≤ D b ∧ D b ≤ k / 2 * √2 + 8 := by
    intro b hb
    have := abs_le.mp (hDb b (by omega))
    constructor <;> linarith
  refine ⟨fun b => D b ^ 2 / K b, fun b hb => ?_, ?_⟩
  · obtain ⟨k1, k2⟩ := hKb b hb
    obtain ⟨d1, d2⟩ := hDD b hb
    exact ⟨div_le_div₀ (by positivity) (pow_le_pow_left₀ hX.le d1 2) (by linarith) k2,
      div_le_div₀ (by positivity) (pow_le_pow_left₀ (by linarith) d2 2) hY k1⟩
  refine margins_core hz hZ hσ (M := fun _ => ofdmOnAir msg.length n p k) (c := fun b i => D b / K b * brow (dphi fs (val fc)) k n p b i)
    (by positivity) (fun b hb => ?_) (fun b hb => ?_) fun ω hG => ?_
  · obtain ⟨k1, k2⟩ := hKb b hb
    obtain ⟨d1, d2⟩ := hDD b hb
    have hD0 : 0 < D b := by linarith
    have hK0 : 0 < K b := by linarith
    exact ⟨by positivity, hl.trans (div_le_div₀ (by positivity) (pow_le_pow_left₀ hX.le d1 2) hK0 k2)⟩
  · obtain ⟨k1, k2⟩ := hKb b hb
    have hK0 : 0 < K b := by linarith
    simp only [mul_pow]
    rw [← Finset.mul_sum]
    change (D b / K b) ^ 2 * K b = D b ^ 2 / K b
    field_simp
  · have hnear := pass_received hD hδ hL hE h1 h2 hn hfs0 hfs (by omega : 2 ≤ k) hkfs' hf hlo hhi.le msg hlen hsmall
      (d := fun i => d i ω) (t := fun i => z i ω) (fun i hi => ⟨hd i ω (hG i hi), hG i hi⟩) hη hZ hσf hσ.le hS hS2
    rw [← hXdef] at hnear
    set R := deframeAll n p (ofdmRxSamples fs k fc (ofdmSamples (F := ℝ) n p msg).length
        ((wave k (fun i (z : Cx (FloatL L)) j => (z * Cx.exp ⟨0, phase fs fc (i * k + j)⟩).re) (ofdmSamples n p msg)).mapIdx
          (fun i x => x + (0 + σ * d i ω)))) with hR
    refine ⟨fun b => Flt.le (0 : FloatL L) (if b % 2 = 1 then (R.getD (b / 2) 0).im else (R.getD (b / 2) 0).re), ?_, fun b hb hbig => ?_⟩
    · rw [hlink]
      refine congrArg pure (List.ext_getElem? fun j => ?_)
      by_cases hj : j < msg.length
      · have hj' : j / 2 < R.length := by
          rw [hnear.length_eq]; exact (hval (fun i => val σ * z i ω) j hj (by omega)).2.1
        rw [List.getElem?_take_of_lt hj, flatMap_two_get, List.getElem?_map, List.getElem?_range hj, Option.map_some, List.getD,
          List.getElem?_eq_getElem hj', Option.map_some, Option.getD_some]
        by_cases hj2 : j % 2 = 1
        · simp only [hj2, if_true]
        · simp only [hj2, if_false]
      · rw [List.getElem?_eq_none (by rw [List.length_take]; omega), List.getElem?_eq_none (by simpa using hj)]
    · obtain ⟨k1, k2⟩ := hKb b hb
      obtain ⟨d1, d2⟩ := hDD b hb
      have hD0 : 0 < D b := by linarith
      have hK0 : 0 < K b := by linarith
      have hr : 0 < D b / K b := by positivity
      obtain ⟨-, hlt, hv⟩ := hval (fun i => val σ * z i ω) b hb (by omega)
      have hv := hv _ (List.getElem?_eq_getElem hlt)
      have hc := forall₂_get? hnear (List.getElem?_eq_getElem (by rw [hnear.length_eq]; exact hlt)) (List.getElem?_eq_getElem hlt)
      set T : ℝ := (if msg[b] then 1 else -1) * D b + ∑ m ∈ Finset.range ((ofdmSamples (F := ℝ) n p msg).length * k),
        brow (dphi fs (val fc)) k n p b m * (val σ * z m ω) with hT
      have eX : D b ^ 2 / K b * pm (msg.getD b false) + val σ * proj (ofdmOnAir msg.length n p k)
          (fun i => D b / K b * brow (dphi fs (val fc)) k n p b i) z ω = D b / K b * T := by
        rw [hT, hair, mul_add, Finset.mul_sum, proj, Finset.mul_sum]
        congr 1
        · rw [List.getD, List.getElem?_eq_getElem hb, Option.getD_some]
          cases msg[b] <;> simp [pm] <;> ring
        · exact Finset.sum_congr rfl fun i _ => by ring
      rw [eX] at hbig ⊢
      rw [abs_mul, abs_of_pos hr] at hbig
      rw [decide_scale hr]
      have hM : D b / K b * X ≤ (k / 2 * √2 + 8) / (n * k / 2 - 1) * X :=
        mul_le_mul_of_nonneg_right (div_le_div₀ (by linarith) d2 hY k1) hX0
      have hbig' : X < |T| := lt_of_mul_lt_mul_left (hM.trans_lt hbig) hr.le
      have hlR : b / 2 < R.length := by rw [hnear.length_eq]; exact hlt
      have hget : R.getD (b / 2) 0 = R[b / 2] := by rw [List.getD, List.getElem?_eq_getElem hlR, Option.getD_some]
      simp only [hget]
      by_cases hj2 : b % 2 = 1
      · simp only [hj2, if_true] at hv ⊢
        have h3 := hc.2
        rw [show ∀ w : Cx ℝ, w.toC.im = w.im from fun _ => rfl, hv] at h3
        exact le_decide h3 le_rfl hbig'
      · simp only [hj2, if_false] at hv ⊢
        have h3 := hc.1
        rw [show ∀ w : Cx ℝ, w.toC.re = w.re from fun _ => rfl, hv] at h3
        exact le_decide h3 le_rfl hbig'

/-- Rounded normal numbers, for the example. -/
noncomputable def rounded0 (ω : ℕ → ℝ) : Map (Map RangeFrom ℕ ℝ) ℝ (FloatL libm0) := rmap (path ω) (fun x => (near x : Float))

/-- 8 carriers with 2 pilots, 32 samples to a symbol on a carrier of 1000 Hz, twelve bits, unit noise. -/
example (msg : List Bool) (hm : msg.length = 12) :
    letI := fftRounded libm0
    ∃ E : ℕ → ℝ, (∀ b < msg.length, 1.6 ≤ E b ∧ E b ≤ 7.5) ∧
      Rates (gaussPath 1) (fun ω => do
          let tx ← txOfdmQpsk (F := FloatL libm0) (ofList msg) 8 2 8000 250 (Flt.ofNat 1000 : FloatL libm0)
          let ch ← awgn tx (1 : FloatL libm0) (rounded0 ω)
          let rx ← rxOfdmQpsk ch 8 2 8000 250 (Flt.ofNat 1000 : FloatL libm0)
          let out ← collect rx
          pure (out.take msg.length)) msg E
        ((16 * √2 + 8) / 127 * passLoss 8 32 (1 / 2 ^ 51) (1 / 2 ^ 52) (10 / 2 ^ 52) 1 16) 1 (320 * Real.exp (-50)) := by
  let := fftRounded libm0
  have a := ofNat_exact (n := 1000) (by norm_num)
  have va : val (Flt.ofNat 1000 : FloatL libm0) = 1000 := a.2
  have v1 : val (1 : FloatL libm0) = 1 := val_one
  have s1 : (1.414 : ℝ) ≤ √2 := Real.le_sqrt_of_sq_le (by norm_num)
  have s2 : √2 ≤ (1.415 : ℝ) := Real.sqrt_le_iff.mpr ⟨by norm_num, by norm_num⟩
  have ek : (8000 / 250 : ℕ) = 32 := by norm_num
  obtain ⟨E, h1, h2⟩ := C158_rates (white_path 1) (L := libm0) (δ := 1 / 2 ^ 51) (ε := 1 / 2 ^ 52) accurate_roundedDft (by norm_num) accurate_libm0
    rfl (by norm_num) (Z := 10) (η := 10 / 2 ^ 52) (by norm_num) (by norm_num) (d := fun i ω => (near (ω i) : FloatL libm0))
    (fun _ _ h => near_ap h (by norm_num) (by norm_num)) (noise := rounded0)
    (fun ω => (path_gives ω).rmap _) (σ := (1 : FloatL libm0)) fin_one (by rw [v1]; norm_num) (yields_ofList msg) (by rw [hm])
    (n := 8) (p := 2) (fs := 8000) (sym := 250) (fc := Flt.ofNat 1000) (by norm_num) (by norm_num) (by norm_num) (by norm_num) (by norm_num)
    (by norm_num) (by norm_num) a.1 (by rw [va]; norm_num) (by rw [va]; norm_num) (q := 4) (by rw [va]; norm_num)
    (by rw [hm, ofdmOnAir]; norm_num) (S := 16) (by rw [v1]; norm_num) (by norm_num) (by
      rw [v1, ek, passLoss]
      have : (8.46 : ℝ) ^ 2 ≤ ((32 : ℕ) / 2 * √2 - 8) ^ 2 := pow_le_pow_left₀ (by norm_num) (by norm_num; linarith) 2
      rw [div_mul_eq_mul_div, div_le_div_iff₀ (by norm_num) (by norm_num)]
      norm_num at *
      nlinarith)
  refine ⟨E, fun b hb => ?_, ?_⟩
  · obtain ⟨g1, g2⟩ := h1 b hb
    rw [ek] at g1 g2
    constructor
    · refine le_trans ?_ g1
      rw [le_div_iff₀ (by norm_num)]
      norm_num
      nlinarith
    · refine g2.trans ?_
      rw [div_le_iff₀ (by norm_num)]
      norm_num
      nlinarith
  · rw [v1, hm, ofdmOnAir, ek] at h2
    rw [hm]
    convert h2 using 2 <;> norm_num

end Verif.Props
