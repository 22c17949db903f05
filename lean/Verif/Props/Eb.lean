import Verif.Model.Eb
import Verif.Props.Billiam

/-!
# C126: energy per bit for any carrier

Exact arithmetic.  `checkEb n tx` is what the check of tests/eb.rs computes: the sum of the squared samples over the number of bits.
-/
namespace Verif.Props
open Verif Spec
set_option linter.unusedSectionVars false
variable {ι κ : Type}

/-! ### Sums of squared cosines -/

theorem cos_bound {d : ℝ} (hd : Real.sin d ≠ 0) (a : ℝ) (k : ℕ) :
    |∑ j ∈ Finset.range k, Real.cos (a + j * (2 * d))| ≤ 1 / |Real.sin d| := by
  have h := sum_cos_telescope a (2 * d) k
  rw [mul_div_cancel_left₀ _ (two_ne_zero)] at h
  have hp : 0 < |Real.sin d| := abs_pos.mpr hd
  rw [le_div_iff₀ hp]
  have h2 : |2 * Real.sin d * ∑ j ∈ Finset.range k, Real.cos (a + j * (2 * d))| ≤ 2 := by
    rw [h]
    refine (abs_sub _ _).trans ?_
    have h1 := Real.abs_sin_le_one (a + (k - 1 / 2) * (2 * d))
    have h2 := Real.abs_sin_le_one (a - d)
    linarith
  rw [abs_mul, abs_mul, abs_two] at h2
  nlinarith

theorem sin_bound {d : ℝ} (hd : Real.sin d ≠ 0) (a : ℝ) (k : ℕ) :
    |∑ j ∈ Finset.range k, Real.sin (a + j * (2 * d))| ≤ 1 / |Real.sin d| := by
  have h := sum_sin_telescope a (2 * d) k
  rw [mul_div_cancel_left₀ _ (two_ne_zero)] at h
  have hp : 0 < |Real.sin d| := abs_pos.mpr hd
  rw [le_div_iff₀ hp]
  have h2 : |2 * Real.sin d * ∑ j ∈ Finset.range k, Real.sin (a + j * (2 * d))| ≤ 2 := by
    rw [h]
    refine (abs_sub _ _).trans ?_
    have h1 := Real.abs_cos_le_one (a + (k - 1 / 2) * (2 * d))
    have h2 := Real.abs_cos_le_one (a - d)
    linarith
  rw [abs_mul, abs_mul, abs_two] at h2
  nlinarith

theorem cos_sq_near {d : ℝ} (hd : Real.sin d ≠ 0) (m k : ℕ) :
    |∑ j ∈ Finset.range k, Real.cos ((m + j : ℕ) * d) ^ 2 - k / 2| ≤ 1 / (2 * |Real.sin d|) := by
  have e : ∑ j ∈ Finset.range k, Real.cos ((m + j : ℕ) * d) ^ 2 - k / 2
      = (∑ j ∈ Finset.range k, Real.cos (2 * (m * d) + j * (2 * d))) / 2 := by
    have : ∀ j ∈ Finset.range k, Real.cos ((m + j : ℕ) * d) ^ 2 = 1 / 2 + Real.cos (2 * (m * d) + j * (2 * d)) / 2 := by
      intro j _
      rw [Real.cos_sq]
      congr 2
      push_cast; ring_nf
    rw [Finset.sum_congr rfl this, Finset.sum_add_distrib, Finset.sum_div]
    rw [Finset.sum_const, Finset.card_range, nsmul_eq_mul]
    ring
  rw [e, abs_div, abs_two, show 1 / (2 * |Real.sin d|) = 1 / |Real.sin d| / 2 by rw [div_div, mul_comm]]
  exact div_le_div_of_nonneg_right (cos_bound hd _ _) (by norm_num)

theorem qpsk_sq_near {d : ℝ} (hd : Real.sin d ≠ 0) (m k : ℕ) (x y : Bool) :
    |∑ j ∈ Finset.range k, (bitToNrz x * Real.cos ((m + j : ℕ) * d) + -(bitToNrz y) * Real.sin ((m + j : ℕ) * d)) ^ 2 - (k : ℝ)|
      ≤ 1 / |Real.sin d| := by
  have e : ∑ j ∈ Finset.range k, (bitToNrz x * Real.cos ((m + j : ℕ) * d) + -(bitToNrz y) * Real.sin ((m + j : ℕ) * d)) ^ 2 - (k : ℝ)
      = -(bitToNrz x * bitToNrz y) * ∑ j ∈ Finset.range k, Real.sin (2 * (m * d) + j * (2 * d)) := by
    have : ∀ j ∈ Finset.range k, (bitToNrz x * Real.cos ((m + j : ℕ) * d) + -(bitToNrz y) * Real.sin ((m + j : ℕ) * d)) ^ 2
        = 1 + -(bitToNrz x * bitToNrz y) * Real.sin (2 * (m * d) + j * (2 * d)) := by
      intro j _
      rw [show 2 * ((m : ℝ) * d) + j * (2 * d) = 2 * ((m + j : ℕ) * d) by push_cast; ring, Real.sin_two_mul]
      have hx := bitToNrz_sq x
      have hy := bitToNrz_sq y
      have := Real.sin_sq_add_cos_sq ((m + j : ℕ) * d)
      linear_combination this + Real.cos ((m + j : ℕ) * d) ^ 2 * hx + Real.sin ((m + j : ℕ) * d) ^ 2 * hy
    rw [Finset.sum_congr rfl this, Finset.sum_add_distrib, ← Finset.mul_sum]
    simp
  have h1 : |-(bitToNrz x * bitToNrz y : ℝ)| = 1 := by
    simp only [bitToNrz_real]; cases x <;> cases y <;> simp
  rw [e, abs_mul, h1, one_mul]
  exact sin_bound hd _ _

/-! ### Energy of a transmission -/

theorem wave_energy_near {A : Type} {k : ℕ} {w : ℕ → A → ℕ → ℝ} {l : List A} {E δ : ℝ}
    (h : ∀ n, ∀ a ∈ l, |∑ j ∈ Finset.range k, w n a j ^ 2 - E| ≤ δ) :
    |((wave k w l).map (· ^ 2)).sum - l.length * E| ≤ l.length * δ := by
  induction l generalizing w with
  | nil => simp [wave_nil]
  | cons a l ih =>
    have h1 := h 0 a (by simp)
    have h2 := ih (w := fun n => w (n + 1)) (fun n b hb => h (n + 1) b (by simp [hb]))
    rw [wave_cons, List.map_append, List.sum_append, List.map_map, ← rsum_eq_sum]
    have e : rsum (List.map ((fun x : ℝ => x ^ 2) ∘ w 0 a) (List.range k)) = ∑ j ∈ Finset.range k, w 0 a j ^ 2 :=
      rsum_range k (fun j => w 0 a j ^ 2)
    rw [e, List.length_cons]
    push_cast
    rw [abs_le] at *
    constructor <;> linarith [h1.1, h1.2, h2.1, h2.2]

theorem wave_bits_sq {k : ℕ} (hk : 0 < k) (c : ℕ → ℝ) (l : List Bool) :
    ((wave k (fun n b j => bitToNrz b * c (n * k + j)) l).map (· ^ 2)).sum = ∑ i ∈ Finset.range (l.length * k), c i ^ 2 := by
  rw [← rsum_range, rsum_eq_sum]
  congr 1
  apply List.ext_getElem?
  intro i
  rw [List.getElem?_map, wave_getElem? hk, List.getElem?_map]
  by_cases hi : i < l.length * k
  · have hin : i / k < l.length := by rwa [Nat.div_lt_iff_lt_mul hk]
    rw [List.getElem?_eq_getElem hin, List.getElem?_range hi]
    simp only [Option.map_some]
    rw [Nat.mul_comm (i / k), Nat.div_add_mod, mul_pow, sq (bitToNrz _), bitToNrz_sq, one_mul]
  · rw [List.getElem?_eq_none (l := l) ((Nat.le_div_iff_mul_le hk).mpr (by omega)), List.getElem?_eq_none (by simpa using hi)]
    rfl

theorem spread_sq (key : List Bool) (spc : ℕ) (l : List ℝ) :
    ((l.mapIdx (fun i x => x * bitToNrz (keyBit key spc i))).map (· ^ 2)).sum = (l.map (· ^ 2)).sum := by
  rw [map_mapIdx']
  congr 1
  have : ∀ (i : ℕ) (x : ℝ), (x * bitToNrz (keyBit key spc i)) ^ 2 = x ^ 2 := by
    intro i x
    rw [mul_pow, sq (bitToNrz _), bitToNrz_sq, mul_one]
  simp only [this]
  apply List.ext_getElem?
  intro i
  simp

theorem checkEb_ok [RIter ι ℝ] {tx : ι} {l : List ℝ} (h : Yields tx l) (n : ℕ) :
    checkEb n tx = pure ((l.map (· ^ 2)).sum / n : ℝ) := by
  unfold checkEb
  rw [collect_of_yields (h.rmap _), pure_bind, rsum_eq_sum, Flt.ofNat_real]
  simp only [powi_real]

/-- The value is within `δ` of `E`. -/
def EbNear (eb : RM ℝ) (E δ : ℝ) : Prop := ∃ x, eb = pure x ∧ |x - E| ≤ δ

theorem eb_near [RIter ι ℝ] {tx : ι} {l : List ℝ} (h : Yields tx l) {n : ℕ} (hn : 0 < n) {T δ : ℝ}
    (hb : |(l.map (· ^ 2)).sum - T| ≤ δ) : EbNear (checkEb n tx) (T / n) (δ / n) := by
  refine ⟨_, checkEb_ok h n, ?_⟩
  have hn' : (0 : ℝ) < n := by exact_mod_cast hn
  rw [← sub_div, abs_div, abs_of_pos hn']
  exact div_le_div_of_nonneg_right hb hn'.le

/-- BPSK, any carrier that is not a multiple of half the sample rate: half the samples per symbol, up to a term that vanishes as the
message gets longer. -/
theorem C126_bpsk [RIter ι Bool] {m : ι} {msg : List Bool} (h : Yields m msg) (hne : msg ≠ []) {fs sym : ℕ} {fc : ℝ}
    (hfs : fs < 2 ^ 64) (hfs0 : 0 < fs) (hsym : 0 < sym) (hdvd : sym ∣ fs) (hfc : ⌊fc⌋₊ ≤ fs / 2)
    (hs : Real.sin (2 * Real.pi * fc / fs) ≠ 0) :
    EbNear (do let tx ← txBpsk m fs sym fc; checkEb msg.length tx) ((fs / sym : ℕ) / 2)
      (1 / (2 * msg.length * |Real.sin (2 * Real.pi * fc / fs)|)) := by
  have hsps : 0 < fs / sym := Nat.div_pos (Nat.le_of_dvd hfs0 hdvd) hsym
  have hn : 0 < msg.length := List.length_pos_iff.mpr hne
  obtain ⟨it, e1, e2⟩ := txBpsk_ok h (fc := fc) hsps (by rw [Flt.toNat_real]; exact (min_le_left _ _).trans hfc)
    (by simpa using (isInt_real hfs hsym).mpr hdvd)
  simp only [phase_real, Flt.cos_real] at e2
  have hb := cos_sq_near (d := dphi fs fc) hs 0 (msg.length * (fs / sym))
  rw [e1, pure_bind]
  have := eb_near e2 hn (T := (msg.length * (fs / sym) : ℕ) / 2) (δ := 1 / (2 * |Real.sin (2 * Real.pi * fc / fs)|)) (by
    rw [wave_bits_sq hsps (fun i => Real.cos (i * dphi fs fc))]
    simpa only [Nat.zero_add, dphi] using hb)
  have hn' : (msg.length : ℝ) ≠ 0 := by exact_mod_cast hn.ne'
  rw [show ((msg.length * (fs / sym) : ℕ) : ℝ) / 2 / msg.length = ((fs / sym : ℕ) : ℝ) / 2 by push_cast; field_simp,
    div_div] at this
  rw [show 2 * (msg.length : ℝ) * |Real.sin (2 * Real.pi * fc / fs)| = 2 * |Real.sin (2 * Real.pi * fc / fs)| * msg.length by ring]
  exact this

/-- CDMA-BPSK: the same, whatever the key. -/
theorem C126_cdma_bpsk [RIter ι Bool] {m : ι} {msg : List Bool} (h : Yields m msg) (hne : msg ≠ []) {fs sym : ℕ} {fc : ℝ}
    {key : List Bool} (hfs : fs < 2 ^ 64) (hsym : 0 < sym) (hkey : 0 < key.length) (hdvd : sym * key.length ∣ fs)
    (hchip : 2 * (sym * key.length) ≤ fs) (hfc : ⌊fc⌋₊ ≤ fs / 2) (hs : Real.sin (2 * Real.pi * fc / fs) ≠ 0) :
    EbNear (do let tx ← txCdmaBpsk m fs sym fc key; checkEb msg.length tx) ((fs / sym : ℕ) / 2)
      (1 / (2 * msg.length * |Real.sin (2 * Real.pi * fc / fs)|)) := by
  have hok := (cdmaOk_real (fc := fc) hfs).mpr ⟨hsym, hkey, hdvd, hchip, hfc⟩
  have hsps : 0 < fs / sym := by have := hok.sps; have := hok.key_pos; omega
  have hn : 0 < msg.length := List.length_pos_iff.mpr hne
  obtain ⟨it, e1, e2⟩ := txCdmaBpsk_ok h hok
  simp only [phase_real, Flt.cos_real] at e2
  have hb := cos_sq_near (d := dphi fs fc) hs 0 (msg.length * (fs / sym))
  rw [e1, pure_bind]
  have := eb_near e2 hn (T := (msg.length * (fs / sym) : ℕ) / 2) (δ := 1 / (2 * |Real.sin (2 * Real.pi * fc / fs)|)) (by
    rw [spread_sq, wave_bits_sq hsps (fun i => Real.cos (i * dphi fs fc))]
    simpa only [Nat.zero_add, dphi] using hb)
  have hn' : (msg.length : ℝ) ≠ 0 := by exact_mod_cast hn.ne'
  rw [show ((msg.length * (fs / sym) : ℕ) : ℝ) / 2 / msg.length = ((fs / sym : ℕ) : ℝ) / 2 by push_cast; field_simp,
    div_div] at this
  rw [show 2 * (msg.length : ℝ) * |Real.sin (2 * Real.pi * fc / fs)| = 2 * |Real.sin (2 * Real.pi * fc / fs)| * msg.length by ring]
  exact this

theorem pair_half {n : ℕ} (hn : 0 < n) (heven : 2 ∣ n) (k s : ℝ) :
    ((n / 2 : ℕ) : ℝ) * k / n = k / 2 ∧ ((n / 2 : ℕ) : ℝ) * (1 / s) / n = 1 / (2 * s) := by
  obtain ⟨q, rfl⟩ := heven
  have hq : (q : ℝ) ≠ 0 := by
    have : q ≠ 0 := by omega
    exact_mod_cast this
  rw [Nat.mul_div_cancel_left _ (by norm_num)]
  push_cast
  constructor
  · field_simp
  · rw [one_div, one_div, mul_inv]; field_simp

/-- QPSK: the same mean for an even number of bits. -/
theorem C126_qpsk [RIter ι Bool] {m : ι} {msg : List Bool} (h : Yields m msg) (hne : msg ≠ []) (heven : 2 ∣ msg.length)
    {fs sym : ℕ} {fc : ℝ} (hsps : 0 < fs / sym) (hs : Real.sin (2 * Real.pi * fc / fs) ≠ 0) :
    EbNear (do let tx ← txQpsk m fs sym fc; checkEb msg.length tx) ((fs / sym : ℕ) / 2)
      (1 / (2 * |Real.sin (2 * Real.pi * fc / fs)|)) := by
  have hn : 0 < msg.length := List.length_pos_iff.mpr hne
  obtain ⟨it, e1, e2⟩ := txQpsk_ok h (fc := fc) hsps
  simp only [phase_real, Flt.cos_real, Flt.sin_real] at e2
  rw [e1, pure_bind]
  have := eb_near e2 hn (wave_energy_near (fun n p _ => qpsk_sq_near hs (n * (fs / sym)) (fs / sym) p.1 p.2))
  rw [pairs_length, (pair_half hn heven _ 1).1, (pair_half hn heven 1 _).2] at this
  exact this

/-- CDMA-QPSK. -/
theorem C126_cdma_qpsk [RIter ι Bool] {m : ι} {msg : List Bool} (h : Yields m msg) (hne : msg ≠ []) (heven : 2 ∣ msg.length)
    {fs sym : ℕ} {fc : ℝ} {key : List Bool} (hfs : fs < 2 ^ 64) (hsym : 0 < sym) (hkey : 0 < key.length)
    (hdvd : sym * key.length ∣ fs) (hchip : 2 * (sym * key.length) ≤ fs) (hfc : ⌊fc⌋₊ ≤ fs / 2)
    (hs : Real.sin (2 * Real.pi * fc / fs) ≠ 0) :
    EbNear (do let tx ← txCdmaQpsk m fs sym fc key; checkEb msg.length tx) ((fs / sym : ℕ) / 2)
      (1 / (2 * |Real.sin (2 * Real.pi * fc / fs)|)) := by
  have hok := (cdmaOk_real (fc := fc) hfs).mpr ⟨hsym, hkey, hdvd, hchip, hfc⟩
  have hn : 0 < msg.length := List.length_pos_iff.mpr hne
  obtain ⟨it, e1, e2⟩ := txCdmaQpsk_ok h hok
  simp only [phase_real, Flt.cos_real, Flt.sin_real] at e2
  rw [e1, pure_bind]
  have := eb_near e2 hn (T := ((pairs msg).length : ℝ) * (fs / sym : ℕ))
    (δ := (pairs msg).length * (1 / |Real.sin (2 * Real.pi * fc / fs)|)) (by
      rw [spread_sq]
      exact wave_energy_near (fun n p _ => qpsk_sq_near hs (n * (fs / sym)) (fs / sym) p.1 p.2))
  rw [pairs_length, (pair_half hn heven _ 1).1, (pair_half hn heven 1 _).2] at this
  exact this

/-- BFSK with any two tones. -/
theorem C126_bfsk [RIter ι Bool] {m : ι} {msg : List Bool} (h : Yields m msg) (hne : msg ≠ []) {fs sym : ℕ} {lo hi s : ℝ}
    (hfs : fs < 2 ^ 64) (hfs0 : 0 < fs) (hsym : 0 < sym) (hdvd : sym ∣ fs) (hfc : ⌊hi⌋₊ ≤ fs / 2) (hs : 0 < s)
    (hlo : s ≤ |Real.sin (2 * Real.pi * lo / fs)|) (hhi : s ≤ |Real.sin (2 * Real.pi * hi / fs)|) :
    EbNear (do let tx ← txBfsk m fs sym lo hi; checkEb msg.length tx) ((fs / sym : ℕ) / 2) (1 / (2 * s)) := by
  have hsps : 0 < fs / sym := Nat.div_pos (Nat.le_of_dvd hfs0 hdvd) hsym
  have hn : 0 < msg.length := List.length_pos_iff.mpr hne
  obtain ⟨it, e1, e2⟩ := txBfsk_ok h (lo := lo) (hi := hi) hsps (by rw [Flt.toNat_real]; exact (min_le_left _ _).trans hfc)
    (by simpa using (isInt_real hfs hsym).mpr hdvd)
  simp only [phase_real, Flt.cos_real] at e2
  rw [e1, pure_bind]
  have hne' : ∀ f : ℝ, s ≤ |Real.sin (2 * Real.pi * f / fs)| →
      ∀ p k : ℕ, |∑ j ∈ Finset.range k, Real.cos ((p + j : ℕ) * dphi fs f) ^ 2 - k / 2| ≤ 1 / (2 * s) := by
    intro f hf p k
    refine (cos_sq_near (d := dphi fs f) (abs_pos.mp (hs.trans_le hf)) p k).trans ?_
    apply one_div_le_one_div_of_le (by linarith)
    have : s ≤ |Real.sin (dphi fs f)| := hf
    linarith
  have := eb_near e2 hn (wave_energy_near (E := ((fs / sym : ℕ) : ℝ) / 2) (δ := 1 / (2 * s)) (fun n b _ => by
    cases b
    · exact hne' lo hlo _ _
    · exact hne' hi hhi _ _))
  have hn' : (msg.length : ℝ) ≠ 0 := by exact_mod_cast hn.ne'
  rwa [mul_div_cancel_left₀ _ hn', mul_div_cancel_left₀ _ hn'] at this

/-- The other reading of the check, the mean energy of a sample over the number of bits, is the energy per bit over the number of
samples; so it shrinks with the length of the message. -/
theorem C126_mean [RIter ι ℝ] {tx : ι} {l : List ℝ} (h : Yields tx l) (_hne : l ≠ []) {n : ℕ} (_hn : 0 < n) :
    ∃ eb, checkEb n tx = pure eb ∧ avgEnergy l / n = eb / l.length := by
  refine ⟨_, checkEb_ok h n, ?_⟩
  unfold Verif.avgEnergy
  rw [rsum_eq_sum, Flt.ofNat_real]
  simp only [powi_real]
  rw [div_right_comm]

/-- The values printed by the check, for every message of an even, positive number of bits: exactly 240 for the four phase-shift
keyed signals, within 2.2 of it for BFSK, and `1 / (2 n)` for the mean energy over the number of bits. -/
theorem C126_check {data : List Bool} (hne : data ≠ []) (heven : 2 ∣ data.length) :
    ∃ fsk : ℝ, checkEbs ℝ data.length data = pure [fsk, 240, 1 / (2 * data.length), 240, 240, 240] ∧ |fsk - 240| ≤ 2.2 := by
  have hn : 0 < data.length := List.length_pos_iff.mpr hne
  have hn' : (data.length : ℝ) ≠ 0 := by exact_mod_cast hn.ne'
  have hw : WholeHalf 43200 (43200 / 90) 180 := WholeHalf.of_nat (f := 180) (p := 4) (by norm_num) (by norm_num)
  have hint : isInt (Flt.ofNat 43200 / Flt.ofNat 90 : ℝ) = true := by
    simpa using (isInt_real (a := 43200) (b := 90) (by norm_num) (by norm_num)).mpr (by norm_num)
  have hnyq : Flt.toNat (180 : ℝ) ≤ 43200 / 2 := by
    rw [Flt.toNat_real]; exact (min_le_left _ _).trans (by simp)
  -- the four phase-shift keyed signals
  obtain ⟨b, b1, b2⟩ := txBpsk_ok (yields_ofList data) (fs := 43200) (sym := 90) (fc := (180 : ℝ)) (by norm_num) hnyq hint
  have b3 := C78_bpsk (yields_ofList data) (by norm_num) hw (a := _) (by rw [b1, pure_bind]; exact collect_of_yields b2)
  obtain ⟨q, q1, q2⟩ := txQpsk_ok (yields_ofList data) (fs := 43200) (sym := 90) (fc := (180 : ℝ)) (by norm_num)
  have q3 := C78_qpsk (yields_ofList data) (by norm_num) hw (a := _) (by rw [q1, pure_bind]; exact collect_of_yields q2)
  obtain ⟨h, key, k1, k2, k3⟩ := script_key
  have hok : CdmaOk 43200 90 (180 : ℝ) key.length := by
    rw [cdmaOk_real (by norm_num), k3]
    exact ⟨by norm_num, by norm_num, by norm_num, by norm_num, by simp⟩
  obtain ⟨c, c1, c2⟩ := txCdmaBpsk_ok (yields_ofList data) hok
  have c3 := C78_cdma_bpsk (yields_ofList data) hw (a := _) (by rw [c1, pure_bind]; exact collect_of_yields c2)
  obtain ⟨d, d1, d2⟩ := txCdmaQpsk_ok (yields_ofList data) hok
  have d3 := C78_cdma_qpsk (yields_ofList data) hw (a := _) (by rw [d1, pure_bind]; exact collect_of_yields d2)
  -- the two tones
  have hpi1 := Real.pi_gt_d2
  have hpi2 := Real.pi_lt_d2
  have hsin : ∀ x : ℝ, 0.232 ≤ x → x ≤ 0.263 → 1 / 4.4 ≤ |Real.sin x| := by
    intro x h1 h2
    have := Real.sin_gt_sub_cube (x := x) (by linarith)
    have h3 : x ^ 3 ≤ 0.263 ^ 3 := pow_le_pow_left₀ (by linarith) h2 3
    refine le_trans ?_ (le_abs_self _)
    norm_num at *
    linarith
  obtain ⟨f, f1, f2⟩ := C126_bfsk (yields_ofList data) hne (fs := 43200) (sym := 90) (lo := 1600) (hi := 1800) (s := 1 / 4.4)
    (by norm_num) (by norm_num) (by norm_num) (by norm_num) (by simp) (by norm_num)
    (hsin _ (by norm_num; linarith) (by norm_num; linarith)) (hsin _ (by norm_num; linarith) (by norm_num; linarith))
  obtain ⟨ft, g1, g2⟩ := RM.bind_eq_ok.mp f1
  refine ⟨f, ?_, by norm_num at f2 ⊢; exact f2⟩
  unfold checkEbs
  simp only [Flt.ofNat_real, Nat.cast_ofNat]
  rw [b1, pure_bind, checkEb_ok b2, pure_bind, pure_bind, collect_of_yields b2, pure_bind, q1, pure_bind, checkEb_ok q2, pure_bind,
    g1, pure_bind, g2, pure_bind, k1, pure_bind, k2, pure_bind, c1, pure_bind, checkEb_ok c2, pure_bind, d1, pure_bind,
    checkEb_ok d2, pure_bind, b3.avg hn, b3.total (by norm_num), q3.total (by norm_num), c3.total (by norm_num),
    d3.total (by norm_num)]
  obtain ⟨r, hr⟩ := heven
  have hr' : (r : ℝ) ≠ 0 := by
    have : r ≠ 0 := by omega
    exact_mod_cast this
  rw [hr, Nat.mul_div_cancel_left _ (by norm_num)]
  have e : ((43200 / 90 : ℕ) : ℝ) = 480 := by norm_num
  rw [e]
  push_cast
  congr 1
  simp only [List.cons.injEq, and_true, true_and]
  refine ⟨?_, ?_, ?_, ?_, ?_⟩ <;> field_simp <;> norm_num

/-! ### Concrete cases: a carrier of 1234 at 16000 samples per second, which no symbol holds a whole number of periods of -/

theorem sin_1234 : Real.sin (2 * Real.pi * (1234 : ℝ) / (16000 : ℕ)) ≠ 0 := by
  have := Real.pi_pos
  apply ne_of_gt
  apply Real.sin_pos_of_pos_of_lt_pi
  · positivity
  · norm_num; linarith

example : EbNear (do let tx ← txBpsk (ofList [true, false, true]) 16000 1000 (1234 : ℝ); checkEb 3 tx) ((16000 / 1000 : ℕ) / 2)
    (1 / (2 * (3 : ℕ) * |Real.sin (2 * Real.pi * 1234 / (16000 : ℕ))|)) :=
  C126_bpsk (yields_ofList [true, false, true]) (by simp) (by norm_num) (by norm_num) (by norm_num) (by norm_num) (by norm_num) sin_1234

example : EbNear (do let tx ← txCdmaBpsk (ofList [true, false, true]) 16000 1000 (1234 : ℝ) [true, false]; checkEb 3 tx)
    ((16000 / 1000 : ℕ) / 2) (1 / (2 * (3 : ℕ) * |Real.sin (2 * Real.pi * 1234 / (16000 : ℕ))|)) :=
  C126_cdma_bpsk (yields_ofList [true, false, true]) (by simp) (by norm_num) (by norm_num) (by simp) (by simp) (by simp)
    (by norm_num) sin_1234

example : EbNear (do let tx ← txQpsk (ofList [true, false]) 16000 1000 (1234 : ℝ); checkEb 2 tx) ((16000 / 1000 : ℕ) / 2)
    (1 / (2 * |Real.sin (2 * Real.pi * 1234 / (16000 : ℕ))|)) :=
  C126_qpsk (yields_ofList [true, false]) (by simp) (by simp) (by norm_num) sin_1234

example : EbNear (do let tx ← txCdmaQpsk (ofList [true, false]) 16000 1000 (1234 : ℝ) [true, false]; checkEb 2 tx)
    ((16000 / 1000 : ℕ) / 2) (1 / (2 * |Real.sin (2 * Real.pi * 1234 / (16000 : ℕ))|)) :=
  C126_cdma_qpsk (yields_ofList [true, false]) (by simp) (by simp) (by norm_num) (by norm_num) (by simp) (by simp) (by simp)
    (by norm_num) sin_1234

example : EbNear (do let tx ← txBfsk (ofList [true, false, true]) 16000 1000 (1234 : ℝ) 1234; checkEb 3 tx) ((16000 / 1000 : ℕ) / 2)
    (1 / (2 * |Real.sin (2 * Real.pi * 1234 / (16000 : ℕ))|)) :=
  C126_bfsk (yields_ofList [true, false, true]) (by simp) (by norm_num) (by norm_num) (by norm_num) (by norm_num) (by norm_num)
    (abs_pos.mpr sin_1234) le_rfl le_rfl

example : ∃ eb, checkEb 2 (ofList [(1 : ℝ), 2, 3, 4]) = pure eb ∧ avgEnergy [(1 : ℝ), 2, 3, 4] / (2 : ℕ) = eb / (4 : ℕ) :=
  C126_mean (yields_ofList _) (by simp) (by norm_num)

example : ∃ fsk : ℝ, checkEbs ℝ 4 [true, false, false, true] = pure [fsk, 240, 1 / (2 * (4 : ℕ)), 240, 240, 240] ∧ |fsk - 240| ≤ 2.2 :=
  C126_check (data := [true, false, false, true]) (by simp) (by decide)

end Verif.Props
