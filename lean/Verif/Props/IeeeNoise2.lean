import Verif.Lemmas.IeeeNoise2
import Verif.Props.Eb
/-!
# C144: the error rate in double precision on any carrier, of hopping stations and of whole messages
-/
namespace Verif.Props
open Verif Spec F64 MeasureTheory ProbabilityTheory
variable {Ω : Type} [MeasurableSpace Ω] {P : Measure Ω} {z : ℕ → Ω → ℝ} {ι κ ν ρ : Type}

/-- The energy of one symbol: of `k` samples of a carrier of frequency `f`, from sample `i₀` on. -/
noncomputable def cosEnergy (fs k : ℕ) (f : ℝ) (i₀ : ℕ) : ℝ := ∑ j ∈ Finset.range k, Real.cos (angle fs f (i₀ + j)) ^ 2

/-- The error rates of a link: bit `n` is wrong with the probability that belongs to the energy `E n`, up to a change of the
amplitude by `D / E n` and a remainder `r`; and so is the message. -/
def Rates (P : Measure Ω) (link : Ω → RM (List Bool)) (msg : List Bool) (E : ℕ → ℝ) (D σ r : ℝ) : Prop :=
  (∀ n < msg.length,
    P.real {ω | ¬ Right (link ω) msg n} ≤ bitError ((E n - D) ^ 2 / E n) σ + r ∧
    bitError ((E n + D) ^ 2 / E n) σ ≤ P.real {ω | Wrong (link ω) msg n} + r) ∧
  P.real {ω | link ω ≠ pure msg} ≤ ∑ n ∈ Finset.range msg.length, bitError ((E n - D) ^ 2 / E n) σ + r

theorem faded_window (fs k : ℕ) (f : ℝ) (msg : List Bool) (n : ℕ) :
    ∑ j ∈ Finset.range k, fadedBpsk fs f msg (fun _ => 1) (fun _ => 0) n (n * k + j) * Real.cos (angle fs f (n * k + j))
      = cosEnergy fs k f (n * k) * pm (msg.getD n false) := by
  rw [cosEnergy, Finset.sum_mul]
  refine Finset.sum_congr rfl fun j _ => ?_
  rw [fadedBpsk, add_zero]; ring

/-- **C144, BPSK on any carrier.** As C143, but the carrier need not fit the symbol: what counts is the energy of the carrier over the
samples of that symbol. -/
theorem C144_bpsk (hz : White P 1 z) {L : Libm} {Z η : ℝ} (hZ : 0 ≤ Z) (hη : 0 ≤ η) {d : ℕ → Ω → FloatL L} (hd : Sampled Z η z d)
    [RIter ν (FloatL L)] {noise : Ω → ν} (hg : ∀ ω, Gives (noise ω) (fun i => d i ω)) {σ : FloatL L} (hf : F64.Fin σ) (hσ : 0 < val σ)
    [RIter ι Bool] {m : ι} {msg : List Bool} (hm : Yields m msg) {ε S : ℝ} {fs sym : ℕ} {fc : FloatL L}
    (hr : Radio L ε fs (fs / sym) msg.length fc S) (hdvd : sym ∣ fs)
    (hS : 3 + val σ * (Z + η) ≤ S) (hS2 : S ≤ 2 ^ 40)
    (hl : ∀ n < msg.length, (fs / sym : ℕ) * loss ε η (val σ) S ≤ cosEnergy fs (fs / sym) (val fc) (n * (fs / sym))) :
    Rates P (fun ω => do
        let tx ← txBpsk m fs sym fc
        let ch ← awgn tx σ (noise ω)
        let rx ← rxBpsk ch fs sym fc
        collect rx) msg (fun n => cosEnergy fs (fs / sym) (val fc) (n * (fs / sym)))
      ((fs / sym : ℕ) * loss ε η (val σ) S) (val σ) ((msg.length * (fs / sym) : ℕ) * Real.exp (-Z ^ 2 / 2)) := by
  have hε := radio_eps hr
  have hε2 := hr.small
  have hk := hr.k_pos
  have hk' : (0 : ℝ) < (fs / sym : ℕ) := by exact_mod_cast hk
  have hb0 : 0 ≤ val σ * (Z + η) := by positivity
  have hση : 0 ≤ val σ * η := by positivity
  have h1 : 1 ≤ S := by linarith
  have hl0 : 0 < loss ε η (val σ) S := by unfold loss; positivity
  have hcar : Flt.toNat fc ≤ fs / 2 := by
    have htn : Flt.toNat fc = min ⌊val fc⌋₊ (2 ^ 64 - 1) := toNat_val hr.fin
    have h2 : ⌊val fc⌋₊ ≤ ⌊(fs : ℝ) / 2⌋₊ := Nat.floor_le_floor hr.hi
    have h3 : ⌊(fs : ℝ) / 2⌋₊ = fs / 2 := by simpa using Nat.floor_div_natCast (fs : ℝ) 2
    omega
  obtain ⟨it, e1, e2⟩ := txBpsk_ok hm (fc := fc) hk hcar (isInt_div_float hr.fs_lt hdvd hk)
  refine margins_core hz hZ hσ (T := msg.length * (fs / sym)) (M := fun n => n * (fs / sym) + fs / sym)
    (c := fun n i => if n * (fs / sym) ≤ i then Real.cos (angle fs (val fc) i) else 0) (mul_pos hk' hl0).le
    (fun n hn => ⟨(mul_pos hk' hl0).trans_le (hl n hn), hl n hn⟩) (fun n _ => window_energy _) fun ω hG => ?_
  have hnear := noisy_near (bpsk_wave hr) (fun i _ => ((faded_size fs (val fc) msg _ i).1).trans (by norm_num)) (by positivity)
    (by norm_num at hε2 ⊢; linarith) hη hf hσ.le hS h1 hr.size_hi (d := fun i => d i ω) (t := fun i => z i ω)
    (fun i hi => ⟨hd i ω (hG i hi), hG i hi⟩)
  obtain ⟨ch, c1, c2⟩ := awgn_yields e2 (hg ω) (σ := σ) hf
  obtain ⟨x, x1, x2⟩ := C86_bpsk hr hnear (fun i hi => noisy_size hσ
    ((faded_size fs (val fc) msg (i / (fs / sym)) i).1.trans (by norm_num)) (hG i hi) hε2 hS hS2) c2
  refine ⟨x, ?_, fun n hn hbig => ?_⟩
  · rw [e1, pure_bind, c1, pure_bind]; exact x1
  · have hX : inPhase fs (fs / sym) (val fc) (fun n i => fadedBpsk fs (val fc) msg (fun _ => 1) (fun _ => 0) n i + val σ * z i ω) n
        = cosEnergy fs (fs / sym) (val fc) (n * (fs / sym)) * pm (msg.getD n false) + val σ * proj (n * (fs / sym) + fs / sym)
          (fun i => if n * (fs / sym) ≤ i then Real.cos (angle fs (val fc) i) else 0) z ω := by
      rw [inPhase, corr_split (fun n i => fadedBpsk fs (val fc) msg (fun _ => 1) (fun _ => 0) n i) (fun i => z i ω)
        (fun i => Real.cos (angle fs (val fc) i)), ← faded_window]
      rfl
    have := x2 n hn
    rw [hX] at this
    exact this (lt_of_le_of_lt (mul_le_mul_of_nonneg_left (margin_loss h1 hε) hk'.le) hbig)

/-- The same for a station with a key. -/
theorem C144_cdma_bpsk (hz : White P 1 z) {L : Libm} {Z η : ℝ} (hZ : 0 ≤ Z) (hη : 0 ≤ η) {d : ℕ → Ω → FloatL L} (hd : Sampled Z η z d)
    [RIter ν (FloatL L)] {noise : Ω → ν} (hg : ∀ ω, Gives (noise ω) (fun i => d i ω)) {σ : FloatL L} (hf : F64.Fin σ) (hσ : 0 < val σ)
    [RIter ι Bool] {m : ι} {msg key : List Bool} (hm : Yields m msg) {ε S : ℝ} {fs sym : ℕ} {fc : FloatL L}
    (hr : Radio L ε fs (fs / sym) msg.length fc S)
    (hsym : 0 < sym) (hL : 0 < key.length) (hdvd : sym * key.length ∣ fs) (hnyq : 2 * (sym * key.length) ≤ fs)
    (hS : 3 + val σ * (Z + η) ≤ S) (hS2 : S ≤ 2 ^ 40)
    (hl : ∀ n < msg.length, (fs / sym : ℕ) * loss ε η (val σ) S ≤ cosEnergy fs (fs / sym) (val fc) (n * (fs / sym))) :
    Rates P (fun ω => do
        let tx ← txCdmaBpsk m fs sym fc key
        let ch ← awgn tx σ (noise ω)
        let rx ← rxCdmaBpsk ch fs sym fc key
        collect rx) msg (fun n => cosEnergy fs (fs / sym) (val fc) (n * (fs / sym)))
      ((fs / sym : ℕ) * loss ε η (val σ) S) (val σ) ((msg.length * (fs / sym) : ℕ) * Real.exp (-Z ^ 2 / 2)) := by
  have hε := radio_eps hr
  have hε2 := hr.small
  have hk := hr.k_pos
  have hk' : (0 : ℝ) < (fs / sym : ℕ) := by exact_mod_cast hk
  have hb0 : 0 ≤ val σ * (Z + η) := by positivity
  have hση : 0 ≤ val σ * η := by positivity
  have h1 : 1 ≤ S := by linarith
  have hl0 : 0 < loss ε η (val σ) S := by unfold loss; positivity
  have hok : CdmaOk fs sym fc key.length := (cdmaOk_ieee hr.fs_lt hr.fin).mpr ⟨hsym, hL, hdvd, hnyq, by
    have h2 : ⌊val fc⌋₊ ≤ ⌊(fs : ℝ) / 2⌋₊ := Nat.floor_le_floor hr.hi
    have h3 : ⌊(fs : ℝ) / 2⌋₊ = fs / 2 := by simpa using Nat.floor_div_natCast (fs : ℝ) 2
    omega⟩
  obtain ⟨it, e1, e2⟩ := txCdmaBpsk_ok hm (fc := fc) hok
  refine margins_core hz hZ hσ (T := msg.length * (fs / sym)) (M := fun n => n * (fs / sym) + fs / sym)
    (c := fun n i => if n * (fs / sym) ≤ i then Real.cos (angle fs (val fc) i) * chip key (fs / sym) i else 0) (mul_pos hk' hl0).le
    (fun n hn => ⟨(mul_pos hk' hl0).trans_le (hl n hn), hl n hn⟩)
    (fun n _ => (window_energy _).trans (Finset.sum_congr rfl fun j _ => chip_mul_sq _ _ _ _)) fun ω hG => ?_
  have hnear := noisy_near (near_spread (key := key) (bpsk_wave hr)) (fun i _ => by
      rw [abs_mul, chip_abs, mul_one]; exact (faded_size fs (val fc) msg _ i).1.trans (by norm_num)) (by positivity)
    (by norm_num at hε2 ⊢; linarith) hη hf hσ.le hS h1 hr.size_hi (d := fun i => d i ω) (t := fun i => z i ω)
    (fun i hi => ⟨hd i ω (hG i hi), hG i hi⟩)
  rw [chip_out] at hnear
  obtain ⟨ch, c1, c2⟩ := awgn_yields e2 (hg ω) (σ := σ) hf
  obtain ⟨x, x1, x2⟩ := C86_cdma_bpsk hsym hL hdvd hnyq hr hnear (fun i hi => noisy_size hσ
    ((faded_size fs (val fc) msg (i / (fs / sym)) i).1.trans (by norm_num)) (by rw [abs_mul, chip_abs, mul_one]; exact hG i hi) hε2 hS hS2) c2
  refine ⟨x, ?_, fun n hn hbig => ?_⟩
  · rw [e1, pure_bind, c1, pure_bind]; exact x1
  · have hX := corr_chip (n := n) (k := fs / sym) (fadedBpsk fs (val fc) msg (fun _ => 1) (fun _ => 0)) (fun i => z i ω)
      (fun i => Real.cos (angle fs (val fc) i)) (val σ) key
    rw [faded_window] at hX
    have := x2 n hn
    rw [inPhase, hX] at this
    exact this (lt_of_le_of_lt (mul_le_mul_of_nonneg_left (margin_loss h1 hε) hk'.le) hbig)

/-- What rounding may take from the correlation of a hopping station, per sample. -/
noncomputable def hopLoss (ε η σ S : ℝ) : ℝ := σ * η + S * (ε + 1 / 2 ^ 10)

theorem hop_margin {ε η σ S : ℝ} (h1 : 3 ≤ S) :
    1 / 2 ^ 9 + σ * η + S / 2 ^ 48 + S * (ε + 1 / 2 ^ 14) ≤ hopLoss ε η σ S := by
  unfold hopLoss
  norm_num
  linarith

theorem hop_size {η σ Z S x t : ℝ} (hσ : 0 < σ) (hx : |x| ≤ 1) (ht : |t| ≤ Z) (hS : 3 + σ * (Z + η) ≤ S)
    (hS2 : S ≤ 2 ^ 40) : |x + σ * t| + (1 / 2 ^ 9 + σ * η + S / 2 ^ 48) ≤ S := by
  have s3 := mul_le_mul_of_nonneg_left ht hσ.le
  have s4 : |σ * t| = σ * |t| := by rw [abs_mul, abs_of_pos hσ]
  refine le_trans (add_le_add_left ((abs_add_le _ _).trans (add_le_add hx s4.le)) _) ?_
  rw [mul_add] at hS
  norm_num at hS2 ⊢
  linarith

/-- **C144, frequency hopping.** There is a sequence of hop frequencies, the one of the hop table, such that bit `n` is wrong with
the probability that belongs to the energy of a carrier of the `n`th frequency over one symbol. -/
theorem C144_hopping [Rng ρ] (hz : White P 1 z) {L : Libm} {Z η : ℝ} (hZ : 0 ≤ Z) (hη : 0 ≤ η) {d : ℕ → Ω → FloatL L} (hd : Sampled Z η z d)
    [RIter ν (FloatL L)] {noise : Ω → ν} (hg : ∀ ω, Gives (noise ω) (fun i => d i ω)) {σ : FloatL L} (hf : F64.Fin σ) (hσ : 0 < val σ)
    [RIter ι Bool] {m : ι} {msg : List Bool} (hm : Yields m msg) {ε S : ℝ} (hε2 : ε ≤ 1 / 2 ^ 10) (hL : Accurate L ε (2 ^ 40))
    {low high : FloatL L} (fl : F64.Fin low) (fh : F64.Fin high) (h1 : 1 / 2 ^ 100 ≤ val low) (h2 : val low ≤ val high)
    {nf fs sym : ℕ} (hnf : 2 ≤ nf) (hnf' : nf ≤ 2 ^ 50) (hfs : fs < 2 ^ 53) (hsym : 0 < sym) (hdvd : sym ∣ fs)
    (hhigh : val high ≤ fs / 2) (hsps : fs / sym ≤ 2 ^ 32)
    (hS : 3 + val σ * (Z + η) ≤ S) (hS2 : S ≤ 2 ^ 40)
    (hl : ∀ f, val low ≤ f → f ≤ val high → (fs / sym : ℕ) * hopLoss ε η (val σ) S ≤ cosEnergy fs (fs / sym) f 0) :
    ∃ t hop, hopTable ρ low high nf 64 = pure t ∧ Gives t hop ∧ (∀ n, val low ≤ val (hop n) ∧ val (hop n) ≤ val high) ∧
    Rates P (fun ω => do
        let tx ← txFhBpsk ρ m low high nf fs sym
        let ch ← awgn tx σ (noise ω)
        let rx ← rxFhBpsk ρ ch low high nf fs sym
        collect rx) msg (fun n => cosEnergy fs (fs / sym) (val (hop n)) 0)
      ((fs / sym : ℕ) * hopLoss ε η (val σ) S) (val σ) ((msg.length * (fs / sym) : ℕ) * Real.exp (-Z ^ 2 / 2)) := by
  have hε : 0 ≤ ε := (abs_nonneg _).trans (hL 0 fin_zero (by rw [val_zero]; norm_num)).1.2
  have hfs0 : 0 < fs := by
    rcases Nat.eq_zero_or_pos fs with h | h
    · subst h
      have : (0 : ℝ) < val low := lt_of_lt_of_le (by positivity) h1
      norm_num at hhigh
      linarith
    · exact h
  have hk : 0 < fs / sym := Nat.div_pos (Nat.le_of_dvd hfs0 hdvd) hsym
  have hk' : (0 : ℝ) < (fs / sym : ℕ) := by exact_mod_cast hk
  have hb0 : 0 ≤ val σ * (Z + η) := by positivity
  have hση : 0 ≤ val σ * η := by positivity
  have hS3 : 3 ≤ S := by linarith
  have hS1 : 1 ≤ S := by linarith
  have hl0 : 0 < hopLoss ε η (val σ) S := by unfold hopLoss; positivity
  have hfsR : (fs : ℝ) < 2 ^ 53 := by exact_mod_cast hfs
  have htn : ∀ x : FloatL L, F64.Fin x → val x ≤ val high → Flt.toNat x ≤ fs / 2 := by
    intro x fx hx
    have : Flt.toNat x = min ⌊val x⌋₊ (2 ^ 64 - 1) := toNat_val fx
    rw [this]
    exact floor_le_half (hx.trans hhigh)
  have hin : ∀ x ∈ hopFreqs low high nf, Flt.toNat x ≤ fs / 2 := by
    intro x hx
    obtain ⟨c1, c2, c3⟩ := hopFreqs_ieee fl fh h1 h2 (by linarith) (by omega) hx
    exact htn x c1 c3
  obtain ⟨it, e1, e2⟩ := txFhBpsk_ok (ρ := ρ) hm (low := low) hnf hk (htn high fh le_rfl) (isInt_div_float hfs hdvd hk) hin
  obtain ⟨t, hop, k1, k2, k3, hn⟩ := C127_sent_hopping (ρ := ρ) hε2 hL hm fl fh h1 h2 hnf hnf' hfs hk hhigh hsps
    (by rw [e1, pure_bind, collect_of_yields e2])
  refine ⟨t, hop, k1, k2, k3, ?_⟩
  refine margins_core hz hZ hσ (T := msg.length * (fs / sym)) (M := fun n => n * (fs / sym) + fs / sym)
    (c := fun n i => if n * (fs / sym) ≤ i then Real.cos (angle fs (val (hop n)) (i - n * (fs / sym))) else 0) (mul_pos hk' hl0).le
    (fun n hn => ⟨(mul_pos hk' hl0).trans_le (hl _ (k3 n).1 (k3 n).2), hl _ (k3 n).1 (k3 n).2⟩)
    (fun n _ => (window_energy (fun i => Real.cos (angle fs (val (hop n)) (i - n * (fs / sym))))).trans ?_) fun ω hG => ?_
  · rw [cosEnergy]
    refine Finset.sum_congr rfl fun j _ => ?_
    rw [Nat.add_sub_cancel_left, Nat.zero_add]
  have hone : ∀ n i, |1 * pm (msg.getD n false) * Real.cos (angle fs (val (hop n)) (i - n * (fs / sym)))| ≤ 1 := by
    intro n i
    rw [one_mul, abs_mul, pm_abs, one_mul]; exact Real.abs_cos_le_one _
  have hnear := noisy_near hn (fun i _ => (hone _ _).trans (by norm_num)) (by norm_num)
    (by norm_num) hη hf hσ.le hS hS1 (hS2.trans (pow_le_pow_right₀ (by norm_num) (by norm_num))) (d := fun i => d i ω) (t := fun i => z i ω)
    (fun i hi => ⟨hd i ω (hG i hi), hG i hi⟩)
  obtain ⟨ch, c1, c2⟩ := awgn_yields e2 (hg ω) (σ := σ) hf
  obtain ⟨t', hop', k1', k2', -, x, x1, x2⟩ := C127_hopping (ρ := ρ) hε2 hL fl fh h1 h2 hnf hnf' hfs hsym hdvd hhigh hsps
    (hS1.trans' (by rw [div_le_one (by positivity)]; exact one_le_pow₀ (by norm_num)))
    (hS2.trans (pow_le_pow_right₀ (by norm_num) (by norm_num))) hnear (fun i hi => hop_size hσ (hone _ _) (hG i hi) hS hS2) c2
  rw [k1, RM.ok_inj] at k1'
  subst k1'
  have hh : hop' = hop := k2'.unique k2
  subst hh
  refine ⟨x, ?_, fun n hn hbig => ?_⟩
  · rw [e1, pure_bind, c1, pure_bind]; exact x1
  · have hX : restarted fs (fs / sym) (val (hop' n)) (fun n i => 1 * pm (msg.getD n false)
          * Real.cos (angle fs (val (hop' n)) (i - n * (fs / sym))) + val σ * z i ω) n
        = cosEnergy fs (fs / sym) (val (hop' n)) 0 * pm (msg.getD n false) + val σ * proj (n * (fs / sym) + fs / sym)
          (fun i => if n * (fs / sym) ≤ i then Real.cos (angle fs (val (hop' n)) (i - n * (fs / sym))) else 0) z ω := by
      have h := corr_split (n := n) (k := fs / sym) (fun n i => 1 * pm (msg.getD n false)
        * Real.cos (angle fs (val (hop' n)) (i - n * (fs / sym)))) (fun i => z i ω)
        (fun i => Real.cos (angle fs (val (hop' n)) (i - n * (fs / sym)))) (val σ)
      simp only [Nat.add_sub_cancel_left] at h
      rw [restarted]
      simp only [Nat.add_sub_cancel_left]
      rw [h]
      congr 1
      rw [cosEnergy, Finset.sum_mul]
      refine Finset.sum_congr rfl fun j _ => ?_
      rw [Nat.zero_add]; ring
    have := x2 n hn
    rw [hX] at this
    exact this (lt_of_le_of_lt (mul_le_mul_of_nonneg_left (hop_margin hS3) hk'.le) hbig)

/-! ## 49 samples to a bit at 44.1 kHz, where no carrier of 1000 Hz fits -/

theorem energy_1000 (n : ℕ) {f : ℝ} (h1 : 1000 ≤ f) (h2 : f ≤ 2000) : ((44100 / 900 : ℕ) : ℝ) * 0.4 ≤ cosEnergy 44100 (44100 / 900) f n := by
  have hd : dphi 44100 f = 2 * Real.pi * f / 44100 := by unfold dphi; push_cast; ring
  have hpi := Real.pi_gt_d2
  have hpi' := Real.pi_lt_d2
  have hx0 : 0.142 ≤ dphi 44100 f := by rw [hd]; nlinarith
  have hx1 : dphi 44100 f ≤ 0.286 := by rw [hd]; nlinarith
  have hs : 0.138 ≤ Real.sin (dphi 44100 f) := by
    have := Real.sin_gt_sub_cube (x := dphi 44100 f) (by linarith)
    nlinarith [sq_nonneg (dphi 44100 f), mul_nonneg (sub_nonneg.mpr hx0) (sub_nonneg.mpr hx1)]
  have h := (abs_le.mp (cos_sq_near (d := dphi 44100 f) (by linarith) n (44100 / 900))).1
  rw [abs_of_pos (by linarith)] at h
  unfold cosEnergy
  simp only [angle_dphi]
  have h3 : 1 / (2 * Real.sin (dphi 44100 f)) ≤ 4 := by
    rw [div_le_iff₀ (by linarith)]; linarith
  norm_num at h h3 ⊢
  linarith

theorem radio_1000 {N : ℕ} (hN : N ≤ 2 ^ 20) : Radio Libm.rounded (1 / 2 ^ 52) 44100 (44100 / 900) N (Flt.ofNat 1000) 16 := by
  obtain ⟨h3, h4, -⟩ := hop_1000
  refine ⟨by norm_num, accurate_rounded _, by norm_num, by norm_num, by omega, h3, by rw [h4]; norm_num, by rw [h4]; norm_num, ?_, ?_⟩
  · refine le_trans ?_ (by norm_num : (1 : ℝ) ≤ 16)
    rw [div_le_one (by positivity)]
    exact one_le_pow₀ (by norm_num)
  · exact le_trans (by norm_num : (16 : ℝ) ≤ 2 ^ 4) (pow_le_pow_right₀ (by norm_num) (by norm_num))

example : Rates (gaussPath 1) (fun ω => do
      let tx ← txBpsk (ofList [true, false, true]) 44100 900 (Flt.ofNat 1000 : FloatL Libm.rounded)
      let ch ← awgn tx (1 : FloatL Libm.rounded) (rounded ω)
      let rx ← rxBpsk ch 44100 900 (Flt.ofNat 1000)
      collect rx) [true, false, true] (fun n => cosEnergy 44100 49 1000 (n * 49)) (49 * loss (1 / 2 ^ 52) (10 / 2 ^ 52) 1 16) 1
      (147 * Real.exp (-50)) := by
  obtain ⟨-, h4, -⟩ := hop_1000
  have := C144_bpsk (white_path 1) (Z := 10) (by norm_num) (by norm_num) sampled_rounded rounded_gives (σ := (1 : FloatL Libm.rounded)) fin_one
    (by rw [val_float_one]; norm_num) (yields_ofList [true, false, true]) (radio_1000 (N := 3) (by norm_num)) (by norm_num)
    (by rw [val_float_one]; norm_num) (by norm_num) (fun n _ => by
      refine le_trans ?_ (energy_1000 _ (by rw [h4]) (by rw [h4]; norm_num))
      rw [val_float_one]; norm_num [loss])
  rw [val_float_one, h4] at this
  convert this using 2 <;> norm_num

example : Rates (gaussPath 1) (fun ω => do
      let tx ← txCdmaBpsk (ofList [true, false, true]) 44100 900 (Flt.ofNat 1000 : FloatL Libm.rounded) [true, false, true, true, false, true, true]
      let ch ← awgn tx (1 : FloatL Libm.rounded) (rounded ω)
      let rx ← rxCdmaBpsk ch 44100 900 (Flt.ofNat 1000) [true, false, true, true, false, true, true]
      collect rx) [true, false, true] (fun n => cosEnergy 44100 49 1000 (n * 49)) (49 * loss (1 / 2 ^ 52) (10 / 2 ^ 52) 1 16) 1
      (147 * Real.exp (-50)) := by
  obtain ⟨-, h4, -⟩ := hop_1000
  have := C144_cdma_bpsk (white_path 1) (Z := 10) (by norm_num) (by norm_num) sampled_rounded rounded_gives (σ := (1 : FloatL Libm.rounded)) fin_one
    (by rw [val_float_one]; norm_num) (yields_ofList [true, false, true]) (key := [true, false, true, true, false, true, true])
    (radio_1000 (N := 3) (by norm_num)) (by norm_num) (by simp) (by norm_num) (by simp)
    (by rw [val_float_one]; norm_num) (by norm_num) (fun n _ => by
      refine le_trans ?_ (energy_1000 _ (by rw [h4]) (by rw [h4]; norm_num))
      rw [val_float_one]; norm_num [loss])
  rw [val_float_one, h4] at this
  convert this using 2 <;> norm_num

set_option warn.classDefReducibility false in
attribute [local instance] toyRng in
/-- A hopping station between 1 and 2 kHz. -/
example : ∃ hop : ℕ → FloatL Libm.rounded, (∀ n, 1000 ≤ val (hop n) ∧ val (hop n) ≤ 2000) ∧ Rates (gaussPath 1) (fun ω => do
      let tx ← txFhBpsk ℕ (ofList [true, false, true]) (Flt.ofNat 1000 : FloatL Libm.rounded) (Flt.ofNat 2000) 16 44100 900
      let ch ← awgn tx (1 : FloatL Libm.rounded) (rounded ω)
      let rx ← rxFhBpsk ℕ ch (Flt.ofNat 1000 : FloatL Libm.rounded) (Flt.ofNat 2000) 16 44100 900
      collect rx) [true, false, true] (fun n => cosEnergy 44100 49 (val (hop n)) 0) (49 * hopLoss (1 / 2 ^ 52) (10 / 2 ^ 52) 1 16) 1
      (147 * Real.exp (-50)) := by
  obtain ⟨a1, a2, b1, b2⟩ := hop_1000
  obtain ⟨t, hop, -, -, h3, h⟩ := C144_hopping (ρ := ℕ) (white_path 1) (Z := 10) (by norm_num) (by norm_num) sampled_rounded rounded_gives
    (σ := (1 : FloatL Libm.rounded)) fin_one
    (by rw [val_float_one]; norm_num) (yields_ofList [true, false, true]) (ε := 1 / 2 ^ 52) (S := 16) (by norm_num) (accurate_rounded _) a1 b1 (by rw [a2]; norm_num)
    (by rw [a2, b2]; norm_num) (nf := 16) (fs := 44100) (sym := 900) (by norm_num) (by norm_num) (by norm_num) (by norm_num) (by norm_num) (by rw [b2]; norm_num)
    (by norm_num) (by rw [val_float_one]; norm_num) (by norm_num) (fun f k1 k2 => by
      refine le_trans ?_ (energy_1000 0 (by rw [a2] at k1; exact k1) (by rw [b2] at k2; exact k2))
      rw [val_float_one]; norm_num [hopLoss])
  rw [a2, b2] at h3
  refine ⟨hop, h3, ?_⟩
  rw [val_float_one] at h
  convert h using 2 <;> norm_num
end Verif.Props
