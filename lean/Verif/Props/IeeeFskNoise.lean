import Verif.Lemmas.IeeeFskNoise
import Verif.Props.IeeeCoded
import Verif.Props.IeeeRx2
import Verif.Props.GaussFsk
/-!
# C148: error rate of frequency shift keying in double precision
-/
namespace Verif.Props
open Verif Spec F64 MeasureTheory ProbabilityTheory
variable {Ω : Type} [MeasurableSpace Ω] {P : Measure Ω} {z : ℕ → Ω → ℝ} {ι κ ν ρ : Type}

/-- What rounding may do to the two amplitudes of a symbol, per sample. -/
noncomputable def fskLoss (ε η σ S : ℝ) : ℝ := 4 * (σ * η + S * (2 * ε + 1 / 2 ^ 12))

/-- Upper and lower bound for the error rate of `k` samples per symbol whose amplitudes may change by `q` per sample; `l` may be chosen. -/
noncomputable def fskHigh (k : ℕ) (σ q l : ℝ) : ℝ :=
  Real.exp ((1 - l) / l * (k * q ^ 2 / σ ^ 2) - (1 - l) / (2 - l) * (k / (4 * σ ^ 2))) / (2 - l)
noncomputable def fskLow (k : ℕ) (σ q l : ℝ) : ℝ :=
  Real.exp (-((1 + l) / l * (k * q ^ 2 / σ ^ 2)) - (1 + l) / (2 + l) * (k / (4 * σ ^ 2))) / (2 + l)

/-- The received symbol `n`, in exact arithmetic. -/
noncomputable def fskBlock (fs k : ℕ) (f σ : ℝ) (msg : List Bool) (n : ℕ) (y : ℕ → ℝ) (j : ℕ) : ℝ :=
  Real.cos (tone fs f (msg.getD n false) * (n * k + j : ℕ)) + σ * y j

/-- Bit `n` of the comparison channel: wrong as soon as the amplitude of the right tone does not clear the margin. -/
noncomputable def shakyFsk (fs k : ℕ) (f σ δ : ℝ) (msg : List Bool) (n : ℕ) (y : Fin k → ℝ) : Bool :=
  if √(toneEnergy (tone fs f (msg.getD n false)) k (fskBlock fs k f σ msg n (fun j => if h : j < k then y ⟨j, h⟩ else 0)))
    ≤ √(toneEnergy (tone fs f (!(msg.getD n false))) k (fskBlock fs k f σ msg n (fun j => if h : j < k then y ⟨j, h⟩ else 0))) + δ
  then !(msg.getD n false) else msg.getD n false

theorem toneEnergy_congr {v : ℝ} {k : ℕ} {x y : ℕ → ℝ} (h : ∀ j < k, x j = y j) : toneEnergy v k x = toneEnergy v k y := by
  unfold toneEnergy
  congr 2 <;> exact Finset.sum_congr rfl fun j hj => by rw [h j (Finset.mem_range.mp hj)]

theorem shakyFsk_meas (fs k : ℕ) (f σ δ : ℝ) (msg : List Bool) (n : ℕ) : Measurable (shakyFsk fs k f σ δ msg n) := by
  have hg : ∀ j : ℕ, Measurable (fun y : Fin k → ℝ => fskBlock fs k f σ msg n (fun j => if h : j < k then y ⟨j, h⟩ else 0) j) := by
    intro j
    unfold fskBlock
    by_cases hj : j < k
    · simp only [hj, dif_pos]; fun_prop
    · simp only [hj, dif_neg, not_false_eq_true]; fun_prop
  have ht : ∀ v : ℝ, Measurable (fun y : Fin k → ℝ => √(toneEnergy v k (fskBlock fs k f σ msg n (fun j => if h : j < k then y ⟨j, h⟩ else 0)))) := by
    intro v
    refine Measurable.sqrt ?_
    unfold toneEnergy
    exact Measurable.add (Measurable.pow_const (Finset.measurable_fun_sum _ fun j _ => (hg j).mul_const _) _)
      (Measurable.pow_const (Finset.measurable_fun_sum _ fun j _ => (hg j).mul_const _) _)
  unfold shakyFsk
  exact Measurable.ite (measurableSet_le (ht _) ((ht _).add_const _)) measurable_const measurable_const

omit [MeasurableSpace Ω] in
theorem fskBlock_window {fs k : ℕ} {f σ : ℝ} {msg : List Bool} {n : ℕ} {ω : Ω} {v : ℝ} :
    toneEnergy v k (fskBlock fs k f σ msg n (fun j => if h : j < k then noiseBlock k z n ω ⟨j, h⟩ else 0))
      = toneEnergy v k (fskBlock fs k f σ msg n (fun j => z (n * k + j) ω)) :=
  toneEnergy_congr fun j hj => by simp only [fskBlock, hj, dif_pos]; rfl

theorem tones_bit {fs sym c : ℕ} (hsym : 0 < sym) (hc : 0 < c) (hdvd : sym ∣ fs) (hny : 41 * c * sym < fs) (b : Bool) :
    Tones (fs / sym) (tone fs ((20 * c * sym : ℕ) : ℝ) b) (tone fs ((20 * c * sym : ℕ) : ℝ) (!b)) := by
  cases b
  · exact (tones_fsk hsym hc hdvd hny).symm
  · exact tones_fsk hsym hc hdvd hny

/-- The amplitudes of one symbol. -/
theorem fsk_bounds (hz : White P 1 z) {σ : ℝ} (hσ : 0 < σ) {fs sym c : ℕ} (hsym : 0 < sym) (hc : 0 < c) (hdvd : sym ∣ fs)
    (hny : 41 * c * sym < fs) (msg : List Bool) (n : ℕ) {q l : ℝ} (hl : 0 < l) :
    (l < 1 → P.real {ω | √(toneEnergy (tone fs ((20 * c * sym : ℕ) : ℝ) (msg.getD n false)) (fs / sym)
          (fskBlock fs (fs / sym) ((20 * c * sym : ℕ) : ℝ) σ msg n (fun j => z (n * (fs / sym) + j) ω)))
        ≤ √(toneEnergy (tone fs ((20 * c * sym : ℕ) : ℝ) (!(msg.getD n false))) (fs / sym)
          (fskBlock fs (fs / sym) ((20 * c * sym : ℕ) : ℝ) σ msg n (fun j => z (n * (fs / sym) + j) ω))) + (fs / sym : ℕ) * q} ≤ fskHigh (fs / sym) σ q l) ∧
    fskLow (fs / sym) σ q l ≤ P.real {ω | √(toneEnergy (tone fs ((20 * c * sym : ℕ) : ℝ) (msg.getD n false)) (fs / sym)
          (fskBlock fs (fs / sym) ((20 * c * sym : ℕ) : ℝ) σ msg n (fun j => z (n * (fs / sym) + j) ω))) + (fs / sym : ℕ) * q
        ≤ √(toneEnergy (tone fs ((20 * c * sym : ℕ) : ℝ) (!(msg.getD n false))) (fs / sym)
          (fskBlock fs (fs / sym) ((20 * c * sym : ℕ) : ℝ) σ msg n (fun j => z (n * (fs / sym) + j) ω)))} := by
  have hsps : 0 < fs / sym := Nat.div_pos (Nat.le_of_dvd (by omega) hdvd) hsym
  have hkR : (0 : ℝ) < (fs / sym : ℕ) := by exact_mod_cast hsps
  have := Tones.margin (hz.scale σ) hσ hsps (tones_bit hsym hc hdvd hny (msg.getD n false)) (n * (fs / sym)) (n * (fs / sym))
    (δ := (fs / sym : ℕ) * q) hl
  rw [show ((fs / sym : ℕ) * q : ℝ) ^ 2 / ((fs / sym : ℕ) * σ ^ 2) = (fs / sym : ℕ) * q ^ 2 / σ ^ 2 by field_simp] at this
  exact this

omit [MeasurableSpace Ω] in
/-- The receiver in double precision: whenever no noise sample exceeds `Z`, it decides as the exact amplitudes say, unless they are within the margin. -/
theorem fsk_link {L : Libm} {Z η : ℝ} (hη : 0 ≤ η) {d : ℕ → Ω → FloatL L} (hd : Sampled Z η z d) [RIter ν (FloatL L)] {noise : Ω → ν}
    (hg : ∀ ω, Gives (noise ω) (fun i => d i ω)) {σ : FloatL L} (hf : F64.Fin σ) (hσ : 0 < val σ)
    [RIter ι Bool] {m : ι} {msg : List Bool} (hm : Yields m msg) {ε S : ℝ} (hε : ε ≤ 1 / 2 ^ 10) (hL : Accurate L ε (2 ^ 40)) {fs sym c : ℕ}
    (hfs : fs < 2 ^ 53) (hsym : 0 < sym) (hc : 0 < c) (hdvd : sym ∣ fs) (hny : 41 * c * sym < fs) (hlen : msg.length * (fs / sym) ≤ 2 ^ 30)
    (hZ : 0 ≤ Z) (hS : 3 + val σ * (Z + η) ≤ S) (hS2 : S ≤ 2 ^ 40) (ω : Ω) (hG : ∀ j < msg.length * (fs / sym), |z j ω| ≤ Z) :
    ∃ x : ℕ → Bool, (do
        let tx ← txFsk m fs sym (Flt.ofNat (20 * c * sym) : FloatL L)
        let ch ← awgn tx σ (noise ω)
        let rx ← rxFsk ch fs sym (Flt.ofNat (20 * c * sym))
        collect rx) = pure ((List.range msg.length).map x) ∧ ∀ n < msg.length,
      (fs / sym : ℕ) * fskLoss ε η (val σ) S
          ≤ |√(toneEnergy (tone fs ((20 * c * sym : ℕ) : ℝ) true) (fs / sym)
              (fskBlock fs (fs / sym) ((20 * c * sym : ℕ) : ℝ) (val σ) msg n (fun j => z (n * (fs / sym) + j) ω)))
            - √(toneEnergy (tone fs ((20 * c * sym : ℕ) : ℝ) false) (fs / sym)
              (fskBlock fs (fs / sym) ((20 * c * sym : ℕ) : ℝ) (val σ) msg n (fun j => z (n * (fs / sym) + j) ω)))| →
        x n = decide (toneEnergy (tone fs ((20 * c * sym : ℕ) : ℝ) false) (fs / sym)
            (fskBlock fs (fs / sym) ((20 * c * sym : ℕ) : ℝ) (val σ) msg n (fun j => z (n * (fs / sym) + j) ω))
          ≤ toneEnergy (tone fs ((20 * c * sym : ℕ) : ℝ) true) (fs / sym)
            (fskBlock fs (fs / sym) ((20 * c * sym : ℕ) : ℝ) (val σ) msg n (fun j => z (n * (fs / sym) + j) ω))) := by
  have hcs : 0 < c * sym := Nat.mul_pos hc hsym
  have hfs0 : 0 < fs := by omega
  have hny' : 41 * (c * sym) < fs := by rw [← Nat.mul_assoc]; exact hny
  have hle : 20 * c * sym ≤ 2 ^ 53 := by rw [Nat.mul_assoc]; omega
  obtain ⟨f1, f2⟩ := ofNat_exact hle
  have hsps : 0 < fs / sym := Nat.div_pos (Nat.le_of_dvd hfs0 hdvd) hsym
  have hkR : (0 : ℝ) < ((fs / sym : ℕ) : ℝ) := by exact_mod_cast hsps
  have hfc : val (Flt.ofNat (20 * c * sym) : FloatL L) = ((20 * c * sym : ℕ) : ℝ) := f2
  have f1 : F64.Fin (Flt.ofNat (20 * c * sym) : FloatL L) := f1
  have h1 : (1 : ℝ) ≤ ((20 * c * sym : ℕ) : ℝ) := by
    have : 1 ≤ 20 * c * sym := by rw [Nat.mul_assoc]; omega
    exact_mod_cast this
  have hlo : 1 / 2 ^ 90 ≤ val (Flt.ofNat (20 * c * sym) : FloatL L) := by rw [hfc]; exact le_trans (by norm_num) h1
  have hhi : val (Flt.ofNat (20 * c * sym) : FloatL L) ≤ fs / 2 := by
    rw [hfc, le_div_iff₀ (by norm_num)]
    have : 20 * c * sym * 2 ≤ fs := by rw [Nat.mul_assoc 20]; omega
    exact_mod_cast this
  have hε0 : 0 ≤ ε := (hL 0 fin_zero (by rw [val_zero]; norm_num)).1.nonneg
  have hb0 : 0 ≤ val σ * (Z + η) := by positivity
  have hση : 0 ≤ val σ * η := by positivity
  have hS1 : 1 ≤ S := by linarith
  obtain ⟨it, e1, e2⟩ := txFsk_ok hm (fc := (Flt.ofNat (20 * c * sym) : FloatL L)) hsps
  have hnear := C127_sent_fsk_close (fc := (Flt.ofNat (20 * c * sym) : FloatL L)) hL hm hfs hsps (by omega) f1 hlo hhi
    (by rw [e1, pure_bind, collect_of_yields e2])
  rw [hfc] at hnear
  have hcos : ∀ n i, |fadedFsk fs ((20 * c * sym : ℕ) : ℝ) msg (fun _ => 1) (fun _ => 0) n i| ≤ 1 := fun n i => by
    unfold fadedFsk; rw [one_mul]; exact Real.abs_cos_le_one _
  have hnoisy := noisy_near hnear (fun i _ => (hcos _ i).trans (by norm_num)) (by positivity)
    (by norm_num at hε ⊢; linarith) hη hf hσ.le hS hS1 (hS2.trans (pow_le_pow_right₀ (by norm_num) (by norm_num))) (d := fun i => d i ω) (t := fun i => z i ω)
    (fun i hi => ⟨hd i ω (hG i hi), hG i hi⟩)
  obtain ⟨ch, c1, c2⟩ := awgn_yields e2 (hg ω) (σ := σ) hf
  have hsz : ∀ i < msg.length * (fs / sym), |fadedFsk fs ((20 * c * sym : ℕ) : ℝ) msg (fun _ => 1) (fun _ => 0) (i / (fs / sym)) i + val σ * z i ω|
      + (ε + 1 / 2 ^ 14 + val σ * η + S / 2 ^ 48) ≤ S := fun i hi => by
    refine le_trans ?_ (noisy_size (ε := ε) hσ ((hcos (i / (fs / sym)) i).trans (by norm_num)) (hG i hi) hε hS hS2)
    norm_num; linarith
  obtain ⟨rx, r1, r2⟩ := rxFsk_wave (fc := (Flt.ofNat (20 * c * sym) : FloatL L)) hsps (c2.of_eq (list_wave (0 : FloatL L) hsps hnoisy.1))
  refine ⟨_, by rw [e1, pure_bind, c1, pure_bind, r1, pure_bind, collect_of_yields r2, ← mapIdx_range_self], fun n hn hbig => ?_⟩
  have hb : ∀ v, toneEnergy v (fs / sym) (fskBlock fs (fs / sym) ((20 * c * sym : ℕ) : ℝ) (val σ) msg n (fun j => z (n * (fs / sym) + j) ω))
      = toneEnergy v (fs / sym) (fun j => fadedFsk fs ((20 * c * sym : ℕ) : ℝ) msg (fun _ => 1) (fun _ => 0) n (n * (fs / sym) + j)
          + val σ * z (n * (fs / sym) + j) ω) := fun v => toneEnergy_congr fun j _ => by
    rw [fskBlock, fadedFsk, one_mul, add_zero, angle, tone]
    congr 2
    ring
  rw [hb, hb] at hbig ⊢
  have hnk : n + fs / sym ≤ 2 ^ 31 := by
    have h1 : fs / sym ≤ msg.length * (fs / sym) := Nat.le_mul_of_pos_left _ (by omega)
    have h2 : msg.length ≤ msg.length * (fs / sym) := Nat.le_mul_of_pos_right _ hsps
    omega
  refine rxFskChunk_amp hε hL hfs0 hfs hsps hnk f1 hlo hhi (w := tone fs ((20 * c * sym : ℕ) : ℝ)) (fun _ => by rw [hfc, tone])
    (S := S) (le_trans (one_div_le_one_div_of_le one_pos (one_le_pow₀ (by norm_num))) (by linarith))
    (hS2.trans (pow_le_pow_right₀ (by norm_num) (by norm_num))) (fun j hj => hnoisy.ap hn hj) (fun j hj => near_size
      (s := fun n i => fadedFsk fs ((20 * c * sym : ℕ) : ℝ) msg (fun _ => 1) (fun _ => 0) n i + val σ * z i ω) hsz hn hj) (lt_of_lt_of_le ?_ hbig)
  rw [mul_left_comm]
  refine mul_lt_mul_of_pos_left ?_ hkR
  unfold fskLoss
  have hSε : ε * 1 ≤ ε * S := mul_le_mul_of_nonneg_left hS1 hε0
  have : S * (ε + 1 / 2 ^ 13) = ε * S + S / 2 ^ 13 := by ring
  have : S * (2 * ε + 1 / 2 ^ 12) = 2 * (ε * S) + S / 2 ^ 12 := by ring
  norm_num at *
  linarith

theorem fskLoss_pos {ε η σ S : ℝ} (hε : 0 ≤ ε) (hη : 0 ≤ η) (hσ : 0 < σ) (hS : 1 ≤ S) : 0 < fskLoss ε η σ S := by
  unfold fskLoss; positivity

/-- **C148.** In double precision the link is no worse than a memoryless channel whose error probabilities are bounded by `fskHigh`, except when
a noise sample exceeds `Z`. -/
theorem C148_within (hz : White P 1 z) {L : Libm} {Z η : ℝ} (hZ : 0 ≤ Z) (hη : 0 ≤ η) {d : ℕ → Ω → FloatL L} (hd : Sampled Z η z d)
    [RIter ν (FloatL L)] {noise : Ω → ν} (hg : ∀ ω, Gives (noise ω) (fun i => d i ω)) {σ : FloatL L} (hf : F64.Fin σ) (hσ : 0 < val σ)
    [RIter ι Bool] {m : ι} {msg : List Bool} (hm : Yields m msg) {ε S : ℝ} (hε : ε ≤ 1 / 2 ^ 10) (hL : Accurate L ε (2 ^ 40)) {fs sym c : ℕ}
    (hfs : fs < 2 ^ 53) (hsym : 0 < sym) (hc : 0 < c) (hdvd : sym ∣ fs) (hny : 41 * c * sym < fs) (hlen : msg.length * (fs / sym) ≤ 2 ^ 30)
    (hS : 3 + val σ * (Z + η) ≤ S) (hS2 : S ≤ 2 ^ 40) :
    ∃ p : ℕ → ℝ, (∀ n l, 0 < l → l < 1 → p n ≤ fskHigh (fs / sym) (val σ) (fskLoss ε η (val σ) S) l) ∧
      Within P (fun ω => do
        let tx ← txFsk m fs sym (Flt.ofNat (20 * c * sym) : FloatL L)
        let ch ← awgn tx σ (noise ω)
        let rx ← rxFsk ch fs sym (Flt.ofNat (20 * c * sym))
        collect rx) msg p ((msg.length * (fs / sym) : ℕ) * Real.exp (-Z ^ 2 / 2)) := by
  have := hz.prob
  refine ⟨_, ?_, _, memoryless (k := fs / sym) hz.indep (fun i => (hz.gauss i).aemeasurable)
    (shakyFsk fs (fs / sym) ((20 * c * sym : ℕ) : ℝ) (val σ) ((fs / sym : ℕ) * fskLoss ε η (val σ) S) msg) (fun n => shakyFsk_meas _ _ _ _ _ _ _)
    (bits := fun ω => (List.range msg.length).map (fun n => shakyFsk fs (fs / sym) ((20 * c * sym : ℕ) : ℝ) (val σ)
      ((fs / sym : ℕ) * fskLoss ε η (val σ) S) msg n (noiseBlock (fs / sym) z n ω))) (fun ω => by simp)
    (fun ω n hn => by rw [List.getElem?_map, List.getElem?_range hn]; rfl),
    (measureReal_mono ?_ (measure_ne_top _ _)).trans (white_far hz hZ _)⟩
  · intro n l h0 h1
    refine le_trans (le_of_eq ?_) ((fsk_bounds hz hσ hsym hc hdvd hny msg n h0).1 h1)
    congr 1
    ext ω
    simp only [Set.mem_ofPred_eq, shakyFsk, fskBlock_window]
    split
    · rename_i h; simp only [h]; simp
    · rename_i h; simp only [h]; simp
  · intro ω hω hG
    obtain ⟨x, x1, x2⟩ := fsk_link hη hd hg hf hσ hm hε hL hfs hsym hc hdvd hny hlen hZ hS hS2 ω hG
    refine hω ⟨_, x1, by simp, fun n h => ?_⟩
    by_cases hn : n < msg.length
    · have hb : msg[n]? = some (msg.getD n false) := by
        rw [List.getD_eq_getElem?_getD, List.getElem?_eq_getElem hn]; rfl
      rw [hb, List.getElem?_map, List.getElem?_range hn, Option.map_some, Option.some.injEq] at h ⊢
      have hx := x2 n hn
      simp only [shakyFsk, fskBlock_window] at h
      generalize fskBlock fs (fs / sym) ((20 * c * sym : ℕ) : ℝ) (val σ) msg n (fun j => z (n * (fs / sym) + j) ω) = X at h hx
      generalize msg.getD n false = b at h ⊢
      split at h
      · cases b <;> simp at h
      · rename_i hc
        rw [not_le] at hc
        have hk0 : 0 ≤ (fs / sym : ℕ) * fskLoss ε η (val σ) S := by
          have hε0 : 0 ≤ ε := (hL 0 fin_zero (by rw [val_zero]; norm_num)).1.nonneg
          have : 0 ≤ val σ * (Z + η) := by positivity
          exact mul_nonneg (Nat.cast_nonneg _) (fskLoss_pos hε0 hη hσ (by linarith)).le
        cases b
        · rw [Bool.not_false] at hc
          rw [hx (by rw [abs_sub_comm]; exact (le_sub_iff_add_le'.mpr hc.le).trans (le_abs_self _)), decide_eq_false_iff_not, not_le]
          exact Real.sqrt_lt_sqrt_iff (by unfold toneEnergy; positivity) |>.mp (by linarith)
        · rw [Bool.not_true] at hc
          rw [hx ((le_sub_iff_add_le'.mpr hc.le).trans (le_abs_self _)), decide_eq_true_eq]
          exact Real.sqrt_le_sqrt_iff (by unfold toneEnergy; positivity) |>.mp (by linarith)
    · rw [List.getElem?_eq_none (by simpa using hn), List.getElem?_eq_none (by omega)]

/-- **C148, error rates.** A bit is wrong with a probability between `fskLow` and `fskHigh`, up to the remainder; so is the message. -/
theorem C148_fsk (hz : White P 1 z) {L : Libm} {Z η : ℝ} (hZ : 0 ≤ Z) (hη : 0 ≤ η) {d : ℕ → Ω → FloatL L} (hd : Sampled Z η z d)
    [RIter ν (FloatL L)] {noise : Ω → ν} (hg : ∀ ω, Gives (noise ω) (fun i => d i ω)) {σ : FloatL L} (hf : F64.Fin σ) (hσ : 0 < val σ)
    [RIter ι Bool] {m : ι} {msg : List Bool} (hm : Yields m msg) {ε S : ℝ} (hε : ε ≤ 1 / 2 ^ 10) (hL : Accurate L ε (2 ^ 40)) {fs sym c : ℕ}
    (hfs : fs < 2 ^ 53) (hsym : 0 < sym) (hc : 0 < c) (hdvd : sym ∣ fs) (hny : 41 * c * sym < fs) (hlen : msg.length * (fs / sym) ≤ 2 ^ 30)
    (hS : 3 + val σ * (Z + η) ≤ S) (hS2 : S ≤ 2 ^ 40) {l : ℝ} (h0 : 0 < l) (h1 : l < 1) {link : Ω → RM (List Bool)}
    (hlink : ∀ ω, link ω = (do
        let tx ← txFsk m fs sym (Flt.ofNat (20 * c * sym) : FloatL L)
        let ch ← awgn tx σ (noise ω)
        let rx ← rxFsk ch fs sym (Flt.ofNat (20 * c * sym))
        collect rx)) :
    (∀ n < msg.length,
      P.real {ω | ¬ Right (link ω) msg n} ≤ fskHigh (fs / sym) (val σ) (fskLoss ε η (val σ) S) l
        + (msg.length * (fs / sym) : ℕ) * Real.exp (-Z ^ 2 / 2) ∧
      fskLow (fs / sym) (val σ) (fskLoss ε η (val σ) S) l ≤ P.real {ω | Wrong (link ω) msg n}
        + (msg.length * (fs / sym) : ℕ) * Real.exp (-Z ^ 2 / 2)) ∧
    P.real {ω | link ω ≠ pure msg} ≤ msg.length * fskHigh (fs / sym) (val σ) (fskLoss ε η (val σ) S) l
      + (msg.length * (fs / sym) : ℕ) * Real.exp (-Z ^ 2 / 2) := by
  have := hz.prob
  obtain rfl : link = _ := funext hlink
  obtain ⟨p, hp, hw⟩ := C148_within hz hZ hη hd hg hf hσ hm hε hL hfs hsym hc hdvd hny hlen hS hS2
  refine ⟨fun n hn => ⟨?_, ?_⟩, ?_⟩
  · have h := C147_joint hw {n} (by simpa using hn)
    simp only [Finset.mem_singleton, forall_eq, Finset.prod_singleton] at h
    exact h.trans (add_le_add_left (hp n l h0 h1) _)
  · refine (fsk_bounds hz hσ hsym hc hdvd hny msg n h0).2.trans (real_cover le_rfl (white_far hz hZ _) fun ω hω => ?_)
    by_cases hG : ∀ j < msg.length * (fs / sym), |z j ω| ≤ Z
    · left
      obtain ⟨x, x1, x2⟩ := fsk_link hη hd hg hf hσ hm hε hL hfs hsym hc hdvd hny hlen hZ hS hS2 ω hG
      refine ⟨_, x1, by simp, ?_⟩
      have hb : msg[n]? = some (msg.getD n false) := by
        rw [List.getD_eq_getElem?_getD, List.getElem?_eq_getElem hn]; rfl
      rw [hb, List.getElem?_map, List.getElem?_range hn, Option.map_some, ne_eq, Option.some.injEq]
      have hx := x2 n hn
      rw [Set.mem_ofPred_eq] at hω
      have hk0 : 0 < (fs / sym : ℕ) * fskLoss ε η (val σ) S := by
        have hε0 : 0 ≤ ε := (hL 0 fin_zero (by rw [val_zero]; norm_num)).1.nonneg
        have : 0 ≤ val σ * (Z + η) := by positivity
        have hsps : 0 < fs / sym := Nat.div_pos (Nat.le_of_dvd (by omega) hdvd) hsym
        exact mul_pos (by exact_mod_cast hsps) (fskLoss_pos hε0 hη hσ (by linarith))
      generalize fskBlock fs (fs / sym) ((20 * c * sym : ℕ) : ℝ) (val σ) msg n (fun j => z (n * (fs / sym) + j) ω) = X at hω hx
      generalize msg.getD n false = b at hω ⊢
      cases b
      · rw [Bool.not_false] at hω
        rw [hx ((le_sub_iff_add_le'.mpr hω).trans (le_abs_self _)), Bool.not_eq_false, decide_eq_true_eq]
        exact Real.sqrt_le_sqrt_iff (by unfold toneEnergy; positivity) |>.mp (by linarith)
      · rw [Bool.not_true] at hω
        rw [hx (by rw [abs_sub_comm]; exact (le_sub_iff_add_le'.mpr hω).trans (le_abs_self _)), Bool.not_eq_true, decide_eq_false_iff_not, not_le]
        exact Real.sqrt_lt_sqrt_iff (by unfold toneEnergy; positivity) |>.mp (by linarith)
    · exact Or.inr hG
  · obtain ⟨bits, b1, b2⟩ := hw
    have hu : P.real {ω | bits ω ≠ msg} ≤ msg.length * fskHigh (fs / sym) (val σ) (fskLoss ε η (val σ) S) l := by
      have hsub : {ω | bits ω ≠ msg} ⊆ ⋃ n ∈ Finset.range msg.length, {ω | (bits ω)[n]? ≠ msg[n]?} := by
        intro ω hω
        by_contra hc
        refine hω (List.ext_getElem? fun n => ?_)
        by_cases hn : n < msg.length
        · by_contra hne
          exact hc (by simp only [Set.mem_iUnion, Finset.mem_range]; exact ⟨n, hn, hne⟩)
        · rw [List.getElem?_eq_none (by rw [b1.length]; omega), List.getElem?_eq_none (by omega)]
      refine (measureReal_mono hsub (measure_ne_top _ _)).trans ((measureReal_biUnion_finset_le _ _).trans ?_)
      refine (Finset.sum_le_sum (g := fun _ => fskHigh (fs / sym) (val σ) (fskLoss ε η (val σ) S) l) fun n hn => ?_).trans (by simp)
      refine le_trans (le_of_eq ?_) (hp n l h0 h1)
      have hn := Finset.mem_range.mp hn
      have e := b1.real_subset {n} (by simpa using hn) (fun n => !(msg.getD n false))
      have hb : msg[n]? = some (msg.getD n false) := by
        rw [List.getD_eq_getElem?_getD, List.getElem?_eq_getElem hn]; rfl
      simp only [Finset.mem_singleton, forall_eq, Finset.prod_singleton] at e
      rw [factor, if_neg (by rw [hb]; simp)] at e
      rw [← e]
      congr 1
      ext ω
      have hlt : n < (bits ω).length := by rw [b1.length]; exact hn
      simp only [Set.mem_ofPred_eq]
      rw [hb, List.getElem?_eq_getElem hlt, ne_eq, Option.some.injEq, Option.some.injEq]
      cases (bits ω)[n] <;> cases msg.getD n false <;> simp
    refine real_cover hu b2 fun ω hω => ?_
    by_cases hc : ∃ out, (do
        let tx ← txFsk m fs sym (Flt.ofNat (20 * c * sym) : FloatL L)
        let ch ← awgn tx σ (noise ω)
        let rx ← rxFsk ch fs sym (Flt.ofNat (20 * c * sym))
        collect rx) = pure out ∧ out.length = msg.length ∧ ∀ n : ℕ, (bits ω)[n]? = msg[n]? → out[n]? = msg[n]?
    · left
      obtain ⟨out, o1, o2, o3⟩ := hc
      intro hbm
      have hbm : bits ω = msg := hbm
      exact hω (o1.trans (congrArg _ (List.ext_getElem? fun n => o3 n (by rw [hbm]))))
    · exact Or.inr hc

/-- The code behind the link. -/
theorem C148_code (hz : White P 1 z) {L : Libm} {Z η : ℝ} (hZ : 0 ≤ Z) (hη : 0 ≤ η) {d : ℕ → Ω → FloatL L} (hd : Sampled Z η z d)
    [RIter ν (FloatL L)] {noise : Ω → ν} (hg : ∀ ω, Gives (noise ω) (fun i => d i ω)) {σ : FloatL L} (hf : F64.Fin σ) (hσ : 0 < val σ)
    [RIter ι Bool] {rs : RS} (hrs : rs.Contract) {m : ι} {msg enc : List Bool} (h : Yields m msg) (henc : Yields (bchStreamEncode rs m) enc)
    {ε S : ℝ} (hε : ε ≤ 1 / 2 ^ 10) (hL : Accurate L ε (2 ^ 40)) {fs sym c : ℕ}
    (hfs : fs < 2 ^ 53) (hsym : 0 < sym) (hc : 0 < c) (hdvd : sym ∣ fs) (hny : 41 * c * sym < fs) (hlen : enc.length * (fs / sym) ≤ 2 ^ 30)
    (hS : 3 + val σ * (Z + η) ≤ S) (hS2 : S ≤ 2 ^ 40) {l : ℝ} (h0 : 0 < l) (h1 : l < 1)
    (hq : fskHigh (fs / sym) (val σ) (fskLoss ε η (val σ) S) l ≤ 1) :
    ∃ pad, pad < 8 ∧ (msg.length + pad) % 8 = 0 ∧
      P.real {ω | (do
          let tx ← txFsk (bchStreamEncode rs m) fs sym (Flt.ofNat (20 * c * sym) : FloatL L)
          let ch ← awgn tx σ (noise ω)
          let rx ← rxFsk ch fs sym (Flt.ofNat (20 * c * sym))
          let out ← collect rx
          collect (bchStreamDecode rs (ofList out))) ≠ pure (msg ++ List.replicate pad false)}
        ≤ 220 * ((msg.length + 55) / 56 : ℕ) * (1 - (1 - fskHigh (fs / sym) (val σ) (fskLoss ε η (val σ) S) l) ^ 8) ^ 3
          + (enc.length * (fs / sym) : ℕ) * Real.exp (-Z ^ 2 / 2) := by
  have := hz.prob
  obtain ⟨p, hp, hw⟩ := C148_within hz hZ hη hd hg hf hσ henc hε hL hfs hsym hc hdvd hny hlen hS hS2
  obtain ⟨pad, p1, p2, p3⟩ := C147_code hrs h henc hw (fun n _ => hp n l h0 h1) hq
  refine ⟨pad, p1, p2, ?_⟩
  simpa only [bind_assoc] using p3

/-- Both bounds come down to the textbook rate of the exact link as the margin for rounding vanishes. -/
theorem C148_limit {k : ℕ} {σ : ℝ} (hσ : 0 < σ) :
    Filter.Tendsto (fun q => fskHigh k σ q q) (nhdsWithin 0 (Set.Ioi 0)) (nhds (envelopeError (k / 2) σ)) ∧
    Filter.Tendsto (fun q => fskLow k σ q q) (nhdsWithin 0 (Set.Ioi 0)) (nhds (envelopeError (k / 2) σ)) := by
  have hv : (0 : ℝ) < σ ^ 2 := by positivity
  constructor
  · have hc : ContinuousAt (fun q : ℝ => Real.exp ((1 - q) * (k * q / σ ^ 2) - (1 - q) / (2 - q) * (k / (4 * σ ^ 2))) / (2 - q)) 0 := by
      have : ContinuousAt (fun q : ℝ => (1 - q) / (2 - q)) 0 := ContinuousAt.div (by fun_prop) (by fun_prop) (by norm_num)
      refine ContinuousAt.div (Real.continuous_exp.continuousAt.comp (ContinuousAt.sub (by fun_prop) (this.mul_const _))) (by fun_prop) (by norm_num)
    have h := hc.tendsto.mono_left (nhdsWithin_le_nhds (s := Set.Ioi 0))
    rw [show Real.exp ((1 - (0 : ℝ)) * (k * 0 / σ ^ 2) - (1 - 0) / (2 - 0) * (k / (4 * σ ^ 2))) / (2 - 0) = envelopeError (k / 2) σ by
      unfold envelopeError; congr 2 <;> ring_nf] at h
    refine h.congr' ?_
    filter_upwards [self_mem_nhdsWithin] with q hq
    have hq : 0 < q := hq
    unfold fskHigh
    congr 3
    field_simp
  · have hc : ContinuousAt (fun q : ℝ => Real.exp (-((1 + q) * (k * q / σ ^ 2)) - (1 + q) / (2 + q) * (k / (4 * σ ^ 2))) / (2 + q)) 0 := by
      have : ContinuousAt (fun q : ℝ => (1 + q) / (2 + q)) 0 := ContinuousAt.div (by fun_prop) (by fun_prop) (by norm_num)
      refine ContinuousAt.div (Real.continuous_exp.continuousAt.comp (ContinuousAt.sub (by fun_prop) (this.mul_const _))) (by fun_prop) (by norm_num)
    have h := hc.tendsto.mono_left (nhdsWithin_le_nhds (s := Set.Ioi 0))
    rw [show Real.exp (-((1 + (0 : ℝ)) * (k * 0 / σ ^ 2)) - (1 + 0) / (2 + 0) * (k / (4 * σ ^ 2))) / (2 + 0) = envelopeError (k / 2) σ by
      unfold envelopeError; congr 2 <;> ring_nf] at h
    refine h.congr' ?_
    filter_upwards [self_mem_nhdsWithin] with q hq
    have hq : 0 < q := hq
    unfold fskLow
    congr 3
    field_simp

theorem fskHigh_64 : fskHigh 64 1 (fskLoss (1 / 2 ^ 52) (10 / 2 ^ 52) 1 16) (1 / 16) ≤ Real.exp (-7) := by
  unfold fskHigh
  refine (div_le_self (Real.exp_nonneg _) (by norm_num)).trans (Real.exp_le_exp.mpr ?_)
  unfold fskLoss
  norm_num

/-- 64 samples per symbol, tones of 19.5 and 20.5 kHz, noise of deviation one, all in doubles: a bit is wrong less than once in a thousand. -/
example : ∀ n < 3, (gaussPath 1).real {ω | ¬ Right (do
      let tx ← txFsk (ofList [true, false, true]) 64000 1000 (Flt.ofNat 20000 : FloatL Libm.rounded)
      let ch ← awgn tx (1 : FloatL Libm.rounded) (rounded ω)
      let rx ← rxFsk ch 64000 1000 (Flt.ofNat 20000)
      collect rx) [true, false, true] n} ≤ Real.exp (-7) + 192 * Real.exp (-50) := by
  intro n hn
  have h := ((C148_fsk (white_path 1) (Z := 10) (by norm_num) (by norm_num) sampled_rounded rounded_gives (σ := (1 : FloatL Libm.rounded)) fin_one
    (by rw [val_float_one]; norm_num) (yields_ofList [true, false, true]) (ε := 1 / 2 ^ 52) (S := 16) (by norm_num) (accurate_rounded _)
    (fs := 64000) (sym := 1000) (c := 1) (by norm_num) (by norm_num) (by norm_num) (by norm_num) (by norm_num) (by norm_num)
    (by rw [val_float_one]; norm_num) (by norm_num) (l := 1 / 16) (by norm_num) (by norm_num) (fun ω => rfl)).1 n hn).1
  rw [val_float_one] at h
  refine h.trans (add_le_add fskHigh_64 (le_of_eq ?_))
  norm_num

/-- And at least once in thirty thousand. -/
example : Real.exp (-9) / 3 ≤ fskLow 64 1 (fskLoss (1 / 2 ^ 52) (10 / 2 ^ 52) 1 16) (1 / 16) := by
  unfold fskLow
  refine div_le_div₀ (Real.exp_nonneg _) (Real.exp_le_exp.mpr ?_) (by norm_num) (by norm_num)
  unfold fskLoss
  norm_num

/-- Nine bits behind the code on the same link. -/
example : ∃ pad, pad < 8 ∧ ([true, false, true, true, false, true, true, true, true].length + pad) % 8 = 0 ∧
    (gaussPath 1).real {ω | (do
        let tx ← txFsk (bchStreamEncode rsIdeal (ofList [true, false, true, true, false, true, true, true, true])) 64000 1000
          (Flt.ofNat 20000 : FloatL Libm.rounded)
        let ch ← awgn tx (1 : FloatL Libm.rounded) (rounded ω)
        let rx ← rxFsk ch 64000 1000 (Flt.ofNat 20000)
        let out ← collect rx
        collect (bchStreamDecode rsIdeal (ofList out))) ≠ pure ([true, false, true, true, false, true, true, true, true] ++ List.replicate pad false)} ≤
      220 * (1 - (1 - fskHigh 64 1 (fskLoss (1 / 2 ^ 52) (10 / 2 ^ 52) 1 16) (1 / 16)) ^ 8) ^ 3 + 6144 * Real.exp (-50) := by
  obtain ⟨enc, henc⟩ : ∃ enc, Yields (bchStreamEncode rsIdeal (ofList [true, false, true, true, false, true, true, true, true])) enc :=
    ⟨_, bchEncode_yields rsIdeal_contract (yields_ofList _)⟩
  obtain ⟨-, hl⟩ := enc_length rsIdeal_contract (yields_ofList [true, false, true, true, false, true, true, true, true]) henc
  have hl : enc.length ≤ 96 := by simp only [List.length_cons, List.length_nil] at hl; omega
  have h := C148_code (white_path 1) (Z := 10) (by norm_num) (by norm_num) sampled_rounded rounded_gives (σ := (1 : FloatL Libm.rounded)) fin_one
    (by rw [val_float_one]; norm_num) rsIdeal_contract (yields_ofList _) henc (ε := 1 / 2 ^ 52) (S := 16) (by norm_num) (accurate_rounded _)
    (fs := 64000) (sym := 1000) (c := 1) (by norm_num) (by norm_num) (by norm_num) (by norm_num) (by norm_num) (by omega)
    (by rw [val_float_one]; norm_num) (by norm_num) (l := 1 / 16) (by norm_num) (by norm_num)
    (by rw [val_float_one]; exact fskHigh_64.trans (Real.exp_le_one_iff.mpr (by norm_num)))
  rw [val_float_one] at h
  obtain ⟨pad, p1, p2, p3⟩ := h
  refine ⟨pad, p1, p2, p3.trans (add_le_add (le_of_eq (by norm_num)) ?_)⟩
  rw [show -(10 : ℝ) ^ 2 / 2 = -50 by norm_num]
  refine mul_le_mul_of_nonneg_right ?_ (Real.exp_pos _).le
  have : enc.length * (64000 / 1000) ≤ 6144 := by omega
  exact_mod_cast this
end Verif.Props
