import Verif.Lemmas.IeeeNoise
import Verif.Lemmas.GaussEnd
import Verif.F64.Dft
/-!
# C143: the error rate of a link that runs in double precision
-/
namespace Verif.Props
open Verif Spec F64 MeasureTheory ProbabilityTheory
variable {Ω : Type} [MeasurableSpace Ω] {P : Measure Ω} {z : ℕ → Ω → ℝ} {ι κ ν : Type}

/-- The doubles `d` of a generator follow the Gaussian samples `z`: a sample of at most `Z` is met to `η`. Nothing is said about the
doubles beyond `Z`. -/
def Sampled {L : Libm} (Z η : ℝ) (z : ℕ → Ω → ℝ) (d : ℕ → Ω → FloatL L) : Prop :=
  ∀ i ω, |z i ω| ≤ Z → F64.Fin (d i ω) ∧ |val (d i ω) - z i ω| ≤ η

/-- What rounding may take from the amplitude one half of the correlation, per sample. -/
noncomputable def loss (ε η σ S : ℝ) : ℝ := σ * η + S * (3 * ε + 1 / 2 ^ 12)

theorem radio_eps {L : Libm} {ε : ℝ} {fs k N : ℕ} {fc : FloatL L} {S : ℝ} (h : Radio L ε fs k N fc S) : 0 ≤ ε :=
  (abs_nonneg _).trans (h.acc 0 fin_zero (by rw [val_zero]; norm_num)).1.2

theorem radio_carrier' {L : Libm} {ε : ℝ} {fs k N : ℕ} {fc : FloatL L} {S : ℝ} (h : Radio L ε fs k N fc S) {n j : ℕ} (hn : n < N)
    (hj : j < k) :
    Ap (L.cos (phase fs fc (n * k + j))) (Real.cos (angle fs (val fc) (n * k + j))) (ε + 1 / 2 ^ 15) ∧
    Ap (L.sin (phase fs fc (n * k + j))) (Real.sin (angle fs (val fc) (n * k + j))) (ε + 1 / 2 ^ 15) := by
  have hnk : n * k + k ≤ N * k := by
    calc n * k + k = (n + 1) * k := by ring
      _ ≤ N * k := Nat.mul_le_mul_right k hn
  have hlen := h.len
  rw [angle_dphi]
  exact carrier_near (L := L) (fc := fc) h.acc (i := n * k + j) (radio_fs h) h.fs_lt (by omega) h.fin h.lo h.hi

/-- The wave of the BPSK modulator. -/
theorem bpsk_wave {L : Libm} {ε S : ℝ} {fs k : ℕ} {fc : FloatL L} {msg : List Bool} (h : Radio L ε fs k msg.length fc S) :
    NearRecording (2 * ε + 1 / 2 ^ 13) (wave k (fun n b j => bitToNrz b * Flt.cos (phase fs fc (n * k + j))) msg : List (FloatL L)) msg.length k
      (fadedBpsk fs (val fc) msg (fun _ => 1) (fun _ => 0)) := by
  have h0 := radio_eps h
  apply wave_near h.k_pos
  intro n b j hb hj
  have hn : n < msg.length := by
    by_contra hc
    rw [List.getElem?_eq_none (by omega)] at hb
    exact absurd hb (by simp)
  rw [fadedBpsk, List.getD_eq_getElem?_getD, hb, Option.getD_some, add_zero, one_mul]
  exact (ap_signed (radio_carrier' h hn hj).1 b).mono (by norm_num; linarith)

/-- The wave of the QPSK modulator. -/
theorem qpsk_wave {L : Libm} {ε S : ℝ} {fs k : ℕ} {fc : FloatL L} {msg : List Bool} (h : Radio L ε fs k (msg.length / 2) fc S) :
    NearRecording (2 * ε + 1 / 2 ^ 13) (wave k (fun n (p : Bool × Bool) j =>
        bitToNrz p.1 * Flt.cos (phase fs fc (n * k + j)) + -(bitToNrz p.2) * Flt.sin (phase fs fc (n * k + j))) (pairs msg) : List (FloatL L))
      (msg.length / 2) k (fadedQpsk fs (val fc) msg (fun _ => 1) (fun _ => 0)) := by
  have h0 := radio_eps h
  have h1 := h.small
  rw [← pairs_length]
  apply wave_near h.k_pos
  intro n b j hb hj
  have hn : n < msg.length / 2 := by
    by_contra hc
    rw [List.getElem?_eq_none (by rw [pairs_length]; omega)] at hb
    exact absurd hb (by simp)
  rw [pairs_getElem? _ _ hn, Option.some.injEq] at hb
  subst hb
  rw [fadedQpsk, List.getD_eq_getElem?_getD, List.getD_eq_getElem?_getD,
    List.getElem?_eq_getElem (show 2 * n < msg.length by omega), List.getElem?_eq_getElem (show 2 * n + 1 < msg.length by omega),
    Option.getD_some, Option.getD_some, add_zero, one_mul, sub_eq_add_neg, ← neg_mul]
  obtain ⟨c, s⟩ := radio_carrier' h hn hj
  have hC := Real.abs_cos_le_one (angle fs (val fc) (n * k + j))
  have hS := Real.abs_sin_le_one (angle fs (val fc) (n * k + j))
  have ht := tiny_le (k := 60) (by norm_num)
  refine ((c.nrz_mul _).add (s.neg_nrz_mul _) (R := 2) ?_ (le_big (k := 3) (by norm_num) (by norm_num at h1 ⊢; linarith))).mono ?_
  · refine (abs_add_le _ _).trans ?_
    rw [abs_mul, abs_mul, abs_neg, abs_sg, abs_sg]; linarith
  · rw [uu_eq]
    norm_num at ht h1 ⊢
    linarith

/-- The noisy recording. -/
theorem noisy_near {L : Libm} {a : List (FloatL L)} {N k : ℕ} {s : ℕ → ℕ → ℝ} {τ η Z S : ℝ} {σ : FloatL L} (h : NearRecording τ a N k s)
    (hs : ∀ i < N * k, |s (i / k) i| ≤ 2) (hτ0 : 0 ≤ τ) (hτ : τ ≤ 1) (hη : 0 ≤ η) (hf : F64.Fin σ) (h0 : 0 ≤ val σ)
    (hS : 3 + val σ * (Z + η) ≤ S) (h1 : 1 ≤ S) (h2 : S ≤ 2 ^ 900) {d : ℕ → FloatL L} {t : ℕ → ℝ}
    (hd : ∀ i < N * k, Ap (d i) (t i) η ∧ |t i| ≤ Z) :
    NearRecording (τ + val σ * η + S / 2 ^ 48) (a.mapIdx (fun i x => x + (0 + σ * d i))) N k (fun n i => s n i + val σ * t i) := by
  refine ⟨by rw [List.length_mapIdx]; exact h.1, fun i hi => ?_⟩
  obtain ⟨x, e1, e2, e3⟩ := h.2 i hi
  obtain ⟨d1, d2⟩ := hd i hi
  refine ⟨x + (0 + σ * d i), by rw [List.getElem?_mapIdx, e1]; rfl, ?_⟩
  refine awgn_sample (x := x) (σ := σ) ⟨e2, e3⟩ d1 hf h0 hη hτ0 ?_ h1 h2
  have := mul_le_mul_of_nonneg_left d2 h0
  have := hs i hi
  rw [mul_add] at hS ⊢
  linarith

/-- The correlation of signal and noise. -/
theorem corr_split {k n : ℕ} (s : ℕ → ℕ → ℝ) (t g : ℕ → ℝ) (σ : ℝ) :
    ∑ j ∈ Finset.range k, (s n (n * k + j) + σ * t (n * k + j)) * g (n * k + j) =
      ∑ j ∈ Finset.range k, s n (n * k + j) * g (n * k + j) +
        σ * ∑ i ∈ Finset.range (n * k + k), (if n * k ≤ i then g i else 0) * t i := by
  rw [Finset.sum_range_add, Finset.sum_eq_zero (s := Finset.range (n * k)), zero_add, Finset.mul_sum, ← Finset.sum_add_distrib]
  · refine Finset.sum_congr rfl fun j _ => ?_
    rw [if_pos (Nat.le_add_right _ _)]; ring
  · intro i hi
    rw [if_neg (by rw [Finset.mem_range] at hi; omega), zero_mul]

theorem window_energy {k n : ℕ} (g : ℕ → ℝ) :
    ∑ i ∈ Finset.range (n * k + k), (if n * k ≤ i then g i else 0) ^ 2 = ∑ j ∈ Finset.range k, g (n * k + j) ^ 2 := by
  rw [Finset.sum_range_add, Finset.sum_eq_zero (s := Finset.range (n * k)), zero_add]
  · refine Finset.sum_congr rfl fun j _ => ?_
    rw [if_pos (Nat.le_add_right _ _)]
  · intro i hi
    rw [if_neg (by rw [Finset.mem_range] at hi; omega)]; norm_num

/-- The margin of C86 is within the loss. -/
theorem margin_loss {ε η σ S : ℝ} (h1 : 1 ≤ S) (hε : 0 ≤ ε) :
    2 * ε + 1 / 2 ^ 13 + σ * η + S / 2 ^ 48 + S * (ε + 1 / 2 ^ 14) ≤ loss ε η σ S := by
  unfold loss
  norm_num
  nlinarith

/-- The guard of the BPSK modulator. -/
theorem isInt_div_float {L : Libm} {fs sym : ℕ} (hfs : fs < 2 ^ 53) (hd : sym ∣ fs) (hk : 0 < fs / sym) :
    isInt (Flt.ofNat fs / Flt.ofNat sym : FloatL L) = true := by
  obtain ⟨q, rfl⟩ := hd
  have hs : 0 < sym := Nat.pos_of_ne_zero (by rintro rfl; simp at hk)
  have hq : 0 < q := by rwa [Nat.mul_div_cancel_left _ hs] at hk
  have hl : sym ≤ sym * q := Nat.le_mul_of_pos_right _ hq
  have hl2 : q ≤ sym * q := Nat.le_mul_of_pos_left _ hs
  obtain ⟨f1, v1⟩ := ofNat_exact (n := sym * q) hfs.le
  obtain ⟨f2, v2⟩ := ofNat_exact (n := sym) (by omega)
  have hs' : (0 : ℝ) < sym := by exact_mod_cast hs
  have e : rnd (val (F64.ofNat (sym * q)) / val (F64.ofNat sym)) = (q : ℝ) := by
    rw [v1, v2]; push_cast; rw [mul_div_cancel_left₀ _ hs'.ne']
    exact rnd_of_isF (isF_nat (by omega))
  obtain ⟨f3, v3⟩ := ofNat_exact (n := q) (by omega)
  obtain ⟨g1, g2⟩ := div_val f1 f2 (by rw [v2]; exact hs'.ne') (by rw [e, ← v3]; exact abs_val_lt _)
  exact (isInt_iff _).mpr ⟨g1, q, by omega, g2.trans e⟩

/-- The link returns a message of the right length whose bit `n` is right. -/
def Right (r : RM (List Bool)) (msg : List Bool) (n : ℕ) : Prop := ∃ bits, r = pure bits ∧ bits.length = msg.length ∧ bits[n]? = msg[n]?

/-- The link returns a message of the right length whose bit `n` is wrong. -/
def Wrong (r : RM (List Bool)) (msg : List Bool) (n : ℕ) : Prop := ∃ bits, r = pure bits ∧ bits.length = msg.length ∧ bits[n]? ≠ msg[n]?

/-- From the margin of one decision to its error rate. -/
theorem link_core (hz : White P 1 z) {Z σ : ℝ} (hZ : 0 ≤ Z) (hσ : 0 < σ) {k N M : ℕ} (hk : 0 < k) {link : Ω → RM (List Bool)} {msg : List Bool}
    {i : ℕ} (hi : i < msg.length) {c : ℕ → ℝ} (hc : ∑ j ∈ Finset.range M, c j ^ 2 = (k : ℝ) / 2) {a A : ℝ} (hA0 : 0 ≤ A) (hA : A ≤ a)
    (ha : a ≤ 1 / 2)
    (h : ∀ ω, (∀ j < N * k, |z j ω| ≤ Z) → ∃ bits x, link ω = pure bits ∧ bits.length = msg.length ∧ bits[i]? = some x ∧
      (k * A < |k / 2 * pm (msg.getD i false) + σ * proj M c z ω| → x = decide (0 < k / 2 * pm (msg.getD i false) + σ * proj M c z ω))) :
    P.real {ω | ¬ Right (link ω) msg i} ≤ bitError (k / 2 * (1 - 2 * a) ^ 2) σ + (N * k : ℕ) * Real.exp (-Z ^ 2 / 2) ∧
    bitError (k / 2 * (1 + 2 * a) ^ 2) σ ≤ P.real {ω | Wrong (link ω) msg i} + (N * k : ℕ) * Real.exp (-Z ^ 2 / 2) := by
  have hk' : (0 : ℝ) < k := by exact_mod_cast hk
  have hkA : k * A ≤ k * a := mul_le_mul_of_nonneg_left hA hk'.le
  have hkA0 : 0 ≤ k * A := by positivity
  have hb : msg[i]? = some (msg.getD i false) := by
    rw [List.getD_eq_getElem?_getD, List.getElem?_eq_getElem hi, Option.getD_some]
  have hfar := white_far hz hZ (N * k)
  obtain ⟨c1, c2⟩ := margin_core hz hσ hk hc (hA0.trans hA) ha (msg.getD i false) (G := {ω | ∀ j < N * k, |z j ω| ≤ Z})
    (W := {ω | ¬ Right (link ω) msg i}) (V := {ω | Wrong (link ω) msg i}) (by
      intro ω hG hm hW
      obtain ⟨bits, x, l1, l2, l3, l4⟩ := h ω hG
      refine hW ⟨bits, l1, l2, ?_⟩
      rw [l3, hb, Option.some.injEq]
      generalize k / 2 * pm (msg.getD i false) + σ * proj M c z ω = X at hm l4
      generalize msg.getD i false = b at hm
      cases b
      · simp only [pm, Bool.false_eq_true, if_false] at hm
        rw [l4 (lt_abs.mpr (.inr (by linarith)))]
        exact decide_eq_false (by linarith)
      · simp only [pm, if_true] at hm
        rw [l4 (lt_abs.mpr (.inl (by linarith)))]
        exact decide_eq_true (by linarith)) (by
      intro ω hG hm
      obtain ⟨bits, x, l1, l2, l3, l4⟩ := h ω hG
      refine ⟨bits, l1, l2, ?_⟩
      rw [l3, hb, ne_eq, Option.some.injEq]
      generalize k / 2 * pm (msg.getD i false) + σ * proj M c z ω = X at hm l4
      generalize msg.getD i false = b at hm
      cases b
      · simp only [pm, Bool.false_eq_true, if_false] at hm
        rw [l4 (lt_abs.mpr (.inl (by linarith))), decide_eq_true (by linarith : 0 < X)]
        decide
      · simp only [pm, if_true] at hm
        rw [l4 (lt_abs.mpr (.inr (by linarith))), decide_eq_false (by linarith : ¬ 0 < X)]
        decide)
  exact ⟨c1.trans (by linarith), c2.trans (by linarith)⟩

theorem cos_window {fs k : ℕ} {f : ℝ} (hk : 0 < k) (hw : WholeHalf fs k f) (n : ℕ) :
    ∑ j ∈ Finset.range k, Real.cos (angle fs f (n * k + j)) ^ 2 = (k : ℝ) / 2 ∧
    ∑ j ∈ Finset.range k, Real.sin (angle fs f (n * k + j)) ^ 2 = (k : ℝ) / 2 := by
  obtain ⟨p, h1, h2⟩ := hw.dphi hk
  simp only [angle_dphi]
  exact ⟨sum_cos_sq_half h1 h2 _, sum_sin_sq_half h1 h2 _⟩

theorem chip_mul_sq (x : ℝ) (key : List Bool) (k i : ℕ) : (x * chip key k i) ^ 2 = x ^ 2 := by
  rw [mul_pow, pow_two (chip key k i), show chip key k i * chip key k i = 1 from pm_sq _, mul_one]

/-- Noise under the chips. -/
theorem chip_out {s : ℕ → ℕ → ℝ} {t : ℕ → ℝ} {σ : ℝ} {key : List Bool} {k : ℕ} :
    (fun n i => s n i * chip key k i + σ * t i) = fun n i => (s n i + σ * (t i * chip key k i)) * chip key k i := by
  funext n i
  have : chip key k i * chip key k i = 1 := pm_sq _
  linear_combination (-σ * t i) * this

theorem corr_chip {k n : ℕ} (s : ℕ → ℕ → ℝ) (t g : ℕ → ℝ) (σ : ℝ) (key : List Bool) :
    ∑ j ∈ Finset.range k, (s n (n * k + j) + σ * (t (n * k + j) * chip key k (n * k + j))) * g (n * k + j) =
      ∑ j ∈ Finset.range k, s n (n * k + j) * g (n * k + j) +
        σ * ∑ i ∈ Finset.range (n * k + k), (if n * k ≤ i then g i * chip key k i else 0) * t i := by
  rw [corr_split s (fun i => t i * chip key k i) g σ]
  congr 2
  refine Finset.sum_congr rfl fun i _ => ?_
  split <;> ring

theorem noisy_size {ε η σ Z S x t : ℝ} (hσ : 0 < σ) (hx : |x| ≤ 2) (ht : |t| ≤ Z) (hε : ε ≤ 1 / 2 ^ 10) (hS : 3 + σ * (Z + η) ≤ S)
    (hS2 : S ≤ 2 ^ 40) : |x + σ * t| + (2 * ε + 1 / 2 ^ 13 + σ * η + S / 2 ^ 48) ≤ S := by
  have s3 := mul_le_mul_of_nonneg_left ht hσ.le
  have s4 : |σ * t| = σ * |t| := by rw [abs_mul, abs_of_pos hσ]
  refine le_trans (add_le_add_left ((abs_add_le _ _).trans (add_le_add hx s4.le)) _) ?_
  rw [mul_add] at hS
  norm_num at hε hS2 ⊢
  linarith

theorem pair_bits {N : ℕ} (x y : ℕ → Bool) {n : ℕ} (hn : n < N) :
    ((List.range N).flatMap (fun n => [x n, y n]))[2 * n]? = some (x n) ∧
    ((List.range N).flatMap (fun n => [x n, y n]))[2 * n + 1]? = some (y n) ∧
    ((List.range N).flatMap (fun n => [x n, y n])).length = 2 * N := by
  have hlen : ∀ M, ((List.range M).flatMap (fun n => [x n, y n])).length = 2 * M := by
    intro M
    induction M with
    | zero => rfl
    | succ M ih => rw [List.range_succ, List.flatMap_append, List.length_append, ih]; simp; ring
  refine ⟨?_, ?_, hlen N⟩
  · induction N with
    | zero => omega
    | succ M ih =>
      rw [List.range_succ, List.flatMap_append]
      rcases Nat.lt_succ_iff_lt_or_eq.mp hn with h | rfl
      · rw [List.getElem?_append_left (by rw [hlen]; omega)]; exact ih h
      · rw [List.getElem?_append_right (by rw [hlen]), hlen]; simp
  · induction N with
    | zero => omega
    | succ M ih =>
      rw [List.range_succ, List.flatMap_append]
      rcases Nat.lt_succ_iff_lt_or_eq.mp hn with h | rfl
      · rw [List.getElem?_append_left (by rw [hlen]; omega)]; exact ih h
      · rw [List.getElem?_append_right (by rw [hlen]; omega), hlen, Nat.add_sub_cancel_left]; simp

/-- **C143, BPSK.** Modulator, `awgn` and receiver all run in double precision; the generator's doubles follow white Gaussian samples to `η`
as far as `Z`. Every bit is then wrong with the textbook probability, up to a change of the amplitude by `loss` and the chance
that some sample of the recording exceeds `Z`. -/
theorem C143_bpsk (hz : White P 1 z) {L : Libm} {Z η : ℝ} (hZ : 0 ≤ Z) (hη : 0 ≤ η) {d : ℕ → Ω → FloatL L} (hd : Sampled Z η z d)
    [RIter ν (FloatL L)] {noise : Ω → ν} (hg : ∀ ω, Gives (noise ω) (fun i => d i ω)) {σ : FloatL L} (hf : F64.Fin σ) (hσ : 0 < val σ)
    [RIter ι Bool] {m : ι} {msg : List Bool} (hm : Yields m msg) {ε S : ℝ} {fs sym : ℕ} {fc : FloatL L}
    (hr : Radio L ε fs (fs / sym) msg.length fc S) (hdvd : sym ∣ fs) (hw : WholeHalf fs (fs / sym) (val fc))
    (hS : 3 + val σ * (Z + η) ≤ S) (hS2 : S ≤ 2 ^ 40) (hl : loss ε η (val σ) S ≤ 1 / 2) {n : ℕ} (hn : n < msg.length) :
    P.real {ω | ¬ Right (do
        let tx ← txBpsk m fs sym fc
        let ch ← awgn tx σ (noise ω)
        let rx ← rxBpsk ch fs sym fc
        collect rx) msg n} ≤
      bitError ((fs / sym : ℕ) / 2 * (1 - 2 * loss ε η (val σ) S) ^ 2) (val σ) + (msg.length * (fs / sym) : ℕ) * Real.exp (-Z ^ 2 / 2) ∧
    bitError ((fs / sym : ℕ) / 2 * (1 + 2 * loss ε η (val σ) S) ^ 2) (val σ) ≤
      P.real {ω | Wrong (do
        let tx ← txBpsk m fs sym fc
        let ch ← awgn tx σ (noise ω)
        let rx ← rxBpsk ch fs sym fc
        collect rx) msg n} + (msg.length * (fs / sym) : ℕ) * Real.exp (-Z ^ 2 / 2) := by
  have hε := radio_eps hr
  have hε2 := hr.small
  have hk := hr.k_pos
  have hb0 : 0 ≤ val σ * (Z + η) := by positivity
  have hση : 0 ≤ val σ * η := by positivity
  have h1 : 1 ≤ S := by linarith
  have hcar : Flt.toNat fc ≤ fs / 2 := by
    have htn : Flt.toNat fc = min ⌊val fc⌋₊ (2 ^ 64 - 1) := toNat_val hr.fin
    have h2 : ⌊val fc⌋₊ ≤ ⌊(fs : ℝ) / 2⌋₊ := Nat.floor_le_floor hr.hi
    have h3 : ⌊(fs : ℝ) / 2⌋₊ = fs / 2 := by simpa using Nat.floor_div_natCast (fs : ℝ) 2
    omega
  obtain ⟨it, e1, e2⟩ := txBpsk_ok hm (fc := fc) hk hcar (isInt_div_float hr.fs_lt hdvd hk)
  refine link_core hz hZ hσ (M := n * (fs / sym) + fs / sym) hk hn
    (c := fun i => if n * (fs / sym) ≤ i then Real.cos (angle fs (val fc) i) else 0)
    ((window_energy _).trans (cos_window hk hw n).1)
    (A := 2 * ε + 1 / 2 ^ 13 + val σ * η + S / 2 ^ 48 + S * (ε + 1 / 2 ^ 14)) (by positivity) (margin_loss h1 hε) hl fun ω hG => ?_
  have hnear := noisy_near (bpsk_wave hr) (fun i _ => ((faded_size fs (val fc) msg _ i).1).trans (by norm_num)) (by positivity)
    (by norm_num at hε2 ⊢; linarith) hη hf hσ.le hS h1 hr.size_hi (d := fun i => d i ω) (t := fun i => z i ω)
    (fun i hi => ⟨hd i ω (hG i hi), hG i hi⟩)
  obtain ⟨ch, c1, c2⟩ := awgn_yields e2 (hg ω) (σ := σ) hf
  obtain ⟨x, x1, x2⟩ := C86_bpsk hr hnear (fun i hi => noisy_size hσ
    ((faded_size fs (val fc) msg (i / (fs / sym)) i).1.trans (by norm_num)) (hG i hi) hε2 hS hS2) c2
  refine ⟨(List.range msg.length).map x, x n, ?_, ?_, ?_, ?_⟩
  · rw [e1, pure_bind, c1, pure_bind]; exact x1
  · rw [List.length_map, List.length_range]
  · rw [List.getElem?_map, List.getElem?_range hn]; rfl
  · have hX : inPhase fs (fs / sym) (val fc) (fun n i => fadedBpsk fs (val fc) msg (fun _ => 1) (fun _ => 0) n i + val σ * z i ω) n
        = (fs / sym : ℕ) / 2 * pm (msg.getD n false) + val σ * proj (n * (fs / sym) + fs / sym)
          (fun i => if n * (fs / sym) ≤ i then Real.cos (angle fs (val fc) i) else 0) z ω := by
      rw [inPhase, corr_split (fun n i => fadedBpsk fs (val fc) msg (fun _ => 1) (fun _ => 0) n i) (fun i => z i ω)
        (fun i => Real.cos (angle fs (val fc) i)), ← (faded_corr hk hw msg n).1]
      rfl
    have := x2 n hn
    rwa [hX] at this
/-- The same for a station with a key. -/
theorem C143_cdma_bpsk (hz : White P 1 z) {L : Libm} {Z η : ℝ} (hZ : 0 ≤ Z) (hη : 0 ≤ η) {d : ℕ → Ω → FloatL L} (hd : Sampled Z η z d)
    [RIter ν (FloatL L)] {noise : Ω → ν} (hg : ∀ ω, Gives (noise ω) (fun i => d i ω)) {σ : FloatL L} (hf : F64.Fin σ) (hσ : 0 < val σ)
    [RIter ι Bool] {m : ι} {msg key : List Bool} (hm : Yields m msg) {ε S : ℝ} {fs sym : ℕ} {fc : FloatL L}
    (hr : Radio L ε fs (fs / sym) msg.length fc S) (hw : WholeHalf fs (fs / sym) (val fc))
    (hsym : 0 < sym) (hL : 0 < key.length) (hdvd : sym * key.length ∣ fs) (hnyq : 2 * (sym * key.length) ≤ fs)
    (hS : 3 + val σ * (Z + η) ≤ S) (hS2 : S ≤ 2 ^ 40) (hl : loss ε η (val σ) S ≤ 1 / 2) {n : ℕ} (hn : n < msg.length) :
    P.real {ω | ¬ Right (do
        let tx ← txCdmaBpsk m fs sym fc key
        let ch ← awgn tx σ (noise ω)
        let rx ← rxCdmaBpsk ch fs sym fc key
        collect rx) msg n} ≤
      bitError ((fs / sym : ℕ) / 2 * (1 - 2 * loss ε η (val σ) S) ^ 2) (val σ) + (msg.length * (fs / sym) : ℕ) * Real.exp (-Z ^ 2 / 2) ∧
    bitError ((fs / sym : ℕ) / 2 * (1 + 2 * loss ε η (val σ) S) ^ 2) (val σ) ≤
      P.real {ω | Wrong (do
        let tx ← txCdmaBpsk m fs sym fc key
        let ch ← awgn tx σ (noise ω)
        let rx ← rxCdmaBpsk ch fs sym fc key
        collect rx) msg n} + (msg.length * (fs / sym) : ℕ) * Real.exp (-Z ^ 2 / 2) := by
  have hε := radio_eps hr
  have hε2 := hr.small
  have hk := hr.k_pos
  have hb0 : 0 ≤ val σ * (Z + η) := by positivity
  have hση : 0 ≤ val σ * η := by positivity
  have h1 : 1 ≤ S := by linarith
  have hok : CdmaOk fs sym fc key.length := (cdmaOk_ieee hr.fs_lt hr.fin).mpr ⟨hsym, hL, hdvd, hnyq, by
    have h2 : ⌊val fc⌋₊ ≤ ⌊(fs : ℝ) / 2⌋₊ := Nat.floor_le_floor hr.hi
    have h3 : ⌊(fs : ℝ) / 2⌋₊ = fs / 2 := by simpa using Nat.floor_div_natCast (fs : ℝ) 2
    omega⟩
  obtain ⟨it, e1, e2⟩ := txCdmaBpsk_ok hm (fc := fc) hok
  refine link_core hz hZ hσ (M := n * (fs / sym) + fs / sym) hk hn
    (c := fun i => if n * (fs / sym) ≤ i then Real.cos (angle fs (val fc) i) * chip key (fs / sym) i else 0)
    ((window_energy _).trans ((Finset.sum_congr rfl fun j _ => chip_mul_sq _ _ _ _).trans (cos_window hk hw n).1))
    (A := 2 * ε + 1 / 2 ^ 13 + val σ * η + S / 2 ^ 48 + S * (ε + 1 / 2 ^ 14)) (by positivity) (margin_loss h1 hε) hl fun ω hG => ?_
  have hnear := noisy_near (near_spread (key := key) (bpsk_wave hr)) (fun i _ => by
      rw [abs_mul, chip_abs, mul_one]; exact (faded_size fs (val fc) msg _ i).1.trans (by norm_num)) (by positivity)
    (by norm_num at hε2 ⊢; linarith) hη hf hσ.le hS h1 hr.size_hi (d := fun i => d i ω) (t := fun i => z i ω)
    (fun i hi => ⟨hd i ω (hG i hi), hG i hi⟩)
  rw [chip_out] at hnear
  obtain ⟨ch, c1, c2⟩ := awgn_yields e2 (hg ω) (σ := σ) hf
  obtain ⟨x, x1, x2⟩ := C86_cdma_bpsk hsym hL hdvd hnyq hr hnear (fun i hi => noisy_size hσ
    ((faded_size fs (val fc) msg (i / (fs / sym)) i).1.trans (by norm_num)) (by rw [abs_mul, chip_abs, mul_one]; exact hG i hi) hε2 hS hS2) c2
  refine ⟨(List.range msg.length).map x, x n, ?_, ?_, ?_, ?_⟩
  · rw [e1, pure_bind, c1, pure_bind]; exact x1
  · rw [List.length_map, List.length_range]
  · rw [List.getElem?_map, List.getElem?_range hn]; rfl
  · have hX := corr_chip (n := n) (k := fs / sym) (fadedBpsk fs (val fc) msg (fun _ => 1) (fun _ => 0)) (fun i => z i ω)
      (fun i => Real.cos (angle fs (val fc) i)) (val σ) key
    have hF := (faded_corr hk hw msg n).1
    rw [inPhase] at hF
    rw [hF] at hX
    have := x2 n hn
    rw [inPhase, hX] at this
    exact this
theorem corr_sign {k n : ℕ} (s : ℕ → ℕ → ℝ) (t g u : ℕ → ℝ) (σ : ℝ) :
    ∑ j ∈ Finset.range k, (s n (n * k + j) + σ * (t (n * k + j) * u (n * k + j))) * g (n * k + j) =
      ∑ j ∈ Finset.range k, s n (n * k + j) * g (n * k + j) +
        σ * ∑ i ∈ Finset.range (n * k + k), (if n * k ≤ i then g i * u i else 0) * t i := by
  rw [corr_split s (fun i => t i * u i) g σ]
  congr 2
  refine Finset.sum_congr rfl fun i _ => ?_
  split <;> ring

/-- A decision at zero or above is one above zero, off the threshold. -/
theorem decide_off {X B : ℝ} {x : Bool} (hB : 0 ≤ B) (h : B < |X| → x = decide (0 ≤ X)) : B < |X| → x = decide (0 < X) := fun hX => by
  rw [h hX]
  have : X ≠ 0 := by rintro rfl; rw [abs_zero] at hX; linarith
  congr 1
  exact propext ⟨fun h => lt_of_le_of_ne h this.symm, le_of_lt⟩

/-- Two bits per symbol. -/
theorem qpsk_core (hz : White P 1 z) {Z σ f : ℝ} (hZ : 0 ≤ Z) (hσ : 0 < σ) {fs k : ℕ} (hk : 0 < k) (hw : WholeHalf fs k f)
    {link : Ω → RM (List Bool)} {msg : List Bool} {i : ℕ} (hi : i < 2 * (msg.length / 2)) {u : ℕ → ℝ} (hu : ∀ i, u i * u i = 1)
    {a A : ℝ} (hA0 : 0 ≤ A) (hA : A ≤ a) (ha : a ≤ 1 / 2)
    (h : ∀ ω, (∀ j < msg.length / 2 * k, |z j ω| ≤ Z) → ∃ x y : ℕ → Bool,
      link ω = pure ((List.range (msg.length / 2)).flatMap (fun n => [x n, y n])) ∧ ∀ q < msg.length / 2,
        (k * A < |inPhase fs k f (fun n i => fadedQpsk fs f msg (fun _ => 1) (fun _ => 0) n i + σ * (z i ω * u i)) q| →
          x q = decide (0 ≤ inPhase fs k f (fun n i => fadedQpsk fs f msg (fun _ => 1) (fun _ => 0) n i + σ * (z i ω * u i)) q)) ∧
        (k * A < |quadrature fs k f (fun n i => fadedQpsk fs f msg (fun _ => 1) (fun _ => 0) n i + σ * (z i ω * u i)) q| →
          y q = decide (0 ≤ quadrature fs k f (fun n i => fadedQpsk fs f msg (fun _ => 1) (fun _ => 0) n i + σ * (z i ω * u i)) q))) :
    P.real {ω | ¬ Right (link ω) (msg.take (2 * (msg.length / 2))) i} ≤
      bitError (k / 2 * (1 - 2 * a) ^ 2) σ + (msg.length / 2 * k : ℕ) * Real.exp (-Z ^ 2 / 2) ∧
    bitError (k / 2 * (1 + 2 * a) ^ 2) σ ≤
      P.real {ω | Wrong (link ω) (msg.take (2 * (msg.length / 2))) i} + (msg.length / 2 * k : ℕ) * Real.exp (-Z ^ 2 / 2) := by
  have hk' : (0 : ℝ) < k := by exact_mod_cast hk
  have hB : 0 ≤ k * A := by positivity
  have hlen : (msg.take (2 * (msg.length / 2))).length = 2 * (msg.length / 2) := by rw [List.length_take]; omega
  have hget : (msg.take (2 * (msg.length / 2))).getD i false = msg.getD i false := by
    rw [List.getD_eq_getElem?_getD, List.getD_eq_getElem?_getD, List.getElem?_take_of_lt hi]
  have husq : ∀ (g : ℕ → ℝ) (q : ℕ), ∑ j ∈ Finset.range k, (g (q * k + j) * u (q * k + j)) ^ 2 = ∑ j ∈ Finset.range k, g (q * k + j) ^ 2 :=
    fun g q => Finset.sum_congr rfl fun j _ => by rw [mul_pow, pow_two (u _), hu, mul_one]
  rcases Nat.even_or_odd' i with ⟨q, rfl | rfl⟩
  · have hq : q < msg.length / 2 := by omega
    have hc := window_energy (k := k) (n := q) (fun i => Real.cos (angle fs f i) * u i)
    rw [husq (fun i => Real.cos (angle fs f i)), (cos_window hk hw q).1] at hc
    refine link_core hz hZ hσ hk (by omega) hc hA0 hA ha fun ω hG => ?_
    obtain ⟨x, y, h1, h2⟩ := h ω hG
    obtain ⟨p1, p2, p3⟩ := pair_bits x y hq
    refine ⟨_, x q, h1, by rw [p3, hlen], p1, ?_⟩
    have hX := corr_sign (n := q) (k := k) (fadedQpsk fs f msg (fun _ => 1) (fun _ => 0)) (fun i => z i ω)
      (fun i => Real.cos (angle fs f i)) u σ
    have hF := (faded_corr hk hw msg q).2.2.1
    rw [inPhase] at hF
    rw [hF] at hX
    have := decide_off hB (h2 q hq).1
    rw [inPhase, hX] at this
    rw [hget]
    exact this
  · have hq : q < msg.length / 2 := by omega
    have hc := window_energy (k := k) (n := q) (fun i => -Real.sin (angle fs f i) * u i)
    rw [husq (fun i => -Real.sin (angle fs f i))] at hc
    simp only [neg_sq] at hc
    rw [(cos_window hk hw q).2] at hc
    refine link_core hz hZ hσ hk (by omega) hc hA0 hA ha fun ω hG => ?_
    obtain ⟨x, y, h1, h2⟩ := h ω hG
    obtain ⟨p1, p2, p3⟩ := pair_bits x y hq
    refine ⟨_, y q, h1, by rw [p3, hlen], p2, ?_⟩
    have hX := corr_sign (n := q) (k := k) (fadedQpsk fs f msg (fun _ => 1) (fun _ => 0)) (fun i => z i ω)
      (fun i => -Real.sin (angle fs f i)) u σ
    have hF := (faded_corr hk hw msg q).2.2.2
    rw [quadrature] at hF
    rw [hF] at hX
    have := decide_off hB (h2 q hq).2
    rw [quadrature, hX] at this
    rw [hget]
    exact this

/-- **C143, QPSK.** Both bits of every symbol, at the same probability: each has half of the symbol's energy. -/
theorem C143_qpsk (hz : White P 1 z) {L : Libm} {Z η : ℝ} (hZ : 0 ≤ Z) (hη : 0 ≤ η) {d : ℕ → Ω → FloatL L} (hd : Sampled Z η z d)
    [RIter ν (FloatL L)] {noise : Ω → ν} (hg : ∀ ω, Gives (noise ω) (fun i => d i ω)) {σ : FloatL L} (hf : F64.Fin σ) (hσ : 0 < val σ)
    [RIter ι Bool] {m : ι} {msg : List Bool} (hm : Yields m msg) {ε S : ℝ} {fs sym : ℕ} {fc : FloatL L}
    (hr : Radio L ε fs (fs / sym) (msg.length / 2) fc S) (hw : WholeHalf fs (fs / sym) (val fc))
    (hS : 3 + val σ * (Z + η) ≤ S) (hS2 : S ≤ 2 ^ 40) (hl : loss ε η (val σ) S ≤ 1 / 2) {n : ℕ} (hn : n < 2 * (msg.length / 2)) :
    P.real {ω | ¬ Right (do
        let tx ← txQpsk m fs sym fc
        let ch ← awgn tx σ (noise ω)
        let rx ← rxQpsk ch fs sym fc
        collect rx) (msg.take (2 * (msg.length / 2))) n} ≤
      bitError ((fs / sym : ℕ) / 2 * (1 - 2 * loss ε η (val σ) S) ^ 2) (val σ) + (msg.length / 2 * (fs / sym) : ℕ) * Real.exp (-Z ^ 2 / 2) ∧
    bitError ((fs / sym : ℕ) / 2 * (1 + 2 * loss ε η (val σ) S) ^ 2) (val σ) ≤
      P.real {ω | Wrong (do
        let tx ← txQpsk m fs sym fc
        let ch ← awgn tx σ (noise ω)
        let rx ← rxQpsk ch fs sym fc
        collect rx) (msg.take (2 * (msg.length / 2))) n} + (msg.length / 2 * (fs / sym) : ℕ) * Real.exp (-Z ^ 2 / 2) := by
  have hε := radio_eps hr
  have hε2 := hr.small
  have hk := hr.k_pos
  have hb0 : 0 ≤ val σ * (Z + η) := by positivity
  have hση : 0 ≤ val σ * η := by positivity
  have h1 : 1 ≤ S := by linarith
  obtain ⟨it, e1, e2⟩ := txQpsk_ok hm (fc := fc) hk
  refine qpsk_core hz hZ hσ hk hw hn (u := fun _ => 1) (fun _ => one_mul 1)
    (A := 2 * ε + 1 / 2 ^ 13 + val σ * η + S / 2 ^ 48 + S * (ε + 1 / 2 ^ 14)) (by positivity) (margin_loss h1 hε) hl fun ω hG => ?_
  have hnear := noisy_near (qpsk_wave hr) (fun i _ => (faded_size fs (val fc) msg _ i).2) (by positivity)
    (by norm_num at hε2 ⊢; linarith) hη hf hσ.le hS h1 hr.size_hi (d := fun i => d i ω) (t := fun i => z i ω)
    (fun i hi => ⟨hd i ω (hG i hi), hG i hi⟩)
  obtain ⟨ch, c1, c2⟩ := awgn_yields e2 (hg ω) (σ := σ) hf
  obtain ⟨x, y, x1, x2⟩ := C86_qpsk hr hnear (fun i hi => noisy_size hσ
    ((faded_size fs (val fc) msg (i / (fs / sym)) i).2) (hG i hi) hε2 hS hS2) c2
  refine ⟨x, y, ?_, ?_⟩
  · rw [e1, pure_bind, c1, pure_bind]; exact x1
  · simp only [mul_one]; exact x2

/-- QPSK with a key. -/
theorem C143_cdma_qpsk (hz : White P 1 z) {L : Libm} {Z η : ℝ} (hZ : 0 ≤ Z) (hη : 0 ≤ η) {d : ℕ → Ω → FloatL L} (hd : Sampled Z η z d)
    [RIter ν (FloatL L)] {noise : Ω → ν} (hg : ∀ ω, Gives (noise ω) (fun i => d i ω)) {σ : FloatL L} (hf : F64.Fin σ) (hσ : 0 < val σ)
    [RIter ι Bool] {m : ι} {msg key : List Bool} (hm : Yields m msg) {ε S : ℝ} {fs sym : ℕ} {fc : FloatL L}
    (hr : Radio L ε fs (fs / sym) (msg.length / 2) fc S) (hw : WholeHalf fs (fs / sym) (val fc))
    (hsym : 0 < sym) (hL : 0 < key.length) (hdvd : sym * key.length ∣ fs) (hnyq : 2 * (sym * key.length) ≤ fs)
    (hS : 3 + val σ * (Z + η) ≤ S) (hS2 : S ≤ 2 ^ 40) (hl : loss ε η (val σ) S ≤ 1 / 2) {n : ℕ} (hn : n < 2 * (msg.length / 2)) :
    P.real {ω | ¬ Right (do
        let tx ← txCdmaQpsk m fs sym fc key
        let ch ← awgn tx σ (noise ω)
        let rx ← rxCdmaQpsk ch fs sym fc key
        collect rx) (msg.take (2 * (msg.length / 2))) n} ≤
      bitError ((fs / sym : ℕ) / 2 * (1 - 2 * loss ε η (val σ) S) ^ 2) (val σ) + (msg.length / 2 * (fs / sym) : ℕ) * Real.exp (-Z ^ 2 / 2) ∧
    bitError ((fs / sym : ℕ) / 2 * (1 + 2 * loss ε η (val σ) S) ^ 2) (val σ) ≤
      P.real {ω | Wrong (do
        let tx ← txCdmaQpsk m fs sym fc key
        let ch ← awgn tx σ (noise ω)
        let rx ← rxCdmaQpsk ch fs sym fc key
        collect rx) (msg.take (2 * (msg.length / 2))) n} + (msg.length / 2 * (fs / sym) : ℕ) * Real.exp (-Z ^ 2 / 2) := by
  have hε := radio_eps hr
  have hε2 := hr.small
  have hk := hr.k_pos
  have hb0 : 0 ≤ val σ * (Z + η) := by positivity
  have hση : 0 ≤ val σ * η := by positivity
  have h1 : 1 ≤ S := by linarith
  have hok : CdmaOk fs sym fc key.length := (cdmaOk_ieee hr.fs_lt hr.fin).mpr ⟨hsym, hL, hdvd, hnyq, by
    have h2 : ⌊val fc⌋₊ ≤ ⌊(fs : ℝ) / 2⌋₊ := Nat.floor_le_floor hr.hi
    have h3 : ⌊(fs : ℝ) / 2⌋₊ = fs / 2 := by simpa using Nat.floor_div_natCast (fs : ℝ) 2
    omega⟩
  obtain ⟨it, e1, e2⟩ := txCdmaQpsk_ok hm (fc := fc) hok
  refine qpsk_core hz hZ hσ hk hw hn (u := chip key (fs / sym)) (fun i => pm_sq _)
    (A := 2 * ε + 1 / 2 ^ 13 + val σ * η + S / 2 ^ 48 + S * (ε + 1 / 2 ^ 14)) (by positivity) (margin_loss h1 hε) hl fun ω hG => ?_
  have hnear := noisy_near (near_spread (key := key) (qpsk_wave hr)) (fun i _ => by
      rw [abs_mul, chip_abs, mul_one]; exact (faded_size fs (val fc) msg _ i).2) (by positivity)
    (by norm_num at hε2 ⊢; linarith) hη hf hσ.le hS h1 hr.size_hi (d := fun i => d i ω) (t := fun i => z i ω)
    (fun i hi => ⟨hd i ω (hG i hi), hG i hi⟩)
  rw [chip_out] at hnear
  obtain ⟨ch, c1, c2⟩ := awgn_yields e2 (hg ω) (σ := σ) hf
  obtain ⟨x, y, x1, x2⟩ := C86_cdma_qpsk hsym hL hdvd hnyq hr hnear (fun i hi => noisy_size hσ
    ((faded_size fs (val fc) msg (i / (fs / sym)) i).2) (by rw [abs_mul, chip_abs, mul_one]; exact hG i hi) hε2 hS hS2) c2
  refine ⟨x, y, ?_, x2⟩
  rw [e1, pure_bind, c1, pure_bind]; exact x1

/-! ## A generator that rounds a Gaussian sample to the nearest double, and 2000 Hz sampled at 16 kHz -/

/-- The rounded samples. -/
noncomputable def rounded (ω : ℕ → ℝ) : Map (Map RangeFrom ℕ ℝ) ℝ (FloatL Libm.rounded) := rmap (path ω) (fun x => (near x : Float))

theorem rounded_gives (ω : ℕ → ℝ) : Gives (rounded ω) (fun i => (near (ω i) : Float)) := (path_gives ω).rmap _

theorem sampled_rounded : Sampled (L := Libm.rounded) 10 (10 / 2 ^ 52) (fun i (ω : ℕ → ℝ) => ω i) (fun i ω => (near (ω i) : Float)) :=
  fun _ _ h => near_ap h (by norm_num) (by norm_num)

theorem val_float_one : val (1 : FloatL Libm.rounded) = 1 := val_one

example : (gaussPath 1).real {ω | ¬ Right (do
      let tx ← txBpsk (ofList [true, false, true]) 16000 1000 (Flt.ofNat 2000 : FloatL Libm.rounded)
      let ch ← awgn tx (1 : FloatL Libm.rounded) (rounded ω)
      let rx ← rxBpsk ch 16000 1000 (Flt.ofNat 2000)
      collect rx) [true, false, true] 1} ≤ bitError (8 * (1 - 2 * loss (1 / 2 ^ 52) (10 / 2 ^ 52) 1 16) ^ 2) 1 + 48 * Real.exp (-50) := by
  have := (C143_bpsk (white_path 1) (Z := 10) (by norm_num) (by norm_num) sampled_rounded rounded_gives (σ := (1 : FloatL Libm.rounded)) fin_one
    (by rw [val_float_one]; norm_num) (yields_ofList [true, false, true])  (radio_2000 (N := 3) (by norm_num) (S := 16) (by norm_num) (by norm_num))
    (by norm_num) whole_2000 (by rw [val_float_one]; norm_num) (by norm_num) (by rw [val_float_one]; norm_num [loss]) (n := 1) (by simp)).1
  rw [val_float_one] at this
  refine this.trans (le_of_eq ?_)
  norm_num

example : (gaussPath 1).real {ω | ¬ Right (do
      let tx ← txCdmaBpsk (ofList [true, false, true]) 16000 1000 (Flt.ofNat 2000 : FloatL Libm.rounded) [true, false]
      let ch ← awgn tx (1 : FloatL Libm.rounded) (rounded ω)
      let rx ← rxCdmaBpsk ch 16000 1000 (Flt.ofNat 2000) [true, false]
      collect rx) [true, false, true] 1} ≤ bitError (8 * (1 - 2 * loss (1 / 2 ^ 52) (10 / 2 ^ 52) 1 16) ^ 2) 1 + 48 * Real.exp (-50) := by
  have := (C143_cdma_bpsk (white_path 1) (Z := 10) (by norm_num) (by norm_num) sampled_rounded rounded_gives (σ := (1 : FloatL Libm.rounded)) fin_one
    (by rw [val_float_one]; norm_num) (yields_ofList [true, false, true]) (key := [true, false]) (radio_2000 (N := 3) (by norm_num) (S := 16) (by norm_num) (by norm_num))
    whole_2000 (by norm_num) (by simp) (by norm_num) (by simp) (by rw [val_float_one]; norm_num) (by norm_num) (by rw [val_float_one]; norm_num [loss]) (n := 1) (by simp)).1
  rw [val_float_one] at this
  refine this.trans (le_of_eq ?_)
  norm_num

example : (gaussPath 1).real {ω | ¬ Right (do
      let tx ← txQpsk (ofList [true, false, true]) 16000 1000 (Flt.ofNat 2000 : FloatL Libm.rounded)
      let ch ← awgn tx (1 : FloatL Libm.rounded) (rounded ω)
      let rx ← rxQpsk ch 16000 1000 (Flt.ofNat 2000)
      collect rx) [true, false] 1} ≤ bitError (8 * (1 - 2 * loss (1 / 2 ^ 52) (10 / 2 ^ 52) 1 16) ^ 2) 1 + 16 * Real.exp (-50) := by
  have := (C143_qpsk (white_path 1) (Z := 10) (by norm_num) (by norm_num) sampled_rounded rounded_gives (σ := (1 : FloatL Libm.rounded)) fin_one
    (by rw [val_float_one]; norm_num) (yields_ofList [true, false, true])  (radio_2000 (N := 1) (by norm_num) (S := 16) (by norm_num) (by norm_num))
    whole_2000 (by rw [val_float_one]; norm_num) (by norm_num) (by rw [val_float_one]; norm_num [loss]) (n := 1) (by simp)).1
  rw [val_float_one] at this
  refine this.trans (le_of_eq ?_)
  norm_num

example : (gaussPath 1).real {ω | ¬ Right (do
      let tx ← txCdmaQpsk (ofList [true, false, true]) 16000 1000 (Flt.ofNat 2000 : FloatL Libm.rounded) [true, false]
      let ch ← awgn tx (1 : FloatL Libm.rounded) (rounded ω)
      let rx ← rxCdmaQpsk ch 16000 1000 (Flt.ofNat 2000) [true, false]
      collect rx) [true, false] 1} ≤ bitError (8 * (1 - 2 * loss (1 / 2 ^ 52) (10 / 2 ^ 52) 1 16) ^ 2) 1 + 16 * Real.exp (-50) := by
  have := (C143_cdma_qpsk (white_path 1) (Z := 10) (by norm_num) (by norm_num) sampled_rounded rounded_gives (σ := (1 : FloatL Libm.rounded)) fin_one
    (by rw [val_float_one]; norm_num) (yields_ofList [true, false, true]) (key := [true, false]) (radio_2000 (N := 1) (by norm_num) (S := 16) (by norm_num) (by norm_num))
    whole_2000 (by norm_num) (by simp) (by norm_num) (by simp) (by rw [val_float_one]; norm_num) (by norm_num) (by rw [val_float_one]; norm_num [loss]) (n := 1) (by simp)).1
  rw [val_float_one] at this
  refine this.trans (le_of_eq ?_)
  norm_num
end Verif.Props
