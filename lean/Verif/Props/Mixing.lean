import Verif.Spec.Mixing
import Verif.Props.Fdm
import Verif.Props.BpfFront
import Verif.Lemmas.Cases

/-!
# C139: frequency conversion

Exact arithmetic. A signal on a carrier, multiplied with a local oscillator, appears on the difference and on the sum of both frequencies.
-/
namespace Verif.Props
open Verif Spec
set_option linter.unusedSectionVars false
variable {ι κ : Type}

private theorem angle_sub (fs : ℕ) (a b : ℝ) (i : ℕ) : angle fs (a - b) i = angle fs a i - angle fs b i := by unfold angle; ring
private theorem angle_add (fs : ℕ) (a b : ℝ) (i : ℕ) : angle fs (a + b) i = angle fs a i + angle fs b i := by unfold angle; ring

private theorem mixed_recording {r : List ℝ} {N k fs : ℕ} {f φ : ℝ} {s s' : ℕ → ℕ → ℝ} (h : Recording r N k s)
    (e : ∀ n i, s n i * Real.cos (angle fs f i + φ) = s' n i) : Recording (mixed fs f φ r) N k s' := by
  refine ⟨by rw [mixed, List.length_mapIdx, h.1], fun i hi => ?_⟩
  rw [mixed, List.getElem?_mapIdx, h.2 i hi, Option.map_some, e]

private theorem mix_low (X Y a l φ : ℝ) : (X * Real.cos a - Y * Real.sin a) * Real.cos (l + φ)
    = ((X * Real.cos φ + Y * Real.sin φ) / 2) * Real.cos (a - l) - ((Y * Real.cos φ - X * Real.sin φ) / 2) * Real.sin (a - l)
      + (((X * Real.cos φ - Y * Real.sin φ) / 2) * Real.cos (a + l) - ((X * Real.sin φ + Y * Real.cos φ) / 2) * Real.sin (a + l)) := by
  simp only [Real.cos_add, Real.sin_add, Real.cos_sub, Real.sin_sub]
  ring

/-- The two images of a quadrature signal. -/
private theorem mixed_low {r : List ℝ} {N k fs : ℕ} {fc f φ : ℝ} {X Y : ℕ → ℝ}
    (h : Recording r N k (fun n i => X n * Real.cos (angle fs fc i) - Y n * Real.sin (angle fs fc i))) :
    Recording (mixed fs f φ r) N k (onAir fs
      [⟨fc - f, fun n => (X n * Real.cos φ + Y n * Real.sin φ) / 2, fun n => (Y n * Real.cos φ - X n * Real.sin φ) / 2⟩,
       ⟨fc + f, fun n => (X n * Real.cos φ - Y n * Real.sin φ) / 2, fun n => (X n * Real.sin φ + Y n * Real.cos φ) / 2⟩]) := by
  refine mixed_recording h fun n i => ?_
  rw [mix_low]
  simp only [onAir, List.map_cons, List.map_nil, List.sum_cons, List.sum_nil, angle_sub, angle_add, add_zero]

private theorem mixed_high {r : List ℝ} {N k fs : ℕ} {fc f φ : ℝ} {X Y : ℕ → ℝ}
    (h : Recording r N k (fun n i => X n * Real.cos (angle fs fc i) - Y n * Real.sin (angle fs fc i))) :
    Recording (mixed fs f φ r) N k (onAir fs
      [⟨f - fc, fun n => (X n * Real.cos φ + Y n * Real.sin φ) / 2, fun n => -((Y n * Real.cos φ - X n * Real.sin φ) / 2)⟩,
       ⟨fc + f, fun n => (X n * Real.cos φ - Y n * Real.sin φ) / 2, fun n => (X n * Real.sin φ + Y n * Real.cos φ) / 2⟩]) := by
  refine mixed_recording h fun n i => ?_
  rw [mix_low, ← neg_sub (angle fs f i), Real.cos_neg, Real.sin_neg]
  simp only [onAir, List.map_cons, List.map_nil, List.sum_cons, List.sum_nil, angle_sub, angle_add, add_zero]
  ring

private theorem half_pos' (x : ℝ) : decide (0 < x / 2) = decide (0 < x) := by
  rw [decide_eq_decide]; constructor <;> intro h <;> linarith
private theorem half_nonneg' (x : ℝ) : decide (0 ≤ x / 2) = decide (0 ≤ x) := by
  rw [decide_eq_decide]; constructor <;> intro h <;> linarith
private theorem half_nonpos' (x : ℝ) : decide (0 ≤ -(x / 2)) = decide (x ≤ 0) := by
  rw [decide_eq_decide]; constructor <;> intro h <;> linarith

section receivers
variable [RIter κ ℝ] {fs sym N : ℕ} {fc f φ : ℝ} {X Y : ℕ → ℝ} {r : List ℝ} {rcv : κ}

/-- **C139.** A receiver tuned to the difference of the frequencies, oscillator below the carrier: it decides on the two amplitudes,
turned back by the phase of the oscillator. -/
theorem C139_down (hsps : 0 < fs / sym) (hsp : Spaced fs (fs / sym) (fc - f) (fc + f)) (hw : WholeHalf fs (fs / sym) (fc - f))
    (h : Recording r N (fs / sym) (fun n i => X n * Real.cos (angle fs fc i) - Y n * Real.sin (angle fs fc i)))
    (hr : Yields rcv (mixed fs f φ r)) :
    (do let rx ← rxBpsk rcv fs sym (fc - f); collect rx)
      = pure ((List.range N).map (fun n => decide (0 < X n * Real.cos φ + Y n * Real.sin φ))) ∧
    (do let rx ← rxQpsk rcv fs sym (fc - f); collect rx)
      = pure ((List.range N).flatMap (fun n => [decide (0 ≤ X n * Real.cos φ + Y n * Real.sin φ),
          decide (0 ≤ Y n * Real.cos φ - X n * Real.sin φ)])) := by
  have := C84_quadrature hsps (by simpa using hsp) (List.mem_cons_self ..) hw (mixed_low h) hr
  simpa only [half_pos', half_nonneg'] using this

/-- A receiver tuned to the sum. -/
theorem C139_up (hsps : 0 < fs / sym) (hsp : Spaced fs (fs / sym) (fc - f) (fc + f)) (hw : WholeHalf fs (fs / sym) (fc + f))
    (h : Recording r N (fs / sym) (fun n i => X n * Real.cos (angle fs fc i) - Y n * Real.sin (angle fs fc i)))
    (hr : Yields rcv (mixed fs f φ r)) :
    (do let rx ← rxBpsk rcv fs sym (fc + f); collect rx)
      = pure ((List.range N).map (fun n => decide (0 < X n * Real.cos φ - Y n * Real.sin φ))) ∧
    (do let rx ← rxQpsk rcv fs sym (fc + f); collect rx)
      = pure ((List.range N).flatMap (fun n => [decide (0 ≤ X n * Real.cos φ - Y n * Real.sin φ),
          decide (0 ≤ X n * Real.sin φ + Y n * Real.cos φ)])) := by
  have := C84_quadrature hsps (by simpa using hsp) (List.mem_cons_of_mem _ (List.mem_cons_self ..)) hw (mixed_low h) hr
  simpa only [half_pos', half_nonneg'] using this

/-- The oscillator above the carrier: the second amplitude arrives with the opposite sign. -/
theorem C139_mirrored (hsps : 0 < fs / sym) (hsp : Spaced fs (fs / sym) (f - fc) (fc + f)) (hw : WholeHalf fs (fs / sym) (f - fc))
    (h : Recording r N (fs / sym) (fun n i => X n * Real.cos (angle fs fc i) - Y n * Real.sin (angle fs fc i)))
    (hr : Yields rcv (mixed fs f φ r)) :
    (do let rx ← rxBpsk rcv fs sym (f - fc); collect rx)
      = pure ((List.range N).map (fun n => decide (0 < X n * Real.cos φ + Y n * Real.sin φ))) ∧
    (do let rx ← rxQpsk rcv fs sym (f - fc); collect rx)
      = pure ((List.range N).flatMap (fun n => [decide (0 ≤ X n * Real.cos φ + Y n * Real.sin φ),
          decide (Y n * Real.cos φ - X n * Real.sin φ ≤ 0)])) := by
  have := C84_quadrature hsps (by simpa using hsp) (List.mem_cons_self ..) hw (mixed_high h) hr
  simpa only [half_pos', half_nonneg', half_nonpos'] using this

end receivers

section transmitters
variable [RIter ι Bool] {m : ι} {msg : List Bool} {fs sym : ℕ} {fc f φ : ℝ} {a : List ℝ}

private theorem pm_cos_pos {φ : ℝ} (hφ : |φ| < Real.pi / 2) (b : Bool) : decide (0 < pm b * Real.cos φ) = b := by
  have hc := Real.cos_pos_of_mem_Ioo ⟨by have := abs_lt.mp hφ; linarith, (abs_lt.mp hφ).2⟩
  have := turned_spec (g := 1) one_pos (c := Real.cos φ) b
  rw [one_mul] at this
  rw [this, turned, if_pos hc]

/-- BPSK comes through on all three, as long as the oscillator is less than a quarter turn off. -/
theorem C139_bpsk (hsps : 0 < fs / sym) (h : Yields m msg) (ha : (do let tx ← txBpsk m fs sym fc; collect tx) = pure a)
    (hφ : |φ| < Real.pi / 2) :
    (Spaced fs (fs / sym) (fc - f) (fc + f) → WholeHalf fs (fs / sym) (fc - f) →
      (do let rx ← rxBpsk (ofList (mixed fs f φ a)) fs sym (fc - f); collect rx) = pure msg) ∧
    (Spaced fs (fs / sym) (fc - f) (fc + f) → WholeHalf fs (fs / sym) (fc + f) →
      (do let rx ← rxBpsk (ofList (mixed fs f φ a)) fs sym (fc + f); collect rx) = pure msg) ∧
    (Spaced fs (fs / sym) (f - fc) (fc + f) → WholeHalf fs (fs / sym) (f - fc) →
      (do let rx ← rxBpsk (ofList (mixed fs f φ a)) fs sym (f - fc); collect rx) = pure msg) := by
  have hrec := C81_clean_bpsk h hsps ha
  have hrec' : Recording a msg.length (fs / sym) (fun n i => pm (msg.getD n false) * Real.cos (angle fs fc i) - 0 * Real.sin (angle fs fc i)) := by
    refine ⟨hrec.1, fun i hi => ?_⟩
    rw [hrec.2 i hi, fadedBpsk]
    simp
  have hend : (List.range msg.length).map (fun n => decide (0 < pm (msg.getD n false) * Real.cos φ)) = msg := by
    simp only [pm_cos_pos hφ]
    rw [range_map_getD msg (fun _ b => b)]
    exact mapIdx_eq_self fun _ _ _ => rfl
  refine ⟨fun h1 h2 => ?_, fun h1 h2 => ?_, fun h1 h2 => ?_⟩
  · rw [(C139_down hsps h1 h2 (Y := fun _ => 0) hrec' (yields_ofList _)).1]
    simp only [zero_mul, add_zero, hend]
  · rw [(C139_up hsps h1 h2 (Y := fun _ => 0) hrec' (yields_ofList _)).1]
    simp only [zero_mul, sub_zero, hend]
  · rw [(C139_mirrored hsps h1 h2 (Y := fun _ => 0) hrec' (yields_ofList _)).1]
    simp only [zero_mul, add_zero, hend]

/-- QPSK comes through on the sum and on the difference; with the oscillator above the carrier the second bit of every symbol is inverted. -/
theorem C139_qpsk (hsps : 0 < fs / sym) (h : Yields m msg) (heven : msg.length % 2 = 0)
    (ha : (do let tx ← txQpsk m fs sym fc; collect tx) = pure a) :
    (Spaced fs (fs / sym) (fc - f) (fc + f) → WholeHalf fs (fs / sym) (fc - f) →
      (do let rx ← rxQpsk (ofList (mixed fs f 0 a)) fs sym (fc - f); collect rx) = pure msg) ∧
    (Spaced fs (fs / sym) (fc - f) (fc + f) → WholeHalf fs (fs / sym) (fc + f) →
      (do let rx ← rxQpsk (ofList (mixed fs f 0 a)) fs sym (fc + f); collect rx) = pure msg) ∧
    (Spaced fs (fs / sym) (f - fc) (fc + f) → WholeHalf fs (fs / sym) (f - fc) →
      (do let rx ← rxQpsk (ofList (mixed fs f 0 a)) fs sym (f - fc); collect rx)
        = pure (msg.mapIdx (fun i b => if i % 2 = 0 then b else !b))) := by
  have hrec := C81_clean_qpsk h hsps ha
  have hrec' : Recording a (msg.length / 2) (fs / sym) (fun n i => pm (msg.getD (2 * n) false) * Real.cos (angle fs fc i)
      - pm (msg.getD (2 * n + 1) false) * Real.sin (angle fs fc i)) := by
    refine ⟨hrec.1, fun i hi => ?_⟩
    rw [hrec.2 i hi, fadedQpsk]
    simp
  have d : ∀ b, decide (0 ≤ pm b) = b := by intro b; cases b <;> simp [pm]
  have d' : ∀ b, decide (pm b ≤ 0) = !b := by intro b; cases b <;> simp [pm]
  have hflat : ∀ g : ℕ → Bool → Bool, (List.range (msg.length / 2)).flatMap (fun n => [g (2 * n) (msg.getD (2 * n) false),
      g (2 * n + 1) (msg.getD (2 * n + 1) false)]) = msg.mapIdx g := by
    intro g
    apply List.ext_getElem?
    intro i
    rw [getElem?_flatMap_const (k := 2) (by norm_num) _ _ (fun _ _ => rfl), List.getElem?_mapIdx]
    by_cases hi : i < msg.length
    · rw [List.getElem?_range (show i / 2 < msg.length / 2 by omega), List.getElem?_eq_getElem hi]
      rcases Nat.mod_two_eq_zero_or_one i with h0 | h0
      · have : 2 * (i / 2) = i := by omega
        simp [h0, this, hi]
      · have : 2 * (i / 2) + 1 = i := by omega
        simp [h0, this, hi]
    · rw [List.getElem?_eq_none (l := List.range _) (by simp; omega), List.getElem?_eq_none (by omega)]
      rfl
  have hid := (hflat (fun _ b => b)).trans (mapIdx_eq_self fun _ _ _ => rfl)
  refine ⟨fun h1 h2 => ?_, fun h1 h2 => ?_, fun h1 h2 => ?_⟩
  · rw [(C139_down hsps h1 h2 hrec' (yields_ofList _)).2]
    simp only [Real.cos_zero, Real.sin_zero, mul_one, mul_zero, add_zero, sub_zero, d, hid]
  · rw [(C139_up hsps h1 h2 hrec' (yields_ofList _)).2]
    simp only [Real.cos_zero, Real.sin_zero, mul_one, mul_zero, zero_add, sub_zero, d, hid]
  · rw [(C139_mirrored hsps h1 h2 hrec' (yields_ofList _)).2]
    simp only [Real.cos_zero, Real.sin_zero, mul_one, mul_zero, add_zero, sub_zero, d, d']
    rw [← hflat]
    congr 2
    funext n
    rw [if_pos (by omega), if_neg (by omega)]

/-- With a key. -/
theorem C139_cdma {key : List Bool} (hfs : fs < 2 ^ 64) (hsym : 0 < sym) (hL : 0 < key.length) (hdvd : sym * key.length ∣ fs)
    (hnyq : 2 * (sym * key.length) ≤ fs) (hd : ⌊fc - f⌋₊ ≤ fs / 2) (hu : ⌊fc + f⌋₊ ≤ fs / 2)
    (h : Yields m msg) (ha : (do let tx ← txCdmaBpsk m fs sym fc key; collect tx) = pure a) (hφ : |φ| < Real.pi / 2)
    (hsp : Spaced fs (fs / sym) (fc - f) (fc + f)) :
    (WholeHalf fs (fs / sym) (fc - f) →
      (do let rx ← rxCdmaBpsk (ofList (mixed fs f φ a)) fs sym (fc - f) key; collect rx) = pure msg) ∧
    (WholeHalf fs (fs / sym) (fc + f) →
      (do let rx ← rxCdmaBpsk (ofList (mixed fs f φ a)) fs sym (fc + f) key; collect rx) = pure msg) := by
  have hokd := (cdmaOk_real (fc := fc - f) hfs).mpr ⟨hsym, hL, hdvd, hnyq, hd⟩
  have hoku := (cdmaOk_real (fc := fc + f) hfs).mpr ⟨hsym, hL, hdvd, hnyq, hu⟩
  have h1 := hokd.sps
  have h2 := hokd.spc
  have hsps : 0 < fs / sym := by omega
  have hrec := C81_clean_cdma_bpsk h ha
  have hrec' : Recording (a.mapIdx (fun i x => x * bitToNrz (keyBit key (fs / sym / key.length) i))) msg.length (fs / sym)
      (fun n i => pm (msg.getD n false) * Real.cos (angle fs fc i) - 0 * Real.sin (angle fs fc i)) := by
    have := recording_despread (c := fs / sym / key.length) (key := key) (r := a) (N := msg.length) (k := fs / sym)
      (s := fadedBpsk fs fc msg (fun _ => 1) (fun _ => 0)) hrec
    refine ⟨this.1, fun i hi => ?_⟩
    rw [this.2 i hi, fadedBpsk]
    simp
  have hend : (List.range msg.length).map (fun n => decide (0 < pm (msg.getD n false) * Real.cos φ)) = msg := by
    simp only [pm_cos_pos hφ]
    rw [range_map_getD msg (fun _ b => b)]
    exact mapIdx_eq_self fun _ _ _ => rfl
  have hy : Yields (spread (ofList (mixed fs f φ a)) key (fs / sym / key.length))
      (mixed fs f φ (a.mapIdx (fun i x => x * bitToNrz (keyBit key (fs / sym / key.length) i)))) := by
    refine ((yields_ofList (mixed fs f φ a)).spread hL (by omega)).of_eq ?_
    unfold mixed
    rw [mapIdx_mapIdx', mapIdx_mapIdx']
    congr 1
    funext i x
    ring
  simp only [rxCdmaBpsk, hokd.guards, hoku.guards, pure_bind]
  refine ⟨fun hw => ?_, fun hw => ?_⟩
  · rw [(C139_down hsps hsp hw (Y := fun _ => 0) hrec' hy).1]
    simp only [zero_mul, add_zero, hend]
  · rw [(C139_up hsps hsp hw (Y := fun _ => 0) hrec' hy).1]
    simp only [zero_mul, sub_zero, hend]

/-- The whole front end: mixer, band-pass filter around the wanted image, receiver. -/
theorem C139_front_end {n : ℕ} {lo hi : ℝ} (hsps : 0 < fs / sym) (h : Yields m msg)
    (ha : (do let tx ← txBpsk m fs sym fc; collect tx) = pure a) (hφ : |φ| < Real.pi / 2)
    (hsp : Spaced fs (fs / sym) (fc - f) (fc + f)) (hn : n ∣ fs / sym) (hwd : WholeHalf fs (fs / sym) (fc - f))
    (hbd : OnBin fs n (fc - f)) (hbu : OnBin fs n (fc + f)) (hin : lo ≤ fc - f ∧ fc - f ≤ hi) (hout : hi < fc + f) :
    (do let rx ← rxBpsk (bandpass lo hi (ofList (mixed fs f φ a)) fs n) fs sym (fc - f); collect rx) = pure msg ∧
    (do let rx ← rxBpsk (bandpass lo hi (ofList (mixed fs f φ a)) fs n) fs sym (fc + f); collect rx)
      = pure (List.replicate msg.length false) := by
  have hlen : (mixed fs f φ a).length = msg.length * (fs / sym) := by
    rw [mixed, List.length_mapIdx, (C81_clean_bpsk h hsps ha).1]
  have hdvd : fs / sym ∣ (mixed fs f φ a).length := ⟨msg.length, by rw [hlen, Nat.mul_comm]⟩
  refine ⟨?_, ?_⟩
  · rw [(C136_bpsk lo hi hsps hn hbd (yields_ofList _) hdvd).1 hin]
    exact (C139_bpsk hsps h ha hφ).1 hsp hwd
  · rw [(C136_bpsk lo hi hsps hn hbu (yields_ofList _) hdvd).2 (Or.inr hout), hlen, Nat.mul_div_cancel _ hsps]

/-- The same with the filter around the upper image. -/
theorem C139_front_end_up {n : ℕ} {lo hi : ℝ} (hsps : 0 < fs / sym) (h : Yields m msg)
    (ha : (do let tx ← txBpsk m fs sym fc; collect tx) = pure a) (hφ : |φ| < Real.pi / 2)
    (hsp : Spaced fs (fs / sym) (fc - f) (fc + f)) (hn : n ∣ fs / sym) (hwu : WholeHalf fs (fs / sym) (fc + f))
    (hbd : OnBin fs n (fc - f)) (hbu : OnBin fs n (fc + f)) (hin : lo ≤ fc + f ∧ fc + f ≤ hi) (hout : fc - f < lo) :
    (do let rx ← rxBpsk (bandpass lo hi (ofList (mixed fs f φ a)) fs n) fs sym (fc + f); collect rx) = pure msg ∧
    (do let rx ← rxBpsk (bandpass lo hi (ofList (mixed fs f φ a)) fs n) fs sym (fc - f); collect rx)
      = pure (List.replicate msg.length false) := by
  have hlen : (mixed fs f φ a).length = msg.length * (fs / sym) := by
    rw [mixed, List.length_mapIdx, (C81_clean_bpsk h hsps ha).1]
  have hdvd : fs / sym ∣ (mixed fs f φ a).length := ⟨msg.length, by rw [hlen, Nat.mul_comm]⟩
  refine ⟨?_, ?_⟩
  · rw [(C136_bpsk lo hi hsps hn hbu (yields_ofList _) hdvd).1 hin]
    exact (C139_bpsk hsps h ha hφ).2.1 hsp hwu
  · rw [(C136_bpsk lo hi hsps hn hbd (yields_ofList _) hdvd).2 (Or.inl hout), hlen, Nat.mul_div_cancel _ hsps]

end transmitters

/-- Two tones multiplied, block length `n`: the band-pass filter selects the sum of the frequencies (or the difference), at half the strength. -/
theorem C139_tones [RIter ι ℝ] {lo hi : ℝ} {fs n p l : ℕ} {φ ψ : ℝ} (hn : 0 < n) (hfs : 0 < fs) (q : ℕ) (hl : l ≤ p) (hp : p + l ≤ n / 2)
    {src : ι} (h : Yields src ((List.range (q * n)).map (fun j : ℕ => Real.cos (2 * Real.pi * ((p : ℝ) * fs / n) * ((j : ℝ) / fs) + φ)
      * Real.cos (2 * Real.pi * ((l : ℝ) * fs / n) * ((j : ℝ) / fs) + ψ)))) :
    (((p - l : ℕ) : ℝ) * fs / n < lo → lo ≤ ((p + l : ℕ) : ℝ) * fs / n → ((p + l : ℕ) : ℝ) * fs / n ≤ hi →
      Yields (bandpass lo hi src fs n) ((List.range (q * n)).map (fun j : ℕ =>
        Real.cos (2 * Real.pi * (((p + l : ℕ) : ℝ) * fs / n) * ((j : ℝ) / fs) + (φ + ψ)) / 2))) ∧
    (lo ≤ ((p - l : ℕ) : ℝ) * fs / n → ((p - l : ℕ) : ℝ) * fs / n ≤ hi → hi < ((p + l : ℕ) : ℝ) * fs / n →
      Yields (bandpass lo hi src fs n) ((List.range (q * n)).map (fun j : ℕ =>
        Real.cos (2 * Real.pi * (((p - l : ℕ) : ℝ) * fs / n) * ((j : ℝ) / fs) + (φ - ψ)) / 2))) := by
  have key := C68_tones lo hi hn hfs q [(p - l, 1 / 2, φ - ψ), (p + l, 1 / 2, φ + ψ)] (by
    intro x hx
    simp only [List.mem_cons, List.not_mem_nil, or_false] at hx
    rcases hx with rfl | rfl
    · simp only; omega
    · simp only; omega) (m := src) (h.of_eq (by
      apply List.map_congr_left
      intro j _
      simp only [List.map_cons, List.map_nil, List.sum_cons, List.sum_nil, add_zero]
      rw [Nat.cast_sub hl, Nat.cast_add,
        show 2 * Real.pi * (((p : ℝ) - l) * fs / n) * (j / fs) + (φ - ψ) = (2 * Real.pi * ((p : ℝ) * fs / n) * (j / fs) + φ)
          - (2 * Real.pi * ((l : ℝ) * fs / n) * (j / fs) + ψ) by ring,
        show 2 * Real.pi * (((p : ℝ) + l) * fs / n) * (j / fs) + (φ + ψ) = (2 * Real.pi * ((p : ℝ) * fs / n) * (j / fs) + φ)
          + (2 * Real.pi * ((l : ℝ) * fs / n) * (j / fs) + ψ) by ring]
      generalize 2 * Real.pi * ((p : ℝ) * fs / n) * (j / fs) + φ = u
      generalize 2 * Real.pi * ((l : ℝ) * fs / n) * (j / fs) + ψ = v
      rw [Real.cos_sub, Real.cos_add]
      ring))
  refine ⟨fun h1 h2 h3 => key.of_eq ?_, fun h1 h2 h3 => key.of_eq ?_⟩
  · apply List.map_congr_left
    intro j _
    rw [List.filter_cons_of_neg (by simp only [decide_eq_true_eq]; exact fun hh => absurd hh.1 (not_le.mpr h1)),
      List.filter_cons_of_pos (by simp only [decide_eq_true_eq]; exact ⟨h2, h3⟩), List.filter_nil]
    simp only [List.map_cons, List.map_nil, List.sum_cons, List.sum_nil, add_zero]
    ring
  · apply List.map_congr_left
    intro j _
    rw [List.filter_cons_of_pos (by simp only [decide_eq_true_eq]; exact ⟨h1, h2⟩),
      List.filter_cons_of_neg (by simp only [decide_eq_true_eq]; exact fun hh => absurd hh.2 (not_le.mpr h3)), List.filter_nil]
    simp only [List.map_cons, List.map_nil, List.sum_cons, List.sum_nil, add_zero]
    ring

/-- The test of tests/fft.rs on a block of 1000 samples: of the product of 50 Hz and 40 Hz the band from 70 to 110 Hz keeps 90 Hz. -/
example : Yields (bandpass (70 : ℝ) 110 (ofList ((List.range (10 * 1000)).map (fun j : ℕ =>
      Real.cos (2 * Real.pi * (((5 : ℕ) : ℝ) * (10000 : ℕ) / (1000 : ℕ)) * ((j : ℝ) / (10000 : ℕ)) + 0)
      * Real.cos (2 * Real.pi * (((4 : ℕ) : ℝ) * (10000 : ℕ) / (1000 : ℕ)) * ((j : ℝ) / (10000 : ℕ)) + 0)))) 10000 1000)
    ((List.range (10 * 1000)).map (fun j : ℕ =>
      Real.cos (2 * Real.pi * (((5 + 4 : ℕ) : ℝ) * (10000 : ℕ) / (1000 : ℕ)) * ((j : ℝ) / (10000 : ℕ)) + (0 + 0)) / 2)) :=
  (C139_tones (fs := 10000) (n := 1000) (p := 5) (l := 4) (by norm_num) (by norm_num) 10 (by norm_num) (by norm_num) (yields_ofList _)).1
    (by norm_num) (by norm_num) (by norm_num)

private theorem spaced13 : Spaced 8000 (8000 / 1000) ((2000 : ℝ) - 1000) (2000 + 1000) ∧ WholeHalf 8000 (8000 / 1000) ((2000 : ℝ) - 1000) := by
  have := C84_multiples (fs := 8000) (sym := 1000) (a := 1) (b := 3) (by norm_num) (by norm_num) (by norm_num) (by norm_num) (by norm_num)
    (by norm_num) (by norm_num)
  rw [show (((1 * 1000 : ℕ) : ℝ)) = 2000 - 1000 by norm_num, show (((3 * 1000 : ℕ) : ℝ)) = 2000 + 1000 by norm_num] at this
  exact this

/-- 2 kHz mixed with 1 kHz, filtered to 500 to 1500 Hz in blocks of eight samples, received at 1 kHz. -/
example (msg : List Bool) : ∃ a : List ℝ, (do let tx ← txBpsk (ofList msg) 8000 1000 (2000 : ℝ); collect tx) = pure a ∧
    (do let rx ← rxBpsk (bandpass 500 1500 (ofList (mixed 8000 1000 0.5 a)) 8000 8) 8000 1000 ((2000 : ℝ) - 1000); collect rx) = pure msg := by
  obtain ⟨it, h1, h2⟩ := txBpsk_ok (yields_ofList msg) (fs := 8000) (sym := 1000) (fc := (2000 : ℝ)) (by norm_num)
    (by rw [Flt.toNat_real]; norm_num) ((isInt_real (by norm_num) (by norm_num)).mpr (by norm_num))
  obtain ⟨a, ha⟩ : ∃ a : List ℝ, (do let tx ← txBpsk (ofList msg) 8000 1000 (2000 : ℝ); collect tx) = pure a :=
    ⟨_, by rw [h1, pure_bind]; exact collect_of_yields h2⟩
  refine ⟨a, ha, (C139_front_end (n := 8) (by norm_num) (yields_ofList msg) ha ?_ spaced13.1 (by norm_num) spaced13.2 ⟨1, by norm_num, by norm_num⟩
    ⟨3, by norm_num, by norm_num⟩ (by norm_num) (by norm_num)).1⟩
  rw [abs_of_pos (by norm_num)]
  have := Real.pi_gt_three
  linarith

/-- The image at 3 kHz, filtered to 2500 to 3500 Hz; a receiver at 1 kHz hears nothing. -/
example (msg : List Bool) : ∃ a : List ℝ, (do let tx ← txBpsk (ofList msg) 8000 1000 (2000 : ℝ); collect tx) = pure a ∧
    (do let rx ← rxBpsk (bandpass 2500 3500 (ofList (mixed 8000 1000 0.5 a)) 8000 8) 8000 1000 ((2000 : ℝ) + 1000); collect rx) = pure msg ∧
    (do let rx ← rxBpsk (bandpass 2500 3500 (ofList (mixed 8000 1000 0.5 a)) 8000 8) 8000 1000 ((2000 : ℝ) - 1000); collect rx)
      = pure (List.replicate msg.length false) := by
  obtain ⟨it, h1, h2⟩ := txBpsk_ok (yields_ofList msg) (fs := 8000) (sym := 1000) (fc := (2000 : ℝ)) (by norm_num)
    (by rw [Flt.toNat_real]; norm_num) ((isInt_real (by norm_num) (by norm_num)).mpr (by norm_num))
  obtain ⟨a, ha⟩ : ∃ a : List ℝ, (do let tx ← txBpsk (ofList msg) 8000 1000 (2000 : ℝ); collect tx) = pure a :=
    ⟨_, by rw [h1, pure_bind]; exact collect_of_yields h2⟩
  refine ⟨a, ha, C139_front_end_up (n := 8) (by norm_num) (yields_ofList msg) ha ?_ spaced13.1 (by norm_num)
    ⟨⟨6, by norm_num⟩, fun q hq => by
      have h6 : (6000 : ℝ) = q * 8000 := by norm_num at hq; exact hq
      have : (6000 : ℤ) = q * 8000 := by exact_mod_cast h6
      omega⟩
    ⟨1, by norm_num, by norm_num⟩ ⟨3, by norm_num, by norm_num⟩ (by norm_num) (by norm_num)⟩
  rw [abs_of_pos (by norm_num)]
  have := Real.pi_gt_three
  linarith

/-- The same carrier, the oscillator above it at 3 kHz: QPSK at 1 kHz with every second bit inverted. -/
example : ∃ a : List ℝ, (do let tx ← txQpsk (ofList [true, false, true, true]) 16000 1000 (2000 : ℝ); collect tx) = pure a ∧
    (do let rx ← rxQpsk (ofList (mixed 16000 3000 0 a)) 16000 1000 ((3000 : ℝ) - 2000); collect rx) = pure [true, true, true, false] := by
  obtain ⟨it, h1, h2⟩ := txQpsk_ok (yields_ofList [true, false, true, true]) (fs := 16000) (sym := 1000) (fc := (2000 : ℝ)) (by norm_num)
  obtain ⟨a, ha⟩ : ∃ a : List ℝ, (do let tx ← txQpsk (ofList [true, false, true, true]) 16000 1000 (2000 : ℝ); collect tx) = pure a :=
    ⟨_, by rw [h1, pure_bind]; exact collect_of_yields h2⟩
  have := C84_multiples (fs := 16000) (sym := 1000) (a := 1) (b := 5) (by norm_num) (by norm_num) (by norm_num) (by norm_num) (by norm_num)
    (by norm_num) (by norm_num)
  rw [show (((1 * 1000 : ℕ) : ℝ)) = 3000 - 2000 by norm_num, show (((5 * 1000 : ℕ) : ℝ)) = 2000 + 3000 by norm_num] at this
  exact ⟨a, ha, (C139_qpsk (by norm_num) (yields_ofList _) rfl ha).2.2 this.1 this.2⟩

/-- One carrier of 2 kHz with the amplitudes 1 and -2 in phase and nothing in quadrature; the 1 kHz oscillator is an eighth of a
turn late.  On 1 kHz and on 3 kHz the bits are the same. -/
example :
    let r := record 2 8 (fun n i => (if n = 0 then 1 else -2) * Real.cos (angle 8000 2000 i) - 0 * Real.sin (angle 8000 2000 i))
    (do let rx ← rxBpsk (ofList (mixed 8000 1000 (Real.pi / 4) r)) 8000 1000 ((2000 : ℝ) - 1000); collect rx) = pure [true, false] ∧
    (do let rx ← rxBpsk (ofList (mixed 8000 1000 (Real.pi / 4) r)) 8000 1000 ((2000 : ℝ) + 1000); collect rx) = pure [true, false] := by
  intro r
  have hr := record_spec 2 8 (fun n i => (if n = 0 then 1 else -2) * Real.cos (angle 8000 2000 i) - 0 * Real.sin (angle 8000 2000 i))
  have hu : WholeHalf 8000 (8000 / 1000) ((2000 : ℝ) + 1000) := by
    have := WholeHalf.of_nat (fs := 8000) (k := 8000 / 1000) (f := 3000) (p := 6) (by norm_num) (by norm_num)
    rwa [show (((3000 : ℕ) : ℝ)) = 2000 + 1000 by norm_num] at this
  have c : (0 : ℝ) < Real.cos (Real.pi / 4) := by rw [Real.cos_pi_div_four]; positivity
  have d1 := (C139_down (fs := 8000) (sym := 1000) (N := 2) (fc := (2000 : ℝ)) (f := 1000) (φ := Real.pi / 4)
    (X := fun n => if n = 0 then 1 else -2) (Y := fun _ => 0) (by norm_num) spaced13.1 spaced13.2 hr (yields_ofList _)).1
  have d2 := (C139_up (fs := 8000) (sym := 1000) (N := 2) (fc := (2000 : ℝ)) (f := 1000) (φ := Real.pi / 4)
    (X := fun n => if n = 0 then 1 else -2) (Y := fun _ => 0) (by norm_num) spaced13.1 hu hr (yields_ofList _)).1
  have b : ∀ y : ℝ, y = 0 → [decide (0 < Real.cos (Real.pi / 4) + y), decide (0 < -2 * Real.cos (Real.pi / 4) + y)] = [true, false] := by
    rintro y rfl
    simp only [add_zero, List.cons.injEq, decide_eq_true_eq, decide_eq_false_iff_not, and_true]
    constructor <;> linarith
  constructor
  · refine d1.trans (congrArg pure ?_)
    have := b 0 rfl
    simpa [List.range_succ] using this
  · refine d2.trans (congrArg pure ?_)
    have := b 0 rfl
    simpa [List.range_succ] using this

/-- BPSK and keyed BPSK, on both sides of the oscillator. -/
example (msg : List Bool) : ∃ a : List ℝ, (do let tx ← txBpsk (ofList msg) 16000 1000 (2000 : ℝ); collect tx) = pure a ∧
    (do let rx ← rxBpsk (ofList (mixed 16000 3000 1 a)) 16000 1000 ((3000 : ℝ) - 2000); collect rx) = pure msg := by
  obtain ⟨a, ha, -⟩ := Cases.bpsk msg
  have := C84_multiples (fs := 16000) (sym := 1000) (a := 1) (b := 5) (by norm_num) (by norm_num) (by norm_num) (by norm_num) (by norm_num)
    (by norm_num) (by norm_num)
  rw [show (((1 * 1000 : ℕ) : ℝ)) = 3000 - 2000 by norm_num, show (((5 * 1000 : ℕ) : ℝ)) = 2000 + 3000 by norm_num] at this
  refine ⟨a, ha, (C139_bpsk (by norm_num) (yields_ofList msg) ha ?_).2.2 this.1 this.2⟩
  rw [abs_one]
  have := Real.pi_gt_three
  linarith

example (msg : List Bool) : ∃ a : List ℝ, (do let tx ← txCdmaBpsk (ofList msg) 16000 1000 (2000 : ℝ) [true, false]; collect tx) = pure a ∧
    (do let rx ← rxCdmaBpsk (ofList (mixed 16000 1000 1 a)) 16000 1000 ((2000 : ℝ) - 1000) [true, false]; collect rx) = pure msg := by
  obtain ⟨a, ha, -⟩ := Cases.cdmaBpsk msg (key := [true, false]) (by decide)
  have := C84_multiples (fs := 16000) (sym := 1000) (a := 1) (b := 3) (by norm_num) (by norm_num) (by norm_num) (by norm_num) (by norm_num)
    (by norm_num) (by norm_num)
  rw [show (((1 * 1000 : ℕ) : ℝ)) = 2000 - 1000 by norm_num, show (((3 * 1000 : ℕ) : ℝ)) = 2000 + 1000 by norm_num] at this
  refine ⟨a, ha, (C139_cdma (by norm_num) (by norm_num) (by simp) (by simp) (by simp) (by norm_num) (by norm_num) (yields_ofList msg) ha ?_ this.1).1 this.2⟩
  rw [abs_one]
  have := Real.pi_gt_three
  linarith

end Verif.Props
