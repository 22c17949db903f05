import Verif.Lemmas.Fdm
import Verif.Props.Offset

/-!
# C84: frequency division

Exact arithmetic. Several stations transmit at the same time on different carriers. Two carriers are `Spaced` if their sum and
their difference are multiples of the symbol rate (a symbol has `k` samples) but not of the sample rate.
-/
namespace Verif.Props
open Verif Spec
set_option linter.unusedSectionVars false
variable {ι κ : Type}

/-- Sum and difference of the frequencies are multiples of the symbol rate `fs / k` and not multiples of the sample rate. -/
def Spaced (fs k : ℕ) (f f' : ℝ) : Prop :=
  (∃ p : ℤ, k * (f + f') = p * fs) ∧ (∃ q : ℤ, k * (f - f') = q * fs) ∧ (∀ z : ℤ, f + f' ≠ z * fs) ∧ ∀ z : ℤ, f - f' ≠ z * fs

theorem Spaced.symm {fs k : ℕ} {f f' : ℝ} (h : Spaced fs k f f') : Spaced fs k f' f := by
  obtain ⟨⟨p, hp⟩, ⟨q, hq⟩, h3, h4⟩ := h
  refine ⟨⟨p, by rw [add_comm, hp]⟩, ⟨-q, by push_cast; linarith⟩, fun z => by rw [add_comm]; exact h3 z, fun z hz => h4 (-z) ?_⟩
  push_cast; linarith

/-- One signal on the air: carrier frequency, and the two amplitudes during each symbol. -/
structure Carried where
  freq : ℝ
  X : ℕ → ℝ
  Y : ℕ → ℝ

/-- Sample `i`, which belongs to symbol `n`, of the sum of all signals. -/
noncomputable def onAir (fs : ℕ) (us : List Carried) (n i : ℕ) : ℝ :=
  (us.map (fun u => u.X n * Real.cos (angle fs u.freq i) - u.Y n * Real.sin (angle fs u.freq i))).sum

theorem Spaced.corr {fs k : ℕ} (hfs : 0 < fs) {f f' : ℝ} (h : Spaced fs k f f') (X Y : ℝ) (m : ℕ) :
    ∑ j ∈ Finset.range k, (X * Real.cos ((m + j : ℕ) * dphi fs f) - Y * Real.sin ((m + j : ℕ) * dphi fs f))
      * Real.cos ((m + j : ℕ) * dphi fs f') = 0 ∧
    ∑ j ∈ Finset.range k, (X * Real.cos ((m + j : ℕ) * dphi fs f) - Y * Real.sin ((m + j : ℕ) * dphi fs f))
      * -Real.sin ((m + j : ℕ) * dphi fs f') = 0 := by
  obtain ⟨⟨p, hp⟩, ⟨q, hq⟩, h3, h4⟩ := h
  have hF : (fs : ℝ) ≠ 0 := by exact_mod_cast hfs.ne'
  have hpi := Real.pi_ne_zero
  have ne : ∀ x : ℝ, (∀ z : ℤ, x ≠ z * fs) → Real.sin (2 * Real.pi * x / fs / 2) ≠ 0 := by
    intro x hx h0
    obtain ⟨z, hz⟩ := Real.sin_eq_zero_iff.mp h0
    apply hx z
    have : (z : ℝ) * Real.pi * fs = x * Real.pi := by rw [hz]; field_simp
    have := mul_right_cancel₀ hpi (show (z * fs : ℝ) * Real.pi = x * Real.pi by linarith)
    exact this.symm
  apply cross_corr (p := p) (q := q)
  · rw [dphi, dphi, show (k : ℝ) * (2 * Real.pi * f / fs + 2 * Real.pi * f' / fs) = 2 * Real.pi * (k * (f + f')) / fs by ring, hp]
    field_simp
  · rw [dphi, dphi, show (k : ℝ) * (2 * Real.pi * f / fs - 2 * Real.pi * f' / fs) = 2 * Real.pi * (k * (f - f')) / fs by ring, hq]
    field_simp
  · have := ne _ h3
    rwa [show 2 * Real.pi * (f + f') / fs / 2 = (dphi fs f + dphi fs f') / 2 by rw [dphi, dphi]; ring] at this
  · have := ne _ h4
    rwa [show 2 * Real.pi * (f - f') / fs / 2 = (dphi fs f - dphi fs f') / 2 by rw [dphi, dphi]; ring] at this

theorem pos_fs {fs sym : ℕ} (hsps : 0 < fs / sym) : 0 < fs := by
  rcases Nat.eq_zero_or_pos fs with rfl | h
  · simp at hsps
  · exact h

/-- The correlations with the carrier of one station are those of that station's signal. -/
theorem onAir_corr {fs k : ℕ} (hfs : 0 < fs) (hk : 0 < k) {us : List Carried}
    (horth : us.Pairwise (fun u v => Spaced fs k u.freq v.freq)) {v : Carried} (hv : v ∈ us) (hw : WholeHalf fs k v.freq) (n : ℕ) :
    ∑ j ∈ Finset.range k, onAir fs us n (n * k + j) * Real.cos ((n * k + j : ℕ) * dphi fs v.freq) = k / 2 * v.X n ∧
    ∑ j ∈ Finset.range k, onAir fs us n (n * k + j) * -Real.sin ((n * k + j : ℕ) * dphi fs v.freq) = k / 2 * v.Y n := by
  obtain ⟨p, hp, hs⟩ := hw.dphi hk
  constructor
  · simp only [onAir, angle_dphi]
    rw [sum_corr us (fun u j => u.X n * Real.cos ((n * k + j : ℕ) * dphi fs u.freq)
      - u.Y n * Real.sin ((n * k + j : ℕ) * dphi fs u.freq)),
      sum_own (fun _ _ h => h.symm) horth hv (fun u hu => (hu.corr hfs (u.X n) (u.Y n) _).1)]
    exact (quad_corr hp hs _ _ _).1
  · simp only [onAir, angle_dphi]
    rw [sum_corr us (fun u j => u.X n * Real.cos ((n * k + j : ℕ) * dphi fs u.freq)
      - u.Y n * Real.sin ((n * k + j : ℕ) * dphi fs u.freq)),
      sum_own (fun _ _ h => h.symm) horth hv (fun u hu => (hu.corr hfs (u.X n) (u.Y n) _).2)]
    exact (quad_corr hp hs _ _ _).2

/-- Stations on pairwise spaced carriers: a receiver tuned to one of them decides on the amplitudes of that one alone. -/
theorem C84_quadrature [RIter κ ℝ] {fs sym N : ℕ} (hsps : 0 < fs / sym) {us : List Carried}
    (horth : us.Pairwise (fun u v => Spaced fs (fs / sym) u.freq v.freq)) {v : Carried} (hv : v ∈ us)
    (hw : WholeHalf fs (fs / sym) v.freq) {r : List ℝ} (h : Recording r N (fs / sym) (onAir fs us)) {rcv : κ} (hr : Yields rcv r) :
    (do let rx ← rxBpsk rcv fs sym v.freq; collect rx) = pure ((List.range N).map (fun n => decide (0 < v.X n))) ∧
    (do let rx ← rxQpsk rcv fs sym v.freq; collect rx)
      = pure ((List.range N).flatMap (fun n => [decide (0 ≤ v.X n), decide (0 ≤ v.Y n)])) := by
  have hhalf : (0 : ℝ) < ((fs / sym : ℕ) : ℝ) / 2 := by
    have : (0 : ℝ) < ((fs / sym : ℕ) : ℝ) := by exact_mod_cast hsps
    linarith
  rw [rxBpsk_recording hsps h hr, rxQpsk_recording hsps h hr]
  simp only [(onAir_corr (pos_fs hsps) hsps horth hv hw _).1, (onAir_corr (pos_fs hsps) hsps horth hv hw _).2,
    mul_pos_iff_of_pos_left hhalf, mul_nonneg_iff_of_pos_left hhalf, and_self]

/-- A receiver tuned to an unused carrier, spaced from all used ones, hears nothing: BPSK returns `false` and QPSK `true, true` for
every symbol. -/
theorem C84_unused [RIter κ ℝ] {fs sym N : ℕ} (hsps : 0 < fs / sym) {us : List Carried} {f : ℝ}
    (horth : ∀ u ∈ us, Spaced fs (fs / sym) u.freq f) {r : List ℝ} (h : Recording r N (fs / sym) (onAir fs us)) {rcv : κ}
    (hr : Yields rcv r) :
    (do let rx ← rxBpsk rcv fs sym f; collect rx) = pure (List.replicate N false) ∧
    (do let rx ← rxQpsk rcv fs sym f; collect rx) = pure (List.replicate (2 * N) true) := by
  have e1 : ∀ n, ∑ j ∈ Finset.range (fs / sym), onAir fs us n (n * (fs / sym) + j)
      * Real.cos ((n * (fs / sym) + j : ℕ) * dphi fs f) = 0 := by
    intro n
    simp only [onAir, angle_dphi]
    rw [sum_corr us (fun u j => u.X n * Real.cos ((n * (fs / sym) + j : ℕ) * dphi fs u.freq)
      - u.Y n * Real.sin ((n * (fs / sym) + j : ℕ) * dphi fs u.freq))]
    exact sum_none _ _ (fun u hu => ((horth u hu).corr (pos_fs hsps) (u.X n) (u.Y n) _).1)
  have e2 : ∀ n, ∑ j ∈ Finset.range (fs / sym), onAir fs us n (n * (fs / sym) + j)
      * -Real.sin ((n * (fs / sym) + j : ℕ) * dphi fs f) = 0 := by
    intro n
    simp only [onAir, angle_dphi]
    rw [sum_corr us (fun u j => u.X n * Real.cos ((n * (fs / sym) + j : ℕ) * dphi fs u.freq)
      - u.Y n * Real.sin ((n * (fs / sym) + j : ℕ) * dphi fs u.freq))]
    exact sum_none _ _ (fun u hu => ((horth u hu).corr (pos_fs hsps) (u.X n) (u.Y n) _).2)
  rw [rxBpsk_recording hsps h hr, rxQpsk_recording hsps h hr]
  simp only [e1, e2, lt_irrefl, le_refl, decide_true, decide_false]
  constructor
  · congr 1; rw [List.map_const', List.length_range]
  · congr 1
    rw [List.eq_replicate_iff]
    refine ⟨?_, ?_⟩
    · rw [length_flatMap_const (k := 2) _ _ (fun _ _ => rfl), List.length_range, Nat.mul_comm]
    · intro b hb
      simp only [List.mem_flatMap] at hb
      obtain ⟨n, _, hb⟩ := hb
      simpa using hb

/-! ## Transmitters -/

/-- A station: its carrier, how strongly it is received, whether it uses QPSK (otherwise BPSK), its message. -/
structure Station where
  carrier : ℝ
  gain : ℝ
  qpsk : Bool
  msg : List Bool

/-- What a station transmits. -/
def Station.Sends (fs sym : ℕ) (u : Station) (s : List ℝ) : Prop :=
  (if u.qpsk then (do let tx ← txQpsk (ofList u.msg) fs sym u.carrier; collect tx)
    else (do let tx ← txBpsk (ofList u.msg) fs sym u.carrier; collect tx)) = pure s

/-- What a receiver tuned to a station's carrier, of the station's kind, returns. -/
noncomputable def Station.heard [RIter κ ℝ] (fs sym : ℕ) (u : Station) (rcv : κ) : RM (List Bool) :=
  if u.qpsk then (do let rx ← rxQpsk rcv fs sym u.carrier; collect rx) else (do let rx ← rxBpsk rcv fs sym u.carrier; collect rx)

/-- The number of symbols of a station's message; QPSK messages have an even number of bits. -/
def Station.symbols (u : Station) (N : ℕ) : Prop := u.msg.length = if u.qpsk then 2 * N else N

/-- The channel adds the signals, each multiplied by the strength at which its station is received. -/
def Combined (us : List Station) (signals : List (List ℝ)) (channel : List ℝ) : Prop :=
  ∀ i < channel.length, channel[i]? = some ((us.zip signals).map (fun p => p.1.gain * p.2.getD i 0)).sum

noncomputable def Station.carried (u : Station) : Carried := ⟨u.carrier,
  fun n => u.gain * pm (u.msg.getD (if u.qpsk then 2 * n else n) false),
  fun n => if u.qpsk then u.gain * pm (u.msg.getD (2 * n + 1) false) else 0⟩

theorem Station.sends_at {fs sym N : ℕ} (hsps : 0 < fs / sym) {u : Station} {s : List ℝ} (h : u.Sends fs sym s) (hN : u.symbols N)
    {i : ℕ} (hi : i < N * (fs / sym)) :
    u.gain * s.getD i 0 = u.carried.X (i / (fs / sym)) * Real.cos (angle fs u.carried.freq i)
      - u.carried.Y (i / (fs / sym)) * Real.sin (angle fs u.carried.freq i) := by
  unfold Station.Sends at h
  unfold Station.symbols at hN
  cases hq : u.qpsk
  · rw [hq] at h hN
    simp only [Bool.false_eq_true, if_false] at h hN
    have hrec := C81_clean_bpsk (yields_ofList u.msg) hsps h
    rw [hN] at hrec
    rw [List.getD_eq_getElem?_getD, hrec.2 i hi, Option.getD_some, fadedBpsk]
    simp only [Station.carried, hq, Bool.false_eq_true, if_false, add_zero]
    ring
  · rw [hq] at h hN
    simp only [if_true] at h hN
    have hrec := C81_clean_qpsk (yields_ofList u.msg) hsps h
    rw [show u.msg.length / 2 = N by omega] at hrec
    rw [List.getD_eq_getElem?_getD, hrec.2 i hi, Option.getD_some, fadedQpsk]
    simp only [Station.carried, hq, if_true, add_zero]
    ring

theorem onAir_of {fs sym N : ℕ} (hsps : 0 < fs / sym) {us : List Station} (hN : ∀ u ∈ us, u.symbols N) {signals : List (List ℝ)}
    (htx : List.Forall₂ (Station.Sends fs sym) us signals) {channel : List ℝ} (hcl : channel.length = N * (fs / sym))
    (hmix : Combined us signals channel) :
    Recording channel N (fs / sym) (onAir fs (us.map Station.carried)) := by
  refine ⟨hcl, fun i hi => ?_⟩
  rw [hmix i (by omega), onAir]
  congr 1
  clear hmix
  induction htx with
  | nil => rfl
  | @cons u s us signals h1 h2 ih =>
    simp only [List.zip_cons_cons, List.map_cons, List.sum_cons]
    rw [ih (fun x hx => hN x (List.mem_cons_of_mem _ hx)), u.sends_at hsps h1 (hN u List.mem_cons_self) hi]

/-- Frequency division: any number of BPSK and QPSK stations on pairwise spaced carriers, each with a whole number of half periods per
symbol, transmit `N` symbols at once and are received at arbitrary positive strengths. A receiver tuned to any of the stations
returns exactly that station's message. -/
theorem C84_stations [RIter κ ℝ] {fs sym N : ℕ} (hsps : 0 < fs / sym) {us : List Station}
    (horth : us.Pairwise (fun u v => Spaced fs (fs / sym) u.carrier v.carrier))
    (hw : ∀ u ∈ us, WholeHalf fs (fs / sym) u.carrier) (hgain : ∀ u ∈ us, 0 < u.gain) (hN : ∀ u ∈ us, u.symbols N)
    {signals : List (List ℝ)} (htx : List.Forall₂ (Station.Sends fs sym) us signals) {channel : List ℝ}
    (hcl : channel.length = N * (fs / sym)) (hmix : Combined us signals channel) {rcv : κ} (hr : Yields rcv channel) :
    ∀ v ∈ us, v.heard fs sym rcv = pure v.msg := by
  intro v hv
  have hrec := onAir_of hsps hN htx hcl hmix
  have horth' : (us.map Station.carried).Pairwise (fun u v => Spaced fs (fs / sym) u.freq v.freq) := by
    rw [List.pairwise_map]; exact horth
  obtain ⟨h1, h2⟩ := C84_quadrature hsps horth' (List.mem_map_of_mem hv) (hw v hv) hrec hr
  have hl := hN v hv
  have hg := hgain v hv
  have d1 : ∀ b, decide (0 < v.gain * pm b) = b := fun b => by simpa using decide_pm_pos hg one_pos b
  have d2 : ∀ b, decide (0 ≤ v.gain * pm b) = b := fun b => by simpa using decide_pm_nonneg hg one_pos b
  unfold Station.heard
  unfold Station.symbols at hl
  cases hq : v.qpsk
  · rw [hq] at hl
    simp only [Bool.false_eq_true, if_false] at hl ⊢
    refine h1.trans ?_
    congr 1
    simp only [Station.carried, hq, Bool.false_eq_true, if_false, d1]
    rw [← hl, range_map_getD v.msg (fun _ b => b)]
    exact mapIdx_eq_self (fun _ _ _ => rfl)
  · rw [hq] at hl
    simp only [if_true] at hl ⊢
    refine h2.trans ?_
    congr 1
    simp only [Station.carried, hq, if_true, d2]
    rw [show N = v.msg.length / 2 by omega]
    exact flatMap_two v.msg (by omega)

/-- Such signals and such a channel exist for all stations that the transmitters accept. -/
theorem C84_channel_exists {fs sym N : ℕ} (hsps : 0 < fs / sym) (hfs : fs < 2 ^ 64) (hdvd : sym ∣ fs) {us : List Station}
    (hcar : ∀ u ∈ us, ⌊u.carrier⌋₊ ≤ fs / 2) (hN : ∀ u ∈ us, u.symbols N) :
    ∃ signals channel, List.Forall₂ (Station.Sends fs sym) us signals ∧ channel.length = N * (fs / sym) ∧
      Combined us signals channel := by
  have hsym : 0 < sym := by
    rcases Nat.eq_zero_or_pos sym with rfl | h
    · simp at hsps
    · exact h
  obtain ⟨signals, hs⟩ := forall₂_exists (R := fun u s => Station.Sends fs sym u s) (l := us) (fun u hu => by
    unfold Station.Sends
    cases u.qpsk
    · obtain ⟨it, h1, h2⟩ := txBpsk_ok (yields_ofList u.msg) (fc := u.carrier) hsps
        (by rw [Flt.toNat_real]; have := hcar u hu; omega) ((isInt_real hfs hsym).mpr hdvd)
      exact ⟨_, by simp only [Bool.false_eq_true, if_false]; rw [h1, pure_bind, collect_of_yields h2]⟩
    · obtain ⟨it, h1, h2⟩ := txQpsk_ok (yields_ofList u.msg) (fc := u.carrier) hsps
      exact ⟨_, by simp only [if_true]; rw [h1, pure_bind, collect_of_yields h2]⟩)
  refine ⟨signals, (List.range (N * (fs / sym))).map (fun i => ((us.zip signals).map (fun p => p.1.gain * p.2.getD i 0)).sum),
    hs, by simp, fun i hi => ?_⟩
  have hi' : i < N * (fs / sym) := by simpa using hi
  rw [List.getElem?_map, List.getElem?_range hi']
  rfl

/-! ## Instances -/

/-- Frequencies that are different multiples of the symbol rate between zero and half the sample rate are spaced. -/
theorem C84_multiples {fs sym a b : ℕ} (hsym : 0 < sym) (hdvd : sym ∣ fs) (ha : 0 < a) (hb : 0 < b) (hab : a ≠ b)
    (ha' : 2 * (a * sym) < fs) (hb' : 2 * (b * sym) < fs) :
    Spaced fs (fs / sym) ((a * sym : ℕ) : ℝ) ((b * sym : ℕ) : ℝ) ∧ WholeHalf fs (fs / sym) ((a * sym : ℕ) : ℝ) := by
  have hk : ((fs / sym : ℕ) : ℝ) * sym = fs := by exact_mod_cast Nat.div_mul_cancel hdvd
  have ha2 : 0 < a * sym := Nat.mul_pos ha hsym
  have hb2 : 0 < b * sym := Nat.mul_pos hb hsym
  have hne : a * sym ≠ b * sym := fun h => hab (Nat.eq_of_mul_eq_mul_right hsym h)
  have key : ∀ x z : ℤ, x ≠ 0 → |x| < fs → x ≠ z * fs := by
    intro x z h0 h1 h2
    rcases eq_or_ne z 0 with rfl | hz
    · simp at h2; exact h0 h2
    · rw [h2, abs_mul] at h1
      have : (1 : ℤ) ≤ |z| := Int.one_le_abs hz
      have hF : |(fs : ℤ)| = fs := abs_of_nonneg (by positivity)
      rw [hF] at h1
      nlinarith
  refine ⟨⟨⟨a + b, ?_⟩, ⟨a - b, ?_⟩, fun z hz => ?_, fun z hz => ?_⟩, ⟨2 * a, ?_⟩, fun q hq => ?_⟩
  · push_cast; linear_combination (a + b : ℝ) * hk
  · push_cast; linear_combination (a - b : ℝ) * hk
  · refine key ((a * sym : ℕ) + (b * sym : ℕ)) z (by omega) ?_ (by exact_mod_cast hz)
    rw [abs_lt]; omega
  · refine key ((a * sym : ℕ) - (b * sym : ℕ)) z (by omega) ?_ (by exact_mod_cast hz)
    rw [abs_lt]; omega
  · push_cast; linear_combination (2 * a : ℝ) * hk
  · refine key (2 * (a * sym : ℕ)) q (by omega) ?_ (by exact_mod_cast hq)
    rw [abs_lt]; omega

/-- A weak BPSK station, a strong QPSK station and a medium BPSK station at 1000, 2000 and 3000 Hz. -/
example : ∃ signals channel, List.Forall₂ (Station.Sends 8000 1000)
      [⟨((1 * 1000 : ℕ) : ℝ), 0.01, false, [true, false]⟩, ⟨((2 * 1000 : ℕ) : ℝ), 10, true, [true, false, false, true]⟩,
        ⟨((3 * 1000 : ℕ) : ℝ), 1, false, [true, true]⟩] signals ∧
    Combined [⟨((1 * 1000 : ℕ) : ℝ), 0.01, false, [true, false]⟩, ⟨((2 * 1000 : ℕ) : ℝ), 10, true, [true, false, false, true]⟩,
        ⟨((3 * 1000 : ℕ) : ℝ), 1, false, [true, true]⟩] signals channel ∧
    (do let rx ← rxBpsk (ofList channel) 8000 1000 ((1 * 1000 : ℕ) : ℝ); collect rx) = pure [true, false] ∧
    (do let rx ← rxQpsk (ofList channel) 8000 1000 ((2 * 1000 : ℕ) : ℝ); collect rx) = pure [true, false, false, true] := by
  set us : List Station := [⟨((1 * 1000 : ℕ) : ℝ), 0.01, false, [true, false]⟩,
    ⟨((2 * 1000 : ℕ) : ℝ), 10, true, [true, false, false, true]⟩, ⟨((3 * 1000 : ℕ) : ℝ), 1, false, [true, true]⟩] with hus
  have hm : ∀ a b : ℕ, 0 < a → a ≤ 3 → 0 < b → b ≤ 3 → a ≠ b → _ := fun a b h1 h2 h3 h4 h5 =>
    C84_multiples (fs := 8000) (sym := 1000) (a := a) (b := b) (by norm_num) (by norm_num) h1 h3 h5 (by omega) (by omega)
  have hN : ∀ u ∈ us, u.symbols 2 := by
    intro u hu; simp only [hus, List.mem_cons, List.not_mem_nil, or_false] at hu; rcases hu with rfl | rfl | rfl <;> rfl
  obtain ⟨signals, channel, h1, h2, h3⟩ := C84_channel_exists (fs := 8000) (sym := 1000) (N := 2) (us := us) (by norm_num)
    (by norm_num) (by norm_num) (by
      intro u hu; simp only [hus, List.mem_cons, List.not_mem_nil, or_false] at hu
      rcases hu with rfl | rfl | rfl <;> (rw [Nat.floor_natCast]; norm_num)) hN
  have := C84_stations (us := us) (by norm_num) (by
      simp only [hus, List.pairwise_cons, List.mem_cons, List.not_mem_nil, or_false, forall_eq_or_imp, forall_eq, false_imp_iff,
        implies_true, List.Pairwise.nil, and_true]
      exact ⟨⟨(hm 1 2 (by norm_num) (by norm_num) (by norm_num) (by norm_num) (by norm_num)).1,
        (hm 1 3 (by norm_num) (by norm_num) (by norm_num) (by norm_num) (by norm_num)).1⟩,
        (hm 2 3 (by norm_num) (by norm_num) (by norm_num) (by norm_num) (by norm_num)).1⟩) (by
      intro u hu; simp only [hus, List.mem_cons, List.not_mem_nil, or_false] at hu
      rcases hu with rfl | rfl | rfl
      · exact (hm 1 2 (by norm_num) (by norm_num) (by norm_num) (by norm_num) (by norm_num)).2
      · exact (hm 2 1 (by norm_num) (by norm_num) (by norm_num) (by norm_num) (by norm_num)).2
      · exact (hm 3 1 (by norm_num) (by norm_num) (by norm_num) (by norm_num) (by norm_num)).2) (by
      intro u hu; simp only [hus, List.mem_cons, List.not_mem_nil, or_false] at hu
      rcases hu with rfl | rfl | rfl <;> norm_num) hN h1 h2 h3 (yields_ofList channel)
  have a := this ⟨((1 * 1000 : ℕ) : ℝ), 0.01, false, [true, false]⟩ (by rw [hus]; exact List.mem_cons_self)
  have b := this ⟨((2 * 1000 : ℕ) : ℝ), 10, true, [true, false, false, true]⟩
    (by rw [hus]; exact List.mem_cons_of_mem _ List.mem_cons_self)
  exact ⟨signals, channel, h1, h3, a, b⟩

/-- Listening between the stations. -/
example : (do let rx ← rxBpsk (ofList (record 3 8 (onAir 8000 [⟨((1 * 1000 : ℕ) : ℝ), fun n => n + 1, fun n => n⟩]))) 8000 1000 ((2 * 1000 : ℕ) : ℝ); collect rx) = pure [false, false, false] :=
  (C84_unused (us := [⟨((1 * 1000 : ℕ) : ℝ), fun n => n + 1, fun n => n⟩]) (by norm_num) (by
    intro u hu
    rw [List.mem_singleton] at hu
    subst hu
    exact (C84_multiples (fs := 8000) (sym := 1000) (a := 1) (b := 2) (by norm_num) (by norm_num) (by norm_num) (by norm_num)
      (by norm_num) (by norm_num) (by norm_num)).1) (record_spec _ _ _) (yields_ofList _)).1

/-- A QPSK-like station at 2 kHz is received beside a strong one at 1 kHz. -/
example : (do let rx ← rxQpsk (ofList (record 2 8 (onAir 8000 [⟨((1 * 1000 : ℕ) : ℝ), fun n => 50 * (n + 1), fun _ => -70⟩,
      ⟨((2 * 1000 : ℕ) : ℝ), fun n => n, fun n => 1 - 2 * n⟩]))) 8000 1000 ((2 * 1000 : ℕ) : ℝ); collect rx)
    = pure [true, true, true, false] := by
  have hm := C84_multiples (fs := 8000) (sym := 1000) (a := 1) (b := 2) (by norm_num) (by norm_num) (by norm_num) (by norm_num)
      (by norm_num) (by norm_num) (by norm_num)
  have hm' := C84_multiples (fs := 8000) (sym := 1000) (a := 2) (b := 1) (by norm_num) (by norm_num) (by norm_num) (by norm_num)
      (by norm_num) (by norm_num) (by norm_num)
  refine (C84_quadrature (N := 2) (us := [⟨((1 * 1000 : ℕ) : ℝ), fun n => 50 * (n + 1), fun _ => -70⟩,
      ⟨((2 * 1000 : ℕ) : ℝ), fun n => n, fun n => 1 - 2 * n⟩]) (v := ⟨((2 * 1000 : ℕ) : ℝ), fun n => n, fun n => 1 - 2 * n⟩)
      (by norm_num) ?_ (by simp) hm'.2
      (record_spec _ _ _) (yields_ofList _)).2.trans ?_
  · simp only [List.pairwise_cons, List.mem_singleton, forall_eq, List.not_mem_nil, false_imp_iff, implies_true, List.Pairwise.nil, and_true]
    exact hm.1
  · simp only [List.range_succ_eq_map, List.range_zero, List.map_cons, List.map_nil, List.flatMap_cons, List.flatMap_nil, List.nil_append, List.cons_append]
    norm_num

end Verif.Props
