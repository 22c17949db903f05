import Verif.Lemmas.Psk

/-!
# Properties C24–C28: BPSK and QPSK

Theorems about `ℝ` read the code in exact arithmetic, theorems about `Float` in IEEE binary64, theorems with a number
type `F` hold for every number type (whatever rounding does).
-/
namespace Verif.Props
open Verif Spec
set_option linter.unusedSectionVars false

variable {ι : Type}

/-! ## C24 baseband BPSK (IEEE) -/

theorem C24_symbols [RIter ι Bool] {m : ι} {msg : List Bool} (h : Yields m msg) :
    Yields (txBasebandBpsk (F := Float) m) (msg.map (fun b => ⟨if b then 1 else -1, 0⟩)) := by
  have := h.rmap (fun bit : Bool => if bit then (⟨1, 0⟩ : Cx Float) else ⟨-1, 0⟩)
  refine this.of_eq (List.map_congr_left ?_)
  intro b _; cases b <;> rfl

theorem C24_roundtrip [RIter ι Bool] {m : ι} {msg : List Bool} (h : Yields m msg) :
    Yields (rxBasebandBpsk (F := Float) (txBasebandBpsk (F := Float) m)) msg := by
  have := (C24_symbols h).rmap (fun sample : Cx Float => Flt.le 0 sample.re)
  rw [List.map_map] at this
  refine this.of_eq ?_
  conv_rhs => rw [← List.map_id msg]
  apply List.map_congr_left
  intro b _
  cases b <;> decide +kernel

example : Yields (rxBasebandBpsk (F := Float) (txBasebandBpsk (F := Float) (ofList [true, false]))) [true, false] :=
  C24_roundtrip (yields_ofList _)

/-- The receiver decides by the sign of the real part, whatever the imaginary part (IEEE; a negative zero counts as
`true`, a NaN as `false`). -/
theorem C24_receiver [RIter ι (Cx Float)] {s : ι} {l : List (Cx Float)} (h : Yields s l) :
    Yields (rxBasebandBpsk (F := Float) s) (l.map (fun z => decide (0 ≤ z.re))) := by
  have := h.rmap (fun sample : Cx Float => Flt.le 0 sample.re)
  refine this.of_eq (List.map_congr_left ?_)
  intro z _
  have e : (Flt.le 0 z.re = true) ↔ ((0 : Float) ≤ z.re) := Iff.rfl
  by_cases hz : (0 : Float) ≤ z.re
  · rw [decide_eq_true hz]; exact e.mpr hz
  · rw [decide_eq_false hz]; exact Bool.eq_false_iff.mpr (fun h => hz (e.mp h))

example : Yields (txBasebandBpsk (ofList [true, false]) : Map _ Bool (Cx Float)) [⟨1, 0⟩, ⟨-1, 0⟩] :=
  C24_symbols (yields_ofList _)

/-! ## C27 baseband QPSK (IEEE) -/

theorem C27_symbols [RIter ι Bool] {m : ι} {msg : List Bool} (h : Yields m msg) :
    Yields (txBasebandQpsk (F := Float) m) ((pairs msg).map (fun p =>
      ⟨if p.1 then Float.sqrt 2 else -Float.sqrt 2, if p.2 then Float.sqrt 2 else -Float.sqrt 2⟩)) := by
  have := h.rtuples.rmap (fun p : Bool × Bool =>
    match p with
    | (true, true) => (⟨Flt.sqrt (Flt.ofNat 2), Flt.sqrt (Flt.ofNat 2)⟩ : Cx Float)
    | (true, false) => ⟨Flt.sqrt (Flt.ofNat 2), -(Flt.sqrt (Flt.ofNat 2))⟩
    | (false, true) => ⟨-(Flt.sqrt (Flt.ofNat 2)), Flt.sqrt (Flt.ofNat 2)⟩
    | (false, false) => ⟨-(Flt.sqrt (Flt.ofNat 2)), -(Flt.sqrt (Flt.ofNat 2))⟩)
  have e2 : (Flt.ofNat 2 : Float) = 2 := by decide +kernel
  refine this.of_eq (List.map_congr_left ?_)
  rintro ⟨a, b⟩ _
  rw [e2]
  cases a <;> cases b <;> rfl

theorem C27_roundtrip [RIter ι Bool] {m : ι} {msg : List Bool} (h : Yields m msg) :
    Yields (rxBasebandQpsk (F := Float) (txBasebandQpsk (F := Float) m))
      (msg.take (2 * (msg.length / 2))) := by
  have := (C27_symbols h).rflatMap (f := fun sample : Cx Float =>
    pure (ofList [Flt.le 0 sample.re, Flt.le 0 sample.im])) (fun z => ⟨_, rfl, yields_ofList _⟩)
  rw [List.flatMap_map] at this
  refine this.of_eq ?_
  rw [← pairs_flat]
  congr 1
  funext ⟨a, b⟩
  revert a b
  decide +kernel

theorem C27_roundtrip_even [RIter ι Bool] {m : ι} {msg : List Bool} (h : Yields m msg) (he : msg.length % 2 = 0) :
    Yields (rxBasebandQpsk (F := Float) (txBasebandQpsk (F := Float) m)) msg := by
  have := C27_roundtrip h
  rwa [List.take_of_length_le (by omega)] at this

example : Yields (rxBasebandQpsk (F := Float) (txBasebandQpsk (ofList [true, false, true]) :
    Map (Tuples _ Bool) (Bool × Bool) (Cx Float))) [true, false] := C27_roundtrip (yields_ofList _)

/-! ## C26 BPSK transmitter -/

/-- Guards, for every number type: the transmitter panics exactly when one of the three checks fails. -/
theorem C26_panics {F : Type} [Add F] [Sub F] [Mul F] [Div F] [Neg F] [Zero F] [One F] [Flt F] [RIter ι Bool]
    (m : ι) (fs sym : ℕ) (fc : F) :
    (txBpsk m fs sym fc).Panics ↔
      sym = 0 ∨ fs / 2 < Flt.toNat fc ∨ isInt (Flt.ofNat fs / Flt.ofNat sym : F) = false := by
  unfold txBpsk
  rcases Nat.eq_zero_or_pos sym with rfl | hs
  · simp
  · rw [udiv_pos hs, pure_bind]
    by_cases h1 : Flt.toNat fc ≤ fs / 2
    · rw [rassert_pos (decide_eq_true h1), pure_bind]
      cases h2 : isInt (Flt.ofNat fs / Flt.ofNat sym : F)
      · simp
      · simp; omega
    · simp [rassert, h1]; omega

/-- Exact arithmetic: the panicking parameters.  The carrier check compares truncated values. -/
theorem C26_panics_real [RIter ι Bool] (m : ι) (fs sym : ℕ) (fc : ℝ) (hfs : fs < 2 ^ 64) :
    (txBpsk m fs sym fc).Panics ↔ sym = 0 ∨ ¬ sym ∣ fs ∨ fs / 2 < ⌊fc⌋₊ := by
  rw [C26_panics]
  simp only [Flt.toNat_real, Flt.ofNat_real]
  have e : fs / 2 < min ⌊fc⌋₊ (2 ^ 64 - 1) ↔ fs / 2 < ⌊fc⌋₊ := by omega
  rw [e]
  rcases Nat.eq_zero_or_pos sym with rfl | hs
  · simp
  · rw [← Bool.not_eq_true, isInt_real hfs hs]; tauto

/-- Nine samples for two symbols; and a carrier above half the sampling rate. -/
example : (txBpsk (ofList [true]) 9 2 (1 : ℝ)).Panics ∧ (txBpsk (ofList [true]) 9 3 (5 : ℝ)).Panics ∧ ¬ (txBpsk (ofList [true]) 9 3 (4 : ℝ)).Panics := by
  refine ⟨(C26_panics_real _ _ _ _ (by norm_num)).mpr (by norm_num), (C26_panics_real _ _ _ _ (by norm_num)).mpr (by norm_num),
    fun h => ?_⟩
  have := (C26_panics_real _ _ _ _ (by norm_num)).mp h
  norm_num at this

/-- Length and waveform, exact arithmetic. -/
theorem C26_waveform [RIter ι Bool] {m : ι} {msg : List Bool} (h : Yields m msg) {fs sym : ℕ} {fc : ℝ}
    (hfs : fs < 2 ^ 64) (h0 : 0 < fs) (hdvd : sym ∣ fs) (hfc : ⌊fc⌋₊ ≤ fs / 2) :
    ∃ it l, txBpsk m fs sym fc = pure it ∧ Yields it l ∧ l.length = msg.length * (fs / sym) ∧
      ∀ i, l[i]? = msg[i / (fs / sym)]?.map (fun b =>
        if b then Real.cos (2 * Real.pi * fc * i / fs) else -Real.cos (2 * Real.pi * fc * i / fs)) := by
  have hsym : 0 < sym := Nat.pos_of_dvd_of_pos hdvd h0
  have hsps : 0 < fs / sym := Nat.div_pos (Nat.le_of_dvd h0 hdvd) hsym
  obtain ⟨it, h1, h2⟩ := txBpsk_ok h (fc := fc) hsps (by rw [Flt.toNat_real]; omega) ((isInt_real hfs hsym).mpr hdvd)
  refine ⟨it, _, h1, h2, wave_length _ _ _, ?_⟩
  intro i
  rw [wave_getElem? hsps]
  congr 1
  funext b
  rw [Nat.mul_comm, Nat.div_add_mod, phase_real, dphi, Flt.cos_real,
    show (i : ℝ) * (2 * Real.pi * fc / fs) = 2 * Real.pi * fc * i / fs by ring]
  cases b <;> simp [bitToNrz]

/-- Inverting all message bits negates the waveform. -/
theorem C26_negation [RIter ι Bool] {κ : Type} [RIter κ Bool] {m : ι} {m' : κ} {msg : List Bool} (h : Yields m msg)
    (h' : Yields m' (msg.map (!·))) {fs sym : ℕ} {fc : ℝ}
    (hfs : fs < 2 ^ 64) (h0 : 0 < fs) (hdvd : sym ∣ fs) (hfc : ⌊fc⌋₊ ≤ fs / 2) :
    ∃ it it' l, txBpsk m fs sym fc = pure it ∧ txBpsk m' fs sym fc = pure it' ∧ Yields it l ∧
      Yields it' (l.map (- ·)) := by
  have hsym : 0 < sym := Nat.pos_of_dvd_of_pos hdvd h0
  have hsps : 0 < fs / sym := Nat.div_pos (Nat.le_of_dvd h0 hdvd) hsym
  obtain ⟨it, h1, h2⟩ := txBpsk_ok h (fc := fc) hsps (by rw [Flt.toNat_real]; omega) ((isInt_real hfs hsym).mpr hdvd)
  obtain ⟨it', h1', h2'⟩ := txBpsk_ok h' (fc := fc) hsps (by rw [Flt.toNat_real]; omega) ((isInt_real hfs hsym).mpr hdvd)
  refine ⟨it, it', _, h1, h1', h2, ?_⟩
  rw [map_wave]
  rw [wave_map] at h2'
  refine Eq.subst (motive := fun w => Yields it' (wave _ w msg)) ?_ h2'
  funext n b j
  cases b <;> simp [bitToNrz]

example : ∃ it l, txBpsk (ofList [true, false, true]) 8 4 (1 : ℝ) = pure it ∧ Yields it l ∧ l.length = 6 := by
  obtain ⟨it, l, h1, h2, h3, _⟩ := C26_waveform (yields_ofList [true, false, true]) (fs := 8) (sym := 4) (fc := 1)
    (by norm_num) (by norm_num) (by norm_num) (by norm_num)
  exact ⟨it, l, h1, h2, h3⟩

/-! ## C25 passband BPSK -/

/-- Structure of the round trip, for every number type: bit `b` number `n` is decided by the sign of the block
correlation. -/
theorem C25_decision {F : Type} [Add F] [Sub F] [Mul F] [Div F] [Neg F] [Zero F] [One F] [Flt F] [RIter ι Bool] {m : ι}
    {msg : List Bool} (h : Yields m msg) {fs sym : ℕ} {fc : F} (hsps : 0 < fs / sym) (h1 : Flt.toNat fc ≤ fs / 2)
    (h2 : isInt (Flt.ofNat fs / Flt.ofNat sym : F) = true) :
    (do let tx ← txBpsk m fs sym fc; let rx ← rxBpsk tx fs sym fc; collect rx)
      = pure (msg.mapIdx (fun n b => Flt.lt (0 : F) (rsum ((List.range (fs / sym)).map (fun j =>
          bitToNrz b * Flt.cos (phase fs fc (n * (fs / sym) + j)) * Flt.cos (phase fs fc (n * (fs / sym) + j))))))) := by
  obtain ⟨it, h3, h4⟩ := txBpsk_ok h hsps h1 h2
  obtain ⟨it', h5, h6⟩ := rxBpsk_wave (fc := fc) hsps h4
  rw [h3, pure_bind, h5, pure_bind]
  exact collect_of_yields h6

theorem C25_roundtrip [RIter ι Bool] {m : ι} {msg : List Bool} (h : Yields m msg) {fs sym : ℕ} {fc : ℝ}
    (hfs : fs < 2 ^ 64) (hdvd : sym ∣ fs) (hsps : 2 ≤ fs / sym) (hfc : ⌊fc⌋₊ ≤ fs / 2) :
    (do let tx ← txBpsk m fs sym fc; let rx ← rxBpsk tx fs sym fc; collect rx) = pure msg := by
  have hsym : 0 < sym := by
    rcases Nat.eq_zero_or_pos sym with rfl | h
    · simp at hsps
    · exact h
  rw [C25_decision h (by omega) (by rw [Flt.toNat_real]; omega) ((isInt_real hfs hsym).mpr hdvd)]
  congr 1
  apply mapIdx_eq_self
  intro n b _
  rw [rsum_range]
  have hp := sum_cos_sq_pos hsps (n * (fs / sym)) (dphi fs fc)
  have e : ∑ j ∈ Finset.range (fs / sym), (bitToNrz b : ℝ) * Flt.cos (phase fs fc (n * (fs / sym) + j))
      * Flt.cos (phase fs fc (n * (fs / sym) + j))
      = bitToNrz b * ∑ j ∈ Finset.range (fs / sym), Real.cos ((n * (fs / sym) + j : ℕ) * dphi fs fc) ^ 2 := by
    rw [Finset.mul_sum]; apply Finset.sum_congr rfl; intro j _
    rw [phase_real, Flt.cos_real]; ring
  rw [e]
  cases b
  · simp only [bitToNrz, Flt.lt_real, Bool.false_eq_true, if_false, decide_eq_false_iff_not]; linarith
  · simp only [bitToNrz, Flt.lt_real, if_true, decide_eq_true_eq]; linarith

/-- With one sample per symbol it can fail: `fs = sym = 4`, carrier 1, second bit `true`. -/
theorem C25_one_sample_fails :
    (do let tx ← txBpsk (ofList [true, true]) 4 4 (1 : ℝ); let rx ← rxBpsk tx 4 4 (1 : ℝ); collect rx)
      = pure [true, false] := by
  rw [C25_decision (yields_ofList _) (by norm_num) (by rw [Flt.toNat_real]; norm_num)
    ((isInt_real (by norm_num) (by norm_num)).mpr (by norm_num))]
  congr 1
  have e : (2 * Real.pi / 4 : ℝ) = Real.pi / 2 := by ring
  simp [rsum, phase_real, dphi, bitToNrz, List.mapIdx_cons, e]

example : (do let tx ← txBpsk (ofList [true, false, false]) 44100 900 (1800 : ℝ)
              let rx ← rxBpsk tx 44100 900 (1800 : ℝ); collect rx) = pure [true, false, false] :=
  C25_roundtrip (yields_ofList _) (by norm_num) (by norm_num) (by norm_num) (by norm_num)

/-! ## C28 passband QPSK -/

/-- Correlation of the carrier with itself on symbol `n` of `k` samples. -/
noncomputable def sumCC (fs k : ℕ) (fc : ℝ) (n : ℕ) : ℝ :=
  ∑ j ∈ Finset.range k, Real.cos (2 * Real.pi * fc * (n * k + j : ℕ) / fs) ^ 2
noncomputable def sumSS (fs k : ℕ) (fc : ℝ) (n : ℕ) : ℝ :=
  ∑ j ∈ Finset.range k, Real.sin (2 * Real.pi * fc * (n * k + j : ℕ) / fs) ^ 2
noncomputable def sumCS (fs k : ℕ) (fc : ℝ) (n : ℕ) : ℝ :=
  ∑ j ∈ Finset.range k, Real.cos (2 * Real.pi * fc * (n * k + j : ℕ) / fs)
    * Real.sin (2 * Real.pi * fc * (n * k + j : ℕ) / fs)

theorem phase_real' (fs : ℕ) (fc : ℝ) (i : ℕ) : phase fs fc i = 2 * Real.pi * fc * (i : ℕ) / fs := by
  rw [phase_real, dphi]; ring

theorem C28_decision [RIter ι Bool] {m : ι} {msg : List Bool} (h : Yields m msg) {fs sym : ℕ} {fc : ℝ}
    (hsps : 0 < fs / sym) :
    (do let tx ← txQpsk m fs sym fc; let rx ← rxQpsk tx fs sym fc; collect rx)
      = pure ((pairs msg).mapIdx (fun n p =>
        [decide (0 ≤ (if p.1 then 1 else -1) * sumCC fs (fs / sym) fc n - (if p.2 then 1 else -1) * sumCS fs (fs / sym) fc n),
         decide (0 ≤ (if p.2 then 1 else -1) * sumSS fs (fs / sym) fc n
           - (if p.1 then 1 else -1) * sumCS fs (fs / sym) fc n)])).flatten := by
  obtain ⟨it, h3, h4⟩ := txQpsk_ok h (fc := fc) hsps
  obtain ⟨it', h5, h6⟩ := rxQpsk_wave (fc := fc) hsps h4
  rw [h3, pure_bind, h5, pure_bind, collect_of_yields h6]
  congr 2
  apply mapIdx_congr'
  rintro n ⟨a, b⟩ _
  simp only [rsum_range, phase_real', Flt.cos_real, Flt.sin_real, Flt.le_real, bitToNrz_real, sumCC, sumSS, sumCS,
    Finset.mul_sum, ← Finset.sum_sub_distrib]
  congr 1
  · congr 2
    apply Finset.sum_congr rfl; intros; ring
  · congr 3
    apply Finset.sum_congr rfl; intros; ring

/-- Exact condition: every message survives iff on every symbol `|Σ cos·sin| < min(Σ cos², Σ sin²)`. -/
theorem C28_roundtrip_iff {fs sym : ℕ} {fc : ℝ} (hsps : 0 < fs / sym) :
    (∀ msg : List Bool,
      (do let tx ← txQpsk (ofList msg) fs sym fc; let rx ← rxQpsk tx fs sym fc; collect rx)
        = pure (msg.take (2 * (msg.length / 2)))) ↔
    ∀ n, |sumCS fs (fs / sym) fc n| < min (sumCC fs (fs / sym) fc n) (sumSS fs (fs / sym) fc n) := by
  constructor
  · intro H n
    -- a message whose pair number `n` is `(false, b)` resp. `(b, false)`
    have key : ∀ p : Bool × Bool,
        [decide (0 ≤ (if p.1 then (1 : ℝ) else -1) * sumCC fs (fs / sym) fc n
          - (if p.2 then 1 else -1) * sumCS fs (fs / sym) fc n),
         decide (0 ≤ (if p.2 then (1 : ℝ) else -1) * sumSS fs (fs / sym) fc n
           - (if p.1 then 1 else -1) * sumCS fs (fs / sym) fc n)] = [p.1, p.2] := by
      intro p
      have hp : ∀ k : ℕ, pairs ((List.replicate k [p.1, p.2]).flatten) = List.replicate k p := by
        intro k
        induction k with
        | zero => rfl
        | succ k ih => simp only [List.replicate_succ, List.flatten_cons, List.cons_append, List.nil_append, pairs, ih]
      have h1 := H ((List.replicate (n + 1) [p.1, p.2]).flatten)
      rw [C28_decision (yields_ofList _) hsps, RM.ok_inj, ← pairs_flat, hp, List.flatMap] at h1
      have h2 : ∀ (X Y : List (List Bool)), X.flatten = Y.flatten → X.length = Y.length →
          (∀ x ∈ X, x.length = 2) → (∀ y ∈ Y, y.length = 2) → X = Y := by
        intro X Y hxy _ hX hY
        rw [← blocks_flatten_eq (by norm_num) X hX, hxy, blocks_flatten_eq (by norm_num) Y hY]
      have h3 := h2 _ _ h1 (by simp) (by
        intro x hx; obtain ⟨i, hi, rfl⟩ := List.mem_mapIdx.mp hx; rfl) (by
        intro x hx; obtain ⟨i, hi, rfl⟩ := List.mem_map.mp hx; rfl)
      have h4 := congrArg (fun L : List (List Bool) => L[n]?) h3
      simp only [List.getElem?_mapIdx, List.getElem?_map] at h4
      rw [List.getElem?_replicate, if_pos (by omega)] at h4
      exact Option.some.inj h4
    have k1 := key (false, false)
    have k2 := key (false, true)
    have k3 := key (true, false)
    simp only [List.cons.injEq, decide_eq_false_iff_not, decide_eq_true_eq, and_true, reduceIte, Bool.false_eq_true,
      not_le] at k1 k2 k3
    rw [lt_min_iff, abs_lt, abs_lt]
    refine ⟨⟨?_, ?_⟩, ?_, ?_⟩ <;> linarith [k1.1, k1.2, k2.1, k2.2, k3.1, k3.2]
  · intro H msg
    rw [C28_decision (yields_ofList _) hsps, ← pairs_flat, List.flatMap]
    congr 2
    rw [← mapIdx_const (fun p : Bool × Bool => [p.1, p.2])]
    apply mapIdx_congr'
    rintro n ⟨a, b⟩ _
    have hn := H n
    rw [lt_min_iff, abs_lt, abs_lt] at hn
    obtain ⟨⟨h1, h2⟩, h3, h4⟩ := hn
    cases a <;> cases b <;> simp <;> constructor <;> linarith

/-- Whole number of carrier half-periods per symbol, carrier not a multiple of half the sample rate. -/
theorem C28_roundtrip [RIter ι Bool] {m : ι} {msg : List Bool} (h : Yields m msg) {fs sym : ℕ} {fc : ℝ}
    (hsps : 0 < fs / sym) {p : ℤ} (hp : (fs / sym : ℕ) * (2 * fc) = p * fs)
    (hne : ∀ q : ℤ, 2 * fc ≠ q * fs) :
    (do let tx ← txQpsk m fs sym fc; let rx ← rxQpsk tx fs sym fc; collect rx)
        = pure (msg.take (2 * (msg.length / 2))) := by
  have hfs : (fs : ℝ) ≠ 0 := by
    intro h0
    have : fs = 0 := by exact_mod_cast h0
    simp [this] at hsps
  have hs : Real.sin (dphi fs fc) ≠ 0 := by
    intro h0
    obtain ⟨q, hq⟩ := Real.sin_eq_zero_iff.mp h0
    apply hne q
    unfold dphi at hq
    field_simp at hq
    exact hq.symm
  have hk : ((fs / sym : ℕ) : ℝ) * dphi fs fc = p * Real.pi := by
    unfold dphi
    field_simp
    linear_combination hp
  have hc : ∀ n : ℕ, sumCC fs (fs / sym) fc n = ((fs / sym : ℕ) : ℝ) / 2 := by
    intro n
    rw [← sum_cos_sq_half hk hs (n * (fs / sym)), sumCC]
    apply Finset.sum_congr rfl; intro j _; congr 2; unfold dphi; ring
  have hss : ∀ n : ℕ, sumSS fs (fs / sym) fc n = ((fs / sym : ℕ) : ℝ) / 2 := by
    intro n
    rw [← sum_sin_sq_half hk hs (n * (fs / sym)), sumSS]
    apply Finset.sum_congr rfl; intro j _; congr 2; unfold dphi; ring
  have hcs : ∀ n : ℕ, sumCS fs (fs / sym) fc n = 0 := by
    intro n
    rw [← sum_cos_sin_half hk hs (n * (fs / sym)), sumCS]
    apply Finset.sum_congr rfl; intro j _; congr 2 <;> unfold dphi <;> ring
  have hiff := (C28_roundtrip_iff (fs := fs) (sym := sym) (fc := fc) hsps).mpr (by
    intro n
    rw [hc, hss, hcs, abs_zero, min_self]
    have : (0 : ℝ) < ((fs / sym : ℕ) : ℝ) := by exact_mod_cast hsps
    linarith) msg
  rw [C28_decision (yields_ofList _) hsps] at hiff
  rw [C28_decision h hsps, hiff]

/-- A zero carrier loses the second bit of every pair: it is always received as `true`. -/
theorem C28_zero_carrier_fails {fs sym : ℕ} (hsps : 0 < fs / sym) :
    ¬ ∀ msg : List Bool,
      (do let tx ← txQpsk (ofList msg) fs sym (0 : ℝ); let rx ← rxQpsk tx fs sym (0 : ℝ); collect rx)
        = pure (msg.take (2 * (msg.length / 2))) := by
  rw [C28_roundtrip_iff hsps]
  intro H
  have := H 0
  rw [lt_min_iff] at this
  have h2 := this.2
  simp [sumSS, sumCS] at h2

example : (do let tx ← txQpsk (ofList [true, false, false, true]) 44100 900 (1800 : ℝ)
              let rx ← rxQpsk tx 44100 900 (1800 : ℝ); collect rx) = pure [true, false, false, true] := by
  refine C28_roundtrip (yields_ofList _) (by norm_num) (p := 4) (by norm_num) ?_
  intro q hq
  have : (2 * 1800 : ℤ) = q * 44100 := by exact_mod_cast hq
  omega

end Verif.Props
