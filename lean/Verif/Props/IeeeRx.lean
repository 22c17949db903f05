import Verif.Lemmas.IeeeRx
import Verif.Lemmas.Users
import Verif.Props.Fdm

/-!
# C86: the PSK receivers in double precision on arbitrary recordings

The recordings hold finite doubles within `τ` of real numbers `s (i / k) i` (`NearRecording`, Spec/Near.lean). `inPhase` and
`quadrature` are the exact correlations of these numbers with the carrier. A receiver computing in double precision decides as the
exact sign of the correlation whenever that exceeds `k (τ + S (ε + 2^-14))`, `S` bounding the samples; so results about exact
arithmetic (C81, C84 below) carry over with an explicit margin.
-/
namespace Verif.Props
open Verif Spec F64
set_option linter.unusedSectionVars false
variable {ι κ : Type}

/-- Correlation of symbol `n` with the carrier. -/
noncomputable def inPhase (fs k : ℕ) (f : ℝ) (s : ℕ → ℕ → ℝ) (n : ℕ) : ℝ :=
  ∑ j ∈ Finset.range k, s n (n * k + j) * Real.cos (angle fs f (n * k + j))

/-- Correlation of symbol `n` with the carrier a quarter period later. -/
noncomputable def quadrature (fs k : ℕ) (f : ℝ) (s : ℕ → ℕ → ℝ) (n : ℕ) : ℝ :=
  ∑ j ∈ Finset.range k, s n (n * k + j) * -Real.sin (angle fs f (n * k + j))

/-- BPSK: bit `n` is the sign of the exact correlation whenever that exceeds the margin. -/
theorem C86_bpsk {L : Libm} [RIter κ (FloatL L)] {ε τ S : ℝ} {fs sym N : ℕ} {fc : FloatL L}
    (h : Radio L ε fs (fs / sym) N fc S) {r : List (FloatL L)} {s : ℕ → ℕ → ℝ} (hr : NearRecording τ r N (fs / sym) s)
    (hS : ∀ i < N * (fs / sym), |s (i / (fs / sym)) i| + τ ≤ S) {rcv : κ} (hy : Yields rcv r) :
    ∃ x : ℕ → Bool, (do let rx ← rxBpsk rcv fs sym fc; collect rx) = pure ((List.range N).map x) ∧
      ∀ n < N, ((fs / sym : ℕ) : ℝ) * (τ + S * (ε + 1 / 2 ^ 14)) < |inPhase fs (fs / sym) (val fc) s n| →
        x n = decide (0 < inPhase fs (fs / sym) (val fc) s n) := by
  have := rxBpsk_near h hr hS hy
  simp only [inPhase, angle_dphi]
  exact this

/-- QPSK: the two bits of symbol `n` are the signs of the exact correlations whenever these exceed the margin. -/
theorem C86_qpsk {L : Libm} [RIter κ (FloatL L)] {ε τ S : ℝ} {fs sym N : ℕ} {fc : FloatL L}
    (h : Radio L ε fs (fs / sym) N fc S) {r : List (FloatL L)} {s : ℕ → ℕ → ℝ} (hr : NearRecording τ r N (fs / sym) s)
    (hS : ∀ i < N * (fs / sym), |s (i / (fs / sym)) i| + τ ≤ S) {rcv : κ} (hy : Yields rcv r) :
    ∃ x y : ℕ → Bool, (do let rx ← rxQpsk rcv fs sym fc; collect rx) = pure ((List.range N).flatMap (fun n => [x n, y n])) ∧
      ∀ n < N, (((fs / sym : ℕ) : ℝ) * (τ + S * (ε + 1 / 2 ^ 14)) < |inPhase fs (fs / sym) (val fc) s n| →
        x n = decide (0 ≤ inPhase fs (fs / sym) (val fc) s n)) ∧
        (((fs / sym : ℕ) : ℝ) * (τ + S * (ε + 1 / 2 ^ 14)) < |quadrature fs (fs / sym) (val fc) s n| →
        y n = decide (0 ≤ quadrature fs (fs / sym) (val fc) s n)) := by
  have := rxQpsk_near h hr hS hy
  simp only [inPhase, quadrature, angle_dphi]
  exact this

theorem chip_abs (key : List Bool) (k i : ℕ) : |chip key k i| = 1 := pm_abs _

theorem chips_size {key : List Bool} {k N : ℕ} {s : ℕ → ℕ → ℝ} {τ S : ℝ} (hS : ∀ i < N * k, |s (i / k) i| + τ ≤ S) :
    ∀ i < N * k, |s (i / k) i * chip key k i| + τ ≤ S := by
  intro i hi
  rw [abs_mul, chip_abs, mul_one]
  exact hS i hi

/-- CDMA over BPSK: the same for the signal under the chips of the key. -/
theorem C86_cdma_bpsk {L : Libm} [RIter κ (FloatL L)] {ε τ S : ℝ} {fs sym N : ℕ} {fc : FloatL L} {key : List Bool}
    (hsym : 0 < sym) (hL : 0 < key.length) (hdvd : sym * key.length ∣ fs) (hnyq : 2 * (sym * key.length) ≤ fs)
    (h : Radio L ε fs (fs / sym) N fc S) {r : List (FloatL L)} {s : ℕ → ℕ → ℝ}
    (hr : NearRecording τ r N (fs / sym) (fun n i => s n i * chip key (fs / sym) i))
    (hS : ∀ i < N * (fs / sym), |s (i / (fs / sym)) i| + τ ≤ S) {rcv : κ} (hy : Yields rcv r) :
    ∃ x : ℕ → Bool, (do let rx ← rxCdmaBpsk rcv fs sym fc key; collect rx) = pure ((List.range N).map x) ∧
      ∀ n < N, ((fs / sym : ℕ) : ℝ) * (τ + S * (ε + 1 / 2 ^ 14)) < |inPhase fs (fs / sym) (val fc) s n| →
        x n = decide (0 < inPhase fs (fs / sym) (val fc) s n) := by
  have hok : CdmaOk fs sym fc key.length := (cdmaOk_ieee h.fs_lt h.fin).mpr ⟨hsym, hL, hdvd, hnyq, by
    have h1 := h.hi
    have h2 : ⌊val fc⌋₊ ≤ ⌊(fs : ℝ) / 2⌋₊ := Nat.floor_mono h1
    have h3 : ⌊(fs : ℝ) / 2⌋₊ = fs / 2 := by simpa using Nat.floor_div_natCast (fs : ℝ) 2
    omega⟩
  have h2 := hok.spc
  have := C86_bpsk h (near_despread hr) hS (hy.spread (key := key) (spc := fs / sym / key.length) hL (by omega))
  rw [rxCdmaBpsk, hok.guards, pure_bind]
  exact this

/-- CDMA over QPSK. -/
theorem C86_cdma_qpsk {L : Libm} [RIter κ (FloatL L)] {ε τ S : ℝ} {fs sym N : ℕ} {fc : FloatL L} {key : List Bool}
    (hsym : 0 < sym) (hL : 0 < key.length) (hdvd : sym * key.length ∣ fs) (hnyq : 2 * (sym * key.length) ≤ fs)
    (h : Radio L ε fs (fs / sym) N fc S) {r : List (FloatL L)} {s : ℕ → ℕ → ℝ}
    (hr : NearRecording τ r N (fs / sym) (fun n i => s n i * chip key (fs / sym) i))
    (hS : ∀ i < N * (fs / sym), |s (i / (fs / sym)) i| + τ ≤ S) {rcv : κ} (hy : Yields rcv r) :
    ∃ x y : ℕ → Bool, (do let rx ← rxCdmaQpsk rcv fs sym fc key; collect rx)
        = pure ((List.range N).flatMap (fun n => [x n, y n])) ∧
      ∀ n < N, (((fs / sym : ℕ) : ℝ) * (τ + S * (ε + 1 / 2 ^ 14)) < |inPhase fs (fs / sym) (val fc) s n| →
        x n = decide (0 ≤ inPhase fs (fs / sym) (val fc) s n)) ∧
        (((fs / sym : ℕ) : ℝ) * (τ + S * (ε + 1 / 2 ^ 14)) < |quadrature fs (fs / sym) (val fc) s n| →
        y n = decide (0 ≤ quadrature fs (fs / sym) (val fc) s n)) := by
  have hok : CdmaOk fs sym fc key.length := (cdmaOk_ieee h.fs_lt h.fin).mpr ⟨hsym, hL, hdvd, hnyq, by
    have h1 := h.hi
    have h2 : ⌊val fc⌋₊ ≤ ⌊(fs : ℝ) / 2⌋₊ := Nat.floor_mono h1
    have h3 : ⌊(fs : ℝ) / 2⌋₊ = fs / 2 := by simpa using Nat.floor_div_natCast (fs : ℝ) 2
    omega⟩
  have h2 := hok.spc
  have := C86_qpsk h (near_despread hr) hS (hy.spread (key := key) (spc := fs / sym / key.length) hL (by omega))
  rw [rxCdmaQpsk, hok.guards, pure_bind]
  exact this

/-! ## Agreement with exact arithmetic -/

/-- The real number a double stands for. -/
noncomputable def real {L : Libm} (x : FloatL L) : ℝ := val x

theorem real_get {L : Libm} {r : List (FloatL L)} {N k : ℕ} (hlen : r.length = N * k) {S : ℝ}
    (hr : ∀ x ∈ r, F64.Fin x ∧ |real x| ≤ S) :
    NearRecording 0 r N k (fun _ i => (r.map real).getD i 0) ∧
    Recording (r.map real) N k (fun _ i => (r.map real).getD i 0) ∧
    ∀ i < N * k, |(r.map real).getD i 0| + 0 ≤ S := by
  have hget : ∀ i < N * k, ∃ x ∈ r, r[i]? = some x ∧ (r.map real).getD i 0 = real x := fun i hi =>
    ⟨r[i]'(by omega), List.getElem_mem _, List.getElem?_eq_getElem (by omega), by
      rw [List.getD_eq_getElem?_getD, List.getElem?_map, List.getElem?_eq_getElem (by omega)]; rfl⟩
  refine ⟨⟨hlen, fun i hi => ?_⟩, ⟨by rw [List.length_map, hlen], fun i hi => ?_⟩, fun i hi => ?_⟩
  · obtain ⟨x, hx, hi, e⟩ := hget i hi
    refine ⟨x, hi, (hr x hx).1, ?_⟩
    beta_reduce
    rw [e]
    show |real x - real x| ≤ 0
    rw [sub_self, abs_zero]
  · obtain ⟨x, hx, hi, e⟩ := hget i hi
    beta_reduce
    rw [List.getElem?_map, hi, e]
    rfl
  · obtain ⟨x, hx, hi, e⟩ := hget i hi
    rw [e, add_zero]
    exact (hr x hx).2

/-- On the same samples, the receiver in double precision and the receiver in exact arithmetic differ at most in symbols whose
correlation is close to zero. -/
theorem C86_agree_bpsk {L : Libm} {ε S : ℝ} {fs sym N : ℕ} {fc : FloatL L}
    (h : Radio L ε fs (fs / sym) N fc S) {r : List (FloatL L)} (hlen : r.length = N * (fs / sym))
    (hr : ∀ x ∈ r, F64.Fin x ∧ |real x| ≤ S) :
    ∃ x y : ℕ → Bool, (do let rx ← rxBpsk (ofList r) fs sym fc; collect rx) = pure ((List.range N).map x) ∧
      (do let rx ← rxBpsk (ofList (r.map real)) fs sym (real fc); collect rx) = pure ((List.range N).map y) ∧
      ∀ n < N, ((fs / sym : ℕ) : ℝ) * (S * (ε + 1 / 2 ^ 14))
        < |inPhase fs (fs / sym) (real fc) (fun _ i => (r.map real).getD i 0) n| → x n = y n := by
  obtain ⟨h1, h2, h3⟩ := real_get hlen hr
  obtain ⟨x, e1, e2⟩ := C86_bpsk h h1 h3 (yields_ofList r)
  refine ⟨x, _, e1, rxBpsk_recording h.k_pos h2 (yields_ofList _), fun n hn hm => ?_⟩
  rw [e2 n hn (by rw [zero_add]; exact hm)]
  simp only [inPhase, angle_dphi]
  rfl

/-- QPSK likewise: wherever both correlations exceed the margin, both bits agree. -/
theorem C86_agree_qpsk {L : Libm} {ε S : ℝ} {fs sym N : ℕ} {fc : FloatL L}
    (h : Radio L ε fs (fs / sym) N fc S) {r : List (FloatL L)} (hlen : r.length = N * (fs / sym))
    (hr : ∀ x ∈ r, F64.Fin x ∧ |real x| ≤ S) :
    ∃ x y x' y' : ℕ → Bool,
      (do let rx ← rxQpsk (ofList r) fs sym fc; collect rx) = pure ((List.range N).flatMap (fun n => [x n, y n])) ∧
      (do let rx ← rxQpsk (ofList (r.map real)) fs sym (real fc); collect rx)
        = pure ((List.range N).flatMap (fun n => [x' n, y' n])) ∧
      ∀ n < N, (((fs / sym : ℕ) : ℝ) * (S * (ε + 1 / 2 ^ 14))
        < |inPhase fs (fs / sym) (real fc) (fun _ i => (r.map real).getD i 0) n| → x n = x' n) ∧
        (((fs / sym : ℕ) : ℝ) * (S * (ε + 1 / 2 ^ 14))
        < |quadrature fs (fs / sym) (real fc) (fun _ i => (r.map real).getD i 0) n| → y n = y' n) := by
  obtain ⟨h1, h2, h3⟩ := real_get hlen hr
  obtain ⟨x, y, e1, e2⟩ := C86_qpsk h h1 h3 (yields_ofList r)
  refine ⟨x, y, _, _, e1, rxQpsk_recording h.k_pos h2 (yields_ofList _), fun n hn => ⟨fun hm => ?_, fun hm => ?_⟩⟩
  · rw [(e2 n hn).1 (by rw [zero_add]; exact hm)]
    simp only [inPhase, angle_dphi]
    rfl
  · rw [(e2 n hn).2 (by rw [zero_add]; exact hm)]
    simp only [quadrature, angle_dphi]
    rfl

/-! ## Signals with two amplitudes per symbol -/

/-- The correlations of a signal with constant amplitudes during each symbol. -/
theorem amplitudes {fs k : ℕ} {f : ℝ} (hk : 0 < k) (hw : WholeHalf fs k f) (X Y : ℕ → ℝ) (n : ℕ) :
    inPhase fs k f (fun n i => X n * Real.cos (angle fs f i) - Y n * Real.sin (angle fs f i)) n = k / 2 * X n ∧
    quadrature fs k f (fun n i => X n * Real.cos (angle fs f i) - Y n * Real.sin (angle fs f i)) n = k / 2 * Y n := by
  obtain ⟨p, hp, hs⟩ := hw.dphi hk
  simp only [inPhase, quadrature, angle_dphi]
  exact quad_corr hp hs (X n) (Y n) (n * k)

theorem margin_half {k : ℕ} (hk : 0 < k) {a X : ℝ} (h : 2 * a < |X|) : (k : ℝ) * a < |(k : ℝ) / 2 * X| := by
  have hk' : (0 : ℝ) < k := by exact_mod_cast hk
  rw [abs_mul, abs_of_pos (by positivity)]
  nlinarith

/-- BPSK of any per-symbol strength and phase, received in double precision with errors up to `τ`: returned as in exact arithmetic
(the bit, its complement) if the in-phase amplitude exceeds `2 (τ + S (ε + 2^-14))`. -/
theorem C86_faded_bpsk {L : Libm} [RIter κ (FloatL L)] {ε τ S : ℝ} {fs sym : ℕ} {fc : FloatL L} {msg : List Bool}
    (h : Radio L ε fs (fs / sym) msg.length fc S) (hw : WholeHalf fs (fs / sym) (val fc)) {g θ : ℕ → ℝ}
    (hg : ∀ n < msg.length, 0 < g n ∧ g n + τ ≤ S)
    (hm : ∀ n < msg.length, 2 * (τ + S * (ε + 1 / 2 ^ 14)) < g n * |Real.cos (θ n)|)
    {r : List (FloatL L)} (hr : NearRecording τ r msg.length (fs / sym) (fadedBpsk fs (val fc) msg g θ))
    {rcv : κ} (hy : Yields rcv r) :
    (do let rx ← rxBpsk rcv fs sym fc; collect rx) = pure (msg.mapIdx (fun n b => turned (Real.cos (θ n)) b)) := by
  have hS : ∀ i < msg.length * (fs / sym), |fadedBpsk fs (val fc) msg g θ (i / (fs / sym)) i| + τ ≤ S := by
    intro i hi
    have hn : i / (fs / sym) < msg.length := by rw [Nat.div_lt_iff_lt_mul h.k_pos]; exact hi
    obtain ⟨h1, h2⟩ := hg _ hn
    unfold fadedBpsk
    rw [abs_mul, abs_mul, pm_abs, mul_one, abs_of_pos h1]
    have := Real.abs_cos_le_one (angle fs (val fc) i + θ (i / (fs / sym)))
    nlinarith
  obtain ⟨x, e1, e2⟩ := C86_bpsk h hr hS hy
  rw [e1, ← range_map_getD]
  congr 1
  apply List.map_congr_left
  intro n hn
  have hn := List.mem_range.mp hn
  have ha := (amplitudes h.k_pos hw (fun n => g n * pm (msg.getD n false) * Real.cos (θ n))
    (fun n => g n * pm (msg.getD n false) * Real.sin (θ n)) n).1
  simp only [← fadedBpsk_quad] at ha
  have hk' : (0 : ℝ) < ((fs / sym : ℕ) : ℝ) := by exact_mod_cast h.k_pos
  rw [e2 n hn]
  · rw [ha]
    simp only [mul_pos_iff_of_pos_left (half_pos hk')]
    exact turned_spec (hg n hn).1 _
  · rw [ha]
    apply margin_half h.k_pos
    rw [abs_mul, abs_mul, pm_abs, mul_one, abs_of_pos (hg n hn).1]
    exact hm n hn

/-- QPSK likewise. -/
theorem C86_faded_qpsk {L : Libm} [RIter κ (FloatL L)] {ε τ S : ℝ} {fs sym N : ℕ} {fc : FloatL L} {msg : List Bool}
    (h : Radio L ε fs (fs / sym) N fc S) (hw : WholeHalf fs (fs / sym) (val fc)) {g θ : ℕ → ℝ}
    (hg : ∀ n < N, 0 < g n ∧ 2 * g n + τ ≤ S)
    (hm : ∀ n < N, 2 * (τ + S * (ε + 1 / 2 ^ 14)) < g n * |(|Real.cos (θ n)| - |Real.sin (θ n)|)|)
    {r : List (FloatL L)} (hr : NearRecording τ r N (fs / sym) (fadedQpsk fs (val fc) msg g θ)) {rcv : κ} (hy : Yields rcv r) :
    (do let rx ← rxQpsk rcv fs sym fc; collect rx) = pure ((List.range N).flatMap (fun n =>
      turned2 (θ n) (msg.getD (2 * n) false) (msg.getD (2 * n + 1) false))) := by
  have hS : ∀ i < N * (fs / sym), |fadedQpsk fs (val fc) msg g θ (i / (fs / sym)) i| + τ ≤ S := by
    intro i hi
    have hn : i / (fs / sym) < N := by rw [Nat.div_lt_iff_lt_mul h.k_pos]; exact hi
    obtain ⟨h1, h2⟩ := hg _ hn
    unfold fadedQpsk
    rw [abs_mul, abs_of_pos h1]
    have c := Real.abs_cos_le_one (angle fs (val fc) i + θ (i / (fs / sym)))
    have d := Real.abs_sin_le_one (angle fs (val fc) i + θ (i / (fs / sym)))
    have : |pm (msg.getD (2 * (i / (fs / sym))) false) * Real.cos (angle fs (val fc) i + θ (i / (fs / sym)))
        - pm (msg.getD (2 * (i / (fs / sym)) + 1) false) * Real.sin (angle fs (val fc) i + θ (i / (fs / sym)))| ≤ 2 := by
      refine (abs_sub _ _).trans ?_
      rw [abs_mul, abs_mul, pm_abs, pm_abs, one_mul, one_mul]; linarith
    nlinarith
  obtain ⟨x, y, e1, e2⟩ := C86_qpsk h hr hS hy
  rw [e1, List.flatMap_def, List.flatMap_def]
  congr 2
  apply List.map_congr_left
  intro n hn
  have hn := List.mem_range.mp hn
  obtain ⟨hgp, _⟩ := hg n hn
  have ha := amplitudes h.k_pos hw
    (fun n => g n * (pm (msg.getD (2 * n) false) * Real.cos (θ n) - pm (msg.getD (2 * n + 1) false) * Real.sin (θ n)))
    (fun n => g n * (pm (msg.getD (2 * n) false) * Real.sin (θ n) + pm (msg.getD (2 * n + 1) false) * Real.cos (θ n))) n
  simp only [← fadedQpsk_quad] at ha
  have hk' : (0 : ℝ) < ((fs / sym : ℕ) : ℝ) := by exact_mod_cast h.k_pos
  have big : ∀ (a b : Bool) (c s : ℝ), |(|c| - |s|)| ≤ |pm a * c - pm b * s| ∧ |(|c| - |s|)| ≤ |pm a * s + pm b * c| := by
    intro a b c s
    constructor
    · have := abs_abs_sub_abs_le_abs_sub (pm a * c) (pm b * s)
      rwa [abs_mul, abs_mul, pm_abs, pm_abs, one_mul, one_mul] at this
    · have := abs_abs_sub_abs_le_abs_sub (pm b * c) (-(pm a * s))
      rw [abs_neg, abs_mul, abs_mul, pm_abs, pm_abs, one_mul, one_mul] at this
      rwa [sub_neg_eq_add, add_comm] at this
  have hpos : ∀ z : ℝ, decide (0 ≤ ((fs / sym : ℕ) : ℝ) / 2 * (g n * z)) = decide (0 ≤ z) := by
    intro z
    rw [decide_eq_decide, mul_nonneg_iff_of_pos_left (half_pos hk'), mul_nonneg_iff_of_pos_left hgp]
  have mar : ∀ z : ℝ, |(|Real.cos (θ n)| - |Real.sin (θ n)|)| ≤ |z| →
      ((fs / sym : ℕ) : ℝ) * (τ + S * (ε + 1 / 2 ^ 14)) < |((fs / sym : ℕ) : ℝ) / 2 * (g n * z)| := by
    intro z hz
    apply margin_half h.k_pos
    rw [abs_mul, abs_of_pos hgp]
    have := hm n hn
    nlinarith
  have b := big (msg.getD (2 * n) false) (msg.getD (2 * n + 1) false) (Real.cos (θ n)) (Real.sin (θ n))
  rw [(e2 n hn).1 (by rw [ha.1]; exact mar _ b.1), (e2 n hn).2 (by rw [ha.2]; exact mar _ b.2), ha.1, ha.2, hpos, hpos]
  rfl

/-! ## Several stations -/

theorem decide_half {k : ℕ} (hk : 0 < k) (X : ℝ) :
    decide (0 < (k : ℝ) / 2 * X) = decide (0 < X) ∧ decide (0 ≤ (k : ℝ) / 2 * X) = decide (0 ≤ X) := by
  have hk' : (0 : ℝ) < k / 2 := by have : (0 : ℝ) < k := by exact_mod_cast hk
                                   linarith
  constructor
  · rw [decide_eq_decide, mul_pos_iff_of_pos_left hk']
  · rw [decide_eq_decide, mul_nonneg_iff_of_pos_left hk']

/-- A signal whose correlations are those of amplitudes `X n`, `Y n`, all large enough: both receivers decide on these. -/
theorem rx_amplitudes {L : Libm} [RIter κ (FloatL L)] {ε τ S : ℝ} {fs sym N : ℕ} {fc : FloatL L}
    (h : Radio L ε fs (fs / sym) N fc S) {r : List (FloatL L)} {s : ℕ → ℕ → ℝ} (hr : NearRecording τ r N (fs / sym) s)
    (hS : ∀ i < N * (fs / sym), |s (i / (fs / sym)) i| + τ ≤ S) {X Y : ℕ → ℝ}
    (hc : ∀ n, inPhase fs (fs / sym) (val fc) s n = (fs / sym : ℕ) / 2 * X n ∧
      quadrature fs (fs / sym) (val fc) s n = (fs / sym : ℕ) / 2 * Y n)
    (hX : ∀ n < N, 2 * (τ + S * (ε + 1 / 2 ^ 14)) < |X n|) {rcv : κ} (hy : Yields rcv r) :
    (do let rx ← rxBpsk rcv fs sym fc; collect rx) = pure ((List.range N).map (fun n => decide (0 < X n))) ∧
    ((∀ n < N, 2 * (τ + S * (ε + 1 / 2 ^ 14)) < |Y n|) → (do let rx ← rxQpsk rcv fs sym fc; collect rx)
      = pure ((List.range N).flatMap (fun n => [decide (0 ≤ X n), decide (0 ≤ Y n)]))) := by
  constructor
  · obtain ⟨x, e1, e2⟩ := C86_bpsk h hr hS hy
    rw [e1]
    congr 1
    apply List.map_congr_left
    intro n hn
    have hn := List.mem_range.mp hn
    rw [e2 n hn (by rw [(hc n).1]; exact margin_half h.k_pos (hX n hn)), (hc n).1, (decide_half h.k_pos _).1]
  · intro hY
    obtain ⟨x, y, e1, e2⟩ := C86_qpsk h hr hS hy
    rw [e1, List.flatMap_def, List.flatMap_def]
    congr 2
    apply List.map_congr_left
    intro n hn
    have hn := List.mem_range.mp hn
    rw [(e2 n hn).1 (by rw [(hc n).1]; exact margin_half h.k_pos (hX n hn)),
      (e2 n hn).2 (by rw [(hc n).2]; exact margin_half h.k_pos (hY n hn)), (hc n).1, (hc n).2, (decide_half h.k_pos _).2,
      (decide_half h.k_pos _).2]

/-- Frequency division in double precision: a receiver tuned to one of several stations on spaced carriers decides on the amplitudes
of that station, if these exceed `2 (τ + S (ε + 2^-14))`; `S` bounds the sum of all stations. -/
theorem C86_fdm {L : Libm} [RIter κ (FloatL L)] {ε τ S : ℝ} {fs sym N : ℕ} {fc : FloatL L}
    (h : Radio L ε fs (fs / sym) N fc S) {us : List Carried}
    (horth : us.Pairwise (fun u v => Spaced fs (fs / sym) u.freq v.freq)) {v : Carried} (hv : v ∈ us) (hfc : v.freq = val fc)
    (hw : WholeHalf fs (fs / sym) v.freq) (hS : ∀ i < N * (fs / sym), |onAir fs us (i / (fs / sym)) i| + τ ≤ S)
    (hX : ∀ n < N, 2 * (τ + S * (ε + 1 / 2 ^ 14)) < |v.X n|)
    {r : List (FloatL L)} (hr : NearRecording τ r N (fs / sym) (onAir fs us)) {rcv : κ} (hy : Yields rcv r) :
    (do let rx ← rxBpsk rcv fs sym fc; collect rx) = pure ((List.range N).map (fun n => decide (0 < v.X n))) ∧
    ((∀ n < N, 2 * (τ + S * (ε + 1 / 2 ^ 14)) < |v.Y n|) → (do let rx ← rxQpsk rcv fs sym fc; collect rx)
      = pure ((List.range N).flatMap (fun n => [decide (0 ≤ v.X n), decide (0 ≤ v.Y n)]))) := by
  refine rx_amplitudes h hr hS (fun n => ?_) hX hy
  simp only [inPhase, quadrature, angle_dphi, ← hfc]
  exact onAir_corr (pos_fs h.k_pos) h.k_pos horth hv hw n

/-- One spread signal on the air: its key, and the two amplitudes during each symbol. -/
structure Spread where
  key : List Bool
  X : ℕ → ℝ
  Y : ℕ → ℝ

/-- Sample `i`, which belongs to symbol `n`, of the sum of all spread signals on one carrier. -/
noncomputable def spreadOnAir (fs k : ℕ) (f : ℝ) (us : List Spread) (n i : ℕ) : ℝ :=
  (us.map (fun u => (u.X n * Real.cos (angle fs f i) - u.Y n * Real.sin (angle fs f i)) * chip u.key k i)).sum

theorem spread_lanes {fs sym L : ℕ} {f : ℝ} {us : List Spread} (hkey : ∀ u ∈ us, u.key.length = L) (i : ℕ) :
    spreadOnAir fs (fs / sym) f us (i / (fs / sym)) i
      = lanesAt (us.map (fun u => ⟨1, u.key, u.X, u.Y⟩)) (fs / sym) (fs / sym / L) (dphi fs f) i := by
  unfold spreadOnAir lanesAt
  rw [List.map_map]
  congr 1
  apply List.map_congr_left
  intro u hu
  simp only [Function.comp, angle_dphi, one_mul, bitToNrz_real]
  unfold chip keyBit pm
  rw [hkey u hu]

theorem spread_own {us : List Spread} {v : Spread} (hv : v ∈ us) {L : ℕ} (hL : v.key.length = L)
    (horth : us.Pairwise (fun u w => 2 * agreements u.key w.key = L)) (A : Spread → ℝ) :
    (us.map (fun u => 1 * A u * (2 * (agreements u.key v.key : ℝ) - L))).sum = A v * L := by
  have hsym : ∀ a b : List Bool, agreements a b = agreements b a := by
    intro a b
    unfold agreements
    rw [← List.zip_swap, List.countP_map]
    congr 1
    funext x
    simp only [Function.comp, Prod.fst_swap, Prod.snd_swap]
    exact Bool.beq_comm
  have hself : agreements v.key v.key = L := by
    rw [← hL]
    unfold agreements
    rw [List.countP_eq_length.mpr]
    · simp
    · intro p hp
      obtain ⟨i, hi, rfl⟩ := List.mem_iff_getElem.mp hp
      simp
  rw [sum_own (R := fun u w : Spread => 2 * agreements u.key w.key = L) (fun a b h => by rw [hsym]; exact h) horth hv
    (f := fun u => 1 * A u * (2 * (agreements u.key v.key : ℝ) - L)) (fun u hu => by
      have : (2 : ℝ) * (agreements u.key v.key : ℝ) = L := by exact_mod_cast hu
      rw [this]; ring)]
  rw [hself]; ring

/-- Code division in double precision: stations with pairwise orthogonal keys at any strengths. A receiver holding one of the keys
decides on the amplitudes of that station if these exceed `2 (τ + S (ε + 2^-14))`, however much stronger the other stations are, as
long as `S` bounds the sum. -/
theorem C86_near_far {L : Libm} [RIter κ (FloatL L)] {ε τ S : ℝ} {fs sym N K : ℕ} {fc : FloatL L}
    (h : Radio L ε fs (fs / sym) N fc S) (hsym : 0 < sym) (hK : 0 < K) (hdvd : sym * K ∣ fs) (hnyq : 2 * (sym * K) ≤ fs)
    (hw : WholeHalf fs (fs / sym / K) (val fc)) {us : List Spread} (hkey : ∀ u ∈ us, u.key.length = K)
    (horth : us.Pairwise (fun u v => 2 * agreements u.key v.key = K)) {v : Spread} (hv : v ∈ us)
    (hS : ∀ i < N * (fs / sym), |spreadOnAir fs (fs / sym) (val fc) us (i / (fs / sym)) i| + τ ≤ S)
    (hX : ∀ n < N, 2 * (τ + S * (ε + 1 / 2 ^ 14)) < |v.X n|)
    {r : List (FloatL L)} (hr : NearRecording τ r N (fs / sym) (spreadOnAir fs (fs / sym) (val fc) us))
    {rcv : κ} (hy : Yields rcv r) :
    (do let rx ← rxCdmaBpsk rcv fs sym fc v.key; collect rx) = pure ((List.range N).map (fun n => decide (0 < v.X n))) ∧
    ((∀ n < N, 2 * (τ + S * (ε + 1 / 2 ^ 14)) < |v.Y n|) → (do let rx ← rxCdmaQpsk rcv fs sym fc v.key; collect rx)
      = pure ((List.range N).flatMap (fun n => [decide (0 ≤ v.X n), decide (0 ≤ v.Y n)]))) := by
  have hvK := hkey v hv
  have hok : CdmaOk fs sym fc v.key.length := (cdmaOk_ieee h.fs_lt h.fin).mpr ⟨hsym, by omega, by rw [hvK]; exact hdvd,
    by rw [hvK]; exact hnyq, by
    have h1 := h.hi
    have h2 : ⌊val fc⌋₊ ≤ ⌊(fs : ℝ) / 2⌋₊ := Nat.floor_mono h1
    have h3 : ⌊(fs : ℝ) / 2⌋₊ = fs / 2 := by simpa using Nat.floor_div_natCast (fs : ℝ) 2
    omega⟩
  have hspc := hok.spc
  rw [hvK] at hspc
  have hsp : fs / sym = K * (fs / sym / K) := (Nat.mul_div_cancel' (by
    obtain ⟨q, rfl⟩ := hdvd
    rw [Nat.mul_assoc, Nat.mul_div_cancel_left _ hsym]
    exact Dvd.intro _ rfl)).symm
  have hr' : NearRecording τ r N (fs / sym) (fun n i => (spreadOnAir fs (fs / sym) (val fc) us n i * chip v.key (fs / sym) i)
      * chip v.key (fs / sym) i) := by
    have e : ∀ n i, spreadOnAir fs (fs / sym) (val fc) us n i * chip v.key (fs / sym) i * chip v.key (fs / sym) i
        = spreadOnAir fs (fs / sym) (val fc) us n i := by
      intro n i
      rw [mul_assoc, show chip v.key (fs / sym) i * chip v.key (fs / sym) i = 1 from pm_sq _, mul_one]
    simp only [e]
    exact hr
  obtain ⟨p, hp, hs⟩ := hw.dphi (by omega)
  have key := rx_amplitudes h (near_despread hr') (chips_size hS) (X := v.X) (Y := v.Y) (fun n => ?_) hX
    (hy.spread (key := v.key) (spc := fs / sym / v.key.length) (by omega) (by rw [hvK]; omega))
  · rw [rxCdmaBpsk, rxCdmaQpsk, hok.guards, pure_bind, pure_bind]
    exact key
  · have hl := lanes_corr (us := us.map (fun u => ⟨1, u.key, u.X, u.Y⟩)) hK hsp hp hs (by simpa using hkey) hvK (by omega) n
    simp only [collected, List.map_map] at hl
    have e : ∀ j ∈ Finset.range (fs / sym), spreadOnAir fs (fs / sym) (val fc) us n (n * (fs / sym) + j)
        * chip v.key (fs / sym) (n * (fs / sym) + j)
        = lanesAt (us.map (fun u => ⟨1, u.key, u.X, u.Y⟩)) (fs / sym) (fs / sym / K) (dphi fs (val fc)) (n * (fs / sym) + j)
          * bitToNrz (keyBit v.key (fs / sym / K) (n * (fs / sym) + j)) := by
      intro j hj
      have hj := Finset.mem_range.mp hj
      rw [← spread_lanes hkey, show (n * (fs / sym) + j) / (fs / sym) = n by
        rw [Nat.mul_comm, Nat.mul_add_div h.k_pos, Nat.div_eq_of_lt hj, Nat.add_zero], bitToNrz_real]
      unfold chip keyBit pm
      rw [hvK]
    have o1 := spread_own hv hvK horth (fun u => u.X n)
    have o2 := spread_own hv hvK horth (fun u => u.Y n)
    have hspr : ((fs / sym : ℕ) : ℝ) = K * (fs / sym / K : ℕ) := by exact_mod_cast hsp
    constructor
    · simp only [inPhase, angle_dphi]
      rw [Finset.sum_congr rfl (fun j hj => by rw [e j hj]), hl.1]
      have := o1
      simp only [Function.comp_def]
      rw [this, hspr]; ring
    · simp only [quadrature, angle_dphi]
      rw [Finset.sum_congr rfl (fun j hj => by rw [e j hj]), hl.2]
      have := o2
      simp only [Function.comp_def]
      rw [this, hspr]; ring

/-! ## Transmitted signals -/

theorem wave_near {L : Libm} {A : Type} {k : ℕ} (hk : 0 < k) {w : ℕ → A → ℕ → FloatL L} {l : List A} {s : ℕ → ℕ → ℝ} {τ : ℝ}
    (h : ∀ n a j, l[n]? = some a → j < k → Ap (w n a j) (s n (n * k + j)) τ) : NearRecording τ (wave k w l) l.length k s := by
  refine ⟨wave_length _ _ _, fun i hi => ?_⟩
  have hin : i / k < l.length := by rw [Nat.div_lt_iff_lt_mul hk]; exact hi
  refine ⟨_, by rw [wave_getElem? hk, List.getElem?_eq_getElem hin, Option.map_some], ?_⟩
  have := h _ _ (i % k) (List.getElem?_eq_getElem hin) (Nat.mod_lt _ hk)
  rw [Nat.mul_comm, Nat.div_add_mod] at this
  exact this

/-- `r` is `s` with every sample replaced by a finite double at most `τ` away. -/
def Disturbed {L : Libm} (τ : ℝ) (s r : List (FloatL L)) : Prop :=
  r.length = s.length ∧ ∀ i < s.length, ∃ x y, s[i]? = some x ∧ r[i]? = some y ∧ F64.Fin y ∧ |real y - real x| ≤ τ

theorem near_disturbed {L : Libm} {τ σ : ℝ} {a r : List (FloatL L)} {N k : ℕ} {s : ℕ → ℕ → ℝ} (h : NearRecording σ a N k s)
    (hd : Disturbed τ a r) : NearRecording (τ + σ) r N k s := by
  refine ⟨by rw [hd.1, h.1], fun i hi => ?_⟩
  obtain ⟨x, h1, h2, h3⟩ := h.2 i hi
  obtain ⟨x', y, g1, g2, g3, g4⟩ := hd.2 i (by rw [h.1]; exact hi)
  rw [h1, Option.some.injEq] at g1
  subst g1
  refine ⟨y, g2, g3, ?_⟩
  show |real y - s (i / k) i| ≤ τ + σ
  have h3' : |real x - s (i / k) i| ≤ σ := h3
  calc |real y - s (i / k) i| = |(real y - real x) + (real x - s (i / k) i)| := by congr 1; ring
    _ ≤ _ := (abs_add_le _ _).trans (add_le_add g4 h3')

theorem radio_fs {L : Libm} {ε : ℝ} {fs k N : ℕ} {fc : FloatL L} {S : ℝ} (h : Radio L ε fs k N fc S) : 0 < fs := by
  rcases Nat.eq_zero_or_pos fs with h0 | h0
  · have := h.lo; have := h.hi; rw [h0] at this; norm_num at this
    have : (0 : ℝ) < 1 / 2 ^ 100 := by positivity
    linarith [h.lo]
  · exact h0

theorem radio_carrier {L : Libm} {ε : ℝ} {fs k N : ℕ} {fc : FloatL L} {S : ℝ} (h : Radio L ε fs k N fc S) {n j : ℕ} (hn : n < N)
    (hj : j < k) :
    Ap (L.cos (phase fs fc (n * k + j))) (Real.cos (angle fs (val fc) (n * k + j))) (1 / 2 ^ 9) ∧
    Ap (L.sin (phase fs fc (n * k + j))) (Real.sin (angle fs (val fc) (n * k + j))) (1 / 2 ^ 9) := by
  have hnk : n * k + k ≤ N * k := by
    calc n * k + k = (n + 1) * k := by ring
      _ ≤ N * k := Nat.mul_le_mul_right k hn
  have hlen := h.len
  obtain ⟨c, s⟩ := carrier_near (L := L) (fc := fc) h.acc (i := n * k + j) (radio_fs h) h.fs_lt (by omega) h.fin h.lo h.hi
  have hm : ε + 1 / 2 ^ 15 ≤ 1 / 2 ^ 9 := by have := h.small; norm_num at this ⊢; linarith
  rw [angle_dphi]
  exact ⟨c.mono hm, s.mono hm⟩

theorem ap_signed {x : Float} {c e : ℝ} (h : Ap x c e) (b : Bool) : Ap ((if b then 1 else -1) * x) (pm b * c) e := by
  cases b
  · obtain ⟨h1, h2⟩ := neg_one_mul_val h.1
    refine ⟨by simpa using h1, ?_⟩
    simp only [pm, Bool.false_eq_true, if_false]
    rw [h2, ← abs_neg, show -(-val x - -1 * c) = val x - c by ring]
    exact h.2
  · obtain ⟨h1, h2⟩ := one_mul_val h.1
    refine ⟨by simpa using h1, ?_⟩
    simp only [pm, if_true]
    rw [h2, one_mul]
    exact h.2

/-- What the BPSK modulator produces in double precision is within `2^-9` of the exact signal. -/
theorem C86_sent_bpsk [RIter ι Bool] {L : Libm} {ε S : ℝ} {fs sym : ℕ} {fc : FloatL L} {m : ι} {msg : List Bool}
    (h : Radio L ε fs (fs / sym) msg.length fc S) (hm : Yields m msg) {a : List (FloatL L)}
    (ha : (do let tx ← txBpsk m fs sym fc; collect tx) = pure a) :
    NearRecording (1 / 2 ^ 9) a msg.length (fs / sym) (fadedBpsk fs (val fc) msg (fun _ => 1) (fun _ => 0)) := by
  rw [txBpsk_collected hm h.k_pos ha]
  apply wave_near h.k_pos
  intro n b j hb hj
  have hn : n < msg.length := by
    by_contra hc
    rw [List.getElem?_eq_none (by omega)] at hb
    exact absurd hb (by simp)
  rw [fadedBpsk, List.getD_eq_getElem?_getD, hb, Option.getD_some, add_zero, one_mul]
  exact ap_signed (radio_carrier h hn hj).1 b

/-- What the QPSK modulator produces in double precision is within `2^-7` of the exact signal. -/
theorem C86_sent_qpsk [RIter ι Bool] {L : Libm} {ε S : ℝ} {fs sym : ℕ} {fc : FloatL L} {m : ι} {msg : List Bool}
    (h : Radio L ε fs (fs / sym) (msg.length / 2) fc S) (hm : Yields m msg) {a : List (FloatL L)}
    (ha : (do let tx ← txQpsk m fs sym fc; collect tx) = pure a) :
    NearRecording (1 / 2 ^ 7) a (msg.length / 2) (fs / sym) (fadedQpsk fs (val fc) msg (fun _ => 1) (fun _ => 0)) := by
  obtain ⟨it, e1, e2⟩ := txQpsk_ok hm (fc := fc) h.k_pos
  rw [e1, pure_bind, collect_of_yields e2, RM.ok_inj] at ha
  rw [← ha, ← pairs_length]
  apply wave_near h.k_pos
  intro n b j hb hj
  have hn : n < msg.length / 2 := by
    by_contra hc
    rw [List.getElem?_eq_none (by rw [pairs_length]; omega)] at hb
    exact absurd hb (by simp)
  rw [pairs_getElem? _ _ hn, Option.some.injEq] at hb
  subst hb
  rw [fadedQpsk, List.getD_eq_getElem?_getD, List.getD_eq_getElem?_getD,
    List.getElem?_eq_getElem (show 2 * n < msg.length by omega), List.getElem?_eq_getElem (show 2 * n + 1 < msg.length by omega),
    Option.getD_some, Option.getD_some, add_zero, one_mul, sub_eq_add_neg, ← neg_mul]
  obtain ⟨c, s⟩ := radio_carrier h hn hj
  exact (qpsk_sample c s (Real.abs_cos_le_one _) (Real.abs_sin_le_one _) _ _).1

/-- What the spreading modulators produce. -/
theorem near_spread {L : Libm} {key : List Bool} {N k : ℕ} {s : ℕ → ℕ → ℝ} {r : List (FloatL L)} {τ : ℝ}
    (h : NearRecording τ r N k s) :
    NearRecording τ (r.mapIdx (fun i x => x * bitToNrz (keyBit key (k / key.length) i)) : List (FloatL L)) N k
      (fun n i => s n i * chip key k i) := by
  apply near_despread (s := fun n i => s n i * chip key k i)
  have e : ∀ n i, s n i * chip key k i * (if key.getD (i / (k / key.length) % key.length) false then (1 : ℝ) else -1) = s n i := by
    intro n i
    rw [mul_assoc]
    show s n i * (chip key k i * chip key k i) = _
    rw [show chip key k i * chip key k i = 1 from pm_sq _, mul_one]
  simp only [e]
  exact h

theorem C86_sent_cdma_bpsk [RIter ι Bool] {L : Libm} {ε S : ℝ} {fs sym : ℕ} {fc : FloatL L} {m : ι} {msg key : List Bool}
    (h : Radio L ε fs (fs / sym) msg.length fc S) (hm : Yields m msg) {a : List (FloatL L)}
    (ha : (do let tx ← txCdmaBpsk m fs sym fc key; collect tx) = pure a) :
    NearRecording (1 / 2 ^ 9) a msg.length (fs / sym)
      (fun n i => fadedBpsk fs (val fc) msg (fun _ => 1) (fun _ => 0) n i * chip key (fs / sym) i) := by
  obtain ⟨hsps, e⟩ := txCdmaBpsk_collected hm ha
  rw [e]
  apply near_spread
  apply wave_near h.k_pos
  intro n b j hb hj
  have hn : n < msg.length := by
    by_contra hc
    rw [List.getElem?_eq_none (by omega)] at hb
    exact absurd hb (by simp)
  rw [fadedBpsk, List.getD_eq_getElem?_getD, hb, Option.getD_some, add_zero, one_mul]
  exact ap_signed (radio_carrier h hn hj).1 b

theorem C86_sent_cdma_qpsk [RIter ι Bool] {L : Libm} {ε S : ℝ} {fs sym : ℕ} {fc : FloatL L} {m : ι} {msg key : List Bool}
    (h : Radio L ε fs (fs / sym) (msg.length / 2) fc S) (hm : Yields m msg) {a : List (FloatL L)}
    (ha : (do let tx ← txCdmaQpsk m fs sym fc key; collect tx) = pure a) :
    NearRecording (1 / 2 ^ 7) a (msg.length / 2) (fs / sym)
      (fun n i => fadedQpsk fs (val fc) msg (fun _ => 1) (fun _ => 0) n i * chip key (fs / sym) i) := by
  obtain ⟨hsps, e⟩ := txCdmaQpsk_collected hm ha
  rw [e]
  apply near_spread
  rw [← pairs_length]
  apply wave_near h.k_pos
  intro n b j hb hj
  have hn : n < msg.length / 2 := by
    by_contra hc
    rw [List.getElem?_eq_none (by rw [pairs_length]; omega)] at hb
    exact absurd hb (by simp)
  rw [pairs_getElem? _ _ hn, Option.some.injEq] at hb
  subst hb
  rw [fadedQpsk, List.getD_eq_getElem?_getD, List.getD_eq_getElem?_getD,
    List.getElem?_eq_getElem (show 2 * n < msg.length by omega), List.getElem?_eq_getElem (show 2 * n + 1 < msg.length by omega),
    Option.getD_some, Option.getD_some, add_zero, one_mul, sub_eq_add_neg, ← neg_mul]
  obtain ⟨c, s⟩ := radio_carrier h hn hj
  exact (qpsk_sample c s (Real.abs_cos_le_one _) (Real.abs_sin_le_one _) _ _).1

/-! ## Noise -/

theorem faded_size (fs : ℕ) (f : ℝ) (msg : List Bool) (n i : ℕ) :
    |fadedBpsk fs f msg (fun _ => 1) (fun _ => 0) n i| ≤ 1 ∧ |fadedQpsk fs f msg (fun _ => 1) (fun _ => 0) n i| ≤ 2 := by
  have c := Real.abs_cos_le_one (angle fs f i + 0)
  have d := Real.abs_sin_le_one (angle fs f i + 0)
  constructor
  · rw [fadedBpsk, abs_mul, abs_mul, pm_abs, abs_one, one_mul, one_mul]; exact c
  · rw [fadedQpsk, one_mul]
    refine (abs_sub _ _).trans ?_
    rw [abs_mul, abs_mul, pm_abs, pm_abs, one_mul, one_mul]; linarith

theorem faded_corr {fs k : ℕ} {f : ℝ} (hk : 0 < k) (hw : WholeHalf fs k f) (msg : List Bool) (n : ℕ) :
    inPhase fs k f (fadedBpsk fs f msg (fun _ => 1) (fun _ => 0)) n = k / 2 * pm (msg.getD n false) ∧
    quadrature fs k f (fadedBpsk fs f msg (fun _ => 1) (fun _ => 0)) n = k / 2 * 0 ∧
    inPhase fs k f (fadedQpsk fs f msg (fun _ => 1) (fun _ => 0)) n = k / 2 * pm (msg.getD (2 * n) false) ∧
    quadrature fs k f (fadedQpsk fs f msg (fun _ => 1) (fun _ => 0)) n = k / 2 * pm (msg.getD (2 * n + 1) false) := by
  have a := amplitudes hk hw (fun n => pm (msg.getD n false)) (fun _ => 0) n
  have b := amplitudes hk hw (fun n => pm (msg.getD (2 * n) false)) (fun n => pm (msg.getD (2 * n + 1) false)) n
  have e1 : fadedBpsk fs f msg (fun _ => 1) (fun _ => 0)
      = fun n i => pm (msg.getD n false) * Real.cos (angle fs f i) - 0 * Real.sin (angle fs f i) := by
    funext n i; rw [fadedBpsk, add_zero]; ring
  have e2 : fadedQpsk fs f msg (fun _ => 1) (fun _ => 0)
      = fun n i => pm (msg.getD (2 * n) false) * Real.cos (angle fs f i) - pm (msg.getD (2 * n + 1) false) * Real.sin (angle fs f i) := by
    funext n i; rw [fadedQpsk, add_zero]; ring
  rw [e1, e2]
  exact ⟨a.1, a.2, b⟩

theorem pos_bits (msg : List Bool) : (List.range msg.length).map (fun n => decide (0 < pm (msg.getD n false))) = msg := by
  have : ∀ b, decide (0 < pm b) = b := fun b => by simpa using decide_pm_pos one_pos one_pos b
  simp only [this]
  rw [range_map_getD msg (fun _ b => b)]
  exact mapIdx_eq_self (fun _ _ _ => rfl)

theorem pos_bit_pairs (msg : List Bool) : (List.range (msg.length / 2)).flatMap (fun n =>
    [decide (0 ≤ pm (msg.getD (2 * n) false)), decide (0 ≤ pm (msg.getD (2 * n + 1) false))]) = msg.take (2 * (msg.length / 2)) := by
  have : ∀ b, decide (0 ≤ pm b) = b := fun b => by simpa using decide_pm_nonneg one_pos one_pos b
  simp only [this]
  rw [← flatMap_two (msg.take (2 * (msg.length / 2))) (by rw [List.length_take]; omega), List.length_take,
    show min (2 * (msg.length / 2)) msg.length / 2 = msg.length / 2 by omega, List.flatMap_def, List.flatMap_def]
  congr 1
  apply List.map_congr_left
  intro n hn
  have hn := List.mem_range.mp hn
  simp only [List.getD_eq_getElem?_getD]
  rw [List.getElem?_take_of_lt (by omega), List.getElem?_take_of_lt (by omega)]

/-- Modulator, channel and receiver in double precision. Every sample may be disturbed by up to 0.48: BPSK returns the message. -/
theorem C86_noise_bpsk [RIter ι Bool] {L : Libm} [RIter κ (FloatL L)] {ε : ℝ} {fs sym : ℕ} {fc : FloatL L} {m : ι} {msg : List Bool}
    (h : Radio L ε fs (fs / sym) msg.length fc 2) (hw : WholeHalf fs (fs / sym) (val fc)) (hm : Yields m msg) {a r : List (FloatL L)}
    (ha : (do let tx ← txBpsk m fs sym fc; collect tx) = pure a) (hr : Disturbed 0.48 a r) {rcv : κ} (hy : Yields rcv r) :
    (do let rx ← rxBpsk rcv fs sym fc; collect rx) = pure msg := by
  have hn := near_disturbed (C86_sent_bpsk h hm ha) hr
  have hε := h.small
  refine ((rx_amplitudes h hn (fun i _ => ?_) (fun n => ⟨(faded_corr h.k_pos hw msg n).1, (faded_corr h.k_pos hw msg n).2.1⟩)
    (fun n _ => ?_) hy).1).trans ?_
  · have := (faded_size fs (val fc) msg (i / (fs / sym)) i).1
    norm_num; linarith
  · rw [pm_abs]; norm_num at hε ⊢; linarith
  · rw [pos_bits]

/-- QPSK likewise, without the last bit of a message of odd length. -/
theorem C86_noise_qpsk [RIter ι Bool] {L : Libm} [RIter κ (FloatL L)] {ε : ℝ} {fs sym : ℕ} {fc : FloatL L} {m : ι} {msg : List Bool}
    (h : Radio L ε fs (fs / sym) (msg.length / 2) fc 4) (hw : WholeHalf fs (fs / sym) (val fc)) (hm : Yields m msg)
    {a r : List (FloatL L)} (ha : (do let tx ← txQpsk m fs sym fc; collect tx) = pure a) (hr : Disturbed 0.48 a r) {rcv : κ}
    (hy : Yields rcv r) :
    (do let rx ← rxQpsk rcv fs sym fc; collect rx) = pure (msg.take (2 * (msg.length / 2))) := by
  have hn := near_disturbed (C86_sent_qpsk h hm ha) hr
  have hε := h.small
  refine ((rx_amplitudes h hn (fun i _ => ?_) (fun n => ⟨(faded_corr h.k_pos hw msg n).2.2.1, (faded_corr h.k_pos hw msg n).2.2.2⟩)
    (fun n _ => ?_) hy).2 (fun n _ => ?_)).trans ?_
  · have := (faded_size fs (val fc) msg (i / (fs / sym)) i).2
    norm_num; linarith
  · rw [pm_abs]; norm_num at hε ⊢; linarith
  · rw [pm_abs]; norm_num at hε ⊢; linarith
  · rw [pos_bit_pairs]

/-- Spread BPSK and QPSK under the same disturbance. -/
theorem C86_noise_cdma_bpsk [RIter ι Bool] {L : Libm} [RIter κ (FloatL L)] {ε : ℝ} {fs sym : ℕ} {fc : FloatL L} {m : ι}
    {msg key : List Bool} (h : Radio L ε fs (fs / sym) msg.length fc 2) (hw : WholeHalf fs (fs / sym) (val fc)) (hm : Yields m msg)
    {a r : List (FloatL L)} (ha : (do let tx ← txCdmaBpsk m fs sym fc key; collect tx) = pure a) (hr : Disturbed 0.48 a r) {rcv : κ}
    (hy : Yields rcv r) :
    (do let rx ← rxCdmaBpsk rcv fs sym fc key; collect rx) = pure msg := by
  have hok : CdmaOk fs sym fc key.length := by
    obtain ⟨it, h1, h2⟩ := RM.bind_eq_ok.mp ha
    obtain ⟨_, h3, _⟩ := RM.bind_eq_ok.mp h1
    exact cdmaOk_of_guards h3
  have hspc := hok.spc
  have hn := near_despread (near_disturbed (C86_sent_cdma_bpsk h hm ha) hr)
  have hε := h.small
  have key := (rx_amplitudes h hn (fun i _ => ?_) (fun n => ⟨(faded_corr h.k_pos hw msg n).1, (faded_corr h.k_pos hw msg n).2.1⟩)
    (fun n _ => ?_) (hy.spread (key := key) (spc := fs / sym / key.length) hok.key_pos (by omega))).1
  · rw [rxCdmaBpsk, hok.guards, pure_bind]
    exact key.trans (by rw [pos_bits])
  · have := (faded_size fs (val fc) msg (i / (fs / sym)) i).1
    norm_num; linarith
  · rw [pm_abs]; norm_num at hε ⊢; linarith

theorem C86_noise_cdma_qpsk [RIter ι Bool] {L : Libm} [RIter κ (FloatL L)] {ε : ℝ} {fs sym : ℕ} {fc : FloatL L} {m : ι}
    {msg key : List Bool} (h : Radio L ε fs (fs / sym) (msg.length / 2) fc 4) (hw : WholeHalf fs (fs / sym) (val fc))
    (hm : Yields m msg) {a r : List (FloatL L)} (ha : (do let tx ← txCdmaQpsk m fs sym fc key; collect tx) = pure a)
    (hr : Disturbed 0.48 a r) {rcv : κ} (hy : Yields rcv r) :
    (do let rx ← rxCdmaQpsk rcv fs sym fc key; collect rx) = pure (msg.take (2 * (msg.length / 2))) := by
  have hok : CdmaOk fs sym fc key.length := by
    obtain ⟨it, h1, h2⟩ := RM.bind_eq_ok.mp ha
    obtain ⟨_, h3, _⟩ := RM.bind_eq_ok.mp h1
    exact cdmaOk_of_guards h3
  have hspc := hok.spc
  have hn := near_despread (near_disturbed (C86_sent_cdma_qpsk h hm ha) hr)
  have hε := h.small
  have key := (rx_amplitudes h hn (fun i _ => ?_)
    (fun n => ⟨(faded_corr h.k_pos hw msg n).2.2.1, (faded_corr h.k_pos hw msg n).2.2.2⟩)
    (fun n _ => ?_) (hy.spread (key := key) (spc := fs / sym / key.length) hok.key_pos (by omega))).2 (fun n _ => ?_)
  · rw [rxCdmaQpsk, hok.guards, pure_bind]
    exact key.trans (by rw [pos_bit_pairs])
  · have := (faded_size fs (val fc) msg (i / (fs / sym)) i).2
    norm_num; linarith
  · rw [pm_abs]; norm_num at hε ⊢; linarith
  · rw [pm_abs]; norm_num at hε ⊢; linarith

/-! ## Instances -/

theorem carrier_2000 : F64.Fin (Flt.ofNat 2000 : FloatL Libm.rounded) ∧ val (Flt.ofNat 2000 : FloatL Libm.rounded) = 2000 := by
  obtain ⟨h1, h2⟩ := ofNat_exact (n := 2000) (by norm_num)
  exact ⟨h1, h2.trans (by norm_num)⟩

/-- 16 samples per symbol and a 2000 Hz carrier sampled at 16000 Hz. -/
theorem radio_2000 {N : ℕ} (hN : N ≤ 2 ^ 28) {S : ℝ} (h1 : 1 ≤ S) (h2 : S ≤ 2 ^ 20) :
    Radio Libm.rounded (1 / 2 ^ 52) 16000 (16000 / 1000) N (Flt.ofNat 2000) S := by
  obtain ⟨h3, h4⟩ := carrier_2000
  refine ⟨by norm_num, accurate_rounded _, by norm_num, by norm_num, by omega, h3, by rw [h4]; norm_num, by rw [h4]; norm_num, ?_, ?_⟩
  · refine le_trans ?_ h1
    rw [div_le_one (by positivity)]
    exact one_le_pow₀ (by norm_num)
  · exact h2.trans (pow_le_pow_right₀ (by norm_num) (by norm_num))

theorem whole_2000 : WholeHalf 16000 (16000 / 1000) (val (Flt.ofNat 2000 : FloatL Libm.rounded)) := by
  rw [carrier_2000.2]
  refine ⟨⟨4, by norm_num⟩, fun q h => ?_⟩
  have h1 : (4000 : ℝ) = 16000 * q := by push_cast at h; linarith
  have h2 : (4000 : ℤ) = 16000 * q := by exact_mod_cast h1
  omega

theorem disturbed_self {L : Libm} {a : List (FloatL L)} {τ : ℝ} (hτ : 0 ≤ τ) (h : ∀ x ∈ a, F64.Fin x) : Disturbed τ a a :=
  ⟨rfl, fun i hi => ⟨a[i], a[i], List.getElem?_eq_getElem hi, List.getElem?_eq_getElem hi, h _ (List.getElem_mem _), by
    rw [sub_self, abs_zero]; exact hτ⟩⟩

/-- Every disturbance of at most 0.48 of a BPSK signal. -/
example : ∃ a : List (FloatL Libm.rounded), a.length = 48 ∧
    (do let tx ← txBpsk (ofList [true, false, true]) 16000 1000 (Flt.ofNat 2000 : FloatL Libm.rounded); collect tx) = pure a ∧
    Disturbed 0.48 a a ∧ ∀ r, Disturbed 0.48 a r →
    (do let rx ← rxBpsk (ofList r) 16000 1000 (Flt.ofNat 2000 : FloatL Libm.rounded); collect rx) = pure [true, false, true] := by
  obtain ⟨it, h1, h2⟩ := txBpsk_ok (yields_ofList [true, false, true]) (fs := 16000) (sym := 1000)
    (fc := (Flt.ofNat 2000 : FloatL Libm.rounded)) (by norm_num) (by decide +kernel) (by decide +kernel)
  obtain ⟨a, ha⟩ : ∃ a, (do let tx ← txBpsk (ofList [true, false, true]) 16000 1000 (Flt.ofNat 2000 : FloatL Libm.rounded); collect tx)
      = pure a := ⟨_, by rw [h1, pure_bind, collect_of_yields h2]⟩
  have hR := radio_2000 (N := 3) (by norm_num) (S := 2) (by norm_num) (by norm_num)
  have hs := C86_sent_bpsk hR (yields_ofList [true, false, true]) ha
  refine ⟨a, hs.1, ha, disturbed_self (by norm_num) (fun x hx => ?_), fun r hr =>
    C86_noise_bpsk hR whole_2000 (yields_ofList _) ha hr (yields_ofList _)⟩
  obtain ⟨i, hi, rfl⟩ := List.mem_iff_getElem.mp hx
  obtain ⟨x, e1, e2, _⟩ := hs.2 i (by rw [← hs.1]; exact hi)
  rw [List.getElem?_eq_getElem hi, Option.some.injEq] at e1
  rw [e1]; exact e2

/-- Two keyed stations, the wanted one a thousand times weaker. -/
example {r : List (FloatL Libm.rounded)} (hr : NearRecording (1 / 4) r 3 (16000 / 1000)
      (spreadOnAir 16000 (16000 / 1000) (val (Flt.ofNat 2000 : FloatL Libm.rounded))
        [⟨[true, true], fun n => if n = 1 then -1 else 1, fun _ => 0⟩, ⟨[true, false], fun _ => 1000, fun _ => -1000⟩])) :
    (do let rx ← rxCdmaBpsk (ofList r) 16000 1000 (Flt.ofNat 2000 : FloatL Libm.rounded) [true, true]; collect rx)
      = pure [true, false, true] := by
  have hw : WholeHalf 16000 (16000 / 1000 / 2) (val (Flt.ofNat 2000 : FloatL Libm.rounded)) := by
    rw [carrier_2000.2]
    refine ⟨⟨2, by norm_num⟩, fun q h => ?_⟩
    have h1 : (4000 : ℝ) = 16000 * q := by push_cast at h; linarith
    have h2 : (4000 : ℤ) = 16000 * q := by exact_mod_cast h1
    omega
  refine ((C86_near_far (radio_2000 (N := 3) (by norm_num) (S := 2002) (by norm_num) (by norm_num)) (K := 2) (by norm_num)
    (by norm_num) (by norm_num) (by norm_num) hw (v := ⟨[true, true], fun n => if n = 1 then -1 else 1, fun _ => 0⟩)
    (by simp) (by simp; decide) (by simp) (fun i hi => ?_) (fun n hn => ?_) hr (yields_ofList r)).1).trans ?_
  · generalize val (Flt.ofNat 2000 : FloatL Libm.rounded) = f
    simp only [spreadOnAir, List.map_cons, List.map_nil, List.sum_cons, List.sum_nil, add_zero]
    have c := Real.abs_cos_le_one (angle 16000 f i)
    have d := Real.abs_sin_le_one (angle 16000 f i)
    refine le_trans (add_le_add_left (abs_add_le _ _) _) ?_
    rw [abs_mul, abs_mul, chip_abs, chip_abs, mul_one, mul_one, zero_mul, sub_zero, abs_mul]
    have e1 : |(if i / (16000 / 1000) = 1 then (-1 : ℝ) else 1)| = 1 := by split_ifs <;> norm_num
    rw [e1, one_mul]
    have e2 : |(1000 : ℝ) * Real.cos (angle 16000 f i) - -1000 * Real.sin (angle 16000 f i)| ≤ 2000 := by
      refine (abs_sub _ _).trans ?_
      rw [abs_mul, abs_mul]
      norm_num
      linarith
    norm_num at e2 ⊢
    linarith
  · beta_reduce
    have e1 : |(if n = 1 then (-1 : ℝ) else 1)| = 1 := by split_ifs <;> norm_num
    rw [e1]; norm_num
  · simp [List.range_succ]

/-- A weak BPSK station at 2000 Hz beside one at 3000 Hz that is a thousand times stronger. -/
example {r : List (FloatL Libm.rounded)} (hr : NearRecording (1 / 4) r 3 (16000 / 1000)
      (onAir 16000 [⟨val (Flt.ofNat 2000 : FloatL Libm.rounded), fun n => if n = 1 then -1 else 1, fun _ => 0⟩,
        ⟨((3 * 1000 : ℕ) : ℝ), fun _ => 1000, fun _ => -1000⟩])) :
    (do let rx ← rxBpsk (ofList r) 16000 1000 (Flt.ofNat 2000 : FloatL Libm.rounded); collect rx) = pure [true, false, true] := by
  have hsp : Spaced 16000 (16000 / 1000) (val (Flt.ofNat 2000 : FloatL Libm.rounded)) ((3 * 1000 : ℕ) : ℝ) := by
    have := (C84_multiples (fs := 16000) (sym := 1000) (a := 2) (b := 3) (by norm_num) (by norm_num) (by norm_num) (by norm_num)
      (by norm_num) (by norm_num) (by norm_num)).1
    rwa [show ((2 * 1000 : ℕ) : ℝ) = 2000 by norm_num, ← carrier_2000.2] at this
  refine ((C86_fdm (radio_2000 (N := 3) (by norm_num) (S := 2002) (by norm_num) (by norm_num))
    (v := ⟨val (Flt.ofNat 2000 : FloatL Libm.rounded), fun n => if n = 1 then -1 else 1, fun _ => 0⟩)
    (by simpa using hsp) (by simp) rfl whole_2000 (fun i hi => ?_) (fun n hn => ?_) hr (yields_ofList r)).1).trans ?_
  · generalize val (Flt.ofNat 2000 : FloatL Libm.rounded) = f
    simp only [onAir, List.map_cons, List.map_nil, List.sum_cons, List.sum_nil, add_zero]
    have c := Real.abs_cos_le_one (angle 16000 f i)
    have c' := Real.abs_cos_le_one (angle 16000 ((3 * 1000 : ℕ) : ℝ) i)
    have d' := Real.abs_sin_le_one (angle 16000 ((3 * 1000 : ℕ) : ℝ) i)
    refine le_trans (add_le_add_left (abs_add_le _ _) _) ?_
    rw [zero_mul, sub_zero, abs_mul]
    have e1 : |(if i / (16000 / 1000) = 1 then (-1 : ℝ) else 1)| = 1 := by split_ifs <;> norm_num
    rw [e1, one_mul]
    generalize angle 16000 ((3 * 1000 : ℕ) : ℝ) i = t at *
    have e2 : |(1000 : ℝ) * Real.cos t - -1000 * Real.sin t| ≤ 2000 := by
      refine (abs_sub _ _).trans ?_
      rw [abs_mul, abs_mul]
      norm_num
      linarith
    norm_num at e2 ⊢
    linarith
  · have e1 : |(if n = 1 then (-1 : ℝ) else 1)| = 1 := by split_ifs <;> norm_num
    rw [e1]; norm_num
  · simp [List.range_succ]

theorem cdmaOk_2000 : CdmaOk 16000 1000 (Flt.ofNat 2000 : FloatL Libm.rounded) [true, false].length :=
  (cdmaOk_ieee (by norm_num) carrier_2000.1).mpr ⟨by norm_num, by norm_num, by norm_num, by norm_num, by
    rw [carrier_2000.2]; norm_num⟩

/-- Every disturbance of at most 0.48 of a CDMA signal, … -/
example (msg : List Bool) (hmsg : msg.length = 6) : ∃ a : List (FloatL Libm.rounded), a.length = 96 ∧
    (do let tx ← txCdmaBpsk (ofList msg) 16000 1000 (Flt.ofNat 2000 : FloatL Libm.rounded) [true, false]; collect tx) = pure a ∧
    ∀ r, Disturbed 0.48 a r →
    (do let rx ← rxCdmaBpsk (ofList r) 16000 1000 (Flt.ofNat 2000 : FloatL Libm.rounded) [true, false]; collect rx) = pure msg := by
  obtain ⟨it, h1, h2⟩ := txCdmaBpsk_ok (yields_ofList msg) cdmaOk_2000
  obtain ⟨a, ha⟩ : ∃ a, (do let tx ← txCdmaBpsk (ofList msg) 16000 1000 (Flt.ofNat 2000 : FloatL Libm.rounded) [true, false]; collect tx)
      = pure a := ⟨_, by rw [h1, pure_bind, collect_of_yields h2]⟩
  have hR := radio_2000 (N := msg.length) (by rw [hmsg]; norm_num) (S := 2) (by norm_num) (by norm_num)
  refine ⟨a, ?_, ha, fun r hr => C86_noise_cdma_bpsk hR whole_2000 (yields_ofList _) ha hr (yields_ofList _)⟩
  rw [(C86_sent_cdma_bpsk hR (yields_ofList msg) ha).1, hmsg]

/-- … of a QPSK signal, … -/
example (msg : List Bool) (hmsg : msg.length = 6) : ∃ a : List (FloatL Libm.rounded), a.length = 48 ∧
    (do let tx ← txQpsk (ofList msg) 16000 1000 (Flt.ofNat 2000 : FloatL Libm.rounded); collect tx) = pure a ∧
    ∀ r, Disturbed 0.48 a r →
    (do let rx ← rxQpsk (ofList r) 16000 1000 (Flt.ofNat 2000 : FloatL Libm.rounded); collect rx) = pure msg := by
  obtain ⟨it, h1, h2⟩ := txQpsk_ok (yields_ofList msg) (fs := 16000) (sym := 1000)
    (fc := (Flt.ofNat 2000 : FloatL Libm.rounded)) (by norm_num)
  obtain ⟨a, ha⟩ : ∃ a, (do let tx ← txQpsk (ofList msg) 16000 1000 (Flt.ofNat 2000 : FloatL Libm.rounded); collect tx)
      = pure a := ⟨_, by rw [h1, pure_bind, collect_of_yields h2]⟩
  have hR := radio_2000 (N := msg.length / 2) (by rw [hmsg]; norm_num) (S := 4) (by norm_num) (by norm_num)
  refine ⟨a, ?_, ha, fun r hr => (C86_noise_qpsk hR whole_2000 (yields_ofList _) ha hr (yields_ofList _)).trans ?_⟩
  · rw [(C86_sent_qpsk hR (yields_ofList msg) ha).1, hmsg]
  · rw [show 2 * (msg.length / 2) = msg.length by omega, List.take_length]

/-- … and of a QPSK CDMA signal. -/
example (msg : List Bool) (hmsg : msg.length = 6) : ∃ a : List (FloatL Libm.rounded), a.length = 48 ∧
    (do let tx ← txCdmaQpsk (ofList msg) 16000 1000 (Flt.ofNat 2000 : FloatL Libm.rounded) [true, false]; collect tx) = pure a ∧
    ∀ r, Disturbed 0.48 a r →
    (do let rx ← rxCdmaQpsk (ofList r) 16000 1000 (Flt.ofNat 2000 : FloatL Libm.rounded) [true, false]; collect rx) = pure msg := by
  obtain ⟨it, h1, h2⟩ := txCdmaQpsk_ok (yields_ofList msg) cdmaOk_2000
  obtain ⟨a, ha⟩ : ∃ a, (do let tx ← txCdmaQpsk (ofList msg) 16000 1000 (Flt.ofNat 2000 : FloatL Libm.rounded) [true, false]; collect tx)
      = pure a := ⟨_, by rw [h1, pure_bind, collect_of_yields h2]⟩
  have hR := radio_2000 (N := msg.length / 2) (by rw [hmsg]; norm_num) (S := 4) (by norm_num) (by norm_num)
  refine ⟨a, ?_, ha, fun r hr => (C86_noise_cdma_qpsk hR whole_2000 (yields_ofList _) ha hr (yields_ofList _)).trans ?_⟩
  · rw [(C86_sent_cdma_qpsk hR (yields_ofList msg) ha).1, hmsg]
  · rw [show 2 * (msg.length / 2) = msg.length by omega, List.take_length]

/-- A recording of ones: the receiver in IEEE arithmetic and the exact one both receivers answer three bits. -/
example : ∃ x y : ℕ → Bool,
    (do let rx ← rxBpsk (ofList (List.replicate 48 (Flt.ofNat 1 : FloatL Libm.rounded))) 16000 1000 (Flt.ofNat 2000); collect rx)
      = pure ((List.range 3).map x) ∧
    (do let rx ← rxBpsk (ofList ((List.replicate 48 (Flt.ofNat 1 : FloatL Libm.rounded)).map real)) 16000 1000 (real (Flt.ofNat 2000 : FloatL Libm.rounded)); collect rx) = pure ((List.range 3).map y) := by
  have h1 := ofNat_exact (n := 1) (by norm_num)
  obtain ⟨x, y, h, h', -⟩ := C86_agree_bpsk (radio_2000 (N := 3) (by norm_num) (S := 1) (by norm_num) (by norm_num))
    (r := List.replicate 48 (Flt.ofNat 1)) (by simp) (fun z hz => by
      rw [List.eq_of_mem_replicate hz]
      exact ⟨h1.1, by rw [show real (Flt.ofNat 1 : FloatL Libm.rounded) = 1 from h1.2.trans (by norm_num)]; norm_num⟩)
  exact ⟨x, y, h, h'⟩

end Verif.Props
