import Verif.Lemmas.Jitter
import Verif.Props.Fading

/-!
# C83: phase noise and carrier frequency errors

Exact arithmetic. Here the carrier phase of the received signal wanders from sample to sample: sample `i` is received with its
phase turned by `t i`, an arbitrary function. A transmitter whose oscillator runs at another frequency than the receiver's is the
case `t i = 2π (f' - f) i / fs`.
-/
namespace Verif.Props
open Verif Spec
set_option linter.unusedSectionVars false
variable {ι κ : Type}

/-- A BPSK signal of per-symbol strength whose phase wanders from sample to sample. -/
noncomputable def wanderingBpsk (fs : ℕ) (fc : ℝ) (msg : List Bool) (g t : ℕ → ℝ) (n i : ℕ) : ℝ :=
  g n * pm (msg.getD n false) * Real.cos (angle fs fc i + t i)

/-- A QPSK signal of per-symbol strength whose phase wanders from sample to sample. -/
noncomputable def wanderingQpsk (fs : ℕ) (fc : ℝ) (msg : List Bool) (g t : ℕ → ℝ) (n i : ℕ) : ℝ :=
  g n * (pm (msg.getD (2 * n) false) * Real.cos (angle fs fc i + t i)
    - pm (msg.getD (2 * n + 1) false) * Real.sin (angle fs fc i + t i))

theorem pm_sq (b : Bool) : pm b * pm b = 1 := by cases b <;> simp [pm]

theorem pm_abs (b : Bool) : |pm b| = 1 := by cases b <;> simp [pm]

theorem decide_pm_pos {g S : ℝ} (hg : 0 < g) (hS : 0 < S) (b : Bool) : decide (0 < g * pm b * S) = b := by
  cases b
  · simp only [pm, Bool.false_eq_true, if_false, decide_eq_false_iff_not]; nlinarith [mul_pos hg hS]
  · simp only [pm, if_true, decide_eq_true_eq]; nlinarith [mul_pos hg hS]

theorem decide_pm_nonneg {g S : ℝ} (hg : 0 < g) (hS : 0 < S) (b : Bool) : decide (0 ≤ g * pm b * S) = b := by
  cases b
  · simp only [pm, Bool.false_eq_true, if_false, decide_eq_false_iff_not]; nlinarith [mul_pos hg hS]
  · simp only [pm, if_true, decide_eq_true_eq]; nlinarith [mul_pos hg hS]

theorem cos_half_turns (x : ℝ) (z : ℤ) : Real.cos (x + z * Real.pi) = pm (decide (Even z)) * Real.cos x := by
  rw [Real.cos_add_int_mul_pi]
  by_cases h : Even z
  · rw [h.neg_one_zpow]; simp [pm, h]
  · rw [(Int.not_even_iff_odd.mp h).neg_one_zpow]; simp [pm, h]

/-! ## BPSK -/

/-- One bit per symbol. Wherever the phase error stays during a whole symbol within less than an eighth of a turn of `z` half
turns, the receiver returns the bit sent if `z` is even and its complement if `z` is odd, at any positive strength and whatever
happens during the other symbols. -/
theorem C83_bpsk_slips [RIter κ ℝ] {fs sym : ℕ} {fc : ℝ} (hsps : 0 < fs / sym) (hw : WholeHalf fs (fs / sym) fc)
    {msg : List Bool} {g t : ℕ → ℝ} {r : List ℝ}
    (h : Recording r msg.length (fs / sym) (wanderingBpsk fs fc msg g t)) {rcv : κ} (hr : Yields rcv r) :
    ∃ out, (do let rx ← rxBpsk rcv fs sym fc; collect rx) = pure out ∧ out.length = msg.length ∧
      ∀ n b, msg[n]? = some b → 0 < g n → ∀ (z : ℤ) (τ : ℝ), τ < Real.pi / 4 →
        (∀ j < fs / sym, |t (n * (fs / sym) + j) - z * Real.pi| ≤ τ) → out[n]? = some (if Even z then b else !b) := by
  obtain ⟨p, hp, hs⟩ := hw.dphi hsps
  refine ⟨_, rxBpsk_recording hsps h hr, by simp, ?_⟩
  intro n b hb hgn z τ hτ ht
  have hn : n < msg.length := by
    by_contra hc
    rw [List.getElem?_eq_none (by omega)] at hb
    exact absurd hb (by simp)
  rw [List.getElem?_map, List.getElem?_range hn, Option.map_some, Option.some.injEq]
  have hpos := jitter_cos hsps hp hs (t := fun j => t (n * (fs / sym) + j) - z * Real.pi) hτ ht (n * (fs / sym))
  have e : ∑ j ∈ Finset.range (fs / sym), wanderingBpsk fs fc msg g t n (n * (fs / sym) + j)
      * Real.cos ((n * (fs / sym) + j : ℕ) * dphi fs fc)
      = g n * pm b * (pm (decide (Even z)) * ∑ j ∈ Finset.range (fs / sym),
        Real.cos ((n * (fs / sym) + j : ℕ) * dphi fs fc + (t (n * (fs / sym) + j) - z * Real.pi))
          * Real.cos ((n * (fs / sym) + j : ℕ) * dphi fs fc)) := by
    rw [Finset.mul_sum, Finset.mul_sum]
    apply Finset.sum_congr rfl
    intro j _
    rw [wanderingBpsk, angle_dphi, show ((n * (fs / sym) + j : ℕ) : ℝ) * dphi fs fc + t (n * (fs / sym) + j)
      = ((n * (fs / sym) + j : ℕ) * dphi fs fc + (t (n * (fs / sym) + j) - z * Real.pi)) + z * Real.pi by ring,
      cos_half_turns, List.getD_eq_getElem?_getD, hb, Option.getD_some]
    ring
  rw [e]
  by_cases hev : Even z
  · rw [if_pos hev, show decide (Even z) = true by simpa using hev, show pm true = 1 from rfl, one_mul]
    exact decide_pm_pos hgn hpos _
  · rw [if_neg hev, show decide (Even z) = false by simpa using hev, ← mul_assoc,
      show g n * pm b * pm false = g n * pm (!b) by cases b <;> simp [pm]]
    exact decide_pm_pos hgn hpos _

/-- Phase noise of less than an eighth of a turn on every sample, of whatever shape, causes no error. -/
theorem C83_bpsk [RIter κ ℝ] {fs sym : ℕ} {fc : ℝ} (hsps : 0 < fs / sym) (hw : WholeHalf fs (fs / sym) fc)
    {msg : List Bool} {g t : ℕ → ℝ} (hg : ∀ n < msg.length, 0 < g n) {τ : ℝ} (hτ : τ < Real.pi / 4)
    (ht : ∀ i < msg.length * (fs / sym), |t i| ≤ τ)
    {r : List ℝ} (h : Recording r msg.length (fs / sym) (wanderingBpsk fs fc msg g t)) {rcv : κ} (hr : Yields rcv r) :
    (do let rx ← rxBpsk rcv fs sym fc; collect rx) = pure msg := by
  obtain ⟨out, e1, e2, e3⟩ := C83_bpsk_slips hsps hw h hr
  rw [e1]
  congr 1
  apply List.ext_getElem?
  intro n
  by_cases hn : n < msg.length
  · rw [e3 n msg[n] (List.getElem?_eq_getElem hn) (hg n hn) 0 τ hτ (fun j hj => by
      rw [Int.cast_zero, zero_mul, sub_zero]
      apply ht
      calc n * (fs / sym) + j < n * (fs / sym) + fs / sym := by omega
        _ = (n + 1) * (fs / sym) := by ring
        _ ≤ _ := Nat.mul_le_mul_right _ hn), if_pos (by decide), List.getElem?_eq_getElem hn]
  · rw [List.getElem?_eq_none (by omega), List.getElem?_eq_none (by omega)]

/-- With a key. -/
theorem C83_cdma_bpsk [RIter κ ℝ] {fs sym : ℕ} {fc : ℝ} {key : List Bool}
    (hfs : fs < 2 ^ 64) (hsym : 0 < sym) (hL : 0 < key.length) (hdvd : sym * key.length ∣ fs)
    (hnyq : 2 * (sym * key.length) ≤ fs) (hfc : ⌊fc⌋₊ ≤ fs / 2) (hw : WholeHalf fs (fs / sym) fc)
    {msg : List Bool} {g t : ℕ → ℝ} (hg : ∀ n < msg.length, 0 < g n) {τ : ℝ} (hτ : τ < Real.pi / 4)
    (ht : ∀ i < msg.length * (fs / sym), |t i| ≤ τ) {r : List ℝ}
    (h : Recording r msg.length (fs / sym) (fun n i => wanderingBpsk fs fc msg g t n i * chip key (fs / sym) i))
    {rcv : κ} (hr : Yields rcv r) :
    (do let rx ← rxCdmaBpsk rcv fs sym fc key; collect rx) = pure msg := by
  have hok := (cdmaOk_real (fc := fc) hfs).mpr ⟨hsym, hL, hdvd, hnyq, hfc⟩
  have h1 := hok.sps
  have h2 := hok.spc
  rw [rxCdmaBpsk, hok.guards, pure_bind]
  exact C83_bpsk (by omega) hw hg hτ ht (recording_despread h) (hr.spread (key := key) hL (by omega))

/-! ## QPSK -/

theorem sixteenth {τ : ℝ} (h0 : 0 ≤ τ) (hτ : τ ≤ Real.pi / 8) : 2 * Real.sin τ + 1 < 2 * Real.cos τ := by
  have hpi := Real.pi_pos
  have h1 : Real.sin (2 * τ) ≤ Real.sin (Real.pi / 4) :=
    Real.sin_le_sin_of_le_of_le_pi_div_two (by linarith) (by linarith) (by linarith)
  rw [Real.sin_pi_div_four, Real.sin_two_mul] at h1
  have h2 : √2 < 1.42 := by rw [Real.sqrt_lt' (by norm_num)]; norm_num
  have h3 := Real.sin_sq_add_cos_sq τ
  have h4 : 0 < Real.cos (τ + Real.pi / 4) := Real.cos_pos_of_mem_Ioo ⟨by linarith, by linarith⟩
  rw [Real.cos_add, Real.sin_pi_div_four, Real.cos_pi_div_four] at h4
  have h5 : (0 : ℝ) < √2 / 2 := by positivity
  have h6 : 0 < Real.cos τ - Real.sin τ := by nlinarith
  have h7 : (Real.cos τ - Real.sin τ) ^ 2 > (1 / 2) ^ 2 := by nlinarith
  have := lt_of_pow_lt_pow_left₀ 2 h6.le h7
  linarith

/-- QPSK tolerates phase noise of up to a sixteenth of a turn on every sample. -/
theorem C83_qpsk [RIter κ ℝ] {fs sym : ℕ} {fc : ℝ} (hsps : 0 < fs / sym) (hw : WholeHalf fs (fs / sym) fc)
    {msg : List Bool} (he : msg.length % 2 = 0) {g t : ℕ → ℝ} (hg : ∀ n < msg.length / 2, 0 < g n)
    (ht : ∀ i < msg.length / 2 * (fs / sym), |t i| ≤ Real.pi / 8)
    {r : List ℝ} (h : Recording r (msg.length / 2) (fs / sym) (wanderingQpsk fs fc msg g t)) {rcv : κ} (hr : Yields rcv r) :
    (do let rx ← rxQpsk rcv fs sym fc; collect rx) = pure msg := by
  obtain ⟨p, hp, hs⟩ := hw.dphi hsps
  have hpi := Real.pi_pos
  rw [rxQpsk_recording hsps h hr]
  congr 1
  conv_rhs => rw [← flatMap_two msg he]
  rw [List.flatMap_def, List.flatMap_def]
  congr 1
  apply List.map_congr_left
  intro n hn
  have hn := List.mem_range.mp hn
  set a := msg.getD (2 * n) false
  set b := msg.getD (2 * n + 1) false
  obtain ⟨h1, h2⟩ := jitter_quad hsps hp hs (t := fun j => t (n * (fs / sym) + j)) (τ := Real.pi / 8) (by linarith)
    (sixteenth (by positivity) le_rfl) (fun j hj => ht _ (by
      calc n * (fs / sym) + j < n * (fs / sym) + fs / sym := by omega
        _ = (n + 1) * (fs / sym) := by ring
        _ ≤ _ := Nat.mul_le_mul_right _ hn)) (n * (fs / sym)) (z := pm a * pm b) (by rw [abs_mul, pm_abs, pm_abs, one_mul])
  have ea := pm_sq a
  have eb := pm_sq b
  congr 1
  · rw [← decide_pm_nonneg (hg n hn) h1 a, Finset.mul_sum]
    congr 2
    apply Finset.sum_congr rfl
    intro j _
    rw [wanderingQpsk, angle_dphi]
    linear_combination (-(g n * pm b * Real.sin ((n * (fs / sym) + j : ℕ) * dphi fs fc + t (n * (fs / sym) + j))
      * Real.cos ((n * (fs / sym) + j : ℕ) * dphi fs fc))) * -ea
  · congr 1
    rw [← decide_pm_nonneg (hg n hn) h2 b, Finset.mul_sum]
    congr 2
    apply Finset.sum_congr rfl
    intro j _
    rw [wanderingQpsk, angle_dphi]
    linear_combination (-(g n * pm a * Real.cos ((n * (fs / sym) + j : ℕ) * dphi fs fc + t (n * (fs / sym) + j))
      * Real.sin ((n * (fs / sym) + j : ℕ) * dphi fs fc))) * -eb

/-- With a key. -/
theorem C83_cdma_qpsk [RIter κ ℝ] {fs sym : ℕ} {fc : ℝ} {key : List Bool}
    (hfs : fs < 2 ^ 64) (hsym : 0 < sym) (hL : 0 < key.length) (hdvd : sym * key.length ∣ fs)
    (hnyq : 2 * (sym * key.length) ≤ fs) (hfc : ⌊fc⌋₊ ≤ fs / 2) (hw : WholeHalf fs (fs / sym) fc)
    {msg : List Bool} (he : msg.length % 2 = 0) {g t : ℕ → ℝ} (hg : ∀ n < msg.length / 2, 0 < g n)
    (ht : ∀ i < msg.length / 2 * (fs / sym), |t i| ≤ Real.pi / 8) {r : List ℝ}
    (h : Recording r (msg.length / 2) (fs / sym) (fun n i => wanderingQpsk fs fc msg g t n i * chip key (fs / sym) i))
    {rcv : κ} (hr : Yields rcv r) :
    (do let rx ← rxCdmaQpsk rcv fs sym fc key; collect rx) = pure msg := by
  have hok := (cdmaOk_real (fc := fc) hfs).mpr ⟨hsym, hL, hdvd, hnyq, hfc⟩
  have h1 := hok.sps
  have h2 := hok.spc
  rw [rxCdmaQpsk, hok.guards, pure_bind]
  exact C83_qpsk (by omega) hw he hg ht (recording_despread h) (hr.spread (key := key) hL (by omega))

/-! ## A transmitter tuned to another frequency -/

theorem angle_offset (fs : ℕ) (f f' : ℝ) (i : ℕ) : angle fs f' i = angle fs f i + angle fs (f' - f) i := by
  unfold angle; ring

theorem angle_small {fs : ℕ} (hfs : 0 < fs) {δ c : ℝ} (hc : 0 < c) {n i : ℕ} (hi : i < n) (h : c * |δ| * n ≤ fs) :
    |angle fs δ i| ≤ 2 * Real.pi * |δ| * (n - 1 : ℕ) / fs ∧ 2 * Real.pi * |δ| * (n - 1 : ℕ) / fs < 2 * Real.pi / c := by
  have hpi := Real.pi_pos
  have hF : (0 : ℝ) < fs := by exact_mod_cast hfs
  constructor
  · rw [angle, abs_div, abs_mul, abs_mul, abs_of_pos (show (0 : ℝ) < 2 * Real.pi by positivity), abs_of_pos hF,
      abs_of_nonneg (show (0 : ℝ) ≤ (i : ℝ) by positivity)]
    apply div_le_div_of_nonneg_right _ hF.le
    have : (i : ℝ) ≤ (n - 1 : ℕ) := by exact_mod_cast (by omega : i ≤ n - 1)
    exact mul_le_mul_of_nonneg_left this (by positivity)
  · rw [div_lt_div_iff₀ hF hc]
    have h1 : ((n - 1 : ℕ) : ℝ) = n - 1 := by rw [Nat.cast_sub (by omega)]; simp
    have h2 : c * |δ| * (n - 1 : ℕ) < fs := by
      rw [h1]
      rcases eq_or_lt_of_le (abs_nonneg δ) with h0 | h0
      · rw [← h0]; simpa using hF
      · nlinarith
    nlinarith

/-- A BPSK transmission on carrier `f'` is received without error by a receiver tuned to `f` as long as the whole transmission
lasts less than an eighth of a period of the difference: `8 |f' - f| · (number of samples) ≤ fs`. -/
theorem C83_offset_bpsk [RIter ι Bool] {m : ι} {msg : List Bool} (h : Yields m msg) {fs sym : ℕ} {f f' : ℝ}
    (hsps : 0 < fs / sym) (hw : WholeHalf fs (fs / sym) f) (hoff : 8 * |f' - f| * (msg.length * (fs / sym) : ℕ) ≤ fs)
    {a : List ℝ} (ha : (do let tx ← txBpsk m fs sym f'; collect tx) = pure a) :
    (do let rx ← rxBpsk (ofList a) fs sym f; collect rx) = pure msg := by
  have hfs : 0 < fs := by
    rcases Nat.eq_zero_or_pos fs with rfl | h
    · simp at hsps
    · exact h
  have hrec := C81_clean_bpsk h hsps ha
  rcases Nat.eq_zero_or_pos (msg.length * (fs / sym)) with h0 | h0
  · have hm : msg = [] := by
      rcases Nat.mul_eq_zero.mp h0 with h1 | h1
      · exact List.length_eq_zero_iff.mp h1
      · omega
    subst hm
    exact (rxBpsk_recording hsps hrec (yields_ofList a)).trans rfl
  · refine C83_bpsk hsps hw (g := fun _ => 1) (t := angle fs (f' - f)) (fun _ _ => one_pos)
      (τ := 2 * Real.pi * |f' - f| * (msg.length * (fs / sym) - 1 : ℕ) / fs) ?_ ?_ (r := a) ?_ (yields_ofList a)
    · exact (angle_small hfs (by norm_num) h0 hoff).2.trans_eq (by ring)
    · exact fun i hi => (angle_small hfs (by norm_num) hi hoff).1
    · refine ⟨hrec.1, fun i hi => ?_⟩
      rw [hrec.2 i hi, fadedBpsk, wanderingBpsk, add_zero, angle_offset fs f f']

/-- The same for QPSK and a sixteenth of a period. -/
theorem C83_offset_qpsk [RIter ι Bool] {m : ι} {msg : List Bool} (h : Yields m msg) (he : msg.length % 2 = 0) {fs sym : ℕ}
    {f f' : ℝ} (hsps : 0 < fs / sym) (hw : WholeHalf fs (fs / sym) f)
    (hoff : 16 * |f' - f| * (msg.length / 2 * (fs / sym) : ℕ) ≤ fs)
    {a : List ℝ} (ha : (do let tx ← txQpsk m fs sym f'; collect tx) = pure a) :
    (do let rx ← rxQpsk (ofList a) fs sym f; collect rx) = pure msg := by
  have hfs : 0 < fs := by
    rcases Nat.eq_zero_or_pos fs with rfl | h
    · simp at hsps
    · exact h
  have hrec := C81_clean_qpsk h hsps ha
  refine C83_qpsk hsps hw he (g := fun _ => 1) (t := angle fs (f' - f)) (fun _ _ => one_pos) ?_ (r := a) ?_ (yields_ofList a)
  · intro i hi
    obtain ⟨h1, h2⟩ := angle_small hfs (by norm_num) hi hoff
    exact h1.trans (h2.le.trans_eq (by ring))
  · refine ⟨hrec.1, fun i hi => ?_⟩
    rw [hrec.2 i hi, fadedQpsk, wanderingQpsk, add_zero, angle_offset fs f f']

/-- CDMA BPSK. -/
theorem C83_offset_cdma_bpsk [RIter ι Bool] {m : ι} {msg : List Bool} (h : Yields m msg) {fs sym : ℕ} {f f' : ℝ} {key : List Bool}
    (hfs : fs < 2 ^ 64) (hsym : 0 < sym) (hL : 0 < key.length) (hdvd : sym * key.length ∣ fs)
    (hnyq : 2 * (sym * key.length) ≤ fs) (hfc : ⌊f⌋₊ ≤ fs / 2) (hw : WholeHalf fs (fs / sym) f)
    (hoff : 8 * |f' - f| * (msg.length * (fs / sym) : ℕ) ≤ fs)
    {a : List ℝ} (ha : (do let tx ← txCdmaBpsk m fs sym f' key; collect tx) = pure a) :
    (do let rx ← rxCdmaBpsk (ofList a) fs sym f key; collect rx) = pure msg := by
  have hF : 0 < fs := by
    have := Nat.mul_pos hsym hL
    omega
  have hrec := C81_clean_cdma_bpsk h ha
  have hok := (cdmaOk_real (fc := f) hfs).mpr ⟨hsym, hL, hdvd, hnyq, hfc⟩
  rcases Nat.eq_zero_or_pos (msg.length * (fs / sym)) with h0 | h0
  · have h1 := hok.sps
    have hm : msg = [] := by
      rcases Nat.mul_eq_zero.mp h0 with h1 | h1
      · exact List.length_eq_zero_iff.mp h1
      · omega
    subst hm
    exact C83_cdma_bpsk hfs hsym hL hdvd hnyq hfc hw (g := fun _ => 1) (t := fun _ => 0) (τ := 0) (by simp)
      (by positivity) (by simp) ⟨hrec.1, by simp⟩ (yields_ofList a)
  · refine C83_cdma_bpsk hfs hsym hL hdvd hnyq hfc hw (g := fun _ => 1) (t := angle fs (f' - f)) (fun _ _ => one_pos)
      (τ := 2 * Real.pi * |f' - f| * (msg.length * (fs / sym) - 1 : ℕ) / fs) ?_ ?_ (r := a) ?_ (yields_ofList a)
    · exact (angle_small hF (by norm_num) h0 hoff).2.trans_eq (by ring)
    · exact fun i hi => (angle_small hF (by norm_num) hi hoff).1
    · refine ⟨hrec.1, fun i hi => ?_⟩
      rw [hrec.2 i hi]; beta_reduce; rw [fadedBpsk, wanderingBpsk, add_zero, angle_offset fs f f']

/-- CDMA QPSK. -/
theorem C83_offset_cdma_qpsk [RIter ι Bool] {m : ι} {msg : List Bool} (h : Yields m msg) (he : msg.length % 2 = 0) {fs sym : ℕ}
    {f f' : ℝ} {key : List Bool}
    (hfs : fs < 2 ^ 64) (hsym : 0 < sym) (hL : 0 < key.length) (hdvd : sym * key.length ∣ fs)
    (hnyq : 2 * (sym * key.length) ≤ fs) (hfc : ⌊f⌋₊ ≤ fs / 2) (hw : WholeHalf fs (fs / sym) f)
    (hoff : 16 * |f' - f| * (msg.length / 2 * (fs / sym) : ℕ) ≤ fs)
    {a : List ℝ} (ha : (do let tx ← txCdmaQpsk m fs sym f' key; collect tx) = pure a) :
    (do let rx ← rxCdmaQpsk (ofList a) fs sym f key; collect rx) = pure msg := by
  have hF : 0 < fs := by
    have := Nat.mul_pos hsym hL
    omega
  have hrec := C81_clean_cdma_qpsk h ha
  refine C83_cdma_qpsk hfs hsym hL hdvd hnyq hfc hw he (g := fun _ => 1) (t := angle fs (f' - f)) (fun _ _ => one_pos) ?_
    (r := a) ?_ (yields_ofList a)
  · intro i hi
    obtain ⟨h1, h2⟩ := angle_small hF (by norm_num) hi hoff
    exact h1.trans (h2.le.trans_eq (by ring))
  · refine ⟨hrec.1, fun i hi => ?_⟩
    rw [hrec.2 i hi]; beta_reduce; rw [fadedQpsk, wanderingQpsk, add_zero, angle_offset fs f f']

/-- A longer transmission drifts: bit `n` arrives unchanged if during its symbol the accumulated phase difference is near an even
number of half turns, and inverted if it is near an odd number. -/
theorem C83_drift_bpsk [RIter ι Bool] {m : ι} {msg : List Bool} (h : Yields m msg) {fs sym : ℕ} {f f' : ℝ}
    (hsps : 0 < fs / sym) (hw : WholeHalf fs (fs / sym) f)
    {a : List ℝ} (ha : (do let tx ← txBpsk m fs sym f'; collect tx) = pure a) :
    ∃ out, (do let rx ← rxBpsk (ofList a) fs sym f; collect rx) = pure out ∧ out.length = msg.length ∧
      ∀ n b, msg[n]? = some b → ∀ (z : ℤ) (τ : ℝ), τ < Real.pi / 4 →
        (∀ j < fs / sym, |angle fs (f' - f) (n * (fs / sym) + j) - z * Real.pi| ≤ τ) →
        out[n]? = some (if Even z then b else !b) := by
  have hrec := C81_clean_bpsk h hsps ha
  obtain ⟨out, e1, e2, e3⟩ := C83_bpsk_slips hsps hw (g := fun _ => 1) (t := angle fs (f' - f)) (msg := msg) (r := a) (rcv := ofList a)
    ⟨hrec.1, fun i hi => by rw [hrec.2 i hi, fadedBpsk, wanderingBpsk, add_zero, angle_offset fs f f']⟩ (yields_ofList a)
  exact ⟨out, e1, e2, fun n b hb => e3 n b hb one_pos⟩

/-! ## Instances -/

/-- Phase noise jumping between plus and minus 0.7 radians (40 degrees) is harmless to BPSK, with and without a key. -/
example : (do let rx ← rxBpsk (ofList (record 3 8 (wanderingBpsk 8000 1000 [true, false, true] (fun n => n + 1) (fun i => if i % 2 = 0 then 0.7 else -0.7)))) 8000 1000 1000; collect rx) = pure [true, false, true] :=
  C83_bpsk (τ := 0.7) (by norm_num) whole_8000 (fun n _ => by positivity) (by have := Real.pi_gt_three; linarith)
    (fun i _ => by split_ifs <;> norm_num [abs_le]) (record_spec _ _ _) (yields_ofList _)

example : (do let rx ← rxCdmaBpsk (ofList (record 2 8 (fun n i => wanderingBpsk 8000 1000 [true, false] (fun _ => 2) (fun i => if i % 3 = 0 then 0.7 else 0) n i * chip [true, false, false, true] 8 i))) 8000 1000 1000 [true, false, false, true]; collect rx) = pure [true, false] :=
  C83_cdma_bpsk (fs := 8000) (sym := 1000) (key := [true, false, false, true]) (msg := [true, false]) (τ := 0.7)
    (by norm_num) (by norm_num) (by decide) (by decide) (by decide) (by norm_num) whole_8000 (fun n _ => by norm_num)
    (by have := Real.pi_gt_three; linarith) (fun i _ => by split_ifs <;> norm_num) (record_spec _ _ _) (yields_ofList _)

/-- 0.35 radians (20 degrees) are harmless to QPSK. -/
example : (do let rx ← rxQpsk (ofList (record 2 8 (wanderingQpsk 8000 1000 [true, false, false, false] (fun _ => 2) (fun i => if i % 2 = 0 then 0.35 else -0.35)))) 8000 1000 1000; collect rx) = pure [true, false, false, false] :=
  C83_qpsk (by norm_num) whole_8000 (by rfl) (fun n _ => by norm_num) (fun i _ => by
    have := Real.pi_gt_three
    split_ifs <;> rw [abs_le] <;> constructor <;> linarith) (record_spec _ _ _) (yields_ofList _)

example : (do let rx ← rxCdmaQpsk (ofList (record 1 8 (fun n i => wanderingQpsk 8000 1000 [true, false] (fun _ => 2) (fun i => if i % 3 = 0 then 0.35 else 0) n i * chip [true, false, false, true] 8 i))) 8000 1000 1000 [true, false, false, true]; collect rx) = pure [true, false] :=
  C83_cdma_qpsk (fs := 8000) (sym := 1000) (key := [true, false, false, true]) (msg := [true, false])
    (by norm_num) (by norm_num) (by decide) (by decide) (by decide) (by norm_num) whole_8000 (by rfl) (fun n _ => by norm_num)
    (fun i _ => by
      have := Real.pi_gt_three
      split_ifs <;> rw [abs_le] <;> constructor <;> linarith) (record_spec _ _ _) (yields_ofList _)

/-- A slip of half a turn after the first symbol inverts the rest. -/
example : (do let rx ← rxBpsk (ofList (record 2 8 (wanderingBpsk 8000 1000 [true, true] (fun _ => 1) (fun i => ((if i / 8 = 0 then 0 else 1 : ℤ) : ℝ) * Real.pi + 0.5)))) 8000 1000 1000; collect rx) = pure [true, false] := by
  obtain ⟨out, e1, e2, e3⟩ := C83_bpsk_slips (κ := VecIter ℝ) (fs := 8000) (sym := 1000) (fc := 1000) (msg := [true, true])
    (g := fun _ => 1) (t := fun i => ((if i / 8 = 0 then 0 else 1 : ℤ) : ℝ) * Real.pi + 0.5)
    (by norm_num) whole_8000 (record_spec _ _ _) (yields_ofList _)
  refine e1.trans ?_
  have hτ : (0.5 : ℝ) < Real.pi / 4 := by have := Real.pi_gt_three; linarith
  have a0 := e3 0 true rfl one_pos 0 0.5 hτ (fun j hj => by
    rw [if_pos (show (0 * (8000 / 1000) + j) / 8 = 0 by omega), add_sub_cancel_left]; norm_num)
  have a1 := e3 1 true rfl one_pos 1 0.5 hτ (fun j hj => by
    rw [if_neg (show ¬ (1 * (8000 / 1000) + j) / 8 = 0 by omega), add_sub_cancel_left]; norm_num)
  congr 1
  match out, e2 with
  | [x, y], _ =>
    have b0 : x = true := by simpa using a0
    have b1 : y = false := by simpa using a1
    rw [b0, b1]

theorem accepted_1040 : ∃ a, (do let tx ← txBpsk (ofList [true, false, true]) 8000 1000 (1040 : ℝ); collect tx) = pure a := by
  obtain ⟨it, l, h1, h2, _⟩ := C26_waveform (fs := 8000) (sym := 1000) (fc := 1040) (yields_ofList [true, false, true])
    (by norm_num) (by norm_num) (by norm_num) (by rw [Nat.floor_ofNat]; norm_num)
  exact ⟨l, by rw [h1, pure_bind, collect_of_yields h2]⟩

/-- Transmitter 40 Hz off. -/
example : ∃ a, (do let tx ← txBpsk (ofList [true, false, true]) 8000 1000 (1040 : ℝ); collect tx) = pure a ∧
    (do let rx ← rxBpsk (ofList a) 8000 1000 1000; collect rx) = pure [true, false, true] := by
  obtain ⟨a, ha⟩ := accepted_1040
  refine ⟨a, ha, C83_offset_bpsk (yields_ofList _) (by norm_num) whole_8000 ?_ ha⟩
  norm_num

/-- With a transmitter 10 Hz off, bit 50 of a long message is inverted. -/
example {msg : List Bool} (hl : 51 ≤ msg.length) {a : List ℝ}
    (ha : (do let tx ← txBpsk (ofList msg) 8000 1000 (1010 : ℝ); collect tx) = pure a) :
    ∃ out, (do let rx ← rxBpsk (ofList a) 8000 1000 1000; collect rx) = pure out ∧ out[50]? = msg[50]?.map (!·) := by
  obtain ⟨out, e1, e2, e3⟩ := C83_drift_bpsk (f := 1000) (yields_ofList msg) (by norm_num) whole_8000 ha
  refine ⟨out, e1, ?_⟩
  have hpi := Real.pi_pos
  rw [e3 50 (msg[50]'(by omega)) (List.getElem?_eq_getElem _) 1 (Real.pi / 50) (by linarith) (fun j hj => by
    have hj : (j : ℝ) ≤ 7 := by exact_mod_cast (show j ≤ 7 by omega)
    have : (0 : ℝ) ≤ j := by positivity
    rw [angle, show 2 * Real.pi * (1010 - 1000) * ((50 * (8000 / 1000) + j : ℕ) : ℝ) / ((8000 : ℕ) : ℝ) - (1 : ℤ) * Real.pi
      = Real.pi / 400 * j by push_cast; norm_num; ring, abs_of_nonneg (by positivity)]
    nlinarith), if_neg (by decide), List.getElem?_eq_getElem (by omega)]
  rfl

/-- QPSK, transmitter 20 Hz off. -/
example : ∃ a, (do let tx ← txQpsk (ofList [true, false, false, true]) 8000 1000 (1020 : ℝ); collect tx) = pure a ∧
    (do let rx ← rxQpsk (ofList a) 8000 1000 1000; collect rx) = pure [true, false, false, true] := by
  obtain ⟨it, h1, h2⟩ := txQpsk_ok (yields_ofList [true, false, false, true]) (fs := 8000) (sym := 1000) (fc := (1020 : ℝ)) (by norm_num)
  obtain ⟨a, ha⟩ : ∃ a, (do let tx ← txQpsk (ofList [true, false, false, true]) 8000 1000 (1020 : ℝ); collect tx) = pure a :=
    ⟨_, by rw [h1, pure_bind, collect_of_yields h2]⟩
  refine ⟨a, ha, C83_offset_qpsk (yields_ofList _) (by rfl) (by norm_num) whole_8000 ?_ ha⟩
  norm_num

theorem ok_1020 : CdmaOk 8000 1000 (1020 : ℝ) 4 := (cdmaOk_real (by norm_num)).mpr
  ⟨by norm_num, by norm_num, by norm_num, by norm_num, by rw [Nat.floor_ofNat]; norm_num⟩

/-- The same with a key of four chips. -/
example : ∃ a, (do let tx ← txCdmaBpsk (ofList [true, false]) 8000 1000 (1020 : ℝ) [true, false, false, true]; collect tx) = pure a ∧
    (do let rx ← rxCdmaBpsk (ofList a) 8000 1000 1000 [true, false, false, true]; collect rx) = pure [true, false] := by
  obtain ⟨it, h1, h2⟩ := txCdmaBpsk_ok (yields_ofList [true, false]) (key := [true, false, false, true]) ok_1020
  obtain ⟨a, ha⟩ : ∃ a, (do let tx ← txCdmaBpsk (ofList [true, false]) 8000 1000 (1020 : ℝ) [true, false, false, true]; collect tx)
    = pure a := ⟨_, by rw [h1, pure_bind, collect_of_yields h2]⟩
  refine ⟨a, ha, C83_offset_cdma_bpsk (yields_ofList _) (by norm_num) (by norm_num) (by decide) (by decide) (by decide)
    (by norm_num) whole_8000 ?_ ha⟩
  norm_num

example : ∃ a, (do let tx ← txCdmaQpsk (ofList [true, false]) 8000 1000 (1020 : ℝ) [true, false, false, true]; collect tx) = pure a ∧
    (do let rx ← rxCdmaQpsk (ofList a) 8000 1000 1000 [true, false, false, true]; collect rx) = pure [true, false] := by
  obtain ⟨it, h1, h2⟩ := txCdmaQpsk_ok (yields_ofList [true, false]) (key := [true, false, false, true]) ok_1020
  obtain ⟨a, ha⟩ : ∃ a, (do let tx ← txCdmaQpsk (ofList [true, false]) 8000 1000 (1020 : ℝ) [true, false, false, true]; collect tx)
    = pure a := ⟨_, by rw [h1, pure_bind, collect_of_yields h2]⟩
  refine ⟨a, ha, C83_offset_cdma_qpsk (yields_ofList _) (by rfl) (by norm_num) (by norm_num) (by decide) (by decide) (by decide)
    (by norm_num) whole_8000 ?_ ha⟩
  norm_num

end Verif.Props
