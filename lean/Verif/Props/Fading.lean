import Verif.Lemmas.Fading
import Verif.Lemmas.Cases
import Verif.Props.Users
import Verif.Props.Fsk

/-!
# C81: recordings whose strength and carrier phase differ from symbol to symbol

Exact arithmetic. During symbol `n` the signal is received with strength `g n` and with its carrier turned by `θ n`, as happens
when the receiver's carrier has another phase than the transmitter's, or when the path changes slowly. `pm b` is the level of a
bit, `WholeHalf` (Props/Energy) says that a symbol holds a whole number of half carrier periods.
-/
namespace Verif.Props
open Verif Spec
set_option linter.unusedSectionVars false
variable {ι κ : Type}

/-- The level of a bit. -/
def pm (b : Bool) : ℝ := if b then 1 else -1

/-- The sign of the key during sample `i`, the key being spread over `k` samples. -/
def chip (key : List Bool) (k i : ℕ) : ℝ := pm (key.getD (i / (k / key.length) % key.length) false)

/-- A BPSK signal with per-symbol strength and phase. -/
noncomputable def fadedBpsk (fs : ℕ) (fc : ℝ) (msg : List Bool) (g θ : ℕ → ℝ) (n i : ℕ) : ℝ :=
  g n * pm (msg.getD n false) * Real.cos (angle fs fc i + θ n)

/-- A QPSK signal with per-symbol strength and phase. -/
noncomputable def fadedQpsk (fs : ℕ) (fc : ℝ) (msg : List Bool) (g θ : ℕ → ℝ) (n i : ℕ) : ℝ :=
  g n * (pm (msg.getD (2 * n) false) * Real.cos (angle fs fc i + θ n)
    - pm (msg.getD (2 * n + 1) false) * Real.sin (angle fs fc i + θ n))

/-- An FSK signal with per-symbol strength and phase. -/
noncomputable def fadedFsk (fs : ℕ) (fc : ℝ) (msg : List Bool) (g θ : ℕ → ℝ) (n i : ℕ) : ℝ :=
  g n * Real.cos (angle fs (fc * (if msg.getD n false then 1.025 else 0.975)) i + θ n)

/-! ## What the receivers measure -/

/-- BPSK decides on the sign of the in-phase amplitude of each symbol, QPSK on the signs of both amplitudes, whatever these
amplitudes are. -/
theorem C81_quadrature [RIter κ ℝ] {fs sym N : ℕ} {fc : ℝ} (hsps : 0 < fs / sym) (hw : WholeHalf fs (fs / sym) fc)
    {X Y : ℕ → ℝ} {r : List ℝ}
    (h : Recording r N (fs / sym) (fun n i => X n * Real.cos (angle fs fc i) - Y n * Real.sin (angle fs fc i)))
    {rcv : κ} (hr : Yields rcv r) :
    (do let rx ← rxBpsk rcv fs sym fc; collect rx) = pure ((List.range N).map (fun n => decide (0 < X n))) ∧
    (do let rx ← rxQpsk rcv fs sym fc; collect rx)
      = pure ((List.range N).flatMap (fun n => [decide (0 ≤ X n), decide (0 ≤ Y n)])) := by
  obtain ⟨p, hp, hs⟩ := hw.dphi hsps
  exact rx_quad hsps hp hs h hr

/-- The same with a key. -/
theorem C81_quadrature_cdma [RIter κ ℝ] {fs sym N : ℕ} {fc : ℝ} {key : List Bool}
    (hfs : fs < 2 ^ 64) (hsym : 0 < sym) (hL : 0 < key.length) (hdvd : sym * key.length ∣ fs)
    (hnyq : 2 * (sym * key.length) ≤ fs) (hfc : ⌊fc⌋₊ ≤ fs / 2) (hw : WholeHalf fs (fs / sym) fc)
    {X Y : ℕ → ℝ} {r : List ℝ}
    (h : Recording r N (fs / sym) (fun n i => (X n * Real.cos (angle fs fc i) - Y n * Real.sin (angle fs fc i))
      * chip key (fs / sym) i))
    {rcv : κ} (hr : Yields rcv r) :
    (do let rx ← rxCdmaBpsk rcv fs sym fc key; collect rx) = pure ((List.range N).map (fun n => decide (0 < X n))) ∧
    (do let rx ← rxCdmaQpsk rcv fs sym fc key; collect rx)
      = pure ((List.range N).flatMap (fun n => [decide (0 ≤ X n), decide (0 ≤ Y n)])) := by
  have hok := (cdmaOk_real (fc := fc) hfs).mpr ⟨hsym, hL, hdvd, hnyq, hfc⟩
  obtain ⟨p, hp, hs⟩ := hw.dphi (by have := hok.sps; omega)
  exact rx_quad_key hok hp hs h hr

/-! ## BPSK -/

theorem fadedBpsk_quad (fs : ℕ) (fc : ℝ) (msg : List Bool) (g θ : ℕ → ℝ) (n i : ℕ) : fadedBpsk fs fc msg g θ n i
    = g n * pm (msg.getD n false) * Real.cos (θ n) * Real.cos (angle fs fc i)
      - g n * pm (msg.getD n false) * Real.sin (θ n) * Real.sin (angle fs fc i) := by
  rw [fadedBpsk, Real.cos_add]; ring

/-- What becomes of a bit when the carrier is turned by an angle with cosine `c`. -/
noncomputable def turned (c : ℝ) (b : Bool) : Bool := if 0 < c then b else if c < 0 then !b else false

theorem turned_spec {g c : ℝ} (hg : 0 < g) (b : Bool) : decide (0 < g * pm b * c) = turned c b := by
  unfold turned pm
  rcases lt_trichotomy 0 c with h | h | h
  · rw [if_pos h]
    cases b
    · simp only [Bool.false_eq_true, if_false, decide_eq_false_iff_not]; nlinarith [mul_pos hg h]
    · simp only [if_true, decide_eq_true_eq]; nlinarith [mul_pos hg h]
  · rw [← h]; simp
  · rw [if_neg (show ¬ 0 < c by linarith), if_pos h]
    cases b
    · simp only [Bool.false_eq_true, if_false, Bool.not_false, decide_eq_true_eq]; nlinarith [mul_pos hg (neg_pos.mpr h)]
    · simp only [if_true, Bool.not_true, decide_eq_false_iff_not]; nlinarith [mul_pos hg (neg_pos.mpr h)]

theorem range_map_getD (msg : List Bool) (f : ℕ → Bool → Bool) :
    (List.range msg.length).map (fun n => f n (msg.getD n false)) = msg.mapIdx f := by
  apply List.ext_getElem?
  intro n
  by_cases hn : n < msg.length
  · simp [hn]
  · simp [hn]

/-- A BPSK recording of any per-symbol strength and phase decodes, symbol by symbol, to the bit sent if the phase error is
less than a quarter turn, to the complement if it is more, and to `false` if it is exactly a quarter turn. -/
theorem C81_bpsk [RIter κ ℝ] {fs sym : ℕ} {fc : ℝ} (hsps : 0 < fs / sym) (hw : WholeHalf fs (fs / sym) fc)
    {msg : List Bool} {g θ : ℕ → ℝ} (hg : ∀ n < msg.length, 0 < g n) {r : List ℝ}
    (h : Recording r msg.length (fs / sym) (fadedBpsk fs fc msg g θ)) {rcv : κ} (hr : Yields rcv r) :
    (do let rx ← rxBpsk rcv fs sym fc; collect rx) = pure (msg.mapIdx (fun n b => turned (Real.cos (θ n)) b)) := by
  rw [show fadedBpsk fs fc msg g θ = _ from funext fun n => funext fun i => fadedBpsk_quad fs fc msg g θ n i] at h
  rw [(C81_quadrature hsps hw (X := fun n => g n * pm (msg.getD n false) * Real.cos (θ n))
    (Y := fun n => g n * pm (msg.getD n false) * Real.sin (θ n)) h hr).1, ← range_map_getD]
  congr 1
  apply List.map_congr_left
  intro n hn
  exact turned_spec (hg n (List.mem_range.mp hn)) _

/-- Phase errors below a quarter turn and positive strengths, however they change from symbol to symbol, cause no error. -/
theorem C81_bpsk_exact [RIter κ ℝ] {fs sym : ℕ} {fc : ℝ} (hsps : 0 < fs / sym) (hw : WholeHalf fs (fs / sym) fc)
    {msg : List Bool} {g θ : ℕ → ℝ} (hg : ∀ n < msg.length, 0 < g n) (hθ : ∀ n < msg.length, |θ n| < Real.pi / 2)
    {r : List ℝ} (h : Recording r msg.length (fs / sym) (fadedBpsk fs fc msg g θ)) {rcv : κ} (hr : Yields rcv r) :
    (do let rx ← rxBpsk rcv fs sym fc; collect rx) = pure msg := by
  rw [C81_bpsk hsps hw hg h hr]
  congr 1
  apply mapIdx_eq_self
  intro n b hb
  have hn : n < msg.length := by
    by_contra hc
    rw [List.getElem?_eq_none (by omega)] at hb
    exact absurd hb (by simp)
  have := abs_lt.mp (hθ n hn)
  rw [turned, if_pos (Real.cos_pos_of_mem_Ioo ⟨by linarith, by linarith⟩)]

/-- The same for CDMA BPSK. -/
theorem C81_cdma_bpsk [RIter κ ℝ] {fs sym : ℕ} {fc : ℝ} {key : List Bool}
    (hfs : fs < 2 ^ 64) (hsym : 0 < sym) (hL : 0 < key.length) (hdvd : sym * key.length ∣ fs)
    (hnyq : 2 * (sym * key.length) ≤ fs) (hfc : ⌊fc⌋₊ ≤ fs / 2) (hw : WholeHalf fs (fs / sym) fc)
    {msg : List Bool} {g θ : ℕ → ℝ} (hg : ∀ n < msg.length, 0 < g n) {r : List ℝ}
    (h : Recording r msg.length (fs / sym) (fun n i => fadedBpsk fs fc msg g θ n i * chip key (fs / sym) i))
    {rcv : κ} (hr : Yields rcv r) :
    (do let rx ← rxCdmaBpsk rcv fs sym fc key; collect rx) = pure (msg.mapIdx (fun n b => turned (Real.cos (θ n)) b)) := by
  simp only [fadedBpsk_quad] at h
  rw [(C81_quadrature_cdma hfs hsym hL hdvd hnyq hfc hw (X := fun n => g n * pm (msg.getD n false) * Real.cos (θ n))
    (Y := fun n => g n * pm (msg.getD n false) * Real.sin (θ n)) h hr).1, ← range_map_getD]
  congr 1
  apply List.map_congr_left
  intro n hn
  exact turned_spec (hg n (List.mem_range.mp hn)) _

/-! ## QPSK -/

theorem fadedQpsk_quad (fs : ℕ) (fc : ℝ) (msg : List Bool) (g θ : ℕ → ℝ) (n i : ℕ) : fadedQpsk fs fc msg g θ n i
    = g n * (pm (msg.getD (2 * n) false) * Real.cos (θ n) - pm (msg.getD (2 * n + 1) false) * Real.sin (θ n))
        * Real.cos (angle fs fc i)
      - g n * (pm (msg.getD (2 * n) false) * Real.sin (θ n) + pm (msg.getD (2 * n + 1) false) * Real.cos (θ n))
        * Real.sin (angle fs fc i) := by
  rw [fadedQpsk, Real.cos_add, Real.sin_add]; ring

/-- What becomes of the two bits of a symbol when the carrier is turned by `t`: the signs of the point `(±1, ±1)` turned by
`t`. -/
noncomputable def turned2 (t : ℝ) (a b : Bool) : List Bool :=
  [decide (0 ≤ pm a * Real.cos t - pm b * Real.sin t), decide (0 ≤ pm a * Real.sin t + pm b * Real.cos t)]

/-- A QPSK recording of any per-symbol strength and phase decodes to the signs of the turned constellation points. -/
theorem C81_qpsk [RIter κ ℝ] {fs sym N : ℕ} {fc : ℝ} (hsps : 0 < fs / sym) (hw : WholeHalf fs (fs / sym) fc)
    {msg : List Bool} {g θ : ℕ → ℝ} (hg : ∀ n < N, 0 < g n) {r : List ℝ}
    (h : Recording r N (fs / sym) (fadedQpsk fs fc msg g θ)) {rcv : κ} (hr : Yields rcv r) :
    (do let rx ← rxQpsk rcv fs sym fc; collect rx) = pure ((List.range N).flatMap (fun n =>
      turned2 (θ n) (msg.getD (2 * n) false) (msg.getD (2 * n + 1) false))) := by
  rw [show fadedQpsk fs fc msg g θ = _ from funext fun n => funext fun i => fadedQpsk_quad fs fc msg g θ n i] at h
  rw [(C81_quadrature hsps hw
    (X := fun n => g n * (pm (msg.getD (2 * n) false) * Real.cos (θ n) - pm (msg.getD (2 * n + 1) false) * Real.sin (θ n)))
    (Y := fun n => g n * (pm (msg.getD (2 * n) false) * Real.sin (θ n) + pm (msg.getD (2 * n + 1) false) * Real.cos (θ n)))
    h hr).2]
  congr 1
  rw [List.flatMap_def, List.flatMap_def]
  congr 1
  apply List.map_congr_left
  intro n hn
  simp only [turned2, mul_nonneg_iff_of_pos_left (hg n (List.mem_range.mp hn))]

theorem C81_cdma_qpsk [RIter κ ℝ] {fs sym N : ℕ} {fc : ℝ} {key : List Bool}
    (hfs : fs < 2 ^ 64) (hsym : 0 < sym) (hL : 0 < key.length) (hdvd : sym * key.length ∣ fs)
    (hnyq : 2 * (sym * key.length) ≤ fs) (hfc : ⌊fc⌋₊ ≤ fs / 2) (hw : WholeHalf fs (fs / sym) fc)
    {msg : List Bool} {g θ : ℕ → ℝ} (hg : ∀ n < N, 0 < g n) {r : List ℝ}
    (h : Recording r N (fs / sym) (fun n i => fadedQpsk fs fc msg g θ n i * chip key (fs / sym) i))
    {rcv : κ} (hr : Yields rcv r) :
    (do let rx ← rxCdmaQpsk rcv fs sym fc key; collect rx) = pure ((List.range N).flatMap (fun n =>
      turned2 (θ n) (msg.getD (2 * n) false) (msg.getD (2 * n + 1) false))) := by
  simp only [fadedQpsk_quad] at h
  rw [(C81_quadrature_cdma hfs hsym hL hdvd hnyq hfc hw
    (X := fun n => g n * (pm (msg.getD (2 * n) false) * Real.cos (θ n) - pm (msg.getD (2 * n + 1) false) * Real.sin (θ n)))
    (Y := fun n => g n * (pm (msg.getD (2 * n) false) * Real.sin (θ n) + pm (msg.getD (2 * n + 1) false) * Real.cos (θ n)))
    h hr).2]
  congr 1
  rw [List.flatMap_def, List.flatMap_def]
  congr 1
  apply List.map_congr_left
  intro n hn
  simp only [turned2, mul_nonneg_iff_of_pos_left (hg n (List.mem_range.mp hn))]

/-- Less than an eighth of a turn leaves both bits unchanged. -/
theorem C81_turned2_small {t : ℝ} (ht : |t| < Real.pi / 4) (a b : Bool) : turned2 t a b = [a, b] := by
  obtain ⟨h1, h2⟩ := abs_lt.mp ht
  have hpi := Real.pi_pos
  have hc : |Real.sin t| < Real.cos t := by
    rw [abs_lt]
    constructor
    · have : 0 < Real.sin (t + Real.pi / 4) := Real.sin_pos_of_pos_of_lt_pi (by linarith) (by linarith)
      rw [Real.sin_add, Real.sin_pi_div_four, Real.cos_pi_div_four] at this
      have h2 : (0 : ℝ) < √2 / 2 := by positivity
      nlinarith
    · have : 0 < Real.cos (t + Real.pi / 4) := Real.cos_pos_of_mem_Ioo ⟨by linarith, by linarith⟩
      rw [Real.cos_add, Real.sin_pi_div_four, Real.cos_pi_div_four] at this
      have h2 : (0 : ℝ) < √2 / 2 := by positivity
      nlinarith
  obtain ⟨h3, h4⟩ := abs_lt.mp hc
  unfold turned2 pm
  cases a <;> cases b <;> simp only [Bool.false_eq_true, if_false, if_true] <;> congr 1
  all_goals first
    | (rw [decide_eq_true_eq]; linarith)
    | (rw [decide_eq_false_iff_not]; intro hh; linarith)
    | (congr 1; first
        | (rw [decide_eq_true_eq]; linarith)
        | (rw [decide_eq_false_iff_not]; intro hh; linarith))

example : turned2 (-0.7) true false = [true, false] :=
  C81_turned2_small (by rw [abs_of_nonpos (by norm_num)]; have := Real.pi_gt_d2; norm_num at this ⊢; linarith) _ _

/-- A quarter turn exchanges the bits and inverts one; half a turn inverts both; three quarters the other way round. -/
theorem C81_turned2_quarters (a b : Bool) : turned2 (Real.pi / 2) a b = [!b, a] ∧ turned2 Real.pi a b = [!a, !b] ∧
    turned2 (-(Real.pi / 2)) a b = [b, !a] := by
  refine ⟨?_, ?_, ?_⟩ <;> unfold turned2 pm <;> cases a <;> cases b <;> simp <;> norm_num

theorem flatMap_two (msg : List Bool) (he : msg.length % 2 = 0) :
    (List.range (msg.length / 2)).flatMap (fun n => [msg.getD (2 * n) false, msg.getD (2 * n + 1) false]) = msg := by
  apply List.ext_getElem?
  intro i
  rw [getElem?_flatMap_const (k := 2) (by decide) _ _ (fun _ _ => rfl)]
  by_cases hi : i < msg.length
  · rw [List.getElem?_range (by omega), Option.bind_some]
    rcases Nat.mod_two_eq_zero_or_one i with h | h
    · rw [h, show 2 * (i / 2) = i by omega]; simp [hi]
    · rw [h, show 2 * (i / 2) + 1 = i by omega]; simp [hi]
  · rw [List.getElem?_eq_none (by rw [List.length_range]; omega), List.getElem?_eq_none (by omega)]; rfl

/-- So QPSK tolerates phase errors below an eighth of a turn, changing from symbol to symbol, at any positive strengths. -/
theorem C81_qpsk_exact [RIter κ ℝ] {fs sym : ℕ} {fc : ℝ} (hsps : 0 < fs / sym) (hw : WholeHalf fs (fs / sym) fc)
    {msg : List Bool} (he : msg.length % 2 = 0) {g θ : ℕ → ℝ} (hg : ∀ n < msg.length / 2, 0 < g n)
    (hθ : ∀ n < msg.length / 2, |θ n| < Real.pi / 4) {r : List ℝ}
    (h : Recording r (msg.length / 2) (fs / sym) (fadedQpsk fs fc msg g θ)) {rcv : κ} (hr : Yields rcv r) :
    (do let rx ← rxQpsk rcv fs sym fc; collect rx) = pure msg := by
  rw [C81_qpsk hsps hw hg h hr]
  congr 1
  rw [List.flatMap_def]
  have : (List.range (msg.length / 2)).map (fun n => turned2 (θ n) (msg.getD (2 * n) false) (msg.getD (2 * n + 1) false))
      = (List.range (msg.length / 2)).map (fun n => [msg.getD (2 * n) false, msg.getD (2 * n + 1) false]) :=
    List.map_congr_left fun n hn => C81_turned2_small (hθ n (List.mem_range.mp hn)) _ _
  rw [this, ← List.flatMap_def]
  exact flatMap_two msg he

/-! ## FSK -/

/-- The two tones are orthogonal over a symbol. -/
theorem fsk_energies {fs sym c : ℕ} (hsym : 0 < sym) (hc : 0 < c) (hdvd : sym ∣ fs) (hny : (41 * c * sym : ℕ) < fs) (g α : ℝ)
    (m : ℕ) (b : Bool) :
    toneEnergy (tone fs ((20 * c * sym : ℕ) : ℝ) b) (fs / sym)
      (fun j => g * Real.cos (tone fs ((20 * c * sym : ℕ) : ℝ) b * (m + j : ℕ) + α)) = (g * ((fs / sym : ℕ) / 2)) ^ 2 ∧
    toneEnergy (tone fs ((20 * c * sym : ℕ) : ℝ) (!b)) (fs / sym)
      (fun j => g * Real.cos (tone fs ((20 * c * sym : ℕ) : ℝ) b * (m + j : ℕ) + α)) = 0 := by
  have hfs : 0 < fs := by omega
  have hsps : 0 < fs / sym := Nat.div_pos (Nat.le_of_dvd hfs hdvd) hsym
  have hk : ((fs / sym : ℕ) : ℝ) * sym = fs := by exact_mod_cast Nat.div_mul_cancel hdvd
  have hfsR : (0 : ℝ) < fs := by exact_mod_cast hfs
  have hsymR : (0 : ℝ) < sym := by exact_mod_cast hsym
  have hcR : (0 : ℝ) < c := by exact_mod_cast hc
  have hnyR : (41 : ℝ) * c * sym < fs := by exact_mod_cast hny
  have hkR : (0 : ℝ) < ((fs / sym : ℕ) : ℝ) := by exact_mod_cast hsps
  have hpi := Real.pi_pos
  set w := tone fs ((20 * c * sym : ℕ) : ℝ) with hw
  have hwt : w true = 41 * Real.pi * (c * sym / fs) := by rw [hw]; simp [tone]; ring
  have hwf : w false = 39 * Real.pi * (c * sym / fs) := by rw [hw]; simp [tone]; ring
  have hr0 : 0 < (c : ℝ) * sym / fs := by positivity
  have hr1 : 41 * ((c : ℝ) * sym / fs) < 1 := by
    rw [← mul_div_assoc, div_lt_one hfsR]; linarith
  have hkr : ((fs / sym : ℕ) : ℝ) * (c * sym / fs) = c := by
    rw [show ((fs / sym : ℕ) : ℝ) * (c * sym / fs) = c * (((fs / sym : ℕ) : ℝ) * sym) / fs by ring, hk]
    field_simp
  generalize hrd : (c : ℝ) * sym / fs = r at *
  have hsin : ∀ x : ℝ, 0 < x → x < 1 → Real.sin (x * Real.pi) ≠ 0 := fun x h0 h1 =>
    (Real.sin_pos_of_pos_of_lt_pi (by positivity) (by nlinarith)).ne'
  have s1 : Real.sin (w true) ≠ 0 := by
    rw [hwt, show 41 * Real.pi * r = (41 * r) * Real.pi by ring]; exact hsin _ (by positivity) hr1
  have s2 : Real.sin (w false) ≠ 0 := by
    rw [hwf, show 39 * Real.pi * r = (39 * r) * Real.pi by ring]; exact hsin _ (by positivity) (by linarith)
  have s3 : Real.sin ((w true + w false) / 2) ≠ 0 := by
    rw [hwf, hwt, show (41 * Real.pi * r + 39 * Real.pi * r) / 2 = (40 * r) * Real.pi by ring]
    exact hsin _ (by positivity) (by linarith)
  have s4 : Real.sin ((w true - w false) / 2) ≠ 0 := by
    rw [hwf, hwt, show (41 * Real.pi * r - 39 * Real.pi * r) / 2 = r * Real.pi by ring]
    exact hsin _ (by positivity) (by linarith)
  have s5 : Real.sin ((w false + w true) / 2) ≠ 0 := by rw [add_comm]; exact s3
  have s6 : Real.sin ((w false - w true) / 2) ≠ 0 := by
    rw [show (w false - w true) / 2 = -((w true - w false) / 2) by ring, Real.sin_neg, neg_ne_zero]; exact s4
  cases b
  · exact ⟨toneEnergy_self' (w := w false) (k := fs / sym) (p := 39 * c) (by
      rw [hwf]; push_cast; linear_combination 39 * Real.pi * hkr) s2 g α m,
      toneEnergy_other' (v := w false) (w := w true) (k := fs / sym) (p := 40 * c) (q := -c) (by
      rw [hwt, hwf]; push_cast; linear_combination 80 * Real.pi * hkr) (by
      rw [hwt, hwf]; push_cast; linear_combination -2 * Real.pi * hkr) s5 s6 g α m⟩
  · exact ⟨toneEnergy_self' (w := w true) (k := fs / sym) (p := 41 * c) (by
      rw [hwt]; push_cast; linear_combination 41 * Real.pi * hkr) s1 g α m,
      toneEnergy_other' (v := w true) (w := w false) (k := fs / sym) (p := 40 * c) (q := c) (by
      rw [hwt, hwf]; push_cast; linear_combination 80 * Real.pi * hkr) (by
      rw [hwt, hwf]; push_cast; linear_combination 2 * Real.pi * hkr) s3 s4 g α m⟩

/-- FSK needs no carrier phase at all: any phase and any non-zero strength, changing from symbol to symbol. -/
theorem C81_fsk [RIter κ ℝ] {fs sym c : ℕ} (hsym : 0 < sym) (hc : 0 < c) (hdvd : sym ∣ fs) (hny : (41 * c * sym : ℕ) < fs)
    {msg : List Bool} {g θ : ℕ → ℝ} (hg : ∀ n < msg.length, g n ≠ 0) {r : List ℝ}
    (h : Recording r msg.length (fs / sym) (fadedFsk fs ((20 * c * sym : ℕ) : ℝ) msg g θ)) {rcv : κ} (hr : Yields rcv r) :
    (do let rx ← rxFsk rcv fs sym ((20 * c * sym : ℕ) : ℝ); collect rx) = pure msg := by
  have hfs : 0 < fs := by omega
  have hsps : 0 < fs / sym := Nat.div_pos (Nat.le_of_dvd hfs hdvd) hsym
  have hkR : (0 : ℝ) < ((fs / sym : ℕ) : ℝ) := by exact_mod_cast hsps
  obtain ⟨it, e1, e2⟩ := rxFsk_wave (fc := ((20 * c * sym : ℕ) : ℝ)) hsps (hr.of_eq (recording_wave hsps h))
  rw [e1, pure_bind, collect_of_yields e2]
  congr 1
  have key : ∀ n < msg.length, rxFskChunk fs ((20 * c * sym : ℕ) : ℝ) n ((List.range (fs / sym)).map (fun j =>
      fadedFsk fs ((20 * c * sym : ℕ) : ℝ) msg g θ n (n * (fs / sym) + j))) = msg.getD n false := by
    intro n hn
    rw [fskChunk_offset]
    have he : ∀ w, toneEnergy w ((List.range (fs / sym)).map (fun j =>
        fadedFsk fs ((20 * c * sym : ℕ) : ℝ) msg g θ n (n * (fs / sym) + j))).length
        (fun j => ((List.range (fs / sym)).map (fun j =>
          fadedFsk fs ((20 * c * sym : ℕ) : ℝ) msg g θ n (n * (fs / sym) + j))).getD j 0)
        = toneEnergy w (fs / sym) (fun j => g n * Real.cos (tone fs ((20 * c * sym : ℕ) : ℝ) (msg.getD n false)
            * (n * (fs / sym) + j : ℕ) + θ n)) := by
      intro w
      unfold toneEnergy
      rw [List.length_map, List.length_range]
      congr 2 <;> apply Finset.sum_congr rfl <;> intro j hj <;> beta_reduce <;>
        rw [List.getD_eq_getElem?_getD, List.getElem?_map, List.getElem?_range (Finset.mem_range.mp hj), Option.map_some,
          Option.getD_some, fadedFsk, angle, tone] <;> congr 4 <;> ring
    rw [he, he]
    obtain ⟨a1, a2⟩ := fsk_energies hsym hc hdvd hny (g n) (θ n) (n * (fs / sym)) (msg.getD n false)
    have hpos : 0 < (g n * (((fs / sym : ℕ) : ℝ) / 2)) ^ 2 := by
      have := hg n hn
      have h2 : ((fs / sym : ℕ) : ℝ) / 2 ≠ 0 := by positivity
      positivity
    cases hb : msg.getD n false
    · rw [hb] at a1 a2
      rw [Bool.not_false] at a2
      rw [a1, a2, decide_eq_false_iff_not]; linarith
    · rw [hb] at a1 a2
      rw [Bool.not_true] at a2
      rw [a1, a2, decide_eq_true_eq]; linarith
  rw [mapIdx_range_self (f := fun n => rxFskChunk fs ((20 * c * sym : ℕ) : ℝ) n ((List.range (fs / sym)).map (fun j =>
      fadedFsk fs ((20 * c * sym : ℕ) : ℝ) msg g θ n (n * (fs / sym) + j)))),
    List.map_congr_left (fun n hn => key n (List.mem_range.mp hn)), range_map_getD msg (fun _ b => b)]
  exact mapIdx_eq_self (fun _ _ _ => rfl)

/-! ## The transmitters send the case of strength one and phase zero -/

theorem wave_recording {A : Type} {k : ℕ} (hk : 0 < k) {w : ℕ → A → ℕ → ℝ} {l : List A} {s : ℕ → ℕ → ℝ}
    (h : ∀ n a j, l[n]? = some a → w n a j = s n (n * k + j)) : Recording (wave k w l) l.length k s := by
  refine ⟨wave_length _ _ _, fun i hi => ?_⟩
  have hin : i / k < l.length := by rw [Nat.div_lt_iff_lt_mul hk]; exact hi
  rw [wave_getElem? hk, List.getElem?_eq_getElem hin, Option.map_some, h _ _ _ (List.getElem?_eq_getElem hin), Nat.mul_comm,
    Nat.div_add_mod]

theorem C81_clean_bpsk [RIter ι Bool] {m : ι} {msg : List Bool} (h : Yields m msg) {fs sym : ℕ} {fc : ℝ} (hsps : 0 < fs / sym)
    {a : List ℝ} (ha : (do let tx ← txBpsk m fs sym fc; collect tx) = pure a) :
    Recording a msg.length (fs / sym) (fadedBpsk fs fc msg (fun _ => 1) (fun _ => 0)) := by
  rw [txBpsk_collected h hsps ha]
  apply wave_recording hsps
  intro n b j hb
  rw [fadedBpsk, angle_dphi, phase_real, Flt.cos_real, List.getD_eq_getElem?_getD, hb, Option.getD_some, add_zero,
    bitToNrz_real, pm]
  ring

theorem C81_clean_qpsk [RIter ι Bool] {m : ι} {msg : List Bool} (h : Yields m msg) {fs sym : ℕ} {fc : ℝ} (hsps : 0 < fs / sym)
    {a : List ℝ} (ha : (do let tx ← txQpsk m fs sym fc; collect tx) = pure a) :
    Recording a (msg.length / 2) (fs / sym) (fadedQpsk fs fc msg (fun _ => 1) (fun _ => 0)) := by
  obtain ⟨it, e1, e2⟩ := txQpsk_ok h (fc := fc) hsps
  rw [e1, pure_bind, collect_of_yields e2, RM.ok_inj] at ha
  rw [← ha, ← pairs_length]
  apply wave_recording hsps
  intro n b j hb
  have hn : n < msg.length / 2 := by
    by_contra hc
    rw [List.getElem?_eq_none (by rw [pairs_length]; omega)] at hb
    exact absurd hb (by simp)
  rw [pairs_getElem? _ _ hn, Option.some.injEq] at hb
  subst hb
  rw [fadedQpsk, angle_dphi, phase_real, Flt.cos_real, Flt.sin_real, List.getD_eq_getElem?_getD, List.getD_eq_getElem?_getD,
    List.getElem?_eq_getElem (show 2 * n < msg.length by omega), List.getElem?_eq_getElem (show 2 * n + 1 < msg.length by omega),
    Option.getD_some, Option.getD_some, add_zero, bitToNrz_real, bitToNrz_real, pm, pm]
  ring

theorem C81_clean_fsk [RIter ι Bool] {m : ι} {msg : List Bool} (h : Yields m msg) {fs sym : ℕ} {fc : ℝ} (hsps : 0 < fs / sym)
    {a : List ℝ} (ha : (do let tx ← txFsk m fs sym fc; collect tx) = pure a) :
    Recording a msg.length (fs / sym) (fadedFsk fs fc msg (fun _ => 1) (fun _ => 0)) := by
  obtain ⟨it, e1, e2⟩ := txFsk_ok h (fc := fc) hsps
  rw [e1, pure_bind, collect_of_yields e2, RM.ok_inj] at ha
  rw [← ha]
  apply wave_recording hsps
  intro n b j hb
  rw [phase_real', bitToNrz_real, fskSep, Flt.lit_real, Flt.ofNat_real, Flt.cos_real, fadedFsk, angle,
    List.getD_eq_getElem?_getD, hb, Option.getD_some, one_mul, add_zero]
  congr 1
  cases b <;> simp <;> ring

theorem C81_clean_cdma_bpsk [RIter ι Bool] {m : ι} {msg : List Bool} (h : Yields m msg) {fs sym : ℕ} {fc : ℝ} {key : List Bool}
    {a : List ℝ} (ha : (do let tx ← txCdmaBpsk m fs sym fc key; collect tx) = pure a) :
    Recording a msg.length (fs / sym) (fun n i => fadedBpsk fs fc msg (fun _ => 1) (fun _ => 0) n i * chip key (fs / sym) i) := by
  obtain ⟨hsps, e⟩ := txCdmaBpsk_collected h ha
  rw [e, mapIdx_wave]
  apply wave_recording hsps
  intro n b j hb
  rw [fadedBpsk, angle_dphi, phase_real, Flt.cos_real, List.getD_eq_getElem?_getD, hb, Option.getD_some, add_zero,
    bitToNrz_real, bitToNrz_real, pm, chip, pm, keyBit]
  ring

theorem C81_clean_cdma_qpsk [RIter ι Bool] {m : ι} {msg : List Bool} (h : Yields m msg) {fs sym : ℕ} {fc : ℝ} {key : List Bool}
    {a : List ℝ} (ha : (do let tx ← txCdmaQpsk m fs sym fc key; collect tx) = pure a) :
    Recording a (msg.length / 2) (fs / sym)
      (fun n i => fadedQpsk fs fc msg (fun _ => 1) (fun _ => 0) n i * chip key (fs / sym) i) := by
  obtain ⟨hsps, e⟩ := txCdmaQpsk_collected h ha
  rw [e, mapIdx_wave, ← pairs_length]
  apply wave_recording hsps
  intro n b j hb
  have hn : n < msg.length / 2 := by
    by_contra hc
    rw [List.getElem?_eq_none (by rw [pairs_length]; omega)] at hb
    exact absurd hb (by simp)
  rw [pairs_getElem? _ _ hn, Option.some.injEq] at hb
  subst hb
  rw [fadedQpsk, angle_dphi, phase_real, Flt.cos_real, Flt.sin_real, List.getD_eq_getElem?_getD, List.getD_eq_getElem?_getD,
    List.getElem?_eq_getElem (show 2 * n < msg.length by omega), List.getElem?_eq_getElem (show 2 * n + 1 < msg.length by omega),
    Option.getD_some, Option.getD_some, add_zero, bitToNrz_real, bitToNrz_real, bitToNrz_real, pm, pm, chip, pm, keyBit]
  ring

/-! ## Instances -/

/-- The recording of given samples. -/
noncomputable def record (n k : ℕ) (s : ℕ → ℕ → ℝ) : List ℝ := (List.range (n * k)).map (fun i => s (i / k) i)

theorem record_spec (n k : ℕ) (s : ℕ → ℕ → ℝ) : Recording (record n k s) n k s := by
  refine ⟨by simp [record], fun i hi => ?_⟩
  rw [record, List.getElem?_map, List.getElem?_range hi, Option.map_some]

theorem whole_8000 : WholeHalf 8000 (8000 / 1000) 1000 := by
  refine ⟨⟨2, by norm_num⟩, fun q h => ?_⟩
  have : (1 : ℝ) = (q * 4 : ℤ) := by push_cast at h ⊢; linarith
  have h2 : (1 : ℤ) = q * 4 := by exact_mod_cast this
  omega

/-- Fading to a tenth and a phase drifting by up to 1.5 radians (almost a quarter turn) are harmless to BPSK. -/
example : (do let rx ← rxBpsk (ofList (record 3 8 (fadedBpsk 8000 1000 [true, false, true] (fun n => 1 / (n + 1)) (fun n => n * 0.75)))) 8000 1000 1000; collect rx) = pure [true, false, true] :=
  C81_bpsk_exact (by norm_num) whole_8000 (fun n _ => by positivity) (fun n hn => by
    have hn : (n : ℝ) ≤ 2 := by exact_mod_cast Nat.lt_succ_iff.mp hn
    rw [abs_of_nonneg (by positivity)]
    have := Real.pi_gt_three
    linarith) (record_spec _ _ _) (yields_ofList _)

/-- Half a turn inverts every BPSK bit. -/
example : (do let rx ← rxBpsk (ofList (record 2 8 (fadedBpsk 8000 1000 [true, false] (fun _ => 2) (fun _ => Real.pi)))) 8000 1000 1000; collect rx) = pure [false, true] := by
  refine (C81_bpsk (msg := [true, false]) (g := fun _ => 2) (θ := fun _ => Real.pi) (by norm_num) whole_8000
    (fun n _ => by norm_num) (record_spec _ _ _) (yields_ofList _)).trans ?_
  congr 1
  simp [turned]

/-- Half a radian is harmless to QPSK, a quarter turn is not. -/
example : (do let rx ← rxQpsk (ofList (record 2 8 (fadedQpsk 8000 1000 [true, false, false, false] (fun _ => 2) (fun _ => 0.5)))) 8000 1000 1000; collect rx) = pure [true, false, false, false] :=
  C81_qpsk_exact (by norm_num) whole_8000 (by rfl) (fun n _ => by norm_num) (fun n hn => by
    rw [abs_of_nonneg (by norm_num)]
    have := Real.pi_gt_three
    linarith) (record_spec _ _ _) (yields_ofList _)

example : (do let rx ← rxQpsk (ofList (record 2 8 (fadedQpsk 8000 1000 [true, false, false, false] (fun _ => 2) (fun _ => Real.pi / 2)))) 8000 1000 1000; collect rx) = pure [true, true, true, false] := by
  refine (C81_qpsk (msg := [true, false, false, false]) (g := fun _ => 2) (θ := fun _ => Real.pi / 2) (by norm_num) whole_8000
    (fun n _ => by norm_num) (record_spec _ _ _) (yields_ofList _)).trans ?_
  simp only [(C81_turned2_quarters _ _).1]
  rfl

/-- The same with a key of four chips. -/
example : (do let rx ← rxCdmaBpsk (ofList (record 2 8 (fun n i => fadedBpsk 8000 1000 [true, false] (fun _ => 2) (fun n => n * Real.pi) n i * chip [true, false, false, true] 8 i))) 8000 1000 1000 [true, false, false, true]; collect rx) = pure [true, true] := by
  refine (C81_cdma_bpsk (fs := 8000) (sym := 1000) (key := [true, false, false, true]) (msg := [true, false]) (g := fun _ => 2)
    (θ := fun n => n * Real.pi) (by norm_num) (by norm_num) (by decide) (by decide) (by decide) (by norm_num) whole_8000
    (fun n _ => by norm_num) (record_spec _ _ _) (yields_ofList _)).trans ?_
  congr 1
  simp [turned]

example : (do let rx ← rxCdmaQpsk (ofList (record 1 8 (fun n i => fadedQpsk 8000 1000 [true, false] (fun _ => 2) (fun _ => Real.pi) n i * chip [true, false, false, true] 8 i))) 8000 1000 1000 [true, false, false, true]; collect rx) = pure [false, true] := by
  refine (C81_cdma_qpsk (fs := 8000) (sym := 1000) (key := [true, false, false, true]) (msg := [true, false]) (g := fun _ => 2)
    (θ := fun _ => Real.pi) (by norm_num) (by norm_num) (by decide) (by decide) (by decide) (by norm_num) whole_8000
    (fun n _ => by norm_num) (record_spec _ _ _) (yields_ofList _)).trans ?_
  simp only [(C81_turned2_quarters _ _).2.1]
  rfl

/-- FSK with phases and strengths jumping about. -/
example : (do let rx ← rxFsk (ofList (record 3 441 (fadedFsk 44100 ((20 * 1 * 100 : ℕ) : ℝ) [true, false, true] (fun n => n - 5) (fun n => n ^ 2 * 17)))) 44100 100 ((20 * 1 * 100 : ℕ) : ℝ); collect rx) = pure [true, false, true] :=
  C81_fsk (by norm_num) (by norm_num) (by norm_num) (by norm_num) (fun n hn => by
    have hn : (n : ℝ) ≤ 2 := by exact_mod_cast Nat.lt_succ_iff.mp hn
    intro h; linarith) (record_spec _ _ _) (yields_ofList _)

/-- Arbitrary amplitudes on the two carriers, without and with a key. -/
example : (do let rx ← rxBpsk (ofList (record 2 8 (fun n i => ((n : ℝ) - 0.5) * Real.cos (angle 8000 1000 i) - 3 * Real.sin (angle 8000 1000 i)))) 8000 1000 1000; collect rx) = pure [false, true] := by
  refine (C81_quadrature (X := fun n => (n : ℝ) - 0.5) (Y := fun _ => 3) (by norm_num) whole_8000 (record_spec _ _ _)
    (yields_ofList _)).1.trans ?_
  congr 1
  norm_num [List.range_succ]

example : (do let rx ← rxCdmaQpsk (ofList (record 1 8 (fun _ i => ((-2) * Real.cos (angle 8000 1000 i) - 3 * Real.sin (angle 8000 1000 i)) * chip [true, false, false, true] 8 i))) 8000 1000 1000 [true, false, false, true]; collect rx) = pure [false, true] := by
  refine (C81_quadrature_cdma (fs := 8000) (sym := 1000) (key := [true, false, false, true]) (X := fun _ => -2) (Y := fun _ => 3)
    (by norm_num) (by norm_num) (by decide) (by decide) (by decide) (by norm_num) whole_8000 (record_spec _ _ _)
    (yields_ofList _)).2.trans ?_
  congr 1
  norm_num [List.range_succ]

/-- What the transmitters of `Verif.Cases` send is a recording of strength one and phase zero. -/
example : ∃ a : List ℝ, (do let tx ← txBpsk (ofList [true, false]) 16000 1000 (2000 : ℝ); collect tx) = pure a ∧
    Recording a 2 (16000 / 1000) (fadedBpsk 16000 2000 [true, false] (fun _ => 1) (fun _ => 0)) :=
  let ⟨a, ha, _⟩ := Cases.bpsk [true, false]
  ⟨a, ha, C81_clean_bpsk (yields_ofList _) (by norm_num) ha⟩

example : ∃ a : List ℝ, (do let tx ← txQpsk (ofList [true, false]) 16000 1000 (2000 : ℝ); collect tx) = pure a ∧
    Recording a 1 (16000 / 1000) (fadedQpsk 16000 2000 [true, false] (fun _ => 1) (fun _ => 0)) :=
  let ⟨a, ha, _⟩ := Cases.qpsk [true, false]
  ⟨a, ha, C81_clean_qpsk (yields_ofList _) (by norm_num) ha⟩

example : ∃ a : List ℝ, (do let tx ← txFsk (ofList [true, false]) 160000 1000 (20000 : ℝ); collect tx) = pure a ∧
    Recording a 2 (160000 / 1000) (fadedFsk 160000 20000 [true, false] (fun _ => 1) (fun _ => 0)) :=
  let ⟨a, ha, _⟩ := Cases.fsk [true, false]
  ⟨a, ha, C81_clean_fsk (yields_ofList _) (by norm_num) ha⟩

example : ∃ a : List ℝ, (do let tx ← txCdmaBpsk (ofList [true, false]) 16000 1000 (2000 : ℝ) [true, false]; collect tx) = pure a ∧
    Recording a 2 (16000 / 1000) (fun n i => fadedBpsk 16000 2000 [true, false] (fun _ => 1) (fun _ => 0) n i
      * chip [true, false] (16000 / 1000) i) :=
  let ⟨a, ha, _⟩ := Cases.cdmaBpsk [true, false] (key := [true, false]) (by decide)
  ⟨a, ha, C81_clean_cdma_bpsk (yields_ofList _) ha⟩

example : ∃ a : List ℝ, (do let tx ← txCdmaQpsk (ofList [true, false]) 16000 1000 (2000 : ℝ) [true, false]; collect tx) = pure a ∧
    Recording a 1 (16000 / 1000) (fun n i => fadedQpsk 16000 2000 [true, false] (fun _ => 1) (fun _ => 0) n i
      * chip [true, false] (16000 / 1000) i) :=
  let ⟨a, ha, _⟩ := Cases.cdmaQpsk [true, false] (key := [true, false]) (by decide)
  ⟨a, ha, C81_clean_cdma_qpsk (yields_ofList _) ha⟩

end Verif.Props
