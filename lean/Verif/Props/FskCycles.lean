import Verif.Lemmas.FskTones
import Verif.Props.Fading
import Verif.Props.IeeeRx2
import Mathlib.Analysis.Real.Pi.Bounds
import Mathlib.SetTheory.Cardinal.Finite

/-!
# Property C128: FSK with a few carrier cycles per symbol

The tones of `tx_fsk` lie 2.5 % below and above the carrier.  With a carrier of `c` cycles per symbol they are `c/20` of a cycle
apart, so they are orthogonal only if 20 divides `c` (C41).  Here: from three cycles on the receiver is right for every message, and
with one or two cycles — the setting of the library's own test — it is not.
-/
namespace Verif.Props
open Verif Spec F64

variable {ι κ : Type}

/-! ## What the receiver decides -/

/-- `rx_fsk` on any recording: one bit per symbol, true iff the upper tone holds at least as much energy as the lower one. -/
theorem C128_decisions [RIter κ ℝ] {fs sym N : ℕ} {fc : ℝ} (hsps : 0 < fs / sym) {r : List ℝ} {s : ℕ → ℕ → ℝ}
    (h : Recording r N (fs / sym) s) {rcv : κ} (hr : Yields rcv r) :
    (do let rx ← rxFsk rcv fs sym fc; collect rx) = pure ((List.range N).map (fun n =>
      decide (toneEnergy (tone fs fc false) (fs / sym) (fun j => s n (n * (fs / sym) + j))
        ≤ toneEnergy (tone fs fc true) (fs / sym) (fun j => s n (n * (fs / sym) + j))))) := by
  obtain ⟨it, e1, e2⟩ := rxFsk_wave (fc := fc) hsps (hr.of_eq (recording_wave hsps h))
  rw [e1, pure_bind, collect_of_yields e2, mapIdx_range_self]
  congr 1
  apply List.map_congr_left
  intro n _
  rw [fskChunk_offset]
  have he : ∀ w, toneEnergy w ((List.range (fs / sym)).map (fun j => s n (n * (fs / sym) + j))).length
      (fun j => ((List.range (fs / sym)).map (fun j => s n (n * (fs / sym) + j))).getD j 0)
      = toneEnergy w (fs / sym) (fun j => s n (n * (fs / sym) + j)) := by
    intro w
    unfold toneEnergy
    rw [List.length_map, List.length_range]
    congr 2 <;> apply Finset.sum_congr rfl <;> intro j hj <;> beta_reduce <;>
      rw [List.getD_eq_getElem?_getD, List.getElem?_map, List.getElem?_range (Finset.mem_range.mp hj), Option.map_some, Option.getD_some]
  rw [he, he]

theorem faded_energy (fs k : ℕ) (fc : ℝ) (msg : List Bool) (g θ : ℕ → ℝ) (n : ℕ) (w : ℝ) :
    toneEnergy w k (fun j => fadedFsk fs fc msg g θ n (n * k + j))
      = toneEnergy w k (fun j => g n * Real.cos (tone fs fc (msg.getD n false) * (n * k + j : ℕ) + θ n)) := by
  congr 1
  funext j
  rw [fadedFsk, angle, tone]
  congr 3
  ring

/-- Energies of one received symbol in closed form, squares expanded. -/
theorem faded_cycles {fs sym c : ℕ} (hsym : 0 < sym) (hdvd : sym ∣ fs) (hc : 0 < c) (hny : 41 * c < 20 * (fs / sym)) (msg : List Bool)
    (g θ : ℕ → ℝ) (n : ℕ) {b : Bool} (hb : msg.getD n false = b) {a w : ℝ} (ha : a = Real.pi * c / 20)
    (hw : w = tone fs ((c * sym : ℕ) : ℝ) b) :
    toneEnergy (tone fs ((c * sym : ℕ) : ℝ) b) (fs / sym) (fun j => fadedFsk fs ((c * sym : ℕ) : ℝ) msg g θ n (n * (fs / sym) + j))
      = (g n / 2) ^ 2 * (((fs / sym : ℕ) : ℝ) ^ 2 + 2 * ((fs / sym : ℕ) : ℝ) * ((if b then 1 else -1) * (Real.sin a / Real.sin w)
          * Real.cos (2 * (n * ((if b then 1 else -1) * a) + θ n) + ((if b then 1 else -1) * a - w))) + (Real.sin a / Real.sin w) ^ 2) ∧
    toneEnergy (tone fs ((c * sym : ℕ) : ℝ) (!b)) (fs / sym) (fun j => fadedFsk fs ((c * sym : ℕ) : ℝ) msg g θ n (n * (fs / sym) + j))
      = (g n / 2) ^ 2 * (Real.sin a / Real.sin (a / ((fs / sym : ℕ) : ℝ))) ^ 2 := by
  have hsps : 0 < fs / sym := by omega
  have hfs : 0 < fs := by
    rcases Nat.eq_zero_or_pos fs with h | h
    · subst h; simp at hsps
    · exact h
  have hkR : (0 : ℝ) < ((fs / sym : ℕ) : ℝ) := by exact_mod_cast hsps
  obtain ⟨h1, h2⟩ := fsk_cycles hsym hdvd hc hny (g n) (θ n) (n * (fs / sym)) b ha hw
  rw [faded_energy, faded_energy, hb, ← hw, h1, h2]
  refine ⟨?_, rfl⟩
  have t1 := tone_cycles (c := c) hsym hdvd hfs b
  rw [← hw, ← ha] at t1
  have e : 2 * (w * ((n * (fs / sym) : ℕ) : ℝ) + θ n) + ((if b then 1 else -1) * a - w)
      = 2 * (n * ((if b then 1 else -1) * a) + θ n) + ((if b then 1 else -1) * a - w) + ((2 * c * n : ℕ) : ℝ) * (2 * Real.pi) := by
    rw [t1]; push_cast; field_simp; ring
  rw [e, Real.cos_add_nat_mul_two_pi, Real.sin_add_nat_mul_two_pi]
  generalize 2 * (n * ((if b then 1 else -1) * a) + θ n) + ((if b then 1 else -1) * a - w) = φ
  have := Real.sin_sq_add_cos_sq φ
  cases b
  · simp only [Bool.false_eq_true, if_false]
    linear_combination (g n / 2) ^ 2 * (Real.sin a / Real.sin w) ^ 2 * this
  · simp only [if_true]
    linear_combination (g n / 2) ^ 2 * (Real.sin a / Real.sin w) ^ 2 * this

/-! ## Three cycles and more -/

theorem sin_three {a : ℝ} (h : 0.4712 ≤ a) : |Real.sin a| ≤ 0.9637 * a := by
  rcases le_total a 1.04 with h1 | h1
  · have h0 : 0 ≤ Real.sin a := Real.sin_nonneg_of_nonneg_of_le_pi (by linarith) (by linarith [Real.pi_gt_three])
    rw [abs_of_nonneg h0]
    rcases le_total a 1 with h2 | h2
    · have := (abs_le.mp (Real.sin_bound (x := a) (by rw [abs_of_nonneg (by linarith)]; exact h2))).2
      rw [abs_of_nonneg (by linarith : (0 : ℝ) ≤ a)] at this
      have e : a ^ 3 / 6 - a ^ 5 / 100 - 0.0363 * a = a * (a ^ 2 / 6 - (a ^ 2) ^ 2 / 100 - 0.0363) := by ring
      have h3 : 0.222 ≤ a ^ 2 := by nlinarith
      have h4 : a ^ 2 ≤ 1 := by nlinarith
      have : 0 ≤ a * (a ^ 2 / 6 - (a ^ 2) ^ 2 / 100 - 0.0363) := mul_nonneg (by linarith) (by nlinarith)
      linarith
    · have hs := (abs_le.mp (Real.sin_bound (x := a / 2) (by rw [abs_of_nonneg (by linarith)]; linarith))).2
      rw [abs_of_nonneg (by linarith : (0 : ℝ) ≤ a / 2)] at hs
      have hd : Real.sin a ≤ 2 * Real.sin (a / 2) := by
        have h5 : 0 ≤ Real.sin (a / 2) := Real.sin_nonneg_of_nonneg_of_le_pi (by linarith) (by linarith [Real.pi_gt_three])
        have := Real.sin_two_mul (a / 2)
        rw [show 2 * (a / 2) = a by ring] at this
        have := mul_le_of_le_one_right (show 0 ≤ 2 * Real.sin (a / 2) by positivity) (Real.cos_le_one (a / 2))
        linarith
      have e : 2 * ((a / 2) ^ 3 / 6 - (a / 2) ^ 5 / 100) - 0.0363 * a = a * (a ^ 2 / 24 - (a ^ 2) ^ 2 / 1600 - 0.0363) := by ring
      have h3 : 1 ≤ a ^ 2 := by nlinarith
      have h4 : a ^ 2 ≤ 1.1 := by nlinarith
      have : 0 ≤ a * (a ^ 2 / 24 - (a ^ 2) ^ 2 / 1600 - 0.0363) := mul_nonneg (by linarith) (by nlinarith)
      linarith
  · exact (Real.abs_sin_le_one _).trans (by linarith)

theorem sin_below {w ρ : ℝ} (h0 : 0 < w) (h : w ^ 2 ≤ 6 * (1 - ρ)) : ρ * w ≤ Real.sin w := by
  have := Real.sin_gt_sub_cube (x := w) h0
  nlinarith

/-- How far the energies of the tones stay apart: the receiver's reading of the sent tone loses at most `r k`, and the other tone reads
at most `0.9641 k`. -/
theorem cycles_apart {fs sym c : ℕ} (hsym : 0 < sym) (hdvd : sym ∣ fs) (hc : 3 ≤ c) {B ρ r : ℝ} (hB : 41 / 20 * Real.pi * c ≤ B * ((fs / sym : ℕ) : ℝ))
    (hB1 : B ≤ 1.29) (hρ : B ^ 2 ≤ 6 * (1 - ρ)) (hρ0 : 0 < ρ) (hr : 0.9637 ≤ 39 * ρ * r) (b : Bool) {a w : ℝ} (ha : a = Real.pi * c / 20)
    (hw : w = tone fs ((c * sym : ℕ) : ℝ) b) (hfs : 0 < fs) :
    |Real.sin a / Real.sin w| ≤ r * ((fs / sym : ℕ) : ℝ) ∧
    |Real.sin a / Real.sin (a / ((fs / sym : ℕ) : ℝ))| ≤ 0.9641 * ((fs / sym : ℕ) : ℝ) := by
  have hsps : 0 < fs / sym := Nat.div_pos (Nat.le_of_dvd hfs hdvd) hsym
  have hkR : (0 : ℝ) < ((fs / sym : ℕ) : ℝ) := by exact_mod_cast hsps
  have hcR : (3 : ℝ) ≤ c := by exact_mod_cast hc
  have hpi := Real.pi_gt_d4
  have t1 := tone_cycles (c := c) hsym hdvd hfs b
  rw [← hw, ← ha] at t1
  generalize ((fs / sym : ℕ) : ℝ) = k at *
  have ha0 : 0.4712 ≤ a := by rw [ha]; nlinarith
  have hs := sin_three ha0
  have h40 : 2 * Real.pi * c = 40 * a := by rw [ha]; ring
  rw [h40] at t1
  have hB' : 41 * a ≤ B * k := by rw [ha]; linarith
  have hw1 : 39 * a / k ≤ w := by
    rw [t1]; apply div_le_div_of_nonneg_right _ hkR.le; cases b <;> norm_num <;> linarith
  have hw2 : w ≤ B := by
    rw [t1, div_le_iff₀ hkR]; cases b <;> norm_num <;> linarith
  have hw0 : 0 < w := lt_of_lt_of_le (by positivity) hw1
  have hsw : ρ * w ≤ Real.sin w := sin_below hw0 (by nlinarith)
  have hsw0 : 0 < Real.sin w := lt_of_lt_of_le (by positivity) hsw
  have hu0 : 0 < a / k := by positivity
  have hu1 : a / k ≤ 0.0315 := by
    rw [div_le_iff₀ hkR]; nlinarith
  have hsu : 0.9998 * (a / k) ≤ Real.sin (a / k) := sin_below hu0 (by nlinarith)
  have hsu0 : 0 < Real.sin (a / k) := lt_of_lt_of_le (by positivity) hsu
  have hr0 : 0 < r := by
    by_contra hn
    have : 39 * ρ * r ≤ 0 := mul_nonpos_of_nonneg_of_nonpos (by positivity) (not_lt.mp hn)
    linarith
  constructor
  · rw [abs_div, abs_of_pos hsw0, div_le_iff₀ hsw0]
    have h1 : 39 * a ≤ w * k := by rwa [div_le_iff₀ hkR] at hw1
    have h2 : r * k * (ρ * w) ≤ r * k * Real.sin w := mul_le_mul_of_nonneg_left hsw (by positivity)
    have h3 : ρ * r * (39 * a) ≤ ρ * r * (w * k) := mul_le_mul_of_nonneg_left h1 (by positivity)
    have h4 : 0.9637 * a ≤ 39 * ρ * r * a := mul_le_mul_of_nonneg_right hr (by linarith)
    nlinarith
  · rw [abs_div, abs_of_pos hsu0, div_le_iff₀ hsu0]
    have h2 : 0.9641 * k * (0.9998 * (a / k)) ≤ 0.9641 * k * Real.sin (a / k) := mul_le_mul_of_nonneg_left hsu (by positivity)
    have h3 : 0.9641 * k * (0.9998 * (a / k)) = 0.9641 * 0.9998 * a := by field_simp
    norm_num at h2 h3 hs ⊢
    nlinarith

/-- The matched energy of a symbol of strength `g` is at least `(g/2)² (k − |R|)²`. -/
theorem matched_ge {k R x g : ℝ} (hk : |R| ≤ k) (hx : |x| ≤ 1) : (g / 2) ^ 2 * (k - |R|) ^ 2 ≤ (g / 2) ^ 2 * (k ^ 2 + 2 * k * (R * x) + R ^ 2) := by
  apply mul_le_mul_of_nonneg_left _ (by positivity)
  have h1 : -|R| ≤ R * x := by
    have : |R * x| ≤ |R| := by rw [abs_mul]; exact mul_le_of_le_one_right (abs_nonneg _) hx
    exact (abs_le.mp this).1
  have h2 : 0 ≤ k := (abs_nonneg _).trans hk
  have := sq_abs R
  nlinarith

/-- The energies of one symbol, from three cycles and five samples per cycle on. -/
theorem cycles_energies {fs sym c : ℕ} (hsym : 0 < sym) (hdvd : sym ∣ fs) (hc : 3 ≤ c) {B ρ r : ℝ} (hB : 41 / 20 * Real.pi * c ≤ B * ((fs / sym : ℕ) : ℝ))
    (hB1 : B ≤ 1.29) (hρ : B ^ 2 ≤ 6 * (1 - ρ)) (hρ0 : 0 < ρ) (hr : 0.9637 ≤ 39 * ρ * r) (hr1 : r ≤ 1) (hfs : 0 < fs) (msg : List Bool)
    (g θ : ℕ → ℝ) (n : ℕ) {b : Bool} (hb : msg.getD n false = b) :
    (g n / 2) ^ 2 * ((1 - r) * ((fs / sym : ℕ) : ℝ)) ^ 2
      ≤ toneEnergy (tone fs ((c * sym : ℕ) : ℝ) b) (fs / sym) (fun j => fadedFsk fs ((c * sym : ℕ) : ℝ) msg g θ n (n * (fs / sym) + j)) ∧
    toneEnergy (tone fs ((c * sym : ℕ) : ℝ) (!b)) (fs / sym) (fun j => fadedFsk fs ((c * sym : ℕ) : ℝ) msg g θ n (n * (fs / sym) + j))
      ≤ (g n / 2) ^ 2 * (0.9641 * ((fs / sym : ℕ) : ℝ)) ^ 2 := by
  have hsps : 0 < fs / sym := Nat.div_pos (Nat.le_of_dvd hfs hdvd) hsym
  have hkR : (0 : ℝ) < ((fs / sym : ℕ) : ℝ) := by exact_mod_cast hsps
  have hny : 41 * c < 20 * (fs / sym) := by
    have hcR : (0 : ℝ) < c := by exact_mod_cast (by omega : 0 < c)
    have : (41 : ℝ) * c < 20 * ((fs / sym : ℕ) : ℝ) := by
      have := Real.pi_gt_three
      nlinarith
    exact_mod_cast this
  obtain ⟨h1, h2⟩ := cycles_apart hsym hdvd hc hB hB1 hρ hρ0 hr b rfl rfl hfs
  obtain ⟨e1, e2⟩ := faded_cycles hsym hdvd (by omega) hny msg g θ n hb rfl rfl
  rw [e1, e2]
  generalize ((fs / sym : ℕ) : ℝ) = k at *
  constructor
  · refine le_trans ?_ (le_of_le_of_eq (matched_ge (g := g n) (k := k) (R := Real.sin (Real.pi * c / 20) / Real.sin (tone fs ((c * sym : ℕ) : ℝ) b))
      (x := (if b then 1 else -1) * Real.cos (2 * (n * ((if b then 1 else -1) * (Real.pi * c / 20)) + θ n)
        + ((if b then 1 else -1) * (Real.pi * c / 20) - tone fs ((c * sym : ℕ) : ℝ) b)))
      (h1.trans (by nlinarith)) (by cases b <;> simp [Real.abs_cos_le_one])) (by ring))
    apply mul_le_mul_of_nonneg_left _ (by positivity)
    exact pow_le_pow_left₀ (mul_nonneg (by linarith) hkR.le) (by linarith) 2
  · apply mul_le_mul_of_nonneg_left _ (by positivity)
    rw [← sq_abs]
    exact pow_le_pow_left₀ (abs_nonneg _) h2 2

/-- FSK, symbols of any strengths and phases, a carrier of three or more cycles per symbol and at least five samples per cycle. -/
theorem C128_faded [RIter κ ℝ] {fs sym c : ℕ} (hsym : 0 < sym) (hdvd : sym ∣ fs) (hc : 3 ≤ c) (hk : 5 * c ≤ fs / sym)
    {msg : List Bool} {g θ : ℕ → ℝ} (hg : ∀ n < msg.length, g n ≠ 0) {r : List ℝ}
    (h : Recording r msg.length (fs / sym) (fadedFsk fs ((c * sym : ℕ) : ℝ) msg g θ)) {rcv : κ} (hr : Yields rcv r) :
    (do let rx ← rxFsk rcv fs sym ((c * sym : ℕ) : ℝ); collect rx) = pure msg := by
  have hsps : 0 < fs / sym := by omega
  have hfs : 0 < fs := by
    rcases Nat.eq_zero_or_pos fs with h | h
    · subst h; simp at hsps
    · exact h
  have hkR : (0 : ℝ) < ((fs / sym : ℕ) : ℝ) := by exact_mod_cast hsps
  have hkc : 5 * (c : ℝ) ≤ ((fs / sym : ℕ) : ℝ) := by exact_mod_cast hk
  have hpi := Real.pi_lt_d4
  rw [C128_decisions hsps h hr]
  congr 1
  have hid : msg = msg.mapIdx (fun _ b => b) := (mapIdx_eq_self (fun _ _ _ => rfl)).symm
  conv_rhs => rw [hid, ← range_map_getD]
  apply List.map_congr_left
  intro n hn
  have hn := List.mem_range.mp hn
  obtain ⟨h1, h2⟩ := cycles_energies (B := 1.2882) (ρ := 0.723) (r := 0.0342) hsym hdvd hc (by nlinarith) (by norm_num) (by norm_num) (by norm_num)
    (by norm_num) (by norm_num) hfs msg g θ n (b := msg.getD n false) rfl
  have hlt : (g n / 2) ^ 2 * (0.9641 * ((fs / sym : ℕ) : ℝ)) ^ 2 < (g n / 2) ^ 2 * ((1 - 0.0342) * ((fs / sym : ℕ) : ℝ)) ^ 2 := by
    apply mul_lt_mul_of_pos_left
    · apply pow_lt_pow_left₀ _ (by positivity) (by norm_num)
      apply mul_lt_mul_of_pos_right _ hkR
      norm_num
    · have := hg n hn
      positivity
  cases hb : msg.getD n false
  · rw [hb, Bool.not_false] at h2
    rw [hb] at h1
    rw [decide_eq_false_iff_not]; linarith
  · rw [hb, Bool.not_true] at h2
    rw [hb] at h1
    rw [decide_eq_true_eq]; linarith

theorem fsk_sent [RIter ι Bool] {m : ι} {msg : List Bool} (h : Yields m msg) {fs sym : ℕ} (fc : ℝ) (hsps : 0 < fs / sym) :
    ∃ it l, txFsk m fs sym fc = pure it ∧ Yields it l ∧
      Recording l msg.length (fs / sym) (fadedFsk fs fc msg (fun _ => 1) (fun _ => 0)) := by
  obtain ⟨it, e1, e2⟩ := txFsk_ok h (fc := fc) hsps
  exact ⟨it, _, e1, e2, C81_clean_fsk h hsps (by rw [e1, pure_bind, collect_of_yields e2])⟩

/-- … in particular what `tx_fsk` sends comes back, for every message. -/
theorem C128_roundtrip [RIter ι Bool] {m : ι} {msg : List Bool} (h : Yields m msg) {fs sym c : ℕ} (hsym : 0 < sym) (hdvd : sym ∣ fs)
    (hc : 3 ≤ c) (hk : 5 * c ≤ fs / sym) :
    (do let tx ← txFsk m fs sym ((c * sym : ℕ) : ℝ); let rx ← rxFsk tx fs sym ((c * sym : ℕ) : ℝ); collect rx) = pure msg := by
  obtain ⟨it, l, e1, e2, e3⟩ := fsk_sent h ((c * sym : ℕ) : ℝ) (show 0 < fs / sym by omega)
  rw [e1, pure_bind]
  exact C128_faded hsym hdvd hc hk (fun _ _ => one_ne_zero) e3 e2

/-! ## One and two cycles -/

theorem few_arith {t k y : ℝ} (ht0 : 0 ≤ t) (ht1 : t ≤ 0.0988) (hk : 32 ≤ k)
    (hy : (1 - t / 6) * (1 - t / 2) * (2 * k ^ 2 / 39 - 39 * t) - 2 * k * t ≤ 2 * k * y) :
    k ^ 2 - 2 * k * y + (k / 38) ^ 2 < (k * (1 - t / 6)) ^ 2 := by
  have hk0 : 0 < k := by linarith
  have hk2 : 1024 ≤ k ^ 2 := by nlinarith
  have b1 : (1 - 2 * t / 3) * (2 * k ^ 2 / 39 - 39 * t) ≤ (1 - t / 6) * (1 - t / 2) * (2 * k ^ 2 / 39 - 39 * t) :=
    mul_le_mul_of_nonneg_right (by nlinarith) (by nlinarith)
  have b2 : 39 * t ≤ 0.0381 * (t * k ^ 2) := by nlinarith
  have b3 : 2 * k * t ≤ 0.0625 * (t * k ^ 2) := by nlinarith [mul_nonneg ht0 (mul_nonneg hk0.le (sub_nonneg.mpr hk))]
  have b4 : k ^ 2 * (1 - t / 3) ≤ (k * (1 - t / 6)) ^ 2 := by nlinarith [sq_nonneg (k * t)]
  have b5 : t * k ^ 2 ≤ 0.0988 * k ^ 2 := mul_le_mul_of_nonneg_right ht1 (by positivity)
  have b6 : 0 ≤ t * t := mul_nonneg ht0 ht0
  have b7 : (1 - 2 * t / 3) * (2 * k ^ 2 / 39 - 39 * t) = 2 * k ^ 2 / 39 - 4 / 117 * (t * k ^ 2) - 39 * t + 26 * (t * t) := by ring
  have b9 : (k / 38) ^ 2 = k ^ 2 / 1444 := by ring
  norm_num at b2 b3 b5
  linarith

/-- The first symbol, a false bit: the other tone reads more. -/
theorem few_energies {a k : ℝ} (ha0 : 0 < a) (ha : a ≤ 0.3142) (hk : 32 ≤ k) :
    k ^ 2 + 2 * k * (-1 * (Real.sin a / Real.sin (39 * a / k)) * Real.cos (a + 39 * a / k)) + (Real.sin a / Real.sin (39 * a / k)) ^ 2
      < (Real.sin a / Real.sin (a / k)) ^ 2 := by
  have hk0 : 0 < k := by linarith
  have hw0 : 0 < 39 * a / k := by positivity
  have hw1 : 39 * a / k ≤ 0.383 := by rw [div_le_iff₀ hk0]; linarith
  have hsa : a - a ^ 3 / 6 ≤ Real.sin a := (Real.sin_gt_sub_cube ha0).le
  have hsa' : Real.sin a ≤ a := (Real.sin_lt ha0).le
  have hca : 1 - a ^ 2 / 2 ≤ Real.cos a := Real.one_sub_sq_div_two_le_cos
  have hca' : Real.cos a ≤ 1 := Real.cos_le_one a
  have hsw : 0.975 * (39 * a / k) ≤ Real.sin (39 * a / k) := sin_below hw0 (by nlinarith)
  have hsw' : Real.sin (39 * a / k) ≤ 39 * a / k := (Real.sin_lt hw0).le
  have hcw : 1 - (39 * a / k) ^ 2 / 2 ≤ Real.cos (39 * a / k) := Real.one_sub_sq_div_two_le_cos
  have hu0 : 0 < a / k := by positivity
  have hsu : Real.sin (a / k) ≤ a / k := (Real.sin_lt hu0).le
  have hsu0 : 0 < Real.sin (a / k) := Real.sin_pos_of_pos_of_lt_pi hu0 (by
    have : a / k ≤ 39 * a / k := div_le_div_of_nonneg_right (by linarith) hk0.le
    linarith [Real.pi_gt_three])
  have hsw0 : 0 < Real.sin (39 * a / k) := lt_of_lt_of_le (by positivity) hsw
  have hsa0 : 0 < Real.sin a := lt_of_lt_of_le (by nlinarith) hsa
  -- the other tone
  have hX : (k * (1 - a ^ 2 / 6)) ^ 2 ≤ (Real.sin a / Real.sin (a / k)) ^ 2 := by
    apply pow_le_pow_left₀ (mul_nonneg hk0.le (by nlinarith))
    rw [le_div_iff₀ hsu0]
    calc k * (1 - a ^ 2 / 6) * Real.sin (a / k) ≤ k * (1 - a ^ 2 / 6) * (a / k) :=
          mul_le_mul_of_nonneg_left hsu (mul_nonneg hk0.le (by nlinarith))
      _ = a - a ^ 3 / 6 := by field_simp
      _ ≤ _ := hsa
  -- the sent tone
  have hR : Real.sin a / Real.sin (39 * a / k) ≤ k / 38 := by
    rw [div_le_iff₀ hsw0]
    calc Real.sin a ≤ a := hsa'
      _ ≤ k / 38 * (0.975 * (39 * a / k)) := by
        rw [show k / 38 * (0.975 * (39 * a / k)) = 0.975 * 39 / 38 * a by field_simp]; linarith
      _ ≤ _ := mul_le_mul_of_nonneg_left hsw (by positivity)
  have hR0 : 0 < Real.sin a / Real.sin (39 * a / k) := by positivity
  have hc : Real.sin a / Real.sin (39 * a / k) * Real.cos (a + 39 * a / k)
      = Real.sin a * (Real.cos a * (Real.cos (39 * a / k) / Real.sin (39 * a / k)) - Real.sin a) := by
    rw [Real.cos_add]; field_simp
  have hcot : k / (39 * a) - 39 * a / k / 2 ≤ Real.cos (39 * a / k) / Real.sin (39 * a / k) := by
    rw [le_div_iff₀ hsw0]
    have h1 : 0 ≤ k / (39 * a) - 39 * a / k / 2 := by
      have : 1 / (39 * a / k) = k / (39 * a) := by field_simp
      rw [← this, sub_nonneg]
      have := one_div_le_one_div_of_le hw0 hw1
      norm_num at this hw1
      linarith
    calc (k / (39 * a) - 39 * a / k / 2) * Real.sin (39 * a / k) ≤ (k / (39 * a) - 39 * a / k / 2) * (39 * a / k) :=
          mul_le_mul_of_nonneg_left hsw' h1
      _ = 1 - (39 * a / k) ^ 2 / 2 := by field_simp
      _ ≤ _ := hcw
  have hlow : a * (1 - a ^ 2 / 6) * ((1 - a ^ 2 / 2) * (k / (39 * a) - 39 * a / k / 2)) - a ^ 2
      ≤ Real.sin a / Real.sin (39 * a / k) * Real.cos (a + 39 * a / k) := by
    have h1 : 0 ≤ k / (39 * a) - 39 * a / k / 2 := by
      have : 1 / (39 * a / k) = k / (39 * a) := by field_simp
      rw [← this, sub_nonneg]
      have := one_div_le_one_div_of_le hw0 hw1
      norm_num at this hw1
      linarith
    have h2 : (1 - a ^ 2 / 2) * (k / (39 * a) - 39 * a / k / 2) ≤ Real.cos a * (Real.cos (39 * a / k) / Real.sin (39 * a / k)) :=
      mul_le_mul hca hcot h1 (by nlinarith)
    have h3 : 0 ≤ (1 - a ^ 2 / 2) * (k / (39 * a) - 39 * a / k / 2) := mul_nonneg (by nlinarith) h1
    have h4 : a * (1 - a ^ 2 / 6) * ((1 - a ^ 2 / 2) * (k / (39 * a) - 39 * a / k / 2))
        ≤ Real.sin a * (Real.cos a * (Real.cos (39 * a / k) / Real.sin (39 * a / k))) :=
      mul_le_mul (by nlinarith) h2 h3 hsa0.le
    have h5 : Real.sin a * Real.sin a ≤ a ^ 2 := by nlinarith
    rw [hc, mul_sub]
    linarith
  have hR2 : (Real.sin a / Real.sin (39 * a / k)) ^ 2 ≤ (k / 38) ^ 2 := pow_le_pow_left₀ hR0.le hR 2
  have hx : 2 * k * (a * (1 - a ^ 2 / 6) * ((1 - a ^ 2 / 2) * (k / (39 * a) - 39 * a / k / 2)) - a ^ 2)
      = (1 - a ^ 2 / 6) * (1 - a ^ 2 / 2) * (2 * k ^ 2 / 39 - 39 * a ^ 2) - 2 * k * a ^ 2 := by
    field_simp
  have hy := mul_le_mul_of_nonneg_left hlow (show 0 ≤ 2 * k by positivity)
  rw [hx] at hy
  refine lt_of_lt_of_le ?_ hX
  have ht0 : 0 ≤ a ^ 2 := sq_nonneg a
  have ht1 : a ^ 2 ≤ 0.0988 := by nlinarith
  generalize a ^ 2 = t at *
  generalize hyd : Real.sin a / Real.sin (39 * a / k) * Real.cos (a + 39 * a / k) = y at *
  have b8 : 2 * k * (-1 * (Real.sin a / Real.sin (39 * a / k)) * Real.cos (a + 39 * a / k)) = -(2 * k * y) := by rw [← hyd]; ring
  rw [b8]
  have := few_arith ht0 ht1 hk hy
  linarith

/-- With one or two cycles per symbol a message that begins with a false bit comes back beginning with a true one. -/
theorem C128_few [RIter ι Bool] {m : ι} {msg : List Bool} (h : Yields m (false :: msg)) {fs sym c : ℕ} (hsym : 0 < sym) (hdvd : sym ∣ fs)
    (hc : c = 1 ∨ c = 2) (hk : 32 ≤ fs / sym) :
    ∃ out, (do let tx ← txFsk m fs sym ((c * sym : ℕ) : ℝ); let rx ← rxFsk tx fs sym ((c * sym : ℕ) : ℝ); collect rx)
      = pure (true :: out) := by
  have hsps : 0 < fs / sym := by omega
  have hfs : 0 < fs := by
    rcases Nat.eq_zero_or_pos fs with h | h
    · subst h; simp at hsps
    · exact h
  obtain ⟨it, l, e1, e2, e3⟩ := fsk_sent h ((c * sym : ℕ) : ℝ) hsps
  rw [e1, pure_bind, C128_decisions hsps e3 e2, List.length_cons, List.range_succ_eq_map, List.map_cons]
  refine ⟨_, congrArg pure (congrArg₂ List.cons ?_ rfl)⟩
  obtain ⟨f1, f2⟩ := faded_cycles hsym hdvd (by omega) (by omega) (false :: msg) (fun _ => 1) (fun _ => 0) 0 (b := false) rfl
    (a := Real.pi * c / 20) (w := tone fs ((c * sym : ℕ) : ℝ) false) rfl rfl
  rw [Bool.not_false] at f2
  rw [f1, f2, decide_eq_true_eq]
  have hkR : (32 : ℝ) ≤ ((fs / sym : ℕ) : ℝ) := by exact_mod_cast hk
  have hcR : (c : ℝ) ≤ 2 ∧ (0 : ℝ) < c := by
    constructor <;> rcases hc with rfl | rfl <;> norm_num
  have hpi := Real.pi_lt_d4
  have t1 := tone_cycles (c := c) hsym hdvd hfs false
  have t2 : tone fs ((c * sym : ℕ) : ℝ) false = 39 * (Real.pi * c / 20) / ((fs / sym : ℕ) : ℝ) := by
    rw [t1]; simp only [Bool.false_eq_true, if_false]; ring
  have := few_energies (a := Real.pi * c / 20) (k := ((fs / sym : ℕ) : ℝ)) (by have := hcR.2; positivity) (by nlinarith) hkR
  rw [t2]
  simp only [Bool.false_eq_true, if_false]
  rw [show 2 * (((0 : ℕ) : ℝ) * (-1 * (Real.pi * c / 20)) + 0) + (-1 * (Real.pi * c / 20) - 39 * (Real.pi * c / 20) / ((fs / sym : ℕ) : ℝ))
    = -(Real.pi * c / 20 + 39 * (Real.pi * c / 20) / ((fs / sym : ℕ) : ℝ)) by push_cast; ring, Real.cos_neg]
  apply mul_le_mul_of_nonneg_left this.le (by positivity)

/-! ## The parameters of tests/fm.rs: 44100 samples and 900 symbols per second, carrier 1800 Hz -/

theorem cos_lo {x : ℝ} (h0 : 0 ≤ x) (h1 : x ≤ 2 * Real.pi / 3) : -1 / 2 ≤ Real.cos x := by
  have := Real.cos_le_cos_of_nonneg_of_le_pi h0 (by linarith [Real.pi_pos]) h1
  rw [show 2 * Real.pi / 3 = Real.pi - Real.pi / 3 by ring, Real.cos_pi_sub, Real.cos_pi_div_three] at this
  linarith

theorem cos_hi {x : ℝ} (h0 : 0 ≤ x) (h1 : x ≤ Real.pi / 4) : 0.707 ≤ Real.cos x := by
  have := Real.cos_le_cos_of_nonneg_of_le_pi h0 (by linarith [Real.pi_pos]) h1
  rw [Real.cos_pi_div_four] at this
  have h2 : (1.4142 : ℝ) ≤ √2 := Real.le_sqrt_of_sq_le (by norm_num)
  linarith

theorem cos_lo' {x : ℝ} (h0 : 4 * Real.pi / 3 ≤ x) (h1 : x ≤ 2 * Real.pi) : -1 / 2 ≤ Real.cos x := by
  rw [← Real.cos_two_pi_sub]
  exact cos_lo (by linarith) (by linarith)

theorem cos_hi' {x : ℝ} (h0 : 7 * Real.pi / 4 ≤ x) (h1 : x ≤ 2 * Real.pi) : 0.707 ≤ Real.cos x := by
  rw [← Real.cos_two_pi_sub]
  exact cos_hi (by linarith) (by linarith)

theorem cos_up {x : ℝ} (h0 : Real.pi / 3 ≤ x) (h1 : x ≤ 5 * Real.pi / 3) : Real.cos x ≤ 1 / 2 := by
  rcases le_total x Real.pi with h | h
  · have := cos_lo (x := Real.pi - x) (by linarith) (by linarith)
    rw [Real.cos_pi_sub] at this
    linarith
  · have := cos_lo (x := x - Real.pi) (by linarith) (by linarith)
    rw [Real.cos_sub_pi] at this
    linarith

theorem cos_dn {x : ℝ} (h0 : 3 * Real.pi / 4 ≤ x) (h1 : x ≤ 5 * Real.pi / 4) : Real.cos x ≤ -0.707 := by
  rcases le_total x Real.pi with h | h
  · have := cos_hi (x := Real.pi - x) (by linarith) (by linarith)
    rw [Real.cos_pi_sub] at this
    linarith
  · have := cos_hi (x := x - Real.pi) (by linarith) (by linarith)
    rw [Real.cos_sub_pi] at this
    linarith

theorem sin_tenth : 0.309 ≤ Real.sin (Real.pi / 10) ∧ Real.sin (Real.pi / 10) ≤ 0.3091 := by
  have h1 := Real.cos_two_mul (Real.pi / 10)
  have h2 := Real.cos_pi_div_five
  have h3 := Real.sin_sq_add_cos_sq (Real.pi / 10)
  rw [show 2 * (Real.pi / 10) = Real.pi / 5 by ring] at h1
  have h5 : (2.236 : ℝ) ≤ √5 := Real.le_sqrt_of_sq_le (by norm_num)
  have h6 : √5 ≤ 2.2361 := Real.sqrt_le_iff.mpr ⟨by norm_num, by norm_num⟩
  have h0 : 0 ≤ Real.sin (Real.pi / 10) := Real.sin_nonneg_of_nonneg_of_le_pi (by positivity) (by linarith [Real.pi_pos])
  constructor <;> nlinarith

/-- `R` for a tone of `39` or `41` parts. -/
theorem test_ratio {w : ℝ} (h0 : 0.25 ≤ w) (h1 : w ≤ 0.2629) :
    1.175 ≤ Real.sin (Real.pi / 10) / Real.sin w ∧ Real.sin (Real.pi / 10) / Real.sin w ≤ 1.26 := by
  obtain ⟨p1, p2⟩ := sin_tenth
  have hs : Real.sin w ≤ w := (Real.sin_lt (by linarith)).le
  have hs' : 0.988 * w ≤ Real.sin w := sin_below (by linarith) (by nlinarith)
  have hs0 : 0 < Real.sin w := by linarith
  constructor
  · rw [le_div_iff₀ hs0]; linarith
  · rw [div_le_iff₀ hs0]; linarith

theorem test_cross : 2322 ≤ (Real.sin (Real.pi / 10) / Real.sin (Real.pi / 10 / 49)) ^ 2 ∧
    (Real.sin (Real.pi / 10) / Real.sin (Real.pi / 10 / 49)) ^ 2 ≤ 2325 := by
  obtain ⟨p1, p2⟩ := sin_tenth
  have h1 := Real.pi_gt_d4
  have h2 := Real.pi_lt_d4
  have hu0 : 0 < Real.pi / 10 / 49 := by positivity
  have hs : Real.sin (Real.pi / 10 / 49) ≤ 0.00641144 := (Real.sin_lt hu0).le.trans (by linarith)
  have hs' : 0.99999 * (Real.pi / 10 / 49) ≤ Real.sin (Real.pi / 10 / 49) := sin_below hu0 (by nlinarith)
  have hs0 : 0 < Real.sin (Real.pi / 10 / 49) := lt_of_lt_of_le (by positivity) hs'
  have e1 : 48.19 ≤ Real.sin (Real.pi / 10) / Real.sin (Real.pi / 10 / 49) := by rw [le_div_iff₀ hs0]; linarith
  have e2 : Real.sin (Real.pi / 10) / Real.sin (Real.pi / 10 / 49) ≤ 48.217 := by rw [div_le_iff₀ hs0]; linarith
  constructor <;> nlinarith

theorem test_false {r : ℕ} (hr : r < 10) :
    (r = 0 ∨ r = 8 ∨ r = 9 → 0.707 ≤ Real.cos ((49 * (2 * r + 1) + 39) * (Real.pi / 490))) ∧
    (¬ (r = 0 ∨ r = 8 ∨ r = 9) → Real.cos ((49 * (2 * r + 1) + 39) * (Real.pi / 490)) ≤ 1 / 2) := by
  have hp := Real.pi_pos
  constructor
  · rintro (rfl | rfl | rfl)
    · exact cos_hi (by positivity) (by push_cast; linarith)
    · exact cos_hi' (by push_cast; linarith) (by push_cast; linarith)
    · exact cos_hi' (by push_cast; linarith) (by push_cast; linarith)
  · intro hs
    have h1 : (1 : ℝ) ≤ r := by exact_mod_cast (by omega : 1 ≤ r)
    have h2 : (r : ℝ) ≤ 7 := by exact_mod_cast (by omega : r ≤ 7)
    have h3 := mul_le_mul_of_nonneg_right h1 hp.le
    have h4 := mul_le_mul_of_nonneg_right h2 hp.le
    apply cos_up <;> linarith

theorem test_true {r : ℕ} (hr : r < 10) :
    (r = 4 ∨ r = 5 ∨ r = 6 → Real.cos ((49 * (2 * r + 1) - 41) * (Real.pi / 490)) ≤ -0.707) ∧
    (¬ (r = 4 ∨ r = 5 ∨ r = 6) → -1 / 2 ≤ Real.cos ((49 * (2 * r + 1) - 41) * (Real.pi / 490))) := by
  have hp := Real.pi_pos
  constructor
  · intro hs
    have h1 : (4 : ℝ) ≤ r := by exact_mod_cast (by omega : 4 ≤ r)
    have h2 : (r : ℝ) ≤ 6 := by exact_mod_cast (by omega : r ≤ 6)
    have h3 := mul_le_mul_of_nonneg_right h1 hp.le
    have h4 := mul_le_mul_of_nonneg_right h2 hp.le
    apply cos_dn <;> linarith
  · intro hs
    by_cases h7 : 7 ≤ r
    · have h1 : (7 : ℝ) ≤ r := by exact_mod_cast h7
      have h2 : (r : ℝ) ≤ 9 := by exact_mod_cast (by omega : r ≤ 9)
      have h3 := mul_le_mul_of_nonneg_right h1 hp.le
      have h4 := mul_le_mul_of_nonneg_right h2 hp.le
      apply cos_lo' <;> linarith
    · have h2 : (r : ℝ) ≤ 3 := by exact_mod_cast (by omega : r ≤ 3)
      have h1 : (0 : ℝ) ≤ r := by positivity
      have h3 := mul_le_mul_of_nonneg_right h1 hp.le
      have h4 := mul_le_mul_of_nonneg_right h2 hp.le
      apply cos_lo <;> linarith

/-- What arrives in the setting of the test: of every ten bits those in positions 0, 8 and 9 are read as true and those in positions 4, 5
and 6 as false, whatever was sent. -/
theorem C128_test [RIter ι Bool] {m : ι} {msg : List Bool} (h : Yields m msg) :
    (do let tx ← txFsk m 44100 900 (1800 : ℝ); let rx ← rxFsk tx 44100 900 (1800 : ℝ); collect rx)
      = pure (msg.mapIdx (fun n b => if n % 10 = 0 ∨ n % 10 = 8 ∨ n % 10 = 9 then true
        else if n % 10 = 4 ∨ n % 10 = 5 ∨ n % 10 = 6 then false else b)) := by
  have hfc : (1800 : ℝ) = ((2 * 900 : ℕ) : ℝ) := by norm_num
  obtain ⟨it, l, e1, e2, e3⟩ := fsk_sent h (1800 : ℝ) (fs := 44100) (sym := 900) (by norm_num)
  rw [e1, pure_bind, C128_decisions (by norm_num) e3 e2, ← range_map_getD]
  congr 1
  apply List.map_congr_left
  intro n _
  rw [hfc]
  have hk : ((44100 / 900 : ℕ) : ℝ) = 49 := by norm_num
  have ha : Real.pi * ((2 : ℕ) : ℝ) / 20 = Real.pi / 10 := by push_cast; ring
  obtain ⟨x1, x2⟩ := test_cross
  have hpi1 := Real.pi_gt_d4
  have hpi2 := Real.pi_lt_d4
  obtain ⟨q, r, hq, hr⟩ : ∃ q r, n = 10 * q + r ∧ r < 10 := ⟨n / 10, n % 10, by omega, by omega⟩
  have hmod : n % 10 = r := by omega
  rw [hmod]
  cases hb : msg.getD n false
  · obtain ⟨f1, f2⟩ := faded_cycles (fs := 44100) (sym := 900) (c := 2) (by norm_num) (by norm_num) (by norm_num) (by norm_num) msg (fun _ => 1)
      (fun _ => 0) n hb rfl rfl
    have t1 := tone_cycles (fs := 44100) (sym := 900) (c := 2) (by norm_num) (by norm_num) (by norm_num) false
    have t2 : tone 44100 ((2 * 900 : ℕ) : ℝ) false = 39 * Real.pi / 490 := by
      rw [t1, hk]; norm_num; ring
    rw [Bool.not_false] at f2
    rw [f1, f2, t2, hk, ha]
    simp only [Bool.false_eq_true, if_false]
    obtain ⟨r1, r2⟩ := test_ratio (w := 39 * Real.pi / 490) (by linarith) (by linarith)
    have hφ : Real.cos (2 * ((n : ℝ) * (-1 * (Real.pi / 10)) + 0) + (-1 * (Real.pi / 10) - 39 * Real.pi / 490))
        = Real.cos ((49 * (2 * r + 1) + 39) * (Real.pi / 490)) := by
      rw [← Real.cos_neg, ← Real.cos_add_nat_mul_two_pi ((49 * (2 * r + 1) + 39) * (Real.pi / 490)) q]
      congr 1
      rw [hq]; push_cast; ring
    rw [hφ]
    generalize hR : Real.sin (Real.pi / 10) / Real.sin (39 * Real.pi / 490) = R at *
    generalize (Real.sin (Real.pi / 10) / Real.sin (Real.pi / 10 / 49)) ^ 2 = X at *
    have hbad : 0.707 ≤ Real.cos ((49 * (2 * r + 1) + 39) * (Real.pi / 490)) →
        (1 / 2 : ℝ) ^ 2 * (49 ^ 2 + 2 * 49 * (-1 * R * Real.cos ((49 * (2 * r + 1) + 39) * (Real.pi / 490))) + R ^ 2) ≤ (1 / 2) ^ 2 * X := by
      intro hc
      nlinarith
    have hok : Real.cos ((49 * (2 * r + 1) + 39) * (Real.pi / 490)) ≤ 1 / 2 →
        ¬ (1 / 2 : ℝ) ^ 2 * (49 ^ 2 + 2 * 49 * (-1 * R * Real.cos ((49 * (2 * r + 1) + 39) * (Real.pi / 490))) + R ^ 2) ≤ (1 / 2) ^ 2 * X := by
      intro hc
      nlinarith
    by_cases hs : r = 0 ∨ r = 8 ∨ r = 9
    · rw [if_pos hs, decide_eq_true_eq]
      exact hbad ((test_false hr).1 hs)
    · rw [if_neg hs, ite_self, decide_eq_false_iff_not]
      exact hok ((test_false hr).2 hs)
  · obtain ⟨f1, f2⟩ := faded_cycles (fs := 44100) (sym := 900) (c := 2) (by norm_num) (by norm_num) (by norm_num) (by norm_num) msg (fun _ => 1)
      (fun _ => 0) n hb rfl rfl
    have t1 := tone_cycles (fs := 44100) (sym := 900) (c := 2) (by norm_num) (by norm_num) (by norm_num) true
    have t2 : tone 44100 ((2 * 900 : ℕ) : ℝ) true = 41 * Real.pi / 490 := by
      rw [t1, hk]; norm_num; ring
    rw [Bool.not_true] at f2
    rw [f1, f2, t2, hk, ha]
    simp only [if_true]
    obtain ⟨r1, r2⟩ := test_ratio (w := 41 * Real.pi / 490) (by linarith) (by linarith)
    have hφ : Real.cos (2 * ((n : ℝ) * (1 * (Real.pi / 10)) + 0) + (1 * (Real.pi / 10) - 41 * Real.pi / 490))
        = Real.cos ((49 * (2 * r + 1) - 41) * (Real.pi / 490)) := by
      rw [← Real.cos_add_nat_mul_two_pi ((49 * (2 * r + 1) - 41) * (Real.pi / 490)) q]
      congr 1
      rw [hq]; push_cast; ring
    rw [hφ]
    generalize hR : Real.sin (Real.pi / 10) / Real.sin (41 * Real.pi / 490) = R at *
    generalize (Real.sin (Real.pi / 10) / Real.sin (Real.pi / 10 / 49)) ^ 2 = X at *
    have hbad : Real.cos ((49 * (2 * r + 1) - 41) * (Real.pi / 490)) ≤ -0.707 →
        ¬ (1 / 2 : ℝ) ^ 2 * X ≤ (1 / 2) ^ 2 * (49 ^ 2 + 2 * 49 * (1 * R * Real.cos ((49 * (2 * r + 1) - 41) * (Real.pi / 490))) + R ^ 2) := by
      intro hc
      nlinarith
    have hok : -1 / 2 ≤ Real.cos ((49 * (2 * r + 1) - 41) * (Real.pi / 490)) →
        (1 / 2 : ℝ) ^ 2 * X ≤ (1 / 2) ^ 2 * (49 ^ 2 + 2 * 49 * (1 * R * Real.cos ((49 * (2 * r + 1) - 41) * (Real.pi / 490))) + R ^ 2) := by
      intro hc
      nlinarith
    by_cases hs : r = 4 ∨ r = 5 ∨ r = 6
    · rw [if_neg (by omega), if_pos hs, decide_eq_false_iff_not]
      exact hbad ((test_true hr).1 hs)
    · rw [if_neg hs, ite_self, decide_eq_true_eq]
      exact hok ((test_true hr).2 hs)

/-- The data of tests/fm.rs do not come back: the assertion in its line 27 fails. -/
theorem C128_fsk_graphs : ∃ rx : List Bool,
    (do let tx ← txFsk (ofList [false, false, true, false, false, true, false, true, true, true]) 44100 900 (1800 : ℝ)
        let rx ← rxFsk tx 44100 900 (1800 : ℝ); collect rx) = pure rx ∧
    rx ≠ [false, false, true, false, false, true, false, true, true, true] ∧
    rx = [true, false, true, false, false, false, false, true, true, true] := by
  refine ⟨_, C128_test (yields_ofList _), ?_, ?_⟩ <;> decide

/-- The messages that survive the setting of the tests: true in the positions ending in 0, 8 and 9 and false in those ending in 4, 5
and 6. -/
theorem C128_test_iff [RIter ι Bool] {m : ι} {msg : List Bool} (h : Yields m msg) :
    (do let tx ← txFsk m 44100 900 (1800 : ℝ); let rx ← rxFsk tx 44100 900 (1800 : ℝ); collect rx) = pure msg ↔
      ∀ n b, msg[n]? = some b → (n % 10 = 0 ∨ n % 10 = 8 ∨ n % 10 = 9 → b = true) ∧ (n % 10 = 4 ∨ n % 10 = 5 ∨ n % 10 = 6 → b = false) := by
  rw [C128_test h, RM.ok_inj]
  constructor
  · intro he n b hb
    have h1 := congrArg (fun l => l[n]?) he
    simp only [List.getElem?_mapIdx, hb, Option.map_some, Option.some_inj] at h1
    constructor
    · intro hs
      rw [if_pos hs] at h1
      exact h1.symm
    · intro hs
      rw [if_neg (by omega), if_pos hs] at h1
      exact h1.symm
  · intro he
    apply mapIdx_eq_self
    intro n b hb
    obtain ⟨h1, h2⟩ := he n b hb
    by_cases hs : n % 10 = 0 ∨ n % 10 = 8 ∨ n % 10 = 9
    · rw [if_pos hs, h1 hs]
    · rw [if_neg hs]
      by_cases ht : n % 10 = 4 ∨ n % 10 = 5 ∨ n % 10 = 6
      · rw [if_pos ht, h2 ht]
      · rw [if_neg ht]

/-- How many of the messages of `10 q` bits survive: `16^q` of `1024^q`.  The unit test of src/fm.rs (lines 85-113) draws one of the
`1024^400` messages of 4000 bits and asserts that it does. -/
theorem C128_unit_test (q : ℕ) :
    Nat.card {v : _root_.Fin (10 * q) → Bool //
      (do let tx ← txFsk (ofList (List.ofFn v)) 44100 900 (1800 : ℝ); let rx ← rxFsk tx 44100 900 (1800 : ℝ); collect rx)
        = pure (List.ofFn v)} = 16 ^ q := by
  have h1 : ∀ v : _root_.Fin (10 * q) → Bool,
      (do let tx ← txFsk (ofList (List.ofFn v)) 44100 900 (1800 : ℝ); let rx ← rxFsk tx 44100 900 (1800 : ℝ); collect rx)
        = pure (List.ofFn v) ↔ ∀ i, (i.val % 10 = 0 ∨ i.val % 10 = 8 ∨ i.val % 10 = 9 → v i = true) ∧
          (i.val % 10 = 4 ∨ i.val % 10 = 5 ∨ i.val % 10 = 6 → v i = false) := by
    intro v
    rw [C128_test_iff (yields_ofList _)]
    constructor
    · intro h i
      exact h i (v i) (by simp)
    · intro h n b hb
      rw [List.getElem?_ofFn] at hb
      split at hb
      · rename_i hn
        rw [Option.some_inj] at hb
        rw [← hb]
        exact h ⟨n, hn⟩
      · exact absurd hb (by simp)
  have h2 : ∀ n : ℕ, Nat.card {b : Bool // (n % 10 = 0 ∨ n % 10 = 8 ∨ n % 10 = 9 → b = true) ∧
      (n % 10 = 4 ∨ n % 10 = 5 ∨ n % 10 = 6 → b = false)}
        = if n % 10 = 1 ∨ n % 10 = 2 ∨ n % 10 = 3 ∨ n % 10 = 7 then 2 else 1 := by
    intro n
    rw [Nat.card_eq_fintype_card]
    have : n % 10 < 10 := Nat.mod_lt _ (by norm_num)
    generalize n % 10 = r at *
    interval_cases r <;> decide
  rw [Nat.card_congr (Equiv.subtypeEquivRight h1),
    Nat.card_congr (Equiv.subtypePiEquivPi (p := fun (i : _root_.Fin (10 * q)) (b : Bool) => (i.val % 10 = 0 ∨ i.val % 10 = 8 ∨ i.val % 10 = 9 → b = true) ∧
      (i.val % 10 = 4 ∨ i.val % 10 = 5 ∨ i.val % 10 = 6 → b = false))), Nat.card_pi]
  simp only [h2]
  rw [Fin.prod_univ_eq_prod_range (fun n => if n % 10 = 1 ∨ n % 10 = 2 ∨ n % 10 = 3 ∨ n % 10 = 7 then 2 else 1)]
  clear h1 h2
  induction q with
  | zero => rfl
  | succ q ih =>
    rw [Nat.mul_add, Finset.prod_range_add, ih, pow_succ]
    congr 1
    simp [Finset.prod_range_succ, Nat.add_mod]

/-! ## In double precision -/

/-- Modulator and receiver in double precision: bits whose two energies differ enough are read as in exact arithmetic. -/
theorem fsk_double [RIter ι Bool] {L : Libm} {ε : ℝ} (hε : ε ≤ 1 / 2 ^ 16) (hL : Accurate L ε (2 ^ 40)) {fs sym f : ℕ}
    (hfs : fs < 2 ^ 53) (hsps : 0 < fs / sym) {m : ι} {msg : List Bool} (hm : Yields m msg) (hlen : msg.length * (fs / sym) ≤ 2 ^ 30)
    (hk : fs / sym ≤ 2 ^ 30) (hf0 : 0 < f) (hf1 : 2 * f ≤ fs) :
    ∃ x : ℕ → Bool, (do let tx ← txFsk m fs sym (Flt.ofNat f : FloatL L); let rx ← rxFsk tx fs sym (Flt.ofNat f : FloatL L); collect rx)
        = pure ((List.range msg.length).map x) ∧
      ∀ n < msg.length, (0.00294 + 33 * ε) * ((fs / sym : ℕ) : ℝ) ^ 2
          < |toneEnergy (tone fs (f : ℝ) true) (fs / sym) (fun j => fadedFsk fs (f : ℝ) msg (fun _ => 1) (fun _ => 0) n (n * (fs / sym) + j))
            - toneEnergy (tone fs (f : ℝ) false) (fs / sym) (fun j => fadedFsk fs (f : ℝ) msg (fun _ => 1) (fun _ => 0) n (n * (fs / sym) + j))| →
        x n = decide (toneEnergy (tone fs (f : ℝ) false) (fs / sym) (fun j => fadedFsk fs (f : ℝ) msg (fun _ => 1) (fun _ => 0) n (n * (fs / sym) + j))
          ≤ toneEnergy (tone fs (f : ℝ) true) (fs / sym) (fun j => fadedFsk fs (f : ℝ) msg (fun _ => 1) (fun _ => 0) n (n * (fs / sym) + j))) := by
  obtain ⟨f1, f2⟩ := ofNat_exact (n := f) (by omega)
  have hfc : val (Flt.ofNat f : FloatL L) = (f : ℝ) := f2
  have f1 : F64.Fin (Flt.ofNat f : FloatL L) := f1
  have hε0 : 0 ≤ ε := (hL 0 fin_zero (by rw [val_zero]; norm_num)).1.nonneg
  have h1 : (1 : ℝ) ≤ (f : ℝ) := by exact_mod_cast hf0
  have hlo : 1 / 2 ^ 90 ≤ val (Flt.ofNat f : FloatL L) := by rw [hfc]; exact le_trans (by norm_num) h1
  have hhi : val (Flt.ofNat f : FloatL L) ≤ fs / 2 := by
    rw [hfc, le_div_iff₀ (by norm_num)]
    exact_mod_cast (by omega : f * 2 ≤ fs)
  have hN : msg.length ≤ 2 ^ 30 := (Nat.le_mul_of_pos_right _ hsps).trans hlen
  obtain ⟨it, e1, e2⟩ := txFsk_ok hm (fc := (Flt.ofNat f : FloatL L)) hsps
  have hnear := C127_sent_fsk_close (fc := (Flt.ofNat f : FloatL L)) hL hm hfs hsps (by omega) f1 hlo hhi
    (by rw [e1, pure_bind, collect_of_yields e2])
  have hε' : ε ≤ 1 / 65536 := by norm_num at hε ⊢; exact hε
  have hs400 : (1 : ℝ) / 2 ^ 400 ≤ 1 := by
    rw [div_le_one (by positivity)]
    exact one_le_pow₀ (by norm_num)
  obtain ⟨x, g1, g2⟩ := C127_fsk (fc := (Flt.ofNat f : FloatL L)) (hε.trans (by norm_num)) hL hfs hsps (by omega) f1 hlo hhi
    (S := 1 + (ε + 1 / 2 ^ 14)) (le_trans hs400 (le_add_of_nonneg_right (by positivity)))
    (le_trans (b := (2 : ℝ) ^ 1) (by norm_num; linarith) (pow_le_pow_right₀ (by norm_num) (by norm_num))) hnear
    (by
      intro i _
      unfold fadedFsk
      rw [one_mul]
      have := Real.abs_cos_le_one (angle fs (val (Flt.ofNat f : FloatL L) * (if msg.getD (i / (fs / sym)) false then 1.025 else 0.975)) i + 0)
      linarith) e2
  refine ⟨x, by rw [e1, pure_bind, g1], fun n hn hd => ?_⟩
  have g2 := g2 n hn
  rw [hfc] at g2
  apply g2
  refine lt_of_le_of_lt ?_ hd
  have hk2 : 0 ≤ ((fs / sym : ℕ) : ℝ) ^ 2 := by positivity
  have : 16 * ((1 + (ε + 1 / 2 ^ 14)) * (ε + 1 / 2 ^ 14 + (1 + (ε + 1 / 2 ^ 14)) * (ε + 1 / 2 ^ 13))) ≤ 0.00294 + 33 * ε := by
    norm_num
    nlinarith [mul_nonneg hε0 hε0, mul_nonneg hε0 (sub_nonneg.mpr hε'), mul_nonneg (mul_nonneg hε0 hε0) (sub_nonneg.mpr hε')]
  nlinarith [mul_le_mul_of_nonneg_left this hk2]

/-- The round trip in double precision, from three cycles per symbol and ten samples per cycle on. -/
theorem C128_roundtrip_ieee [RIter ι Bool] {L : Libm} {ε : ℝ} (hε : ε ≤ 1 / 2 ^ 16) (hL : Accurate L ε (2 ^ 40)) {fs sym c : ℕ}
    (hfs : fs < 2 ^ 53) (hsym : 0 < sym) (hdvd : sym ∣ fs) (hc : 3 ≤ c) (hk : 10 * c ≤ fs / sym) {m : ι} {msg : List Bool}
    (hm : Yields m msg) (hlen : msg.length * (fs / sym) ≤ 2 ^ 30) (hk1 : fs / sym ≤ 2 ^ 30) :
    (do let tx ← txFsk m fs sym (Flt.ofNat (c * sym) : FloatL L); let rx ← rxFsk tx fs sym (Flt.ofNat (c * sym) : FloatL L); collect rx)
      = pure msg := by
  have hsps : 0 < fs / sym := by omega
  have hfs0 : 0 < fs := by
    rcases Nat.eq_zero_or_pos fs with h | h
    · subst h; simp at hsps
    · exact h
  have hcs : 2 * (c * sym) ≤ fs := by
    have : fs / sym * sym = fs := Nat.div_mul_cancel hdvd
    have h2 : 10 * c * sym ≤ fs / sym * sym := Nat.mul_le_mul_right _ hk
    rw [this, Nat.mul_assoc] at h2
    omega
  have hkR : (0 : ℝ) < ((fs / sym : ℕ) : ℝ) := by exact_mod_cast hsps
  have hkc : 10 * (c : ℝ) ≤ ((fs / sym : ℕ) : ℝ) := by exact_mod_cast hk
  have hpi := Real.pi_lt_d4
  obtain ⟨x, e1, e2⟩ := fsk_double hε hL hfs hsps hm hlen hk1 (f := c * sym) (Nat.mul_pos (by omega) hsym) hcs
  rw [e1]
  congr 1
  have hid : msg = msg.mapIdx (fun _ b => b) := (mapIdx_eq_self (fun _ _ _ => rfl)).symm
  conv_rhs => rw [hid, ← range_map_getD]
  apply List.map_congr_left
  intro n hn
  have hn := List.mem_range.mp hn
  have e2 := e2 n hn
  obtain ⟨h1, h2⟩ := cycles_energies (B := 0.6441) (ρ := 0.93) (r := 0.0267) hsym hdvd hc (by nlinarith) (by norm_num) (by norm_num) (by norm_num)
    (by norm_num) (by norm_num) hfs0 msg (fun _ => 1) (fun _ => 0) n (b := msg.getD n false) rfl
  have hε' : ε ≤ 1 / 65536 := by norm_num at hε ⊢; exact hε
  have hlt : (1 / 2 : ℝ) ^ 2 * (0.9641 * ((fs / sym : ℕ) : ℝ)) ^ 2 + (0.00294 + 33 * ε) * ((fs / sym : ℕ) : ℝ) ^ 2
      < (1 / 2) ^ 2 * ((1 - 0.0267) * ((fs / sym : ℕ) : ℝ)) ^ 2 := by
    have hk2 : 0 < ((fs / sym : ℕ) : ℝ) ^ 2 := by positivity
    nlinarith
  have hz : 0 ≤ (0.00294 + 33 * ε) * ((fs / sym : ℕ) : ℝ) ^ 2 := by
    have hε0 : 0 ≤ ε := (hL 0 fin_zero (by rw [val_zero]; norm_num)).1.nonneg
    positivity
  cases hb : msg.getD n false
  · rw [hb, Bool.not_false] at h2
    rw [hb] at h1
    rw [e2 (by rw [abs_sub_comm]; exact lt_of_lt_of_le (by linarith) (le_abs_self _)), decide_eq_false_iff_not]; linarith
  · rw [hb, Bool.not_true] at h2
    rw [hb] at h1
    rw [e2 (lt_of_lt_of_le (by linarith) (le_abs_self _)), decide_eq_true_eq]; linarith

/-- The setting of the test in double precision, for any accurate sine and cosine: a true bit in a position ending in 5 is read as false. -/
theorem C128_test_ieee [RIter ι Bool] {L : Libm} {ε : ℝ} (hε : ε ≤ 1 / 2 ^ 18) (hL : Accurate L ε (2 ^ 40)) {m : ι} {msg : List Bool}
    (hm : Yields m msg) (hlen : msg.length * 49 ≤ 2 ^ 30) :
    ∃ rx : List Bool,
      (do let tx ← txFsk m 44100 900 (Flt.ofNat 1800 : FloatL L); let rx ← rxFsk tx 44100 900 (Flt.ofNat 1800 : FloatL L); collect rx)
        = pure rx ∧
      ∀ n, n % 10 = 5 → msg[n]? = some true → rx[n]? = some false := by
  obtain ⟨x, e1, e2⟩ := fsk_double (hε.trans (by norm_num)) hL (fs := 44100) (sym := 900) (f := 2 * 900) (by norm_num) (by norm_num) hm hlen
    (by norm_num) (by norm_num) (by norm_num)
  refine ⟨_, e1, fun n h5 hb => ?_⟩
  have hn : n < msg.length := by
    by_contra hc
    rw [List.getElem?_eq_none (by omega)] at hb
    exact absurd hb (by simp)
  rw [List.getElem?_map, List.getElem?_range hn, Option.map_some, Option.some_inj]
  have e2 := e2 n hn
  have hb : msg.getD n false = true := by rw [List.getD_eq_getElem?_getD, hb, Option.getD_some]
  obtain ⟨f1, f2⟩ := faded_cycles (fs := 44100) (sym := 900) (c := 2) (by norm_num) (by norm_num) (by norm_num) (by norm_num) msg (fun _ => 1)
    (fun _ => 0) n hb rfl rfl
  have t1 := tone_cycles (fs := 44100) (sym := 900) (c := 2) (by norm_num) (by norm_num) (by norm_num) true
  have hk : ((44100 / 900 : ℕ) : ℝ) = 49 := by norm_num
  have ha : Real.pi * ((2 : ℕ) : ℝ) / 20 = Real.pi / 10 := by push_cast; ring
  have hp1 := Real.pi_gt_d4
  have hp2 := Real.pi_lt_d4
  obtain ⟨c1, c2⟩ := test_cross
  have t2 : tone 44100 ((2 * 900 : ℕ) : ℝ) true = 41 * Real.pi / 490 := by
    rw [t1, hk]; norm_num; ring
  rw [Bool.not_true] at f2
  rw [f1, f2, t2, hk, ha] at e2
  simp only [if_true] at e2
  obtain ⟨r1, r2⟩ := test_ratio (w := 41 * Real.pi / 490) (by linarith) (by linarith)
  obtain ⟨q, hq⟩ : ∃ q, n = 10 * q + 5 := ⟨n / 10, by omega⟩
  have hφ : Real.cos (2 * ((n : ℝ) * (1 * (Real.pi / 10)) + 0) + (1 * (Real.pi / 10) - 41 * Real.pi / 490))
      = -Real.cos (8 * Real.pi / 490) := by
    rw [← Real.cos_add_pi, ← Real.cos_add_nat_mul_two_pi (8 * Real.pi / 490 + Real.pi) q]
    congr 1
    rw [hq]; push_cast; ring
  rw [hφ] at e2
  have hcos : 0.998 ≤ Real.cos (8 * Real.pi / 490) := by
    have := Real.one_sub_sq_div_two_le_cos (x := 8 * Real.pi / 490)
    nlinarith
  generalize hR : Real.sin (Real.pi / 10) / Real.sin (41 * Real.pi / 490) = R at *
  generalize (Real.sin (Real.pi / 10) / Real.sin (Real.pi / 10 / 49)) ^ 2 = X at *
  generalize Real.cos (8 * Real.pi / 490) = C at *
  have hε' : ε ≤ 1 / 262144 := by norm_num at hε ⊢; exact hε
  have hRC : 1.172 ≤ R * C := by nlinarith
  have hR2 : R ^ 2 ≤ 1.5876 := by nlinarith
  rw [e2 (by rw [abs_sub_comm]; refine lt_of_lt_of_le ?_ (le_abs_self _); nlinarith), decide_eq_false_iff_not]
  nlinarith

/-- … so the data of tests/fm.rs do not come back in double precision either. -/
theorem C128_fsk_graphs_ieee {L : Libm} {ε : ℝ} (hε : ε ≤ 1 / 2 ^ 18) (hL : Accurate L ε (2 ^ 40)) :
    ∃ rx : List Bool,
      (do let tx ← txFsk (ofList [false, false, true, false, false, true, false, true, true, true]) 44100 900 (Flt.ofNat 1800 : FloatL L)
          let rx ← rxFsk tx 44100 900 (Flt.ofNat 1800 : FloatL L); collect rx) = pure rx ∧
      rx ≠ [false, false, true, false, false, true, false, true, true, true] := by
  obtain ⟨rx, h1, h2⟩ := C128_test_ieee hε hL (yields_ofList [false, false, true, false, false, true, false, true, true, true]) (by norm_num)
  refine ⟨rx, h1, fun h => ?_⟩
  have := h2 5 rfl rfl
  rw [h] at this
  exact absurd this (by decide)

/-! ## Examples -/

/-- Three cycles of 2700 Hz per symbol: tones 2632.5 and 2767.5 Hz, 49 samples per symbol; the data of the test come back. -/
example : (do let tx ← txFsk (ofList [false, false, true, false, false, true, false, true, true, true]) 44100 900 ((3 * 900 : ℕ) : ℝ)
              let rx ← rxFsk tx 44100 900 ((3 * 900 : ℕ) : ℝ); collect rx)
    = pure [false, false, true, false, false, true, false, true, true, true] :=
  C128_roundtrip (yields_ofList _) (by norm_num) (by norm_num) le_rfl (by norm_num)

example : (do let tx ← txFsk (ofList [false, false, true]) 44100 900 (Flt.ofNat (3 * 900) : FloatL (Libm.rounded))
              let rx ← rxFsk tx 44100 900 (Flt.ofNat (3 * 900) : FloatL (Libm.rounded)); collect rx) = pure [false, false, true] :=
  C128_roundtrip_ieee (ε := 1 / 2 ^ 52) (by norm_num) (accurate_rounded _) (by norm_num) (by norm_num) (by norm_num) le_rfl (by norm_num)
    (yields_ofList _) (by norm_num) (by norm_num)

example : ∃ rx : List Bool,
      (do let tx ← txFsk (ofList [false, false, true, false, false, true, false, true, true, true]) 44100 900 (Flt.ofNat 1800 : FloatL Libm.rounded)
          let rx ← rxFsk tx 44100 900 (Flt.ofNat 1800 : FloatL Libm.rounded); collect rx) = pure rx ∧
      rx ≠ [false, false, true, false, false, true, false, true, true, true] :=
  C128_fsk_graphs_ieee (ε := 1 / 2 ^ 52) (by norm_num) (accurate_rounded _)

/-- Two cycles per symbol at 8000 Hz. -/
example : ∃ rx : List Bool, (do let tx ← txFsk (ofList [false, true]) 8000 200 ((2 * 200 : ℕ) : ℝ)
                                let rx ← rxFsk tx 8000 200 ((2 * 200 : ℕ) : ℝ); collect rx) = pure (true :: rx) :=
  C128_few (yields_ofList [false, true]) (by norm_num) (by norm_num) (Or.inr rfl) (by norm_num)

end Verif.Props
