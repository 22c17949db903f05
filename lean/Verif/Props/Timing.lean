import Verif.Lemmas.Timing
import Verif.Props.Offset

/-!
# C85: receivers that join late

Exact arithmetic. The receiver is started some samples after the transmitter, so that it sees the signal without its beginning.
The start is `d` whole symbols and `e` samples late, `k` samples being a symbol; a symbol holds a whole number `p` of half carrier
periods and `e` samples hold `q` of them. `flipped z` complements bits if `z` is odd.
-/
namespace Verif.Props
open Verif Spec
set_option linter.unusedSectionVars false
variable {ι κ : Type}

/-- The complement for odd `z`. -/
def flipped (z : ℤ) (b : Bool) : Bool := if Even z then b else !b

theorem sin_half_turns (x : ℝ) (z : ℤ) : Real.sin (x + z * Real.pi) = pm (decide (Even z)) * Real.sin x := by
  rw [Real.sin_add_int_mul_pi]
  by_cases h : Even z
  · rw [h.neg_one_zpow]; simp [pm, h]
  · rw [(Int.not_even_iff_odd.mp h).neg_one_zpow]; simp [pm, h]

theorem angle_late {fs k d e : ℕ} {fc : ℝ} {p q : ℤ} (hfs : 0 < fs) (hp : k * (2 * fc) = p * fs) (hq : e * (2 * fc) = q * fs) (i : ℕ) :
    angle fs fc (i + (d * k + e)) = angle fs fc i + (d * p + q : ℤ) * Real.pi := by
  have hF : (fs : ℝ) ≠ 0 := by exact_mod_cast hfs.ne'
  unfold angle
  field_simp
  push_cast
  linear_combination d * hp + hq

theorem fs_pos {fs sym : ℕ} (hsps : 0 < fs / sym) : 0 < fs := by
  rcases Nat.eq_zero_or_pos fs with rfl | h
  · simp at hsps
  · exact h

theorem half_dphi {fs e : ℕ} {fc : ℝ} {q : ℤ} (hfs : 0 < fs) (hq : e * (2 * fc) = q * fs) : e * dphi fs fc = q * Real.pi := by
  have hF : (fs : ℝ) ≠ 0 := by exact_mod_cast hfs.ne'
  unfold dphi
  field_simp
  linear_combination hq

/-- Whatever the amplitudes of the symbols are, the late receivers decide on the sum of the amplitudes of the two symbols they see
part of, weighted with the number of samples they see of each. -/
theorem C85_quadrature {fs sym M d e : ℕ} {fc : ℝ} (hsps : 0 < fs / sym) (he : e < fs / sym) {p q : ℤ}
    (hw : ∀ z : ℤ, 2 * fc ≠ z * fs) (hp : (fs / sym : ℕ) * (2 * fc) = p * fs) (hq : e * (2 * fc) = q * fs)
    {X Y : ℕ → ℝ} {r : List ℝ}
    (h : Recording r M (fs / sym) (fun n i => X n * Real.cos (angle fs fc i) - Y n * Real.sin (angle fs fc i))) :
    (do let rx ← rxBpsk (ofList (r.drop (d * (fs / sym) + e))) fs sym fc; collect rx)
      = pure ((List.range ((M * (fs / sym) - (d * (fs / sym) + e)) / (fs / sym))).map (fun n =>
        decide (0 < pm (decide (Even (d * p + q))) * ((fs / sym - e : ℕ) * X (n + d) + e * X (n + d + 1))))) ∧
    (do let rx ← rxQpsk (ofList (r.drop (d * (fs / sym) + e))) fs sym fc; collect rx)
      = pure ((List.range ((M * (fs / sym) - (d * (fs / sym) + e)) / (fs / sym))).flatMap (fun n =>
        [decide (0 ≤ pm (decide (Even (d * p + q))) * ((fs / sym - e : ℕ) * X (n + d) + e * X (n + d + 1))),
         decide (0 ≤ pm (decide (Even (d * p + q))) * ((fs / sym - e : ℕ) * Y (n + d) + e * Y (n + d + 1)))])) := by
  have hfs := fs_pos hsps
  have hs : Real.sin (dphi fs fc) ≠ 0 := ((show WholeHalf fs (fs / sym) fc from ⟨⟨p, hp⟩, hw⟩).dphi hsps).choose_spec.2
  obtain ⟨hlen, hrec⟩ := recording_drop (d := d) (e := e) he h rfl
  set N := (M * (fs / sym) - (d * (fs / sym) + e)) / (fs / sym)
  rw [rxBpsk_whole _ _ hsps, rxQpsk_whole _ _ hsps, hlen]
  rw [rxBpsk_recording hsps hrec (yields_ofList _), rxQpsk_recording hsps hrec (yields_ofList _)]
  set σ := pm (decide (Even (d * p + q)))
  set k := fs / sym
  have hp' := half_dphi hfs hp
  have hq' := half_dphi hfs hq
  have e0 : ∀ n, ∀ j < k, (X (if (n * k + j) % k < k - e then n + d else n + d + 1) * Real.cos (angle fs fc (n * k + j + (d * k + e)))
      - Y (if (n * k + j) % k < k - e then n + d else n + d + 1) * Real.sin (angle fs fc (n * k + j + (d * k + e))))
      = if j < k - e then σ * X (n + d) * Real.cos ((n * k + j : ℕ) * dphi fs fc) - σ * Y (n + d) * Real.sin ((n * k + j : ℕ) * dphi fs fc)
        else σ * X (n + d + 1) * Real.cos ((n * k + j : ℕ) * dphi fs fc) - σ * Y (n + d + 1) * Real.sin ((n * k + j : ℕ) * dphi fs fc) := by
    intro n j hj
    rw [angle_late hfs hp hq, cos_half_turns, sin_half_turns, angle_dphi, show (n * k + j) % k = j by rw [Nat.mul_comm, Nat.mul_add_mod, Nat.mod_eq_of_lt hj]]
    split_ifs <;> ring
  have e1 : ∀ n, ∑ j ∈ Finset.range k, (X (if (n * k + j) % k < k - e then n + d else n + d + 1)
      * Real.cos (angle fs fc (n * k + j + (d * k + e)))
      - Y (if (n * k + j) % k < k - e then n + d else n + d + 1) * Real.sin (angle fs fc (n * k + j + (d * k + e))))
      * Real.cos ((n * k + j : ℕ) * dphi fs fc) = σ * ((k - e : ℕ) * X (n + d) + e * X (n + d + 1)) / 2 := by
    intro n
    rw [Finset.sum_congr rfl (fun j hj => by rw [e0 n j (Finset.mem_range.mp hj)]), (split_corr he hp' hq' hs _ _ _ _ _).1]
    ring
  have e2 : ∀ n, ∑ j ∈ Finset.range k, (X (if (n * k + j) % k < k - e then n + d else n + d + 1)
      * Real.cos (angle fs fc (n * k + j + (d * k + e)))
      - Y (if (n * k + j) % k < k - e then n + d else n + d + 1) * Real.sin (angle fs fc (n * k + j + (d * k + e))))
      * -Real.sin ((n * k + j : ℕ) * dphi fs fc) = σ * ((k - e : ℕ) * Y (n + d) + e * Y (n + d + 1)) / 2 := by
    intro n
    rw [Finset.sum_congr rfl (fun j hj => by rw [e0 n j (Finset.mem_range.mp hj)]), (split_corr he hp' hq' hs _ _ _ _ _).2]
    ring
  have p1 : ∀ x : ℝ, 0 < x / 2 ↔ 0 < x := fun x => ⟨fun h => by linarith, fun h => by linarith⟩
  have p2 : ∀ x : ℝ, 0 ≤ x / 2 ↔ 0 ≤ x := fun x => ⟨fun h => by linarith, fun h => by linarith⟩
  simp only [e1, e2, p1, p2, and_self]

/-! ## Weighted decisions -/

theorem late_first {u v : ℝ} (h : v < u) (hv : 0 ≤ v) (z : ℤ) (a b : Bool) :
    decide (0 < pm (decide (Even z)) * (u * pm a + v * pm b)) = flipped z a ∧
    decide (0 ≤ pm (decide (Even z)) * (u * pm a + v * pm b)) = flipped z a := by
  unfold flipped
  by_cases hz : Even z <;> cases a <;> cases b <;> simp [pm, hz] <;> (try constructor) <;> linarith

theorem late_second {u v : ℝ} (h : u < v) (hu : 0 ≤ u) (z : ℤ) (a b : Bool) :
    decide (0 < pm (decide (Even z)) * (u * pm a + v * pm b)) = flipped z b ∧
    decide (0 ≤ pm (decide (Even z)) * (u * pm a + v * pm b)) = flipped z b := by
  unfold flipped
  by_cases hz : Even z <;> cases a <;> cases b <;> simp [pm, hz] <;> (try constructor) <;> linarith

theorem late_tie {u : ℝ} (hu : 0 < u) (z : ℤ) (a b : Bool) :
    decide (0 < pm (decide (Even z)) * (u * pm a + u * pm b)) = (flipped z a && flipped z b) ∧
    decide (0 ≤ pm (decide (Even z)) * (u * pm a + u * pm b)) = (flipped z a || flipped z b) := by
  unfold flipped
  by_cases hz : Even z <;> cases a <;> cases b <;> simp [pm, hz] <;> (try constructor) <;> linarith

theorem late_count {M k d e : ℕ} (he : e < k) :
    (M * k - (d * k + e)) / k = if e = 0 then M - d else M - d - 1 := by
  have hk : 0 < k := by omega
  split_ifs with h
  · rw [h, Nat.add_zero, ← Nat.sub_mul, Nat.mul_div_cancel _ hk]
  · rw [← Nat.sub_sub, ← Nat.sub_mul]
    rcases Nat.eq_zero_or_pos (M - d) with h0 | h0
    · rw [h0]; simp
    · rw [show (M - d) * k - e = (k - e) + (M - d - 1) * k by
        obtain ⟨x, hx⟩ : ∃ x, M - d = x + 1 := ⟨M - d - 1, by omega⟩
        rw [hx, Nat.add_mul, Nat.add_sub_cancel]; omega, Nat.add_mul_div_right _ _ hk, Nat.div_eq_of_lt (by omega)]
      omega

theorem range_drop (msg : List Bool) (f : Bool → Bool) (d N : ℕ) (hN : d + N ≤ msg.length) :
    (List.range N).map (fun n => f (msg.getD (n + d) false)) = ((msg.drop d).take N).map f := by
  apply List.ext_getElem?
  intro n
  by_cases hn : n < N
  · rw [List.getElem?_map, List.getElem?_map, List.getElem?_take_of_lt hn, List.getElem?_drop, List.getElem?_range hn,
      Nat.add_comm d n, Option.map_some, List.getD_eq_getElem?_getD, List.getElem?_eq_getElem (show n + d < msg.length by omega)]
    rfl
  · rw [List.getElem?_eq_none (by simp; omega), List.getElem?_eq_none (by simp; omega)]

theorem range_drop_two (msg : List Bool) (f : Bool → Bool) (d N : ℕ) (hN : 2 * d + 2 * N ≤ msg.length) :
    (List.range N).flatMap (fun n => [f (msg.getD (2 * (n + d)) false), f (msg.getD (2 * (n + d) + 1) false)])
      = ((msg.drop (2 * d)).take (2 * N)).map f := by
  set l := (msg.drop (2 * d)).take (2 * N) with hl
  have hlen : l.length = 2 * N := by rw [hl, List.length_take, List.length_drop]; omega
  conv_rhs => rw [← flatMap_two l (by omega)]
  rw [List.map_flatMap, show l.length / 2 = N by omega, List.flatMap_def, List.flatMap_def]
  congr 1
  apply List.map_congr_left
  intro n hn
  have hn := List.mem_range.mp hn
  simp only [List.map_cons, List.map_nil]
  rw [hl]
  simp only [List.getD_eq_getElem?_getD]
  rw [List.getElem?_take_of_lt (by omega), List.getElem?_take_of_lt (by omega), List.getElem?_drop, List.getElem?_drop,
    show 2 * d + 2 * n = 2 * (n + d) by ring, show 2 * d + (2 * n + 1) = 2 * (n + d) + 1 by ring]

/-! ## BPSK -/

theorem clean_bpsk_quad [RIter ι Bool] {m : ι} {msg : List Bool} (h : Yields m msg) {fs sym : ℕ} {fc : ℝ} (hsps : 0 < fs / sym)
    {a : List ℝ} (ha : (do let tx ← txBpsk m fs sym fc; collect tx) = pure a) :
    Recording a msg.length (fs / sym) (fun n i => pm (msg.getD n false) * Real.cos (angle fs fc i)
      - (0 : ℝ) * Real.sin (angle fs fc i)) := by
  have h1 := C81_clean_bpsk h hsps ha
  refine ⟨h1.1, fun i hi => ?_⟩
  rw [h1.2 i hi, fadedBpsk, add_zero, one_mul]; beta_reduce; rw [zero_mul, sub_zero]

/-- Joining whole symbols late: the earlier bits are missing, the others are returned (complemented if the time missed is an odd
number of half carrier periods). -/
theorem C85_bpsk_symbols [RIter ι Bool] {m : ι} {msg : List Bool} (h : Yields m msg) {fs sym d : ℕ} {fc : ℝ} (hsps : 0 < fs / sym)
    (hw : ∀ z : ℤ, 2 * fc ≠ z * fs) {p : ℤ} (hp : (fs / sym : ℕ) * (2 * fc) = p * fs)
    {a : List ℝ} (ha : (do let tx ← txBpsk m fs sym fc; collect tx) = pure a) :
    (do let rx ← rxBpsk (ofList (a.drop (d * (fs / sym)))) fs sym fc; collect rx) = pure ((msg.drop d).map (flipped (d * p))) := by
  have := (C85_quadrature (d := d) hsps (e := 0) hsps (q := 0) hw hp (by simp) (clean_bpsk_quad h hsps ha)).1
  rw [Nat.add_zero] at this
  rw [this, show ∀ M, (M * (fs / sym) - d * (fs / sym)) / (fs / sym) = M - d from fun M => by rw [← Nat.sub_mul, Nat.mul_div_cancel _ hsps]]
  have hk : (0 : ℝ) < (fs / sym - 0 : ℕ) := by exact_mod_cast hsps
  simp only [add_zero, Nat.cast_zero, (late_first hk le_rfl _ _ _).1]
  rcases le_total d msg.length with hd | hd
  · rw [range_drop _ _ _ _ (by omega), List.take_of_length_le (by simp)]
  · rw [List.drop_eq_nil_of_le hd, show msg.length - d = 0 by omega]; rfl

/-- Joining less than half a symbol after a symbol boundary: as if joined at the boundary, except that the last bit is missing. -/
theorem C85_bpsk_first [RIter ι Bool] {m : ι} {msg : List Bool} (h : Yields m msg) {fs sym d e : ℕ} {fc : ℝ} (hsps : 0 < fs / sym)
    (he0 : 0 < e) (he : 2 * e < fs / sym) (hw : ∀ z : ℤ, 2 * fc ≠ z * fs) {p q : ℤ} (hp : (fs / sym : ℕ) * (2 * fc) = p * fs)
    (hq : e * (2 * fc) = q * fs) {a : List ℝ} (ha : (do let tx ← txBpsk m fs sym fc; collect tx) = pure a) :
    (do let rx ← rxBpsk (ofList (a.drop (d * (fs / sym) + e))) fs sym fc; collect rx)
      = pure ((msg.drop d).dropLast.map (flipped (d * p + q))) := by
  rw [(C85_quadrature (d := d) hsps (e := e) (by omega) hw hp hq (clean_bpsk_quad h hsps ha)).1, late_count (by omega),
    if_neg (by omega)]
  have hk : (e : ℝ) < (fs / sym - e : ℕ) := by exact_mod_cast (show e < fs / sym - e by omega)
  simp only [(late_first hk (Nat.cast_nonneg e) _ _ _).1]
  rw [List.dropLast_eq_take, List.length_drop]
  rcases le_total d msg.length with hd | hd
  · rw [range_drop _ _ _ _ (by omega)]
  · rw [List.drop_eq_nil_of_le hd, show msg.length - d = 0 by omega]; rfl

/-- Joining more than half a symbol after a boundary: as if joined at the next boundary. -/
theorem C85_bpsk_second [RIter ι Bool] {m : ι} {msg : List Bool} (h : Yields m msg) {fs sym d e : ℕ} {fc : ℝ} (hsps : 0 < fs / sym)
    (he : fs / sym < 2 * e) (he' : e < fs / sym) (hw : ∀ z : ℤ, 2 * fc ≠ z * fs) {p q : ℤ} (hp : (fs / sym : ℕ) * (2 * fc) = p * fs)
    (hq : e * (2 * fc) = q * fs) {a : List ℝ} (ha : (do let tx ← txBpsk m fs sym fc; collect tx) = pure a) :
    (do let rx ← rxBpsk (ofList (a.drop (d * (fs / sym) + e))) fs sym fc; collect rx)
      = pure ((msg.drop (d + 1)).map (flipped (d * p + q))) := by
  rw [(C85_quadrature (d := d) hsps (e := e) he' hw hp hq (clean_bpsk_quad h hsps ha)).1, late_count he', if_neg (by omega)]
  have hk : ((fs / sym - e : ℕ) : ℝ) < e := by exact_mod_cast (show fs / sym - e < e by omega)
  simp only [(late_second hk (Nat.cast_nonneg _) _ _ _).1, Nat.add_assoc]
  rcases le_total (d + 1) msg.length with hd | hd
  · rw [range_drop _ _ _ _ (by omega), List.take_of_length_le (by simp; omega)]
  · rw [List.drop_eq_nil_of_le hd, show msg.length - d - 1 = 0 by omega]; rfl

/-- Joining exactly half a symbol late: only where two neighbouring bits agree is anything but `false` returned. -/
theorem C85_bpsk_tie [RIter ι Bool] {m : ι} {msg : List Bool} (h : Yields m msg) {fs sym d e : ℕ} {fc : ℝ} (hsps : 0 < fs / sym)
    (he : 2 * e = fs / sym) (hw : ∀ z : ℤ, 2 * fc ≠ z * fs) {p q : ℤ} (hp : (fs / sym : ℕ) * (2 * fc) = p * fs)
    (hq : e * (2 * fc) = q * fs) {a : List ℝ} (ha : (do let tx ← txBpsk m fs sym fc; collect tx) = pure a) :
    (do let rx ← rxBpsk (ofList (a.drop (d * (fs / sym) + e))) fs sym fc; collect rx)
      = pure (List.zipWith (fun x y => flipped (d * p + q) x && flipped (d * p + q) y) (msg.drop d) (msg.drop (d + 1))) := by
  rw [(C85_quadrature (d := d) hsps (e := e) (by omega) hw hp hq (clean_bpsk_quad h hsps ha)).1, late_count (by omega),
    if_neg (by omega), show fs / sym - e = e by omega]
  have hk : (0 : ℝ) < (e : ℕ) := by exact_mod_cast (show 0 < e by omega)
  simp only [(late_tie hk _ _ _).1]
  congr 1
  apply List.ext_getElem?
  intro n
  rw [List.getElem?_map, List.getElem?_zipWith, List.getElem?_drop, List.getElem?_drop]
  by_cases hn : n < msg.length - d - 1
  · rw [List.getElem?_range hn, List.getElem?_eq_getElem (show d + n < msg.length by omega),
      List.getElem?_eq_getElem (show d + 1 + n < msg.length by omega)]
    simp only [Option.map_some, List.getD_eq_getElem?_getD]
    rw [List.getElem?_eq_getElem (show n + d < msg.length by omega), List.getElem?_eq_getElem (show n + d + 1 < msg.length by omega)]
    simp only [Option.getD_some, Nat.add_comm n d, show d + 1 + n = d + n + 1 by omega]
  · rw [List.getElem?_eq_none (by simpa using hn), List.getElem?_eq_none (show msg.length ≤ d + 1 + n by omega)]
    cases msg[d + n]? <;> rfl

/-! ## QPSK -/

theorem clean_qpsk_quad [RIter ι Bool] {m : ι} {msg : List Bool} (h : Yields m msg) {fs sym : ℕ} {fc : ℝ} (hsps : 0 < fs / sym)
    {a : List ℝ} (ha : (do let tx ← txQpsk m fs sym fc; collect tx) = pure a) :
    Recording a (msg.length / 2) (fs / sym) (fun n i => pm (msg.getD (2 * n) false) * Real.cos (angle fs fc i)
      - pm (msg.getD (2 * n + 1) false) * Real.sin (angle fs fc i)) := by
  have h1 := C81_clean_qpsk h hsps ha
  refine ⟨h1.1, fun i hi => ?_⟩
  rw [h1.2 i hi, fadedQpsk, add_zero, one_mul]

/-- Joining whole symbols late. -/
theorem C85_qpsk_symbols [RIter ι Bool] {m : ι} {msg : List Bool} (h : Yields m msg) (hev : msg.length % 2 = 0) {fs sym d : ℕ} {fc : ℝ}
    (hsps : 0 < fs / sym) (hw : ∀ z : ℤ, 2 * fc ≠ z * fs) {p : ℤ} (hp : (fs / sym : ℕ) * (2 * fc) = p * fs)
    {a : List ℝ} (ha : (do let tx ← txQpsk m fs sym fc; collect tx) = pure a) :
    (do let rx ← rxQpsk (ofList (a.drop (d * (fs / sym)))) fs sym fc; collect rx)
      = pure ((msg.drop (2 * d)).map (flipped (d * p))) := by
  have := (C85_quadrature (d := d) hsps (e := 0) hsps (q := 0) hw hp (by simp) (clean_qpsk_quad h hsps ha)).2
  rw [Nat.add_zero] at this
  rw [this, show ∀ M, (M * (fs / sym) - d * (fs / sym)) / (fs / sym) = M - d from fun M => by rw [← Nat.sub_mul, Nat.mul_div_cancel _ hsps]]
  have hk : (0 : ℝ) < (fs / sym - 0 : ℕ) := by exact_mod_cast hsps
  simp only [add_zero, Nat.cast_zero, (late_first hk le_rfl _ _ _).2]
  rcases le_total (2 * d) msg.length with hd | hd
  · rw [range_drop_two _ _ _ _ (by omega), List.take_of_length_le (by simp; omega)]
  · rw [List.drop_eq_nil_of_le hd, show msg.length / 2 - d = 0 by omega]; rfl

/-- Joining less than half a symbol after a symbol boundary. -/
theorem C85_qpsk_first [RIter ι Bool] {m : ι} {msg : List Bool} (h : Yields m msg) (hev : msg.length % 2 = 0) {fs sym d e : ℕ} {fc : ℝ}
    (hsps : 0 < fs / sym) (he0 : 0 < e) (he : 2 * e < fs / sym) (hw : ∀ z : ℤ, 2 * fc ≠ z * fs) {p q : ℤ}
    (hp : (fs / sym : ℕ) * (2 * fc) = p * fs) (hq : e * (2 * fc) = q * fs)
    {a : List ℝ} (ha : (do let tx ← txQpsk m fs sym fc; collect tx) = pure a) :
    (do let rx ← rxQpsk (ofList (a.drop (d * (fs / sym) + e))) fs sym fc; collect rx)
      = pure ((msg.drop (2 * d)).dropLast.dropLast.map (flipped (d * p + q))) := by
  rw [(C85_quadrature (d := d) hsps (e := e) (by omega) hw hp hq (clean_qpsk_quad h hsps ha)).2, late_count (by omega),
    if_neg (by omega)]
  have hk : (e : ℝ) < (fs / sym - e : ℕ) := by exact_mod_cast (show e < fs / sym - e by omega)
  simp only [(late_first hk (Nat.cast_nonneg e) _ _ _).2]
  rw [List.dropLast_eq_take, List.dropLast_eq_take, List.length_take, List.length_drop, List.take_take]
  rcases le_total (2 * d + 2) msg.length with hd | hd
  · rw [range_drop_two _ _ _ _ (by omega)]
    congr 3
    omega
  · rw [show msg.length / 2 - d - 1 = 0 by omega, show min (min (msg.length - 2 * d - 1) (msg.length - 2 * d) - 1)
      (msg.length - 2 * d - 1) = 0 by omega]
    rfl

/-- Joining more than half a symbol after a boundary. -/
theorem C85_qpsk_second [RIter ι Bool] {m : ι} {msg : List Bool} (h : Yields m msg) (hev : msg.length % 2 = 0) {fs sym d e : ℕ}
    {fc : ℝ} (hsps : 0 < fs / sym) (he : fs / sym < 2 * e) (he' : e < fs / sym) (hw : ∀ z : ℤ, 2 * fc ≠ z * fs) {p q : ℤ}
    (hp : (fs / sym : ℕ) * (2 * fc) = p * fs) (hq : e * (2 * fc) = q * fs)
    {a : List ℝ} (ha : (do let tx ← txQpsk m fs sym fc; collect tx) = pure a) :
    (do let rx ← rxQpsk (ofList (a.drop (d * (fs / sym) + e))) fs sym fc; collect rx)
      = pure ((msg.drop (2 * (d + 1))).map (flipped (d * p + q))) := by
  rw [(C85_quadrature (d := d) hsps (e := e) he' hw hp hq (clean_qpsk_quad h hsps ha)).2, late_count he', if_neg (by omega)]
  have hk : ((fs / sym - e : ℕ) : ℝ) < e := by exact_mod_cast (show fs / sym - e < e by omega)
  simp only [(late_second hk (Nat.cast_nonneg _) _ _ _).2, Nat.add_assoc]
  rcases le_total (2 * (d + 1)) msg.length with hd | hd
  · rw [range_drop_two _ _ _ _ (by omega), List.take_of_length_le (by simp; omega)]
  · rw [List.drop_eq_nil_of_le hd, show msg.length / 2 - d - 1 = 0 by omega]; rfl

/-! ## Whole symbols: with a key, FSK, silence before the signal -/

theorem key_dvd {fs sym L : ℕ} (hsym : 0 < sym) (hdvd : sym * L ∣ fs) : L ∣ fs / sym := by
  obtain ⟨c, rfl⟩ := hdvd
  rw [Nat.mul_assoc, Nat.mul_div_cancel_left _ hsym]
  exact Dvd.intro c rfl

theorem chip_late {key : List Bool} {k d i : ℕ} (hk : 0 < k) (hL : key.length ∣ k) : chip key k (i + d * k) = chip key k i := by
  unfold chip; rw [chip_index hk hL]

theorem angle_whole {fs k d : ℕ} {fc : ℝ} {p : ℤ} (hfs : 0 < fs) (hp : k * (2 * fc) = p * fs) (i : ℕ) :
    angle fs fc (i + d * k) = angle fs fc i + (d * p : ℤ) * Real.pi := by
  have := angle_late (d := d) (e := 0) hfs hp (q := 0) (by simp) i
  rwa [Nat.add_zero, add_zero] at this

theorem C85_cdma_bpsk_symbols [RIter ι Bool] {m : ι} {msg : List Bool} (h : Yields m msg) {fs sym d : ℕ} {fc : ℝ} {key : List Bool}
    (hfs : fs < 2 ^ 64) (hsym : 0 < sym) (hL : 0 < key.length) (hdvd : sym * key.length ∣ fs)
    (hnyq : 2 * (sym * key.length) ≤ fs) (hfc : ⌊fc⌋₊ ≤ fs / 2)
    (hw : ∀ z : ℤ, 2 * fc ≠ z * fs) {p : ℤ} (hp : (fs / sym : ℕ) * (2 * fc) = p * fs)
    {a : List ℝ} (ha : (do let tx ← txCdmaBpsk m fs sym fc key; collect tx) = pure a) :
    (do let rx ← rxCdmaBpsk (ofList (a.drop (d * (fs / sym)))) fs sym fc key; collect rx)
      = pure ((msg.drop d).map (flipped (d * p))) := by
  have hok := (cdmaOk_real (fc := fc) hfs).mpr ⟨hsym, hL, hdvd, hnyq, hfc⟩
  have hsps : 0 < fs / sym := by have := hok.sps; omega
  have hrec := recording_drop_symbols (d := d) hsps (C81_clean_cdma_bpsk h ha)
  set σ := pm (decide (Even (d * p)))
  have hrec' : Recording (a.drop (d * (fs / sym))) (msg.length - d) (fs / sym) (fun n i =>
      (σ * pm (msg.getD (n + d) false) * Real.cos (angle fs fc i) - (0 : ℝ) * Real.sin (angle fs fc i)) * chip key (fs / sym) i) := by
    refine ⟨hrec.1, fun i hi => ?_⟩
    rw [hrec.2 i hi]; beta_reduce
    rw [fadedBpsk, chip_late hsps (key_dvd hsym hdvd), angle_whole (fs_pos hsps) hp, add_zero, cos_half_turns]
    congr 1; ring
  rw [(C81_quadrature_cdma hfs hsym hL hdvd hnyq hfc ⟨⟨p, hp⟩, hw⟩ (X := fun n => σ * pm (msg.getD (n + d) false)) (Y := fun _ => 0)
    hrec' (yields_ofList _)).1]
  have hd : ∀ b, decide (0 < σ * pm b) = flipped (d * p) b := fun b => by
    have := (late_first (u := 1) (v := 0) one_pos le_rfl (d * p) b b).1
    simpa using this
  simp only [hd]
  rcases le_total d msg.length with hd | hd
  · rw [range_drop _ _ _ _ (by omega), List.take_of_length_le (by simp)]
  · rw [List.drop_eq_nil_of_le hd, show msg.length - d = 0 by omega]; rfl

theorem C85_cdma_qpsk_symbols [RIter ι Bool] {m : ι} {msg : List Bool} (h : Yields m msg) (hev : msg.length % 2 = 0) {fs sym d : ℕ}
    {fc : ℝ} {key : List Bool} (hfs : fs < 2 ^ 64) (hsym : 0 < sym) (hL : 0 < key.length) (hdvd : sym * key.length ∣ fs)
    (hnyq : 2 * (sym * key.length) ≤ fs) (hfc : ⌊fc⌋₊ ≤ fs / 2)
    (hw : ∀ z : ℤ, 2 * fc ≠ z * fs) {p : ℤ} (hp : (fs / sym : ℕ) * (2 * fc) = p * fs)
    {a : List ℝ} (ha : (do let tx ← txCdmaQpsk m fs sym fc key; collect tx) = pure a) :
    (do let rx ← rxCdmaQpsk (ofList (a.drop (d * (fs / sym)))) fs sym fc key; collect rx)
      = pure ((msg.drop (2 * d)).map (flipped (d * p))) := by
  have hok := (cdmaOk_real (fc := fc) hfs).mpr ⟨hsym, hL, hdvd, hnyq, hfc⟩
  have hsps : 0 < fs / sym := by have := hok.sps; omega
  have hrec := recording_drop_symbols (d := d) hsps (C81_clean_cdma_qpsk h ha)
  set σ := pm (decide (Even (d * p)))
  have hrec' : Recording (a.drop (d * (fs / sym))) (msg.length / 2 - d) (fs / sym) (fun n i =>
      (σ * pm (msg.getD (2 * (n + d)) false) * Real.cos (angle fs fc i)
        - σ * pm (msg.getD (2 * (n + d) + 1) false) * Real.sin (angle fs fc i)) * chip key (fs / sym) i) := by
    refine ⟨hrec.1, fun i hi => ?_⟩
    rw [hrec.2 i hi]; beta_reduce
    rw [fadedQpsk, chip_late hsps (key_dvd hsym hdvd), angle_whole (fs_pos hsps) hp, add_zero, cos_half_turns, sin_half_turns]
    congr 1; ring
  rw [(C81_quadrature_cdma hfs hsym hL hdvd hnyq hfc ⟨⟨p, hp⟩, hw⟩ (X := fun n => σ * pm (msg.getD (2 * (n + d)) false))
    (Y := fun n => σ * pm (msg.getD (2 * (n + d) + 1) false)) hrec' (yields_ofList _)).2]
  have hd : ∀ b, decide (0 ≤ σ * pm b) = flipped (d * p) b := fun b => by
    have := (late_first (u := 1) (v := 0) one_pos le_rfl (d * p) b b).2
    simpa using this
  simp only [hd]
  rcases le_total (2 * d) msg.length with hd | hd
  · rw [range_drop_two _ _ _ _ (by omega), List.take_of_length_le (by simp; omega)]
  · rw [List.drop_eq_nil_of_le hd, show msg.length / 2 - d = 0 by omega]; rfl

/-- FSK does not depend on the carrier phase at all, so nothing is complemented. -/
theorem C85_fsk_symbols [RIter ι Bool] {m : ι} {msg : List Bool} (h : Yields m msg) {fs sym c d : ℕ} (hsym : 0 < sym) (hc : 0 < c)
    (hdvd : sym ∣ fs) (hny : (41 * c * sym : ℕ) < fs)
    {a : List ℝ} (ha : (do let tx ← txFsk m fs sym ((20 * c * sym : ℕ) : ℝ); collect tx) = pure a) :
    (do let rx ← rxFsk (ofList (a.drop (d * (fs / sym)))) fs sym ((20 * c * sym : ℕ) : ℝ); collect rx) = pure (msg.drop d) := by
  have hfs : 0 < fs := by omega
  have hsps : 0 < fs / sym := Nat.div_pos (Nat.le_of_dvd hfs hdvd) hsym
  have hrec := recording_drop_symbols (d := d) hsps (C81_clean_fsk h hsps ha)
  refine C81_fsk hsym hc hdvd hny (g := fun _ => 1)
    (θ := fun n => angle fs (((20 * c * sym : ℕ) : ℝ) * (if (msg.drop d).getD n false then 1.025 else 0.975)) (d * (fs / sym)))
    (fun _ _ => one_ne_zero) ?_ (yields_ofList _)
  rw [List.length_drop]
  refine ⟨hrec.1, fun i hi => ?_⟩
  rw [hrec.2 i hi]; beta_reduce
  rw [fadedFsk, fadedFsk, show (msg.drop d).getD (i / (fs / sym)) false = msg.getD (i / (fs / sym) + d) false by
    simp only [List.getD_eq_getElem?_getD, List.getElem?_drop]; rw [Nat.add_comm], add_zero]
  congr 3
  unfold angle
  push_cast
  ring

/-- A receiver started `d` symbols before the transmitter returns `false` until the signal begins. -/
theorem C85_bpsk_silence [RIter ι Bool] {m : ι} {msg : List Bool} (h : Yields m msg) {fs sym d : ℕ} {fc : ℝ} (hsps : 0 < fs / sym)
    (hw : ∀ z : ℤ, 2 * fc ≠ z * fs) {p : ℤ} (hp : (fs / sym : ℕ) * (2 * fc) = p * fs)
    {a : List ℝ} (ha : (do let tx ← txBpsk m fs sym fc; collect tx) = pure a) :
    (do let rx ← rxBpsk (ofList (List.replicate (d * (fs / sym)) 0 ++ a)) fs sym fc; collect rx)
      = pure (List.replicate d false ++ msg.map (flipped (d * p))) := by
  have hrec := recording_silence (d := d) hsps (clean_bpsk_quad h hsps ha)
  set σ := pm (decide (Even (d * p))) with hσ
  have hrec' : Recording (List.replicate (d * (fs / sym)) 0 ++ a) (d + msg.length) (fs / sym) (fun n i =>
      (if n < d then 0 else σ * pm (msg.getD (n - d) false)) * Real.cos (angle fs fc i) - (0 : ℝ) * Real.sin (angle fs fc i)) := by
    refine ⟨hrec.1, fun i hi => ?_⟩
    rw [hrec.2 i hi]; beta_reduce
    split_ifs with hd
    · simp
    · have hi' : d * (fs / sym) ≤ i := by
        have := Nat.div_mul_le_self i (fs / sym)
        exact (Nat.mul_le_mul_right _ (by omega)).trans this
      have := angle_whole (d := d) (fs_pos hsps) hp (i - d * (fs / sym))
      rw [Nat.sub_add_cancel hi'] at this
      rw [this, cos_half_turns, sin_half_turns, ← hσ]
      have : σ * σ = 1 := pm_sq _
      congr 1
      linear_combination (-pm (msg.getD (i / (fs / sym) - d) false) * Real.cos (angle fs fc (i - d * (fs / sym)))) * this
  rw [(C81_quadrature hsps ⟨⟨p, hp⟩, hw⟩ (X := fun n => if n < d then 0 else σ * pm (msg.getD (n - d) false)) (Y := fun _ => 0)
    hrec' (yields_ofList _)).1]
  congr 1
  have hd : ∀ b, decide (0 < σ * pm b) = flipped (d * p) b := fun b => by
    have := (late_first (u := 1) (v := 0) one_pos le_rfl (d * p) b b).1
    simpa using this
  rw [List.range_add, List.map_append]
  congr 1
  · rw [List.eq_replicate_iff]
    refine ⟨by simp, fun b hb => ?_⟩
    obtain ⟨n, hn, rfl⟩ := List.mem_map.mp hb
    rw [if_pos (List.mem_range.mp hn)]
    simp
  · rw [List.map_map]
    have : ∀ n ∈ List.range msg.length, ((fun n => decide (0 < if n < d then 0 else σ * pm (msg.getD (n - d) false))) ∘ (d + ·)) n
        = flipped (d * p) (msg.getD (n + 0) false) := by
      intro n _
      simp only [Function.comp]
      rw [if_neg (by omega), Nat.add_sub_cancel_left, hd, Nat.add_zero]
    rw [List.map_congr_left this, range_drop msg _ 0 _ (by omega), List.drop_zero, List.take_length]

/-! ## Instances -/

theorem not_half_8000 : ∀ z : ℤ, 2 * (1000 : ℝ) ≠ z * (8000 : ℕ) := whole_8000.2

theorem accepted_1000 (msg : List Bool) : ∃ a, (do let tx ← txBpsk (ofList msg) 8000 1000 (1000 : ℝ); collect tx) = pure a := by
  obtain ⟨it, h1, h2⟩ := txBpsk_ok (yields_ofList msg) (fs := 8000) (sym := 1000) (fc := (1000 : ℝ)) (by norm_num)
    (by rw [Flt.toNat_real]; norm_num) ((isInt_real (by norm_num) (by norm_num)).mpr (by norm_num))
  exact ⟨_, by rw [h1, pure_bind, collect_of_yields h2]⟩

theorem accepted_1000_qpsk (msg : List Bool) : ∃ a, (do let tx ← txQpsk (ofList msg) 8000 1000 (1000 : ℝ); collect tx) = pure a := by
  obtain ⟨it, h1, h2⟩ := txQpsk_ok (yields_ofList msg) (fs := 8000) (sym := 1000) (fc := (1000 : ℝ)) (by norm_num)
  exact ⟨_, by rw [h1, pure_bind, collect_of_yields h2]⟩

/-- At 8000 samples per second and a carrier of 1000 Hz, four samples are half a period. One symbol late: the first bit is missing;
one symbol before the signal: an additional `false`. -/
example : ∃ a, (do let tx ← txBpsk (ofList [true, false, true]) 8000 1000 (1000 : ℝ); collect tx) = pure a ∧
    (do let rx ← rxBpsk (ofList (a.drop (1 * (8000 / 1000)))) 8000 1000 1000; collect rx) = pure [false, true] ∧
    (do let rx ← rxBpsk (ofList (List.replicate (1 * (8000 / 1000)) 0 ++ a)) 8000 1000 1000; collect rx)
      = pure [false, true, false, true] ∧
    (do let rx ← rxBpsk (ofList (a.drop (0 * (8000 / 1000) + 4))) 8000 1000 1000; collect rx) = pure [false, false] := by
  obtain ⟨a, ha⟩ := accepted_1000 [true, false, true]
  refine ⟨a, ha, (C85_bpsk_symbols (d := 1) (yields_ofList _) (by norm_num) not_half_8000 (p := 2) (by norm_num) ha).trans ?_,
    (C85_bpsk_silence (d := 1) (yields_ofList _) (by norm_num) not_half_8000 (p := 2) (by norm_num) ha).trans ?_,
    (C85_bpsk_tie (d := 0) (e := 4) (yields_ofList _) (by norm_num) (by norm_num) not_half_8000 (p := 2) (q := 1) (by norm_num)
      (by norm_num) ha).trans ?_⟩ <;> simp [flipped]

theorem not_half_2000 : ∀ z : ℤ, 2 * (2000 : ℝ) ≠ z * (8000 : ℕ) := by
  intro z h
  have : (1 : ℝ) = (z * 2 : ℤ) := by push_cast at h ⊢; linarith
  have h2 : (1 : ℤ) = z * 2 := by exact_mod_cast this
  omega

/-- With a carrier of 2000 Hz two samples are half a period. Two samples late the bits are complemented, and the last is missing;
six samples late the first is missing. -/
example (msg : List Bool) {a : List ℝ} (ha : (do let tx ← txBpsk (ofList msg) 8000 1000 (2000 : ℝ); collect tx) = pure a) :
    (do let rx ← rxBpsk (ofList (a.drop (0 * (8000 / 1000) + 2))) 8000 1000 2000; collect rx) = pure (msg.dropLast.map (!·)) ∧
    (do let rx ← rxBpsk (ofList (a.drop (0 * (8000 / 1000) + 6))) 8000 1000 2000; collect rx) = pure ((msg.drop 1).map (!·)) := by
  have hodd : ∀ z : ℤ, z % 2 = 1 → flipped z = (!·) := fun z hz => by
    funext b; rw [flipped, if_neg (by rw [Int.even_iff]; omega)]
  refine ⟨(C85_bpsk_first (d := 0) (e := 2) (yields_ofList _) (by norm_num) (by norm_num) (by norm_num) not_half_2000 (p := 4) (q := 1)
    (by norm_num) (by norm_num) ha).trans ?_,
    (C85_bpsk_second (d := 0) (e := 6) (yields_ofList _) (by norm_num) (by norm_num) (by norm_num) not_half_2000 (p := 4) (q := 3)
    (by norm_num) (by norm_num) ha).trans ?_⟩
  · rw [List.drop_zero, hodd _ (by norm_num)]
  · rw [hodd _ (by norm_num)]

example : ∃ a, (do let tx ← txQpsk (ofList [true, false, false, false]) 8000 1000 (1000 : ℝ); collect tx) = pure a ∧
    (do let rx ← rxQpsk (ofList (a.drop (1 * (8000 / 1000)))) 8000 1000 1000; collect rx) = pure [false, false] := by
  obtain ⟨a, ha⟩ := accepted_1000_qpsk [true, false, false, false]
  refine ⟨a, ha, (C85_qpsk_symbols (d := 1) (yields_ofList _) (by rfl) (by norm_num) not_half_8000 (p := 2) (by norm_num) ha).trans ?_⟩
  simp [flipped]

example (msg : List Bool) (hev : msg.length % 2 = 0) {a : List ℝ}
    (ha : (do let tx ← txQpsk (ofList msg) 8000 1000 (2000 : ℝ); collect tx) = pure a) :
    (do let rx ← rxQpsk (ofList (a.drop (0 * (8000 / 1000) + 2))) 8000 1000 2000; collect rx)
      = pure (msg.dropLast.dropLast.map (!·)) ∧
    (do let rx ← rxQpsk (ofList (a.drop (0 * (8000 / 1000) + 6))) 8000 1000 2000; collect rx) = pure ((msg.drop 2).map (!·)) := by
  have hodd : ∀ z : ℤ, z % 2 = 1 → flipped z = (!·) := fun z hz => by
    funext b; rw [flipped, if_neg (by rw [Int.even_iff]; omega)]
  refine ⟨(C85_qpsk_first (d := 0) (e := 2) (yields_ofList _) hev (by norm_num) (by norm_num) (by norm_num) not_half_2000 (p := 4)
    (q := 1) (by norm_num) (by norm_num) ha).trans ?_,
    (C85_qpsk_second (d := 0) (e := 6) (yields_ofList _) hev (by norm_num) (by norm_num) (by norm_num) not_half_2000 (p := 4) (q := 3)
    (by norm_num) (by norm_num) ha).trans ?_⟩
  · rw [Nat.mul_zero, List.drop_zero, hodd _ (by norm_num)]
  · rw [hodd _ (by norm_num)]

theorem ok_1000 : CdmaOk 8000 1000 (1000 : ℝ) 4 := (cdmaOk_real (by norm_num)).mpr
  ⟨by norm_num, by norm_num, by norm_num, by norm_num, by norm_num⟩

example : ∃ a, (do let tx ← txCdmaBpsk (ofList [true, false, true]) 8000 1000 (1000 : ℝ) [true, false, false, true]; collect tx) = pure a ∧
    (do let rx ← rxCdmaBpsk (ofList (a.drop (2 * (8000 / 1000)))) 8000 1000 1000 [true, false, false, true]; collect rx)
      = pure [true] := by
  obtain ⟨it, h1, h2⟩ := txCdmaBpsk_ok (yields_ofList [true, false, true]) (key := [true, false, false, true]) ok_1000
  obtain ⟨a, ha⟩ : ∃ a, (do let tx ← txCdmaBpsk (ofList [true, false, true]) 8000 1000 (1000 : ℝ) [true, false, false, true]; collect tx) = pure a :=
    ⟨_, by rw [h1, pure_bind, collect_of_yields h2]⟩
  refine ⟨a, ha, (C85_cdma_bpsk_symbols (d := 2) (yields_ofList _) (by norm_num) (by norm_num) (by decide) (by decide) (by decide)
    (by norm_num) not_half_8000 (p := 2) (by norm_num) ha).trans ?_⟩
  simp [flipped]; decide

example : ∃ a, (do let tx ← txCdmaQpsk (ofList [true, false, true, true]) 8000 1000 (1000 : ℝ) [true, false, false, true]; collect tx) = pure a ∧
    (do let rx ← rxCdmaQpsk (ofList (a.drop (1 * (8000 / 1000)))) 8000 1000 1000 [true, false, false, true]; collect rx)
      = pure [true, true] := by
  obtain ⟨it, h1, h2⟩ := txCdmaQpsk_ok (yields_ofList [true, false, true, true]) (key := [true, false, false, true]) ok_1000
  obtain ⟨a, ha⟩ : ∃ a, (do let tx ← txCdmaQpsk (ofList [true, false, true, true]) 8000 1000 (1000 : ℝ) [true, false, false, true]; collect tx) = pure a :=
    ⟨_, by rw [h1, pure_bind, collect_of_yields h2]⟩
  refine ⟨a, ha, (C85_cdma_qpsk_symbols (d := 1) (yields_ofList _) (by rfl) (by norm_num) (by norm_num) (by decide) (by decide)
    (by decide) (by norm_num) not_half_8000 (p := 2) (by norm_num) ha).trans ?_⟩
  simp [flipped]

example : ∃ a, (do let tx ← txFsk (ofList [true, false, true]) 8000 100 ((20 * 1 * 100 : ℕ) : ℝ); collect tx) = pure a ∧
    (do let rx ← rxFsk (ofList (a.drop (1 * (8000 / 100)))) 8000 100 ((20 * 1 * 100 : ℕ) : ℝ); collect rx) = pure [false, true] := by
  obtain ⟨it, h1, h2⟩ := txFsk_ok (yields_ofList [true, false, true]) (fs := 8000) (sym := 100) (fc := ((20 * 1 * 100 : ℕ) : ℝ))
    (by norm_num)
  obtain ⟨a, ha⟩ : ∃ a, (do let tx ← txFsk (ofList [true, false, true]) 8000 100 ((20 * 1 * 100 : ℕ) : ℝ); collect tx) = pure a :=
    ⟨_, by rw [h1, pure_bind, collect_of_yields h2]⟩
  exact ⟨a, ha, C85_fsk_symbols (d := 1) (yields_ofList _) (by norm_num) (by norm_num) (by norm_num) (by norm_num) ha⟩

end Verif.Props
