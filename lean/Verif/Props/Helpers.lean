import Verif.Lemmas.Helpers
import Verif.Lemmas.Wave
import Mathlib.Analysis.SpecialFunctions.Trigonometric.Bounds
import Mathlib.Algebra.BigOperators.Group.List.Basic
import Mathlib.Algebra.Order.BigOperators.Group.List
import Mathlib.Analysis.Complex.ExponentialBounds

/-!
# Properties C13–C16, C52–C56, C61: helper functions of `src/lib.rs` and `src/willie.rs`

Theorems about `ℝ` read the code in exact arithmetic.  Theorems with an arbitrary number type `F` hold in particular
for IEEE `f64`.
-/
namespace Verif.Props
open Verif

variable {T ι ν : Type}

/-! ## C13 fftshift -/

theorem C13_position (x : List T) (i : ℕ) (hi : i < x.length) :
    (fftshift x)[(i + x.length / 2) % x.length]? = x[i]? := fftshift_getElem? x i hi

example : (fftshift [10, 11, 12, 13, 14])[0]? = some 13 := C13_position [10, 11, 12, 13, 14] 3 (by decide)

theorem C13_length (x : List T) : (fftshift x).length = x.length := fftshift_length x

theorem C13_perm (x : List T) : (fftshift x).Perm x := by
  rw [fftshift_eq_rotate]; exact List.rotate_perm x _

theorem C13_even (x : List T) (h : x.length % 2 = 0) : fftshift (fftshift x) = x := fftshift_even x h

example (a b c d : T) : fftshift (fftshift [a, b, c, d]) = [a, b, c, d] := C13_even [a, b, c, d] (by simp)

/-- For odd lengths applying it twice moves every item one place back. -/
theorem C13_odd (x : List T) (h : x.length % 2 = 1) (i : ℕ) (hi : i < x.length) :
    (fftshift (fftshift x))[i]? = x[(i + 1) % x.length]? := by
  rw [fftshift_fftshift, List.getElem?_rotate hi,
    show i + ((x.length + 1) / 2 + (x.length + 1) / 2) = (i + 1) + x.length by omega, Nat.add_mod_right]

example : (fftshift (fftshift [10, 11, 12, 13, 14]))[4]? = some 10 := C13_odd [10, 11, 12, 13, 14] rfl 4 (by decide)

/-- It is its own inverse exactly for even lengths and for constant lists. -/
theorem C13_involutive_iff (x : List T) :
    fftshift (fftshift x) = x ↔ x.length % 2 = 0 ∨ ∀ a ∈ x, ∀ b ∈ x, a = b := by
  constructor
  · intro h
    rcases Nat.mod_two_eq_zero_or_one x.length with h0 | h1
    · exact .inl h0
    · right
      have hstep : ∀ i, i + 1 < x.length → x[i + 1]? = x[i]? := by
        intro i hi
        have := C13_odd x h1 i (by omega)
        rw [h, Nat.mod_eq_of_lt hi] at this
        exact this.symm
      have hz : ∀ i, i < x.length → x[i]? = x[0]? := by
        intro i
        induction i with
        | zero => intro _; rfl
        | succ i ih => intro hi; rw [hstep i hi, ih (by omega)]
      intro a ha b hb
      obtain ⟨i, hi, rfl⟩ := List.mem_iff_getElem.mp ha
      obtain ⟨j, hj, rfl⟩ := List.mem_iff_getElem.mp hb
      have h1 := hz i hi
      have h2 := hz j hj
      rw [← h2, List.getElem?_eq_getElem hi, List.getElem?_eq_getElem hj] at h1
      exact Option.some.inj h1
  · rintro (h | h)
    · exact fftshift_even x h
    · have hc : ∀ y : List T, y.Perm x → y = x := by
        intro y hy
        apply List.ext_getElem hy.length_eq
        intro i h1 h2
        exact h _ (hy.mem_iff.mp (List.getElem_mem h1)) _ (List.getElem_mem h2)
      exact hc _ ((C13_perm _).trans (C13_perm _))

example : fftshift [0, 1, 2, 3] = [2, 3, 0, 1] ∧ fftshift [0, 1, 2] = [2, 0, 1] ∧
    fftshift (fftshift [0, 1, 2]) = [1, 2, 0] := by decide

/-! ## C14 fftshift_mut -/

/-- What the code does: the argument is left unchanged, whatever it is. -/
theorem C14_fftshift_mut_identity (x : List T) : fftshiftMut x = pure x := fftshiftMut_eq x

/-- The claim holds where `fftshift` is itself the identity: at most one item.  Missing: longer slices, where it is
false (`C14_refuted`). -/
theorem C14_fftshift_mut_partial (x : List T) (h : x.length ≤ 1) : fftshiftMut x = pure (fftshift x) := by
  rw [fftshiftMut_eq]
  match x, h with
  | [], _ => simp [fftshift]
  | [_], _ => simp [fftshift]

example (a : T) : fftshiftMut [a] = pure (fftshift [a]) := C14_fftshift_mut_partial [a] (by simp)

theorem C14_refuted : ¬ ∀ x : List ℕ, fftshiftMut x = pure (fftshift x) := by
  intro h
  have := h [0, 1]
  rw [fftshiftMut_eq, RM.ok_inj] at this
  revert this; decide

example : fftshiftMut [1, 2, 3, 4] = pure [1, 2, 3, 4] := C14_fftshift_mut_identity _

/-! ## C15 linspace -/

/-- `n` points, for every number type (IEEE included). -/
theorem C15_length {F : Type} [Add F] [Sub F] [Mul F] [Div F] [Flt F] (a b : F) (n : ℕ) :
    ∃ l, Yields (linspace a b n) l ∧ l.length = n := by
  refine ⟨_, (yields_ofList _).rmap _, by simp⟩

theorem C15_points (a b : ℝ) (n : ℕ) :
    ∃ l, Yields (linspace a b n) l ∧ l.length = n ∧ (∀ i, i < n → l[i]? = some (a + i * (b - a) / n)) := by
  refine ⟨_, (yields_ofList _).rmap _, by simp, ?_⟩
  intro i hi
  simp [hi]
  ring

theorem C15_increasing (a b : ℝ) (hab : a < b) (n : ℕ) :
    ∃ l, Yields (linspace a b n) l ∧ (0 < n → l[0]? = some a) ∧ (∀ x ∈ l, a ≤ x ∧ x < b) ∧
      l.Pairwise (· < ·) := by
  obtain ⟨l, hy, hlen, hget⟩ := C15_points a b n
  have hget' : ∀ i (hi : i < l.length), l[i] = a + i * (b - a) / n := fun i hi =>
    Option.some.inj ((List.getElem?_eq_getElem hi).symm.trans (hget i (hlen ▸ hi)))
  have hba : 0 < b - a := sub_pos.mpr hab
  refine ⟨l, hy, fun hn => by rw [hget 0 hn]; simp, ?_, ?_⟩
  · intro x hx
    obtain ⟨i, hi, rfl⟩ := List.mem_iff_getElem.mp hx
    have hin : i < n := hlen ▸ hi
    have hn : (0 : ℝ) < n := by exact_mod_cast (by omega : 0 < n)
    rw [hget' i hi]
    constructor
    · have : 0 ≤ (i : ℝ) * (b - a) / n := by positivity
      linarith
    · have : (i : ℝ) * (b - a) / n < b - a := by
        rw [div_lt_iff₀ hn, mul_comm]
        exact mul_lt_mul_of_pos_left (by exact_mod_cast hin) hba
      linarith
  · rw [List.pairwise_iff_getElem]
    intro i j hi hj hij
    have hn : (0 : ℝ) < n := by exact_mod_cast (by omega : 0 < n)
    rw [hget' i hi, hget' j hj]
    have : (i : ℝ) * (b - a) / n < j * (b - a) / n := by
      rw [div_lt_div_iff_of_pos_right hn]
      exact mul_lt_mul_of_pos_right (by exact_mod_cast hij) hba
    linarith

example : ∃ l, Yields (linspace (1 : ℝ) 3 4) l ∧ l = [1, 3 / 2, 2, 5 / 2] := by
  obtain ⟨l, h1, h2, h3⟩ := C15_points 1 3 4
  refine ⟨l, h1, ?_⟩
  apply List.ext_getElem?
  intro i
  by_cases hi : i < 4
  · rw [h3 i hi]
    have : i = 0 ∨ i = 1 ∨ i = 2 ∨ i = 3 := by omega
    rcases this with rfl | rfl | rfl | rfl <;> norm_num
  · rw [List.getElem?_eq_none (by omega), List.getElem?_eq_none (by simp; omega)]

/-! ## C16 ber -/

/-- Number of differing positions of the common prefix. -/
def diffCount (tx rx : List Bool) : ℕ := (tx.zip rx).countP (fun p => p.1 != p.2)

theorem ber_errors (tx rx : List Bool) (acc : ℕ) :
    ((tx.zip rx).map (fun p : Bool × Bool => if p.1 == p.2 then 0 else 1)).foldl (· + ·) acc
      = acc + diffCount tx rx := by
  unfold diffCount
  induction tx.zip rx generalizing acc with
  | nil => simp
  | cons p l ih =>
    rw [List.map_cons, List.foldl_cons, ih, List.countP_cons]
    rcases p with ⟨_ | _, _ | _⟩ <;> simp <;> omega

/-- For every number type: the quotient of the two counts. -/
theorem C16_value {F : Type} [Div F] [Flt F] (tx rx : List Bool) :
    (ber tx rx : F) = Flt.ofNat (diffCount tx rx) / Flt.ofNat (min tx.length rx.length) := by
  unfold ber
  have := ber_errors tx rx 0
  rw [Nat.zero_add] at this
  simp only []
  rw [this]

theorem C16_symm {F : Type} [Div F] [Flt F] (tx rx : List Bool) : (ber tx rx : F) = ber rx tx := by
  rw [C16_value, C16_value, Nat.min_comm]
  congr 2
  unfold diffCount
  induction tx generalizing rx with
  | nil => simp
  | cons a tx ih => cases rx with
    | nil => simp
    | cons b rx => rw [List.zip_cons_cons, List.zip_cons_cons, List.countP_cons, List.countP_cons, ih]; simp [bne_comm]

theorem C16_range (tx rx : List Bool) (h : 0 < min tx.length rx.length) :
    0 ≤ (ber tx rx : ℝ) ∧ (ber tx rx : ℝ) ≤ 1 := by
  rw [C16_value]
  have hc : diffCount tx rx ≤ min tx.length rx.length := by
    have := List.countP_le_length (p := fun p : Bool × Bool => p.1 != p.2) (l := tx.zip rx)
    rwa [List.length_zip] at this
  have hn : (0 : ℝ) < ((min tx.length rx.length : ℕ) : ℝ) := by exact_mod_cast h
  constructor
  · simp only [Flt.ofNat_real]; positivity
  · simp only [Flt.ofNat_real]; rw [div_le_one hn]; exact_mod_cast hc

example (a b : Bool) : (ber [a, true] [b] : ℝ) ≤ 1 := (C16_range _ _ (by simp)).2

theorem C16_zero_iff (tx rx : List Bool) (h : 0 < min tx.length rx.length) :
    (ber tx rx : ℝ) = 0 ↔ ∀ i, i < min tx.length rx.length → tx[i]? = rx[i]? := by
  rw [C16_value]
  have hn : ((min tx.length rx.length : ℕ) : ℝ) ≠ 0 := by exact_mod_cast h.ne'
  simp only [Flt.ofNat_real]
  rw [div_eq_zero_iff, or_iff_left hn, Nat.cast_eq_zero, diffCount, List.countP_eq_zero]
  constructor
  · intro H i hi
    have h1 : i < tx.length := by omega
    have h2 : i < rx.length := by omega
    have := H (tx[i], rx[i]) (by rw [List.mem_iff_getElem]; exact ⟨i, by simp; omega, by simp⟩)
    rw [List.getElem?_eq_getElem h1, List.getElem?_eq_getElem h2]
    simpa using this
  · intro H p hp
    obtain ⟨i, hi, rfl⟩ := List.mem_iff_getElem.mp hp
    have hi' : i < min tx.length rx.length := by simpa using hi
    have := H i hi'
    rw [List.getElem?_eq_getElem (by omega), List.getElem?_eq_getElem (by omega)] at this
    simpa using Option.some.inj this

example (a : Bool) : (ber [a, true, false] [a, true] : ℝ) = 0 :=
  (C16_zero_iff _ _ (by simp)).mpr (fun i hi => by
    match i, hi with
    | 0, _ => rfl
    | 1, _ => rfl
    | i + 2, hi => exact absurd hi (by simp))

theorem C16_one_iff (tx rx : List Bool) (h : 0 < min tx.length rx.length) :
    (ber tx rx : ℝ) = 1 ↔ ∀ i, i < min tx.length rx.length → tx[i]? ≠ rx[i]? := by
  rw [C16_value]
  have hn : ((min tx.length rx.length : ℕ) : ℝ) ≠ 0 := by exact_mod_cast h.ne'
  simp only [Flt.ofNat_real]
  rw [div_eq_one_iff_eq hn, Nat.cast_inj, diffCount, ← List.length_zip, List.countP_eq_length]
  constructor
  · intro H i hi
    have h1 : i < tx.length := by rw [List.length_zip] at hi; omega
    have h2 : i < rx.length := by rw [List.length_zip] at hi; omega
    have := H (tx[i], rx[i]) (by rw [List.mem_iff_getElem]; exact ⟨i, hi, by simp⟩)
    rw [List.getElem?_eq_getElem h1, List.getElem?_eq_getElem h2]
    simpa using this
  · intro H p hp
    obtain ⟨i, hi, rfl⟩ := List.mem_iff_getElem.mp hp
    have hi' : i < min tx.length rx.length := by simpa using hi
    have := H i hi
    rw [List.getElem?_eq_getElem (by omega), List.getElem?_eq_getElem (by omega)] at this
    simpa using this

example : (ber [true, false, true, true] [true, true, true] : ℝ) = 1 / 3 := by
  rw [C16_value]; norm_num [diffCount]

/-! ## C52 Hamming windows -/

theorem C52_values (n : ℕ) : (hammingWindow n : List ℝ).length = n ∧
    ∀ i, i < n → (hammingWindow n : List ℝ)[i]? = some (0.54 - 0.46 * Real.cos (2 * Real.pi * i / n)) := by
  refine ⟨by simp [hammingWindow], fun i hi => ?_⟩
  simp [hammingWindow, hi, hammingAt]
  norm_num

theorem C52_bounds (n : ℕ) : ∀ w ∈ (hammingWindow n : List ℝ), 0.08 ≤ w ∧ w ≤ 1 := by
  intro w hw
  obtain ⟨i, _, rfl⟩ := List.mem_map.mp hw
  simp only [hammingAt, Flt.lit_real, Flt.cos_real, Flt.ofNat_real, Flt.pi_real]
  have h1 := Real.neg_one_le_cos ((2 : ℕ) * Real.pi * i / n)
  have h2 := Real.cos_le_one ((2 : ℕ) * Real.pi * i / n)
  constructor <;> norm_num at * <;> linarith

theorem C52_start (n : ℕ) (hn : 0 < n) : (hammingWindow n : List ℝ)[0]? = some (0.08 : ℝ) := by
  rw [(C52_values n).2 0 hn]; norm_num

example : (hammingWindow 5 : List ℝ)[0]? = some (0.08 : ℝ) := C52_start 5 (by decide)

theorem C52_symm (n i : ℕ) (h0 : 0 < i) (hi : i < n) :
    (hammingWindow n : List ℝ)[i]? = (hammingWindow n : List ℝ)[n - i]? := by
  rw [(C52_values n).2 i hi, (C52_values n).2 (n - i) (by omega)]
  have hn : (n : ℝ) ≠ 0 := by exact_mod_cast (by omega : n ≠ 0)
  rw [Nat.cast_sub (by omega),
    show 2 * Real.pi * ((n : ℝ) - i) / n = 2 * Real.pi - 2 * Real.pi * i / n by field_simp, Real.cos_two_pi_sub]

example : (hammingWindow 5 : List ℝ)[2]? = (hammingWindow 5 : List ℝ)[3]? := C52_symm 5 2 (by decide) (by decide)

theorem C52_complex {F : Type} [Sub F] [Mul F] [Div F] [Zero F] [Flt F] (n : ℕ) :
    (hammingWindowComplex n : List (Cx F)).map Cx.re = hammingWindow n ∧
      ∀ z ∈ (hammingWindowComplex n : List (Cx F)), z.im = 0 := by
  constructor
  · simp [hammingWindowComplex, hammingWindow, Function.comp_def]
  · intro z hz
    obtain ⟨i, _, rfl⟩ := List.mem_map.mp hz
    rfl

example : (hammingWindow 2 : List ℝ)[1]? = some 1 := by
  rw [(C52_values 2).2 1 (by decide)]
  norm_num

/-! ## C53 energy and power -/

theorem energy_real [RIter ι ℝ] {src : ι} {l : List ℝ} (h : Yields src l) (fs : ℝ) :
    energy src fs = pure ((l.map (fun x => x ^ 2)).sum / fs) := by
  unfold energy
  rw [collect_of_yields (h.rmap _), pure_bind, rsum_eq_sum]
  simp

/-- The energy: the sum of the squares over the rate. (A rate of 0 is left out here and below: the code then divides by zero,
which exact arithmetic does not describe.) -/
theorem C53_energy [RIter ι ℝ] {src : ι} {l : List ℝ} (h : Yields src l) (fs : ℝ) (_hfs : fs ≠ 0) :
    energy src fs = pure ((l.map (fun x => x ^ 2)).sum / fs) := energy_real h fs

example : energy (ofList [(3 : ℝ), 4]) 5 = pure 5 := by
  rw [C53_energy (yields_ofList _) 5 (by norm_num)]
  norm_num

theorem sum_sq_nonneg (l : List ℝ) : 0 ≤ (l.map (fun x => x ^ 2)).sum :=
  List.sum_nonneg (by intro x hx; obtain ⟨y, _, rfl⟩ := List.mem_map.mp hx; positivity)

theorem sum_sq_eq_zero (l : List ℝ) : (l.map (fun x => x ^ 2)).sum = 0 ↔ ∀ x ∈ l, x = 0 := by
  induction l with
  | nil => simp
  | cons a l ih =>
    rw [List.map_cons, List.sum_cons, add_eq_zero_iff_of_nonneg (sq_nonneg a) (sum_sq_nonneg l), ih]
    simp

/-- Non-negative; zero exactly for the zero signal. -/
theorem C53_nonneg [RIter ι ℝ] {src : ι} {l : List ℝ} (h : Yields src l) (fs : ℝ) (hfs : 0 < fs) :
    ∃ e, energy src fs = pure e ∧ 0 ≤ e ∧ (e = 0 ↔ ∀ x ∈ l, x = 0) := by
  refine ⟨_, energy_real h fs, div_nonneg (sum_sq_nonneg l) hfs.le, ?_⟩
  rw [div_eq_zero_iff, or_iff_left hfs.ne', sum_sq_eq_zero]

example : ∃ e, energy (ofList [(0 : ℝ), -2]) 4 = pure e ∧ 0 ≤ e ∧ e ≠ 0 := by
  obtain ⟨e, h1, h2, h3⟩ := C53_nonneg (yields_ofList [(0 : ℝ), -2]) 4 (by norm_num)
  exact ⟨e, h1, h2, fun h => by simpa using h3.mp h⟩

/-- Additive under concatenation. -/
theorem C53_additive {ι₁ ι₂ : Type} [RIter ι ℝ] [RIter ι₁ ℝ] [RIter ι₂ ℝ] {src : ι} {src₁ : ι₁} {src₂ : ι₂}
    {l₁ l₂ : List ℝ} (h : Yields src (l₁ ++ l₂)) (h₁ : Yields src₁ l₁) (h₂ : Yields src₂ l₂) (fs : ℝ) (_hfs : fs ≠ 0) :
    ∃ e₁ e₂, energy src₁ fs = pure e₁ ∧ energy src₂ fs = pure e₂ ∧ energy src fs = pure (e₁ + e₂) := by
  refine ⟨_, _, energy_real h₁ fs, energy_real h₂ fs, ?_⟩
  rw [energy_real h fs, List.map_append, List.sum_append, add_div]

example : ∃ e₁ e₂, energy (ofList [(3 : ℝ), 4]) 5 = pure e₁ ∧ energy (ofList [(1 : ℝ)]) 5 = pure e₂ ∧
    energy (ofList [(3 : ℝ), 4, 1]) 5 = pure (e₁ + e₂) :=
  C53_additive (l₁ := [3, 4]) (l₂ := [1]) (yields_ofList [(3 : ℝ), 4, 1]) (yields_ofList _) (yields_ofList _) 5 (by norm_num)

/-- Scales with the square of the amplitude. -/
theorem C53_scaling {ι₁ : Type} [RIter ι ℝ] [RIter ι₁ ℝ] {src : ι} {src₁ : ι₁} {l : List ℝ} (c : ℝ)
    (h : Yields src (l.map (c * ·))) (h₁ : Yields src₁ l) (fs : ℝ) (_hfs : fs ≠ 0) :
    ∃ e, energy src₁ fs = pure e ∧ energy src fs = pure (c ^ 2 * e) := by
  refine ⟨_, energy_real h₁ fs, ?_⟩
  rw [energy_real h fs, List.map_map, ← mul_div_assoc, ← List.sum_map_mul_left]
  congr 4
  funext x; simp [mul_pow]

example : ∃ e, energy (ofList [(3 : ℝ), 4]) 5 = pure e ∧ energy (ofList [((-2 : ℝ) * 3), -2 * 4]) 5 = pure ((-2) ^ 2 * e) :=
  C53_scaling (-2) (yields_ofList [((-2 : ℝ) * 3), -2 * 4]) (yields_ofList [(3 : ℝ), 4]) 5 (by norm_num)

/-- `avg_energy * n = energy * fs`. -/
theorem C53_avg_energy [RIter ι ℝ] {src : ι} {l : List ℝ} (h : Yields src l) (hl : l ≠ []) (fs : ℝ) (hfs : fs ≠ 0) :
    ∃ e, energy src fs = pure e ∧ avgEnergy l * l.length = e * fs := by
  refine ⟨_, energy_real h fs, ?_⟩
  have : (l.length : ℝ) ≠ 0 := by exact_mod_cast (List.length_pos_iff.mpr hl).ne'
  unfold avgEnergy
  rw [rsum_eq_sum]
  simp only [powi_real, Flt.ofNat_real]
  field_simp

example : ∃ e, energy (ofList [(3 : ℝ), 4]) 5 = pure e ∧ avgEnergy [(3 : ℝ), 4] * 2 = e * 5 :=
  C53_avg_energy (yields_ofList [(3 : ℝ), 4]) (by simp) 5 (by norm_num)

theorem power_fold (l : List ℝ) (s c : ℕ) (acc : ℝ) :
    (l.mapIdx (fun i x => (s + i, x))).foldl (fun (a : ℕ × ℝ) p => (p.1, a.2 + powi p.2 2)) (c, acc)
      = (if l = [] then c else s + l.length - 1, acc + (l.map (fun x => x ^ 2)).sum) := by
  induction l generalizing s c acc with
  | nil => simp
  | cons a l ih =>
    have e : (fun i (x : ℝ) => (s + (i + 1), x)) = fun i x => (s + 1 + i, x) := by funext i x; congr 1; omega
    rw [List.mapIdx_cons, List.foldl_cons, e, ih]
    cases l with
    | nil => simp
    | cons b l => simp [add_assoc]; omega

theorem power_real [RIter ι ℝ] {src : ι} {l : List ℝ} (h : Yields src l) (fs : ℝ) :
    power src fs = pure ((l.map (fun x => x ^ 2)).sum / ((l.length - 1 : ℕ) : ℝ) / fs) := by
  unfold power
  have hf := power_fold l 0 0 0
  simp only [zero_add] at hf
  rw [collect_of_yields h.renumerate, pure_bind, hf]
  cases l <;> simp

/-- What the code computes: it divides by the index of the last sample, `n - 1`. (At least two samples; with fewer the code
divides by zero, `C152_power_short`.) -/
theorem C53_power_actual [RIter ι ℝ] {src : ι} {l : List ℝ} (h : Yields src l) (_hl : 2 ≤ l.length) (fs : ℝ) (_hfs : fs ≠ 0) :
    power src fs = pure ((l.map (fun x => x ^ 2)).sum / ((l.length : ℝ) - 1) / fs) := by
  rw [power_real h, Nat.cast_sub (by omega), Nat.cast_one]

example : power (ofList [(3 : ℝ), 4]) 5 = pure 5 := by
  rw [C53_power_actual (yields_ofList _) (by simp) 5 (by norm_num)]
  norm_num

/-- The claim "power is the energy divided by the number of samples" holds only for the zero signal (of at least two samples) … -/
theorem C53_power_partial [RIter ι ℝ] {src : ι} {l : List ℝ} (h : Yields src l) (_hl : 2 ≤ l.length) (hz : ∀ x ∈ l, x = 0)
    (fs : ℝ) (_hfs : fs ≠ 0) :
    ∃ e, energy src fs = pure e ∧ power src fs = pure (e / l.length) := by
  refine ⟨_, energy_real h fs, ?_⟩
  rw [power_real h, (sum_sq_eq_zero l).mpr hz]; simp

example : ∃ e, energy (ofList [(0 : ℝ), 0]) 5 = pure e ∧ power (ofList [(0 : ℝ), 0]) 5 = pure (e / 2) :=
  C53_power_partial (yields_ofList [(0 : ℝ), 0]) (by simp) (by simp) 5 (by norm_num)

/-- … and fails for every non-zero signal (of at least two samples; with one sample the code divides by zero). -/
theorem C53_power_refuted [RIter ι ℝ] {src : ι} {l : List ℝ} (h : Yields src l) (hlen : 2 ≤ l.length)
    (hz : ∃ x ∈ l, x ≠ 0) (fs : ℝ) (hfs : fs ≠ 0) :
    ¬ ∃ e, energy src fs = pure e ∧ power src fs = pure (e / l.length) := by
  rintro ⟨e, h1, h2⟩
  rw [energy_real h, RM.ok_inj] at h1
  rw [power_real h, RM.ok_inj, ← h1] at h2
  have hs : (l.map (fun x => x ^ 2)).sum ≠ 0 := by
    rw [Ne, sum_sq_eq_zero]; push Not; exact hz
  have hn : ((l.length - 1 : ℕ) : ℝ) ≠ 0 := by exact_mod_cast (by omega : l.length - 1 ≠ 0)
  have hn' : (l.length : ℝ) ≠ 0 := by exact_mod_cast (by omega : l.length ≠ 0)
  field_simp at h2
  rw [Nat.cast_inj] at h2
  omega

example : energy (ofList [(3 : ℝ), 4]) 5 = pure 5 ∧ power (ofList [(3 : ℝ), 4]) 5 = pure 5 := by
  rw [energy_real (yields_ofList _), power_real (yields_ofList _)]
  norm_num

/-! ## C54 dB -/

theorem C54_undb_db (x : ℝ) (hx : 0 < x) : undb (db x) = x := by
  unfold undb db
  simp only [Flt.powf_real, Flt.ofNat_real, Flt.log10_real]
  rw [mul_div_cancel_left₀ _ (by norm_num)]
  exact Real.rpow_logb (by norm_num) (by norm_num) hx

example : undb (db (0.001 : ℝ)) = 0.001 := C54_undb_db _ (by norm_num)

theorem C54_db_undb (y : ℝ) : db (undb y) = y := by
  unfold undb db
  simp only [Flt.powf_real, Flt.ofNat_real, Flt.log10_real]
  have := Real.logb_rpow (b := 10) (x := y / 10) (by norm_num) (by norm_num)
  push_cast
  rw [this]; ring

theorem C54_db_mul (x y : ℝ) (hx : 0 < x) (hy : 0 < y) : db (x * y) = db x + db y := by
  unfold db
  simp only [Flt.ofNat_real, Flt.log10_real]
  rw [Real.logb_mul hx.ne' hy.ne']; ring

example : db (100 : ℝ) = 20 := by
  have := C54_db_undb 20
  unfold undb at this
  simp only [Flt.powf_real, Flt.ofNat_real] at this
  norm_num at this
  exact this

/-! ## C55 erf -/

/-- The correction term: `erf x = ±(1 - erfTau |x|)`. -/
noncomputable def erfTau (x : ℝ) : ℝ :=
  let t := 1 / (1 + x / 2)
  t * Real.exp (-x ^ 2 - 1.26551223 + 1.00002368 * t + 0.37409196 * t ^ 2 + 0.09678418 * t ^ 3 - 0.18628806 * t ^ 4
    + 0.27886807 * t ^ 5 - 1.13520398 * t ^ 6 + 1.48851587 * t ^ 7 - 0.82215223 * t ^ 8 + 0.17087277 * t ^ 9)

theorem erf_eq (x : ℝ) : erf x = if 0 ≤ x then 1 - erfTau |x| else erfTau |x| - 1 := by
  unfold erf erfTau
  simp only [Flt.lit_real, Flt.abs_real, Flt.exp_real, Flt.le_real, powi_real, decide_eq_true_eq, sq_abs]
  norm_num
  have e : 1 / 2 * |x| = |x| / 2 := by rw [one_div_mul_eq_div]
  rw [e]

theorem erfTau_pos (x : ℝ) (hx : 0 ≤ x) : 0 < erfTau x := by
  unfold erfTau; positivity

theorem erfTau_lt_two (x : ℝ) (hx : 0 ≤ x) : erfTau x < 2 := by
  unfold erfTau
  simp only []
  set t := 1 / (1 + x / 2) with ht
  have ht0 : 0 < t := by positivity
  have ht1 : t ≤ 1 := by rw [ht, div_le_one (by positivity)]; linarith
  have p : ∀ n : ℕ, t ^ (n + 1) ≤ t ^ n := fun n => pow_le_pow_of_le_one ht0.le ht1 (by omega)
  have q : ∀ n : ℕ, t ^ n ≤ 1 := fun n => pow_le_one₀ ht0.le ht1
  have q0 : ∀ n : ℕ, 0 ≤ t ^ n := fun n => by positivity
  have hexp : -x ^ 2 - 1.26551223 + 1.00002368 * t + 0.37409196 * t ^ 2 + 0.09678418 * t ^ 3 - 0.18628806 * t ^ 4
    + 0.27886807 * t ^ 5 - 1.13520398 * t ^ 6 + 1.48851587 * t ^ 7 - 0.82215223 * t ^ 8 + 0.17087277 * t ^ 9
      < 0.6931471803 := by
    have a1 := p 4; have a2 := p 6; have a3 := p 8; have b2 := q 2; have b3 := q 3; have b4 := q 4; have b6 := q 6
    have c8 := q0 8
    have := sq_nonneg x
    norm_num at a1 a2 a3 ⊢
    linarith
  calc t * Real.exp _ ≤ 1 * Real.exp _ := mul_le_mul_of_nonneg_right ht1 (Real.exp_nonneg _)
    _ < 1 * Real.exp (Real.log 2) := by
        rw [one_mul, one_mul, Real.exp_lt_exp]; exact hexp.trans Real.log_two_gt_d9
    _ = 2 := by rw [Real.exp_log (by norm_num), one_mul]

/-- Odd symmetry holds for every non-zero argument.  Missing: `x = 0`, see `C55_zero_refuted`. -/
theorem C55_odd_partial (x : ℝ) (hx : x ≠ 0) : erf (-x) = -erf x := by
  rw [erf_eq, erf_eq, abs_neg]
  rcases lt_or_gt_of_ne hx with h | h
  · rw [if_pos (by linarith), if_neg (by linarith)]; ring
  · rw [if_neg (by linarith), if_pos (by linarith)]; ring

/-- At zero the approximation is not odd: `erf 0 = 1 - exp(3·10⁻⁸)`, which is negative. -/
theorem C55_zero : erf (0 : ℝ) = 1 - Real.exp 3e-8 := by
  rw [erf_eq, if_pos le_rfl, abs_zero, erfTau]
  norm_num

theorem C55_zero_refuted : ¬ ∀ x : ℝ, erf (-x) = -erf x := by
  intro h
  have h0 := h 0
  rw [neg_zero] at h0
  have h1 : erf (0 : ℝ) = 0 := by linarith
  rw [C55_zero] at h1
  have : Real.exp 3e-8 = 1 := by linarith
  rw [Real.exp_eq_one_iff] at this
  norm_num at this

theorem C55_erfc {F : Type} [Add F] [Sub F] [Mul F] [Div F] [Neg F] [Zero F] [One F] [Flt F] (x : F) :
    erfc x = 1 - erf x := rfl

theorem C55_range (x : ℝ) : -1 < erf x ∧ erf x < 1 := by
  rw [erf_eq]
  have h1 := erfTau_pos |x| (abs_nonneg x)
  have h2 := erfTau_lt_two |x| (abs_nonneg x)
  split <;> constructor <;> linarith

example : erf (-1 : ℝ) = -erf 1 := C55_odd_partial 1 one_ne_zero

/-! ## C56 AWGN -/

section awgn
set_option linter.unusedSectionVars false
variable {F : Type} [Add F] [Mul F] [Zero F] [Flt F]

/-- With the standard normal variates `z`, sample `i` is the input plus `sigma * z i`. -/
theorem C56_awgn [RIter ι F] [RIter ν F] {src : ι} {l : List F} (h : Yields src l) {std : ν} {z : ℕ → F}
    (hz : Gives std z) (sigma : F) (hs : Flt.isFinite sigma = true) :
    ∃ it, awgn src sigma std = pure it ∧ Yields it (l.mapIdx (fun i x => x + (0 + sigma * z i))) := by
  unfold awgn normalIter
  rw [if_pos hs, pure_bind]
  refine ⟨_, rfl, ?_⟩
  have := (h.rzip_gives (hz.rmap (fun z => 0 + sigma * z))).rmap (fun p : F × F => p.1 + p.2)
  rwa [map_mapIdx'] at this

example : ∃ it, awgn (ofList [(1 : ℝ), 2, 3]) (5 : ℝ) (rmap (RangeFrom.mk 0) (fun n : ℕ => (n : ℝ))) = pure it ∧
    Yields it ([(1 : ℝ), 2, 3].mapIdx (fun i x => x + (0 + 5 * ((0 + i : ℕ) : ℝ)))) :=
  C56_awgn (yields_ofList _) ((gives_rangeFrom 0).rmap (fun n : ℕ => (n : ℝ))) 5 rfl

theorem C56_awgn_complex [RIter ι (Cx F)] [RIter ν F] {src : ι} {l : List (Cx F)} (h : Yields src l) {std : ν}
    {z : ℕ → F} (hz : Gives std z) (sigma : F) (hs : Flt.isFinite sigma = true) :
    ∃ it, awgnComplex src sigma std = pure it ∧ Yields it (l.mapIdx (fun i c => ⟨c.re + (0 + sigma * z i), c.im⟩)) := by
  unfold awgnComplex normalIter
  rw [if_pos hs, pure_bind]
  refine ⟨_, rfl, ?_⟩
  have := (h.rzip_gives (hz.rmap (fun z => 0 + sigma * z))).rmap (fun p : Cx F × F => p.1.addR p.2)
  rwa [map_mapIdx'] at this

/-- The noise goes to the real part only. -/
example : ∃ it, awgnComplex (ofList [(⟨1, 5⟩ : Cx ℝ), ⟨2, 6⟩]) (3 : ℝ) (rmap (RangeFrom.mk 0) (fun n : ℕ => (n : ℝ))) = pure it ∧
    Yields it ([(⟨1, 5⟩ : Cx ℝ), ⟨2, 6⟩].mapIdx (fun i (c : Cx ℝ) => ⟨c.re + (0 + 3 * ((0 + i : ℕ) : ℝ)), c.im⟩)) :=
  C56_awgn_complex (yields_ofList _) ((gives_rangeFrom 0).rmap (fun n : ℕ => (n : ℝ))) 3 rfl

theorem C56_awgn_py [RIter ν F] (l : List F) {std : ν} {z : ℕ → F} (hz : Gives std z) (sigma : F)
    (hs : Flt.isFinite sigma = true) :
    awgnPy l sigma std = pure (l.mapIdx (fun i x => x + (0 + sigma * z i))) := by
  unfold awgnPy normalIter
  rw [if_pos hs, pure_bind]
  have := ((yields_ofList l).rzip_gives (hz.rmap (fun z => 0 + sigma * z))).rmap (fun p : F × F => p.1 + p.2)
  rw [map_mapIdx'] at this
  exact collect_of_yields this

theorem C56_pure_awgn [RIter ν F] (size : ℕ) {std : ν} {z : ℕ → F} (hz : Gives std z) (sigma : F)
    (hs : Flt.isFinite sigma = true) :
    pureAwgn size sigma std = pure ((List.range size).map (fun i => 0 + sigma * z i)) := by
  unfold pureAwgn normalIter
  rw [if_pos hs, pure_bind]
  exact collect_of_yields ((hz.rmap (fun z => 0 + sigma * z)).rtake size)

example : pureAwgn 3 (2 : ℝ) (rmap (RangeFrom.mk 0) (fun n : ℕ => (n : ℝ))) = pure [0, 2, 4] := by
  rw [C56_pure_awgn 3 ((gives_rangeFrom 0).rmap (fun n : ℕ => (n : ℝ))) 2 rfl]
  norm_num [List.range_succ]

/-- All four panic exactly when `sigma` is not finite. -/
theorem C56_panics (src : ι) (std : ν) (sigma : F) :
    (awgn src sigma std).Panics ↔ Flt.isFinite sigma = false := by
  unfold awgn normalIter
  cases Flt.isFinite sigma <;> simp

theorem C56_panics_complex (src : ι) (std : ν) (sigma : F) :
    (awgnComplex src sigma std).Panics ↔ Flt.isFinite sigma = false := by
  unfold awgnComplex normalIter
  cases Flt.isFinite sigma <;> simp
end awgn

/-- In exact arithmetic. -/
theorem awgn_real [RIter ι ℝ] [RIter ν ℝ] {src : ι} {l : List ℝ} (h : Yields src l) {std : ν} {z : ℕ → ℝ} (hz : Gives std z) (sigma : ℝ) :
    ∃ it, awgn src sigma std = pure it ∧ Yields it (l.mapIdx (fun i x => x + sigma * z i)) := by
  obtain ⟨it, h1, h2⟩ := C56_awgn h hz sigma rfl
  simp only [zero_add] at h2
  exact ⟨it, h1, h2⟩

theorem awgnComplex_real [RIter ι (Cx ℝ)] [RIter ν ℝ] {src : ι} {l : List (Cx ℝ)} (h : Yields src l) {std : ν} {z : ℕ → ℝ} (hz : Gives std z)
    (sigma : ℝ) : ∃ it, awgnComplex src sigma std = pure it ∧ Yields it (l.mapIdx (fun i c => ⟨c.re + sigma * z i, c.im⟩)) := by
  obtain ⟨it, h1, h2⟩ := C56_awgn_complex h hz sigma rfl
  simp only [zero_add] at h2
  exact ⟨it, h1, h2⟩

/-- Noise of standard deviation zero changes nothing, whatever the generator gives. -/
theorem C56_no_noise [RIter ι ℝ] [RIter ν ℝ] {src : ι} {l : List ℝ} (h : Yields src l) {std : ν} {z : ℕ → ℝ} (hz : Gives std z) :
    ∃ it, awgn src (0 : ℝ) std = pure it ∧ Yields it l := by
  obtain ⟨it, h1, h2⟩ := awgn_real h hz 0
  refine ⟨it, h1, ?_⟩
  have e : l.mapIdx (fun i x => x + (0 : ℝ) * z i) = l := by apply List.ext_getElem?; intro i; simp
  rwa [e] at h2

example : ∃ it, awgn (ofList [(1 : ℝ), 2]) (0 : ℝ) (rmap (RangeFrom.mk 0) (fun n : ℕ => (n : ℝ))) = pure it ∧ Yields it [(1 : ℝ), 2] :=
  C56_no_noise (yields_ofList _) ((gives_rangeFrom 0).rmap (fun n : ℕ => (n : ℝ)))

/-- The same variates at two levels: the noise itself is scaled. -/
theorem C56_scaled [RIter ι ℝ] [RIter ν ℝ] {src : ι} {l : List ℝ} (h : Yields src l) {std : ν} {z : ℕ → ℝ} (hz : Gives std z) (sigma c : ℝ) :
    ∃ a b : List ℝ, (do let it ← awgn src sigma std; collect it) = pure a ∧ (do let it ← awgn src (c * sigma) std; collect it) = pure b ∧
      List.zipWith (· - ·) b l = (List.zipWith (· - ·) a l).map (c * ·) := by
  obtain ⟨i1, a1, a2⟩ := awgn_real h hz sigma
  obtain ⟨i2, b1, b2⟩ := awgn_real h hz (c * sigma)
  refine ⟨_, _, by rw [a1, pure_bind, collect_of_yields a2], by rw [b1, pure_bind, collect_of_yields b2], ?_⟩
  apply List.ext_getElem?
  intro i
  simp only [List.getElem?_zipWith, List.getElem?_map, List.getElem?_mapIdx]
  cases l[i]? with
  | none => rfl
  | some x => simp; ring

example : ∃ a b : List ℝ, (do let it ← awgn (ofList [(1 : ℝ), 2]) (2 : ℝ) (rmap (RangeFrom.mk 0) (fun n : ℕ => (n : ℝ))); collect it) = pure a ∧
    (do let it ← awgn (ofList [(1 : ℝ), 2]) (3 * 2 : ℝ) (rmap (RangeFrom.mk 0) (fun n : ℕ => (n : ℝ))); collect it) = pure b ∧
      List.zipWith (· - ·) b [(1 : ℝ), 2] = (List.zipWith (· - ·) a [(1 : ℝ), 2]).map (3 * ·) :=
  C56_scaled (yields_ofList _) ((gives_rangeFrom 0).rmap (fun n : ℕ => (n : ℝ))) 2 3

example : awgnPy [(1 : ℝ), 2] 4 (rmap (RangeFrom.mk 0) (fun n : ℕ => (n : ℝ))) = pure [1, 6] := by
  rw [C56_awgn_py [(1 : ℝ), 2] ((gives_rangeFrom 0).rmap (fun n : ℕ => (n : ℝ))) 4 rfl]
  norm_num

/-! ## C61 energy detector -/

/-- Root mean square. -/
noncomputable def rms (l : List ℝ) : ℝ := Real.sqrt ((l.map (fun x => x ^ 2)).sum / l.length)

/-- The recording must not be empty: the code then divides 0 by 0, which exact arithmetic does not describe
(`C152_empty` has that case). -/
theorem C61_fires (l : List ℝ) (_h : l ≠ []) (n0 : ℝ) : energyDetector l n0 = true ↔ n0 < rms l := by
  unfold energyDetector rms
  rw [rsum_eq_sum]
  simp

theorem C61_monotone (l : List ℝ) (hl : l ≠ []) (n0 c : ℝ) (hc : 1 ≤ |c|) (h : energyDetector l n0 = true) :
    energyDetector (l.map (c * ·)) n0 = true := by
  rw [C61_fires _ hl] at h
  rw [C61_fires _ (by simpa using hl)]
  refine h.trans_le ?_
  unfold rms
  apply Real.sqrt_le_sqrt
  rw [List.map_map, List.length_map]
  apply div_le_div_of_nonneg_right _ (Nat.cast_nonneg _)
  have : ((l.map ((fun x => x ^ 2) ∘ fun x => c * x))).sum = c ^ 2 * (l.map (fun x => x ^ 2)).sum := by
    rw [← List.sum_map_mul_left]; congr 2; funext x; simp [mul_pow]
  rw [this]
  have hc2 : 1 ≤ c ^ 2 := by rw [← sq_abs]; nlinarith [abs_nonneg c]
  nlinarith [sum_sq_nonneg l]

/-- The Python energy detector is monotone in the signal energy. -/
theorem C61_db_monotone (l l' : List ℝ) (h0 : 0 < (l.map (fun x => x ^ 2)).sum)
    (h : (l.map (fun x => x ^ 2)).sum < (l'.map (fun x => x ^ 2)).sum) :
    energyDetectorDb l < energyDetectorDb l' := by
  unfold energyDetectorDb
  rw [rsum_eq_sum, rsum_eq_sum]
  simp only [Flt.ofNat_real, Flt.log10_real, powi_real]
  have := Real.logb_lt_logb (b := 10) (by norm_num) h0 h
  push_cast
  linarith

example : energyDetectorDb [(1 : ℝ), 2] < energyDetectorDb [(-3 : ℝ)] := C61_db_monotone _ _ (by norm_num) (by norm_num)

/-- Its value is in decibels: scaling the signal by `c` adds `20 log10 |c|`. -/
theorem C61_db_scale (l : List ℝ) {c : ℝ} (hc : c ≠ 0) (h0 : 0 < (l.map (fun x => x ^ 2)).sum) :
    energyDetectorDb (l.map (c * ·)) = energyDetectorDb l + 20 * Real.logb 10 |c| := by
  unfold energyDetectorDb
  rw [rsum_eq_sum, rsum_eq_sum, List.map_map]
  have : ((l.map ((fun s => powi s 2) ∘ fun x => c * x))).sum = c ^ 2 * (l.map (fun x => x ^ 2)).sum := by
    rw [← List.sum_map_mul_left]; congr 2; funext x; simp [powi_real, mul_pow]
  rw [this]
  simp only [Flt.ofNat_real, Flt.log10_real, powi_real]
  rw [Real.logb_mul (by positivity) h0.ne', ← sq_abs, Real.logb_pow]
  push_cast
  ring

example : energyDetectorDb ([(1 : ℝ)].map (10 * ·)) = energyDetectorDb [(1 : ℝ)] + 20 := by
  rw [C61_db_scale [1] (c := 10) (by norm_num) (by norm_num)]
  norm_num [Real.logb_self_eq_one]

example : energyDetector [(3 : ℝ), -3] 2 = true ∧ energyDetector [(3 : ℝ), -3] 3 = false := by
  have h : rms [(3 : ℝ), -3] = 3 := by
    unfold rms
    norm_num
    rw [show (9 : ℝ) = 3 ^ 2 by norm_num]
    exact Real.sqrt_sq (by norm_num)
  constructor
  · rw [C61_fires _ (by simp), h]; norm_num
  · rw [← Bool.not_eq_true, C61_fires _ (by simp), h]; norm_num

example : energyDetector ([(3 : ℝ), -3].map (-2 * ·)) 2 = true := by
  refine C61_monotone _ (by simp) 2 (-2) (by norm_num) ?_
  rw [C61_fires _ (by simp)]
  unfold rms
  norm_num
  rw [show (9 : ℝ) = 3 ^ 2 by norm_num, Real.sqrt_sq (by norm_num)]
  norm_num

end Verif.Props
