import Verif.Lemmas.KomPy
import Verif.Props.Helpers
import Mathlib.Data.Nat.Size
import Mathlib.Logic.Function.Iterate

/-!
# Helpers and the chaotic hopping modulator of the pure-Python code (C91, C92)
-/
namespace Verif.Props
open Verif Spec
set_option linter.unusedSectionVars false
variable {A : Type}

/-! ## C91 Helpers -/

/-- `next_power_of_2(x)` is the least power of two that is at least `x`. -/
theorem C91_next_power (x : ℕ) :
    ∃ k, KomPy.nextPowerOf2 x = 2 ^ k ∧ x ≤ 2 ^ k ∧ ∀ j, x ≤ 2 ^ j → 2 ^ k ≤ 2 ^ j := by
  unfold KomPy.nextPowerOf2
  rcases Nat.eq_zero_or_pos x with h | h
  · subst h
    exact ⟨0, rfl, by simp, fun j _ => Nat.one_le_two_pow⟩
  · rw [if_neg (by omega)]
    refine ⟨_, rfl, ?_, fun j hj => ?_⟩
    · have := Nat.lt_size_self (x - 1)
      omega
    · exact Nat.pow_le_pow_right (by norm_num) (Nat.size_le.mpr (by omega))

/-- `floor_power_of_2(x)` is the greatest power of two that is at most `x`, provided the floating-point logarithm recognises
whether `x` is a power of two. -/
theorem C91_floor_power {isPow : ℕ → Bool} {x : ℕ} (hx : 0 < x) (hp : isPow x = true ↔ ∃ k, x = 2 ^ k) :
    ∃ k, KomPy.floorPowerOf2 isPow x = 2 ^ k ∧ 2 ^ k ≤ x ∧ ∀ j, 2 ^ j ≤ x → 2 ^ j ≤ 2 ^ k := by
  unfold KomPy.floorPowerOf2
  rw [if_neg (by omega)]
  by_cases h : isPow x = true
  · obtain ⟨k, hk⟩ := hp.mp h
    rw [if_pos h]
    exact ⟨k, hk, hk.ge, fun j hj => hk ▸ hj⟩
  · rw [if_neg h]
    have hn : ¬ ∃ k, x = 2 ^ k := fun e => h (hp.mpr e)
    have h1 : x ≠ 1 := fun e => hn ⟨0, e⟩
    have hs : 0 < Nat.size (x - 1) := Nat.size_pos.mpr (by omega)
    have hlt := Nat.lt_size_self (x - 1)
    have hge : 2 ^ (Nat.size (x - 1) - 1) ≤ x - 1 := Nat.lt_size.mp (by omega)
    refine ⟨_, rfl, by omega, fun j hj => Nat.pow_le_pow_right (by norm_num) ?_⟩
    by_contra hc
    have h2 : 2 ^ Nat.size (x - 1) ≤ 2 ^ j := Nat.pow_le_pow_right (by norm_num) (by omega)
    exact hn ⟨Nat.size (x - 1), by omega⟩

/-- When the logarithm of a power of two above 1 is *not* recognised as whole, the answer is half of it: the accuracy of the
logarithm matters. -/
theorem C91_floor_power_misled {isPow : ℕ → Bool} {k : ℕ} (hp : isPow (2 ^ (k + 1)) = false) :
    KomPy.floorPowerOf2 isPow (2 ^ (k + 1)) = 2 ^ k := by
  unfold KomPy.floorPowerOf2
  have h1 : (1 : ℕ) ≤ 2 ^ k := Nat.one_le_two_pow
  have h2 : 2 ^ (k + 1) = 2 * 2 ^ k := by rw [pow_succ]; omega
  rw [if_neg (by omega), if_neg (by rw [hp]; decide)]
  have : Nat.size (2 ^ (k + 1) - 1) = k + 1 := by
    apply Nat.le_antisymm
    · exact Nat.size_le.mpr (by omega)
    · exact Nat.lt_size.mpr (by omega)
  rw [this, Nat.add_sub_cancel]

/-- `chunk`: with a positive size every chunk has that size, together they are the input followed by fewer than a chunk of fill
values. -/
theorem C91_chunk {n : ℕ} (hn : 0 < n) (fill : A) (l : List A) :
    (∀ c ∈ KomPy.chunk n fill l, c.length = n) ∧
    ∃ r, r < n ∧ (KomPy.chunk n fill l).flatten = l ++ List.replicate r fill ∧
      (KomPy.chunk n fill l).length = (l.length + n - 1) / n := by
  induction hl : l.length using Nat.strong_induction_on generalizing l with
  | _ N ih =>
    rcases l with _ | ⟨a, t⟩
    · rw [KomPy.chunk_nil]
      refine ⟨by simp, 0, hn, by simp, ?_⟩
      simp only [List.length_nil] at hl
      rw [← hl, List.length_nil, Nat.div_eq_of_lt (by omega)]
    · have e : KomPy.chunk n fill (a :: t) = ((a :: t).take n ++ List.replicate (n - (a :: t).length) fill)
          :: KomPy.chunk n fill ((a :: t).drop n) := by
        rw [KomPy.chunk]
        rw [dif_neg (by simp only [reduceCtorEq, or_false]; omega)]
      generalize hL : a :: t = L at *
      have hpos : 0 < L.length := by rw [← hL]; simp
      obtain ⟨i1, r, i2, i3, i4⟩ := ih (L.drop n).length (by rw [List.length_drop]; omega) (L.drop n) rfl
      rw [e]
      refine ⟨?_, ?_⟩
      · intro c hc
        rcases List.mem_cons.mp hc with rfl | hc
        · rw [List.length_append, List.length_take, List.length_replicate]; omega
        · exact i1 c hc
      · rw [List.length_drop] at i4
        rw [List.flatten_cons, i3, List.length_cons, i4]
        by_cases hle : L.length ≤ n
        · refine ⟨n - L.length, by omega, ?_, ?_⟩
          · have hd : L.drop n = [] := List.drop_eq_nil_of_le hle
            have hr : List.replicate r fill = [] := by
              rw [hd, KomPy.chunk_nil] at i3
              simpa using i3.symm
            rw [List.take_of_length_le hle, hd, hr, List.append_nil, List.append_nil]
          · rw [← hl, show L.length - n + n - 1 = n - 1 by omega, Nat.div_eq_of_lt (by omega),
              show L.length + n - 1 = (L.length - 1) + n by omega, Nat.add_div_right _ hn, Nat.div_eq_of_lt (by omega)]
        · refine ⟨r, i2, ?_, ?_⟩
          · rw [show n - L.length = 0 by omega, List.replicate_zero, List.append_nil, ← List.append_assoc, List.take_append_drop]
          · rw [← hl, ← Nat.add_div_right _ hn]
            congr 1
            omega

/-- `fftshift` moves item `i` to place `i + n/2` modulo `n`, as the compiled one does. -/
theorem C91_fftshift (x : List A) : KomPy.fftshift x = fftshift x ∧
    ∀ i < x.length, (KomPy.fftshift x)[(i + x.length / 2) % x.length]? = x[i]? :=
  ⟨rfl, fun i hi => C13_position x i hi⟩

example : KomPy.nextPowerOf2 37 = 64 ∧ KomPy.nextPowerOf2 64 = 64 := by decide
example : KomPy.floorPowerOf2 (fun x => x == 64) 64 = 64 ∧ KomPy.floorPowerOf2 (fun x => x == 64) 37 = 32 := by decide
/-- A logarithm that misses `2^29`. -/
example : KomPy.floorPowerOf2 (fun _ => false) (2 ^ 29) = 2 ^ 28 := C91_floor_power_misled (k := 28) rfl
example : (KomPy.chunk 3 0 [1, 2, 3, 4]).length = 2 := by
  obtain ⟨-, r, -, -, h⟩ := C91_chunk (by norm_num : 0 < 3) 0 [1, 2, 3, 4]
  exact h

/-! ## C92 The chaotic hopping modulator -/

/-- The sample of row `r` and time `c` before the rows are rearranged: the bit's sign times the iterated map `x ↦ 1 - 2x²`
started at `0.001 + r/10`. -/
noncomputable def hopSample (data : List Bool) (r c : ℕ) : ℝ :=
  (if data.getD r false then 1 else -1) * (fun x : ℝ => 1 - 2 * x ^ 2)^[c] (1 / 1000 + r / 10)

theorem chaosAt_eq (x : ℝ) (c : ℕ) : KomPy.chaosAt x c = (fun x : ℝ => 1 - 2 * x ^ 2)^[c] x := by
  induction c with
  | zero => rfl
  | succ c ih =>
    rw [Function.iterate_succ_apply', ← ih]
    show KomPy.chebyshev _ = _
    unfold KomPy.chebyshev
    rw [Flt.ofNat_real]
    push_cast
    ring

/-- The generator `chebyshev`, started at `cos θ`, yields `-cos(2θ)`, `-cos(4θ)`, `-cos(8θ)`, …; started outside `[-1, 1]` the first
`next` raises `AssertionError`. -/
theorem C92_generator :
    (∀ (θ : ℝ) (n : ℕ), KomPy.chebyshevNext (Real.cos θ) n = .ok (-Real.cos (2 ^ (n + 1) * θ))) ∧
    (∀ (x0 : ℝ) (n : ℕ), KomPy.chebyshevNext x0 n = .error .assertion ↔ ¬ (-1 ≤ x0 ∧ x0 ≤ 1)) := by
  constructor
  · intro θ n
    unfold KomPy.chebyshevNext
    rw [if_pos (by simp [Real.neg_one_le_cos, Real.cos_le_one])]
    congr 1
    have step : ∀ a : ℝ, KomPy.chebyshev (Real.cos a) = -Real.cos (2 * a) := by
      intro a
      unfold KomPy.chebyshev
      rw [Flt.ofNat_real, Real.cos_two_mul]
      push_cast
      ring
    induction n with
    | zero => rw [pow_one]; exact step θ
    | succ n ih =>
      show KomPy.chebyshev (KomPy.chebyshevAt _ n) = _
      rw [ih, pow_succ' 2 (n + 1), mul_assoc, ← step]
      unfold KomPy.chebyshev
      ring
  · intro x0 n
    unfold KomPy.chebyshevNext
    by_cases h : -1 ≤ x0 ∧ x0 ≤ 1
    · rw [if_pos (by simp [h.1, h.2])]
      simp [h]
    · rw [if_neg (by simpa using h)]
      simp [h]

example : KomPy.chebyshevNext (Real.cos 1) 2 = .ok (-Real.cos 8) ∧ KomPy.chebyshevNext (1.001 : ℝ) 0 = .error .assertion := by
  refine ⟨?_, (C92_generator.2 _ _).mpr (by norm_num)⟩
  rw [C92_generator.1]
  norm_num

theorem mapM_ok_mem {B C : Type} {f : B → KomPy.Py C} {g : B → C} {l : List B} (h : ∀ a ∈ l, f a = .ok (g a)) :
    l.mapM f = .ok (l.map g) := by
  induction l with
  | nil => rfl
  | cons a l ih => rw [List.mapM_cons, h a (by simp), ih (fun x hx => h x (by simp [hx]))]; rfl

theorem txFhDcsk_eq {shuffle : ℕ → (b : ℕ) → Fin b → Fin b} {data : List Bool} {b : ℕ} (h : b ≤ data.length) :
    KomPy.txFhDcsk shuffle data b = .ok ((List.finRange b).map (fun row => (List.range b).map (fun col =>
      hopSample data (shuffle col b row) col))) := by
  unfold KomPy.txFhDcsk
  rw [if_neg (by omega)]
  dsimp only
  refine mapM_ok_mem fun row _ => mapM_ok_mem fun col hcol => ?_
  have hc := List.mem_range.mp hcol
  generalize shuffle col b row = r
  have hr := r.isLt
  rw [List.getElem?_zipWith, List.getElem?_take, if_pos hr, List.getElem?_map, List.getElem?_range hr,
    List.getElem?_eq_getElem (by omega : (r : ℕ) < data.length)]
  simp only [Option.map_some, Option.bind_some, List.getElem?_map, List.getElem?_range hc]
  rw [chaosAt_eq]
  unfold hopSample
  rw [List.getD_eq_getElem?_getD, List.getElem?_eq_getElem (by omega : (r : ℕ) < data.length), Option.getD_some]
  simp only [Flt.lit_real, Flt.ofNat_real, KomPy.bitToNrz]
  norm_num

/-- With fewer than `b` bits the call raises `RuntimeError`; otherwise the result is a `b × b` matrix. -/
theorem C92_shape (shuffle : ℕ → (b : ℕ) → Fin b → Fin b) (data : List Bool) (b : ℕ) :
    (data.length < b → KomPy.txFhDcsk (F := ℝ) shuffle data b = .error .runtime) ∧
    (b ≤ data.length → ∃ m : List (List ℝ), KomPy.txFhDcsk shuffle data b = .ok m ∧ m.length = b ∧ ∀ r ∈ m, r.length = b) := by
  refine ⟨fun h => by unfold KomPy.txFhDcsk; rw [if_pos h], fun h => ⟨_, txFhDcsk_eq h, by simp, ?_⟩⟩
  intro r hr
  obtain ⟨row, -, rfl⟩ := List.mem_map.mp hr
  simp

/-- Every column is a rearrangement of the `b` bits' samples of that time, whatever permutations the generator draws: nothing is
lost or repeated. -/
theorem C92_columns {shuffle : ℕ → (b : ℕ) → Fin b → Fin b} {data : List Bool} {b : ℕ}
    (hs : ∀ c < b, Function.Bijective (shuffle c b)) {m : List (List ℝ)} (hm : KomPy.txFhDcsk shuffle data b = .ok m)
    {c : ℕ} (hc : c < b) :
    (m.map (fun row => row.getD c 0)).Perm ((List.range b).map (fun r => hopSample data r c)) := by
  have hb : b ≤ data.length := by
    by_contra h
    rw [(C92_shape shuffle data b).1 (by omega)] at hm
    cases hm
  rw [txFhDcsk_eq hb] at hm
  cases hm
  rw [List.map_map]
  have e : (List.finRange b).map ((fun row : List ℝ => row.getD c 0) ∘ fun row => (List.range b).map (fun col =>
      hopSample data (shuffle col b row) col)) = ((List.finRange b).map (shuffle c b)).map (fun r : Fin b => hopSample data r c) := by
    rw [List.map_map]
    apply List.map_congr_left
    intro row _
    simp only [Function.comp_apply, List.getD_eq_getElem?_getD, List.getElem?_map, List.getElem?_range hc, Option.map_some,
      Option.getD_some]
  have e2 : (List.range b).map (fun r => hopSample data r c) = (List.finRange b).map (fun r : Fin b => hopSample data r c) := by
    rw [← List.map_coe_finRange_eq_range, List.map_map]; rfl
  rw [e, e2]
  apply List.Perm.map
  rw [List.perm_ext_iff_of_nodup ((List.nodup_finRange b).map (hs c hc).1) (List.nodup_finRange b)]
  intro a
  constructor
  · intro _; exact List.mem_finRange a
  · intro _
    obtain ⟨x, hx⟩ := (hs c hc).2 a
    exact List.mem_map.mpr ⟨x, List.mem_finRange x, hx⟩

theorem iterate_bound {x : ℝ} (h : |x| ≤ 1) (c : ℕ) : |(fun x : ℝ => 1 - 2 * x ^ 2)^[c] x| ≤ 1 := by
  induction c with
  | zero => exact h
  | succ c ih =>
    rw [Function.iterate_succ_apply']
    have := (sq_le_one_iff_abs_le_one _).mpr ih
    rw [abs_le]
    constructor <;> nlinarith [sq_nonneg ((fun x : ℝ => 1 - 2 * x ^ 2)^[c] x)]

/-- Up to ten rows every sample is within ±1 … -/
theorem C92_bounded {shuffle : ℕ → (b : ℕ) → Fin b → Fin b} {data : List Bool} {b : ℕ} (hb : b ≤ 10)
    {m : List (List ℝ)} (hm : KomPy.txFhDcsk shuffle data b = .ok m) : ∀ row ∈ m, ∀ v ∈ row, |v| ≤ 1 := by
  have hd : b ≤ data.length := by
    by_contra h
    rw [(C92_shape shuffle data b).1 (by omega)] at hm
    cases hm
  rw [txFhDcsk_eq hd] at hm
  cases hm
  intro row hrow v hv
  obtain ⟨i, -, rfl⟩ := List.mem_map.mp hrow
  obtain ⟨c, -, rfl⟩ := List.mem_map.mp hv
  generalize shuffle c b i = r
  have hr : ((r : ℕ) : ℝ) ≤ 9 := by have := r.isLt; exact_mod_cast (by omega : (r : ℕ) ≤ 9)
  unfold hopSample
  rw [abs_mul]
  have h1 : |(if data.getD r false then (1 : ℝ) else -1)| = 1 := by split <;> simp
  rw [h1, one_mul]
  apply iterate_bound
  rw [abs_of_nonneg (by positivity)]
  linarith

/-- … and from eleven on never: the eleventh start value, 1.001, is outside the interval the map keeps. -/
theorem C92_unbounded {shuffle : ℕ → (b : ℕ) → Fin b → Fin b} {data : List Bool} {b : ℕ} (hb : 11 ≤ b)
    (hs : ∀ c < b, Function.Bijective (shuffle c b)) {m : List (List ℝ)} (hm : KomPy.txFhDcsk shuffle data b = .ok m) :
    ∃ row ∈ m, ∃ v ∈ row, 1 < |v| := by
  have hd : b ≤ data.length := by
    by_contra h
    rw [(C92_shape shuffle data b).1 (by omega)] at hm
    cases hm
  rw [txFhDcsk_eq hd] at hm
  cases hm
  obtain ⟨i, hi⟩ := (hs 0 (by omega)).2 ⟨10, by omega⟩
  refine ⟨_, List.mem_map.mpr ⟨i, List.mem_finRange i, rfl⟩, _, List.mem_map.mpr ⟨0, List.mem_range.mpr (by omega), rfl⟩, ?_⟩
  rw [hi]
  unfold hopSample
  rw [abs_mul]
  have h1 : |(if data.getD 10 false then (1 : ℝ) else -1)| = 1 := by split <;> simp
  show 1 < |(if data.getD 10 false then (1 : ℝ) else -1)| * _
  rw [h1, one_mul, Function.iterate_zero, id, abs_of_nonneg (by positivity)]
  norm_num

/-- A receiver that knows the permutations and the start values gets every bit back: collecting a bit's samples and correlating
them with its chaotic sequence gives its sign.  (`rx_fh_dcsk` itself is not written.) -/
theorem C92_recoverable {shuffle unshuffle : ℕ → (b : ℕ) → Fin b → Fin b} {data : List Bool} {b : ℕ}
    (hs : ∀ c < b, ∀ r, shuffle c b (unshuffle c b r) = r) {m : List (List ℝ)}
    (hm : KomPy.txFhDcsk shuffle data b = .ok m) (r : Fin b) :
    data[(r : ℕ)]? = some (decide (0 < ∑ c ∈ Finset.range b, (m.getD (unshuffle c b r) []).getD c 0
      * (fun x : ℝ => 1 - 2 * x ^ 2)^[c] (1 / 1000 + (r : ℕ) / 10))) := by
  have hd : b ≤ data.length := by
    by_contra h
    rw [(C92_shape shuffle data b).1 (by omega)] at hm
    cases hm
  rw [txFhDcsk_eq hd] at hm
  cases hm
  have hb := r.isLt
  have e : ∀ c ∈ Finset.range b, (((List.finRange b).map (fun row => (List.range b).map (fun col =>
      hopSample data (shuffle col b row) col))).getD (unshuffle c b r) []).getD c 0 = hopSample data r c := by
    intro c hc
    have hc := Finset.mem_range.mp hc
    simp only [List.getD_eq_getElem?_getD, List.getElem?_map]
    rw [List.getElem?_eq_getElem (by simp : ((unshuffle c b r : Fin b) : ℕ) < (List.finRange b).length), List.getElem_finRange]
    simp only [Option.map_some, Option.getD_some, List.getElem?_map, List.getElem?_range hc]
    simp only [Fin.cast_mk, Fin.eta, hs c hc]
  rw [Finset.sum_congr rfl (fun c hc => by rw [e c hc])]
  unfold hopSample
  have hpos : 0 < ∑ c ∈ Finset.range b, ((fun x : ℝ => 1 - 2 * x ^ 2)^[c] (1 / 1000 + (r : ℕ) / 10)) ^ 2 := by
    apply Finset.sum_pos'
    · intro c _; positivity
    · refine ⟨0, Finset.mem_range.mpr (by omega), ?_⟩
      rw [Function.iterate_zero, id]
      positivity
  rw [List.getD_eq_getElem?_getD, List.getElem?_eq_getElem (by omega : (r : ℕ) < data.length), Option.getD_some]
  have e3 : ∀ s : ℝ, ∑ c ∈ Finset.range b, s * (fun x : ℝ => 1 - 2 * x ^ 2)^[c] (1 / 1000 + (r : ℕ) / 10)
      * (fun x : ℝ => 1 - 2 * x ^ 2)^[c] (1 / 1000 + (r : ℕ) / 10)
      = s * ∑ c ∈ Finset.range b, ((fun x : ℝ => 1 - 2 * x ^ 2)^[c] (1 / 1000 + (r : ℕ) / 10)) ^ 2 := by
    intro s
    rw [Finset.mul_sum]
    exact Finset.sum_congr rfl fun c _ => by ring
  rw [e3]
  congr 1
  cases data[(r : ℕ)]
  · simp only [Bool.false_eq_true, if_false]
    symm
    rw [decide_eq_false_iff_not]
    linarith
  · simp only [if_true]
    symm
    rw [decide_eq_true_eq]
    linarith

/-- Eight bits, the default `b`, and columns rotated by their index: every hypothesis above is met. -/
example (data : List Bool) (h : data.length = 8) : ∃ m : List (List ℝ),
    KomPy.txFhDcsk (fun c _ r => match r with | ⟨i, hi⟩ => ⟨(i + c) % _, Nat.mod_lt _ (by omega)⟩) data 8 = .ok m ∧
    m.length = 8 ∧ ∀ row ∈ m, ∀ v ∈ row, |v| ≤ 1 := by
  obtain ⟨m, h1, h2, -⟩ := (C92_shape (fun c _ r => match r with | ⟨i, hi⟩ => ⟨(i + c) % _, Nat.mod_lt _ (by omega)⟩) data 8).2 h.ge
  exact ⟨m, h1, h2, C92_bounded (by norm_num) h1⟩

/-- With columns left in place, the third bit. -/
example (data : List Bool) (h : data.length = 8) : ∃ m : List (List ℝ),
    KomPy.txFhDcsk (fun _ _ r => r) data 8 = .ok m ∧
    data[2]? = some (decide (0 < ∑ c ∈ Finset.range 8, (m.getD 2 []).getD c 0
      * (fun x : ℝ => 1 - 2 * x ^ 2)^[c] (1 / 1000 + (2 : ℕ) / 10))) := by
  obtain ⟨m, h1, -, -⟩ := (C92_shape (fun _ _ r => r) data 8).2 h.ge
  exact ⟨m, h1, C92_recoverable (unshuffle := fun _ _ r => r) (fun _ _ _ => rfl) h1 2⟩

/-- Any twelve bits with the columns left in place: each column holds the samples of its time, and a sample leaves [-1, 1]. -/
example (data : List Bool) (h : data.length = 12) : ∃ m : List (List ℝ),
    KomPy.txFhDcsk (fun _ _ r => r) data 12 = .ok m ∧
    (m.map (fun row => row.getD 5 0)).Perm ((List.range 12).map (fun r => hopSample data r 5)) ∧
    ∃ row ∈ m, ∃ v ∈ row, 1 < |v| := by
  obtain ⟨m, h1, -, -⟩ := (C92_shape (fun _ _ r => r) data 12).2 h.ge
  exact ⟨m, h1, C92_columns (fun _ _ => Function.bijective_id) h1 (by norm_num),
    C92_unbounded (by norm_num) (fun _ _ => Function.bijective_id) h1⟩

end Verif.Props
