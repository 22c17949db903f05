import Verif.Props.Streams
import Verif.Lemmas.Symbols

/-!
# Property C131: laws of the stream adapters

Two chains of adapters that a user would take for the same thing give the same items.  `rskip` is the `skip` of the standard library.
-/
namespace Verif.Props
open Verif
variable {ι T : Type}

/-- Both streams end, after the same items. -/
def SameItems (T : Type) {α β : Type} [RIter α T] [RIter β T] (a : α) (b : β) : Prop := ∃ out : List T, Yields a out ∧ Yields b out

private theorem every {α : Type} [RIter α T] {s : α} {l out : List T} (h : Yields s l) {f : ℕ} (hf : 0 < f)
    (ho : ∀ n, out[n]? = l[n * f]?) : Yields (takeEvery s f) out :=
  Beh.congr (fun n => (ho n).symm) (Beh.takeEvery h hf)

/-! ## Rates -/

/-- Inflating twice. -/
theorem C131_inflate_inflate [RIter ι T] {src : ι} {l : List T} (h : Yields src l) {a b : ℕ} (ha : 0 < a) (hb : 0 < b) :
    SameItems T (inflate (inflate src a) b) (inflate src (a * b)) := by
  obtain ⟨o1, h1, -, -, e1⟩ := C05_inflate_partial h ha
  obtain ⟨o2, h2, -, -, e2⟩ := C05_inflate_partial h1 hb
  obtain ⟨o3, h3, -, -, e3⟩ := C05_inflate_partial h (c := a * b) (Nat.mul_pos ha hb)
  refine ⟨o2, h2, h3.of_eq (List.ext_getElem? fun i => ?_)⟩
  rw [e2, e1, e3, Nat.div_div_eq_div_mul, Nat.mul_comm b a]

/-- Taking every `a`-th item and of these every `b`-th. -/
theorem C131_take_every_take_every [RIter ι T] {src : ι} {g : ℕ → Option T} (h : Beh src g) {a b : ℕ} (ha : 0 < a) (hb : 0 < b) :
    Beh (takeEvery (takeEvery src a) b) (fun n => g (n * (a * b))) ∧ Beh (takeEvery src (a * b)) (fun n => g (n * (a * b))) := by
  refine ⟨Beh.congr (fun n => ?_) ((h.takeEvery ha).takeEvery hb), h.takeEvery (Nat.mul_pos ha hb)⟩
  show g (n * b * a) = g (n * (a * b))
  congr 1; ring

/-- Taking every `k`-th item undoes inflating. -/
theorem C131_inflate_take_every [RIter ι T] {src : ι} {l : List T} (h : Yields src l) {k : ℕ} (hk : 0 < k) :
    Yields (takeEvery (inflate src k) k) l := by
  obtain ⟨o, h1, -, -, e1⟩ := C05_inflate_partial h hk
  refine every h1 hk fun n => ?_
  rw [e1, Nat.mul_div_cancel _ hk]

/-- Cutting into chunks and joining them. -/
theorem C131_chunks_flatten [RIter ι T] {src : ι} {l : List T} (h : Yields src l) {k : ℕ} (hk : 0 < k) :
    Yields (rflatMap (chunks src k) (fun c : List T => pure (ofList c))) l :=
  ((h.chunks k).rflatMap (out := id) (fun c => ⟨_, rfl, yields_ofList c⟩)).of_eq
    (by rw [List.flatMap_id, blocks_flatten k hk])

/-! ## Sums -/

section sums
variable {R : Type} [CommSemiring R] [RIter ι R]

private theorem rsum_sum {M : Type} [AddMonoid M] (l : List M) : rsum l = l.sum := by
  unfold rsum; rw [List.sum_eq_foldl]

private theorem sum_getD (x : List R) (a k : ℕ) : ((x.drop a).take k).sum = ∑ t ∈ Finset.range k, x.getD (a + t) 0 := by
  induction k with
  | zero => simp
  | succ k ih =>
    rw [Finset.sum_range_succ, ← ih, List.take_add_one, List.sum_append, List.getElem?_drop]
    congr 1
    rw [List.getD_eq_getElem?_getD]
    cases x[a + k]? <;> simp

private theorem ones_at (x : List R) {k m : ℕ} (hk : 0 < k) :
    Spec.linConvAt x (List.replicate k 1) (k - 1 + m * k) = ((x.drop (m * k)).take k).sum := by
  rw [sum_getD, ← Finset.sum_range_reflect]
  unfold Spec.linConvAt
  rw [← Finset.sum_subset (s₁ := Finset.range k) (Finset.range_subset_range.mpr (by omega))]
  · apply Finset.sum_congr rfl
    intro j hj
    have hj := Finset.mem_range.mp hj
    rw [show k - 1 + m * k - j = m * k + (k - 1 - j) by omega]
    rw [List.getD_eq_getElem?_getD (l := List.replicate k 1), List.getElem?_replicate, if_pos hj, Option.getD_some, mul_one]
  · intro j _ hj
    have hj : k ≤ j := by simpa using hj
    rw [List.getD_eq_getElem?_getD (l := List.replicate k 1), List.getElem?_eq_none (by simpa using hj), Option.getD_none, mul_zero]

/-- A filter of `k` ones, read off at the end of every block of `k` items, gives the sum of every block, also of an incomplete last
one. -/
theorem C131_matched_filter {src : ι} {x : List R} (h : Yields src x) {k : ℕ} (hk : 0 < k) (hx : k ≤ x.length) :
    Yields (takeEvery (rskip (convolve src (List.replicate k (1 : R))) (k - 1)) k) ((Spec.blocks k x).map List.sum) := by
  refine every ((C08_convolve_partial h 1 k hk hx).rskip (k - 1)) hk fun n => ?_
  rw [List.getElem?_map, blocks_getElem?' hk, List.getElem?_drop, Spec.linConv, List.getElem?_map, List.length_replicate]
  by_cases hn : n * k < x.length
  · rw [if_pos hn, List.getElem?_range (by omega), Option.map_some, Option.map_some, ones_at x hk]
  · rw [if_neg hn, List.getElem?_eq_none (by rw [List.length_range]; omega)]; rfl

/-- With whole blocks this is `integrate_and_dump`. -/
theorem C131_matched_dump {src : ι} {x : List R} (h : Yields src x) {k : ℕ} (hk : 0 < k) (hx : x ≠ []) (hdvd : k ∣ x.length) :
    SameItems R (takeEvery (rskip (convolve src (List.replicate k (1 : R))) (k - 1)) k) (integrateAndDump src k) := by
  refine ⟨_, C131_matched_filter h hk (Nat.le_of_dvd (List.length_pos_iff.mpr hx) hdvd), (h.integrateAndDump hk).of_eq ?_⟩
  apply List.ext_getElem?
  intro n
  rw [List.getElem?_map, List.getElem?_map, fullBlocks_getElem? hk, blocks_getElem?' hk]
  obtain ⟨q, hq⟩ := hdvd
  have : (n + 1) * k ≤ x.length ↔ n * k < x.length := by
    rw [hq, Nat.mul_comm k q, Nat.mul_le_mul_right_iff hk, Nat.mul_lt_mul_right hk]; rfl
  by_cases hn : n * k < x.length
  · rw [if_pos hn, if_pos (this.mpr hn), Option.map_some, Option.map_some, rsum_sum]
  · rw [if_neg hn, if_neg (fun h' => hn (this.mp h'))]; rfl

/-- Filtering every block by itself and keeping the last item of the result (tests/qpsk.rs:91-109) is something else: the last item
of the block, times the last tap. -/
theorem C131_last_item {src : ι} {x : List R} {f : List R} (h : Yields src x) {a t : R} (ha : x.getLast? = some a)
    (ht : f.getLast? = some t) :
    ∃ out, Yields (convolve src f) out ∧ out.getLast? = some (a * t) := by
  have hx : x ≠ [] := by rintro rfl; simp at ha
  have hf : f ≠ [] := by rintro rfl; simp at ht
  have hxl := List.length_pos_iff.mpr hx
  have hfl := List.length_pos_iff.mpr hf
  obtain ⟨out, h1, h2, h3, h4⟩ := C08_convolve_actual h f hx hf
  refine ⟨out, h1, ?_⟩
  rw [List.getLast?_eq_getElem?] at ha ht ⊢
  by_cases h1 : min x.length f.length = 1
  · rw [h2, h1, Nat.add_sub_cancel, h3 _ (by omega)]
    have hr : f.reverse.getD 0 0 = t := by
      rw [List.getD_eq_getElem?_getD, List.getElem?_reverse (by omega), Nat.sub_zero, ht]; rfl
    have hxa : x.getD (x.length - 1) 0 = a := by rw [List.getD_eq_getElem?_getD, ha]; rfl
    unfold Spec.linConvAt
    rw [Finset.sum_eq_single 0]
    · rw [Nat.sub_zero, hr, hxa]
    · intro j hj hj0
      have hj := Finset.mem_range.mp hj
      rw [List.getD_eq_getElem?_getD (l := f.reverse), List.getElem?_eq_none (by rw [List.length_reverse]; omega), Option.getD_none,
        mul_zero]
    · simp
  · rw [h2, show x.length + min x.length f.length - 1 - 1 = x.length - 1 + (min x.length f.length - 1) by omega,
      h4 _ (by omega) (by omega), show min x.length f.length - (min x.length f.length - 1) = 1 by omega, Finset.sum_range_one,
      List.getD_eq_getElem?_getD, List.getD_eq_getElem?_getD, Nat.sub_zero, Nat.sub_zero, ha, ht]
    rfl

private theorem sum_range_blocks (g : ℕ → R) (a b : ℕ) :
    ∑ s ∈ Finset.range b, ∑ t ∈ Finset.range a, g (s * a + t) = ∑ u ∈ Finset.range (a * b), g u := by
  induction b with
  | zero => simp
  | succ b ih =>
    rw [Finset.sum_range_succ, ih, Nat.mul_succ, Finset.sum_range_add]
    simp [Nat.mul_comm]

private theorem dumps_getD (x : List R) {k : ℕ} (hk : 0 < k) {n : ℕ} (hn : n < x.length / k) :
    ((Spec.fullBlocks k x).map rsum).getD n 0 = ∑ t ∈ Finset.range k, x.getD (n * k + t) 0 := by
  have h1 : (n + 1) * k ≤ x.length := (Nat.le_div_iff_mul_le hk).mp hn
  rw [List.getD_eq_getElem?_getD, List.getElem?_map, fullBlocks_getElem? hk, if_pos h1, Option.map_some, Option.getD_some, rsum_sum,
    sum_getD]

/-- Dumping twice. -/
theorem C131_dump_dump {src : ι} {x : List R} (h : Yields src x) {a b : ℕ} (ha : 0 < a) (hb : 0 < b) :
    SameItems R (integrateAndDump (integrateAndDump src a) b) (integrateAndDump src (a * b)) := by
  refine ⟨_, (h.integrateAndDump ha).integrateAndDump hb, (h.integrateAndDump (Nat.mul_pos ha hb)).of_eq ?_⟩
  apply List.ext_getElem?
  intro n
  rw [List.getElem?_map, List.getElem?_map, fullBlocks_getElem? (Nat.mul_pos ha hb), fullBlocks_getElem? hb]
  have hl : ((Spec.fullBlocks a x).map rsum).length = x.length / a := by simp [Spec.fullBlocks]
  have hiff : (n + 1) * (a * b) ≤ x.length ↔ (n + 1) * b ≤ x.length / a := by
    rw [Nat.le_div_iff_mul_le ha, Nat.mul_assoc, Nat.mul_comm b a]
  rw [hl]
  by_cases hn : (n + 1) * b ≤ x.length / a
  · rw [if_pos hn, if_pos (hiff.mpr hn), Option.map_some, Option.map_some, rsum_sum, rsum_sum, sum_getD, sum_getD]
    congr 1
    rw [← sum_range_blocks]
    apply Finset.sum_congr rfl
    intro s hs
    have hs := Finset.mem_range.mp hs
    rw [dumps_getD x ha (by rw [Nat.add_mul] at hn; omega)]
    apply Finset.sum_congr rfl
    intro t _
    congr 1; ring
  · rw [if_neg hn, if_neg (fun h' => hn (hiff.mp h'))]

/-- Running sums read off at the ends of the blocks are the running sums of the block sums. -/
theorem C131_integrate_dump {src : ι} {x : List R} (h : Yields src x) {k : ℕ} (hk : 0 < k) :
    SameItems R (takeEvery (rskip (integrate src) (k - 1)) k) (integrate (integrateAndDump src k)) := by
  refine ⟨_, every (h.integrate.rskip (k - 1)) hk (fun n => ?_), (h.integrateAndDump hk).integrate⟩
  have hl : ((Spec.fullBlocks k x).map rsum).length = x.length / k := by simp [Spec.fullBlocks]
  rw [List.getElem?_drop, runSums_getElem?, runSums_getElem?, hl]
  have hiff : n < x.length / k ↔ k - 1 + n * k < x.length := by
    rw [← Nat.succ_le_iff, Nat.le_div_iff_mul_le hk, Nat.succ_mul]; omega
  by_cases hn : n < x.length / k
  · rw [if_pos hn, if_pos (hiff.mp hn)]
    have e1 := sum_getD ((Spec.fullBlocks k x).map rsum) 0 (n + 1)
    have e2 := sum_getD x 0 (k - 1 + n * k + 1)
    rw [List.drop_zero] at e1 e2
    rw [show List.foldl (· + ·) 0 (((Spec.fullBlocks k x).map rsum).take (n + 1)) = _ from rsum_sum _,
      show List.foldl (· + ·) 0 (x.take (k - 1 + n * k + 1)) = _ from rsum_sum _, e1, e2,
      show k - 1 + n * k + 1 = k * (n + 1) by rw [Nat.mul_succ, Nat.mul_comm k n]; omega]
    congr 1
    simp only [Nat.zero_add]
    rw [← sum_range_blocks]
    apply Finset.sum_congr rfl
    intro s hs
    have hs := Finset.mem_range.mp hs
    exact dumps_getD x hk (by omega)
  · rw [if_neg hn, if_neg (fun h' => hn (hiff.mpr h'))]

/-- Summing up what was inflated scales it. -/
theorem C131_inflate_dump {src : ι} {x : List R} (h : Yields src x) {k : ℕ} (hk : 0 < k) :
    SameItems R (integrateAndDump (inflate src k) k) (scale src (k : R)) := by
  refine ⟨_, ((h.inflate hk).integrateAndDump hk).of_eq ?_, h.scale (k : R)⟩
  rw [fullBlocks_flatMap hk _ _ (fun _ _ => List.length_replicate ..), List.map_map]
  apply List.map_congr_left
  intro a _
  rw [Function.comp, rsum_sum, List.sum_replicate, nsmul_eq_mul, mul_comm]

/-! ## Filters are linear and do not depend on time -/

/-- Scaling before or after the filter. -/
theorem C131_convolve_scale {src : ι} {x : List R} (h : Yields src x) (f : List R) (c : R) :
    SameItems R (convolve (scale src c) f) (scale (convolve src f) c) := by
  refine ⟨_, (h.scale c).convolve f, ((h.convolve f).scale c).of_eq ?_⟩
  rw [convOut_eq, convOut_eq, List.map_append, List.map_map, List.map_map, List.length_map]
  congr 1
  · apply List.map_congr_left
    intro i _
    simp only [Function.comp, Spec.linConvAt]
    rw [Finset.sum_mul]
    apply Finset.sum_congr rfl
    intro j _
    rw [List.getD_eq_getElem?_getD, List.getD_eq_getElem?_getD (l := x.map _), List.getElem?_map]
    cases x[i - j]? <;> simp [mul_right_comm]
  · apply List.map_congr_left
    intro i hi
    have hi := List.mem_range.mp hi
    simp only [Function.comp]
    have e := convDot_tail (x.map (· * c)) f (min f.length x.length - 1 - i) (by rw [List.length_map]; omega)
    rw [convDot_tail _ _ _ (by omega), e, Finset.sum_mul]
    apply Finset.sum_congr rfl
    intro j _
    rw [List.length_map, List.getD_eq_getElem?_getD, List.getD_eq_getElem?_getD (l := x.map _), List.getElem?_map]
    cases x[x.length - 1 - j]? <;> simp [mul_right_comm]

/-- The filter of a sum is the sum of the filtered streams. -/
theorem C131_convolve_add {κ μ : Type} [RIter κ R] [RIter μ R] {src : ι} {src' : κ} {both : μ} {x y : List R} (h : Yields src x)
    (h' : Yields src' y) (hb : Yields both (List.zipWith (· + ·) x y)) (hl : x.length = y.length) (f : List R) :
    ∃ o o', Yields (convolve src f) o ∧ Yields (convolve src' f) o' ∧ o.length = o'.length ∧
      Yields (convolve both f) (List.zipWith (· + ·) o o') := by
  refine ⟨_, _, h.convolve f, h'.convolve f, by rw [convOut_length, convOut_length, hl], (hb.convolve f).of_eq ?_⟩
  have hz : (List.zipWith (· + ·) x y).length = x.length := by simp [hl]
  have hg : ∀ i, (List.zipWith (· + ·) x y).getD i 0 = x.getD i 0 + y.getD i 0 := by
    intro i
    simp only [List.getD_eq_getElem?_getD, List.getElem?_zipWith]
    by_cases hi : i < x.length
    · rw [List.getElem?_eq_getElem hi, List.getElem?_eq_getElem (show i < y.length by omega)]; rfl
    · rw [List.getElem?_eq_none (by omega), List.getElem?_eq_none (show y.length ≤ i by omega)]; simp
  rw [convOut_eq, convOut_eq, convOut_eq, List.zipWith_append (by simp [hl]), hz, ← hl]
  congr 1
  · rw [List.zipWith_map, List.zipWith_self]
    apply List.map_congr_left
    intro i _
    simp only [Spec.linConvAt, hg, add_mul, Finset.sum_add_distrib]
  · rw [List.zipWith_map, List.zipWith_self]
    apply List.map_congr_left
    intro i hi
    have hi := List.mem_range.mp hi
    rw [convDot_tail _ _ _ (by omega), convDot_tail _ _ _ (by omega), convDot_tail _ _ _ (by omega), hz, ← hl]
    simp only [hg, add_mul, Finset.sum_add_distrib]

/-- A signal that comes `d` samples later leaves the filter `d` samples later. -/
theorem C131_convolve_delay {κ : Type} [RIter κ R] {src : ι} {late : κ} {x : List R} (h : Yields src x) {d : ℕ}
    (hd : Yields late (List.replicate d 0 ++ x)) {f : List R} (hf : f ≠ []) (hfx : f.length ≤ x.length) :
    ∃ out, Yields (convolve src f) out ∧ Yields (convolve late f) (List.replicate d 0 ++ out) := by
  refine ⟨_, h.convolve f, (hd.convolve f).of_eq ?_⟩
  have hfl := List.length_pos_iff.mpr hf
  have hlt : ∀ i, i < d → (List.replicate d 0 ++ x).getD i 0 = 0 := by
    intro i hi
    rw [List.getD_eq_getElem?_getD, List.getElem?_append_left (by simpa using hi), List.getElem?_replicate, if_pos hi]; rfl
  have hge : ∀ i, (List.replicate d 0 ++ x).getD (d + i) 0 = x.getD i 0 := by
    intro i
    rw [List.getD_eq_getElem?_getD, List.getElem?_append_right (by simp), List.getD_eq_getElem?_getD]; simp
  rw [convOut_eq, convOut_eq, ← List.append_assoc, List.length_append, List.length_replicate, List.range_add, List.map_append,
    List.map_map]
  congr 1
  · congr 1
    · rw [List.eq_replicate_iff]
      refine ⟨by simp, fun b hb => ?_⟩
      obtain ⟨i, hi, rfl⟩ := List.mem_map.mp hb
      have hi := List.mem_range.mp hi
      unfold Spec.linConvAt
      apply Finset.sum_eq_zero
      intro j _
      rw [hlt _ (by omega), zero_mul]
    · apply List.map_congr_left
      intro i _
      simp only [Function.comp]
      unfold Spec.linConvAt
      rw [← Finset.sum_subset (s₁ := Finset.range (i + 1)) (Finset.range_subset_range.mpr (by omega))]
      · apply Finset.sum_congr rfl
        intro j hj
        have hj := Finset.mem_range.mp hj
        rw [show d + i - j = d + (i - j) by omega, hge]
      · intro j h1 h2
        have h1 := Finset.mem_range.mp h1
        have h2 : i + 1 ≤ j := by simpa using h2
        rw [hlt _ (by omega), zero_mul]
  · rw [show min f.length (d + x.length) = min f.length x.length by omega]
    apply List.map_congr_left
    intro i hi
    have hi := List.mem_range.mp hi
    rw [convDot_tail _ _ _ (by rw [List.length_append]; omega), convDot_tail _ _ _ (by omega)]
    apply Finset.sum_congr rfl
    intro j hj
    have hj := Finset.mem_range.mp hj
    rw [List.length_append, List.length_replicate, show d + x.length - 1 - j = d + (x.length - 1 - j) by omega, hge]

end sums

/-! ## Examples -/

example : SameItems ℕ (inflate (inflate (ofList [7, 8]) 2) 3) (inflate (ofList [7, 8]) 6) :=
  C131_inflate_inflate (yields_ofList _) (by decide) (by decide)

example : Beh (takeEvery (takeEvery (RangeFrom.mk 3) 2) 5) (fun n => some (3 + n * (2 * 5))) :=
  (C131_take_every_take_every (gives_rangeFrom 3) (by decide) (by decide)).1

example : Yields (takeEvery (inflate (ofList [7, 8]) 3) 3) [7, 8] := C131_inflate_take_every (yields_ofList _) (by decide)

example : Yields (rflatMap (chunks (ofList [1, 2, 3, 4, 5]) 2) (fun c : List ℕ => pure (ofList c))) [1, 2, 3, 4, 5] :=
  C131_chunks_flatten (yields_ofList _) (by decide)

/-- An incomplete block at the end. -/
example : Yields (takeEvery (rskip (convolve (ofList [1, 2, 3, 4, 5]) (List.replicate 2 (1 : ℕ))) 1) 2) [3, 7, 5] :=
  (C131_matched_filter (yields_ofList [1, 2, 3, 4, 5]) (k := 2) (by decide) (by decide)).of_eq (by decide +kernel)

example : SameItems ℕ (takeEvery (rskip (convolve (ofList [1, 2, 3, 4]) (List.replicate 2 (1 : ℕ))) 1) 2)
    (integrateAndDump (ofList [1, 2, 3, 4]) 2) :=
  C131_matched_dump (yields_ofList [1, 2, 3, 4]) (by decide) (by decide) (by decide)

/-- The last item of the filtered block 1, 2, 3 is 3, not the sum 6. -/
example : ∃ out, Yields (convolve (ofList [1, 2, 3]) [1, 1, (1 : ℕ)]) out ∧ out.getLast? = some 3 :=
  C131_last_item (yields_ofList [1, 2, 3]) (f := [1, 1, 1]) (a := 3) (t := 1) rfl rfl

example : SameItems ℕ (integrateAndDump (integrateAndDump (ofList [1, 2, 3, 4, 5, 6, 7]) 2) 3)
    (integrateAndDump (ofList [1, 2, 3, 4, 5, 6, 7]) 6) := C131_dump_dump (yields_ofList _) (a := 2) (b := 3) (by decide) (by decide)

example : SameItems ℕ (takeEvery (rskip (integrate (ofList [1, 2, 3, 4, 5])) 1) 2)
    (integrate (integrateAndDump (ofList [1, 2, 3, 4, 5]) 2)) := C131_integrate_dump (yields_ofList _) (k := 2) (by decide)

example : SameItems ℕ (integrateAndDump (inflate (ofList [7, 8]) 3) 3) (scale (ofList [7, 8]) ((3 : ℕ) : ℕ)) :=
  C131_inflate_dump (yields_ofList _) (k := 3) (by decide)

example : SameItems ℕ (convolve (scale (ofList [1, 2, 3]) 10) [1, 5]) (scale (convolve (ofList [1, 2, 3]) [1, 5]) 10) :=
  C131_convolve_scale (yields_ofList _) _ _

example : ∃ o o', Yields (convolve (ofList [1, 2, 3]) [1, (5 : ℕ)]) o ∧ Yields (convolve (ofList [10, 20, 30]) [1, (5 : ℕ)]) o' ∧
    o.length = o'.length ∧ Yields (convolve (ofList [11, 22, 33]) [1, (5 : ℕ)]) (List.zipWith (· + ·) o o') :=
  C131_convolve_add (yields_ofList [1, 2, 3]) (yields_ofList [10, 20, 30]) (yields_ofList [11, 22, 33]) rfl [1, 5]

example : ∃ out, Yields (convolve (ofList [1, 2, 3]) [1, (5 : ℕ)]) out ∧
    Yields (convolve (ofList [0, 0, 1, 2, 3]) [1, (5 : ℕ)]) (List.replicate 2 0 ++ out) :=
  C131_convolve_delay (yields_ofList _) (d := 2) (yields_ofList _) (by decide) (by decide)

end Verif.Props
