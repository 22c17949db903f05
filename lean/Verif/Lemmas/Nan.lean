import Verif.Spec.Bad
import Verif.F64.Spread
import Verif.Lemmas.Symbols
import Verif.Lemmas.Chaos

/-! NaN and infinities go through sums, products and comparisons. -/
namespace Verif
open Float.Model Float.Model.UnpackedFloat Spec F64

namespace F64

theorem nan_iff (x : Float) : Float.beq x x = false ↔ up x = .notANumber := by
  rw [beq_eq]
  cases h : up x with
  | notANumber => exact ⟨fun _ => rfl, fun _ => rfl⟩
  | infinity s => cases s <;> exact ⟨fun h => absurd h (by decide), fun h => by cases h⟩
  | zero s => cases s <;> exact ⟨fun h => absurd h (by decide), fun h => by cases h⟩
  | finite s m e hm =>
    refine ⟨fun h' => ?_, fun h => by cases h⟩
    rw [← h, compare_fin (by rw [fin_iff, h]; rfl) (by rw [fin_iff, h]; rfl), compare_eq_iff_eq.mpr rfl] at h'
    cases h'

theorem nan_add {x : Float} (hx : up x = .notANumber) (y : Float) : up (x + y) = .notANumber ∧ up (y + x) = .notANumber := by
  rw [add_eq, add_eq, hx]
  cases up y <;> exact ⟨unpack_pack_nan, unpack_pack_nan⟩

theorem nan_sub {x : Float} (hx : up x = .notANumber) (y : Float) : up (x - y) = .notANumber ∧ up (y - x) = .notANumber := by
  rw [sub_eq, sub_eq, hx]
  cases up y <;> exact ⟨unpack_pack_nan, unpack_pack_nan⟩

theorem nan_mul {x : Float} (hx : up x = .notANumber) (y : Float) : up (x * y) = .notANumber ∧ up (y * x) = .notANumber := by
  rw [mul_eq, mul_eq, hx]
  cases up y <;> exact ⟨unpack_pack_nan, unpack_pack_nan⟩

theorem nan_div {x : Float} (hx : up x = .notANumber) (y : Float) : up (x / y) = .notANumber ∧ up (y / x) = .notANumber := by
  rw [div_eq, div_eq, hx]
  cases up y <;> exact ⟨unpack_pack_nan, unpack_pack_nan⟩

theorem nan_sqrt {x : Float} (hx : up x = .notANumber) : up x.sqrt = .notANumber := by
  rw [sqrt_eq, hx]; exact unpack_pack_nan

theorem nan_abs {x : Float} (hx : up x = .notANumber) : up x.abs = .notANumber := by
  rw [up_abs, hx]; rfl

theorem nan_lt {x : Float} (hx : up x = .notANumber) (y : Float) : Float.lt x y = false ∧ Float.lt y x = false := by
  rw [lt_eq, lt_eq, hx]
  cases up y <;> exact ⟨rfl, rfl⟩

theorem nan_le {x : Float} (hx : up x = .notANumber) (y : Float) : Float.le x y = false ∧ Float.le y x = false := by
  rw [le_eq, le_eq, hx]
  cases up y <;> exact ⟨rfl, rfl⟩

/-- NaN or `+∞`. -/
def Topped (x : Float) : Prop := up x = .notANumber ∨ up x = .infinity .positive

theorem bad_iff (x : Float) : x.isFinite = false ↔ up x = .notANumber ∨ ∃ s, up x = .infinity s := by
  have : x.isFinite = (up x).isFinite := rfl
  rw [this]
  cases up x <;> simp [UnpackedFloat.isFinite]

/-- Not finite. -/
def Bad (x : Float) : Prop := up x = .notANumber ∨ ∃ s, up x = .infinity s

theorem Bad.add {x : Float} (hx : Bad x) (y : Float) : Bad (x + y) ∧ Bad (y + x) := by
  rcases hx with hx | ⟨s, hx⟩
  · exact ⟨.inl (nan_add hx y).1, .inl (nan_add hx y).2⟩
  · unfold Bad
    rw [add_eq, add_eq, hx]
    cases up y with
    | notANumber => exact ⟨.inl unpack_pack_nan, .inl unpack_pack_nan⟩
    | infinity s' =>
      cases s <;> cases s'
      · exact ⟨.inr ⟨.negative, unpack_pack_infinity .negative⟩, .inr ⟨.negative, unpack_pack_infinity .negative⟩⟩
      · exact ⟨.inl unpack_pack_nan, .inl unpack_pack_nan⟩
      · exact ⟨.inl unpack_pack_nan, .inl unpack_pack_nan⟩
      · exact ⟨.inr ⟨.positive, unpack_pack_infinity .positive⟩, .inr ⟨.positive, unpack_pack_infinity .positive⟩⟩
    | zero s' => exact ⟨.inr ⟨s, unpack_pack_infinity _⟩, .inr ⟨s, unpack_pack_infinity _⟩⟩
    | finite s' m e hm => exact ⟨.inr ⟨s, unpack_pack_infinity _⟩, .inr ⟨s, unpack_pack_infinity _⟩⟩

theorem Bad.sub {x : Float} (hx : Bad x) (y : Float) : Bad (x - y) := by
  rcases hx with hx | ⟨s, hx⟩
  · exact .inl (nan_sub hx y).1
  · unfold Bad
    rw [sub_eq, hx]
    cases up y with
    | notANumber => exact .inl unpack_pack_nan
    | infinity s' =>
      cases s <;> cases s'
      · exact .inl unpack_pack_nan
      · exact .inr ⟨.negative, unpack_pack_infinity .negative⟩
      · exact .inr ⟨.positive, unpack_pack_infinity .positive⟩
      · exact .inl unpack_pack_nan
    | zero s' => exact .inr ⟨s, unpack_pack_infinity _⟩
    | finite s' m e hm => exact .inr ⟨s, unpack_pack_infinity _⟩

theorem Bad.mul {x : Float} (hx : Bad x) (y : Float) : Bad (x * y) := by
  rcases hx with hx | ⟨s, hx⟩
  · exact .inl (nan_mul hx y).1
  · unfold Bad
    rw [mul_eq, hx]
    cases up y with
    | notANumber => exact .inl unpack_pack_nan
    | infinity s' => exact .inr ⟨_, unpack_pack_infinity _⟩
    | zero s' => exact .inl unpack_pack_nan
    | finite s' m e hm => exact .inr ⟨_, unpack_pack_infinity _⟩

theorem Bad.sq {x : Float} (hx : Bad x) : Topped (x * x) := by
  rcases hx with hx | ⟨s, hx⟩
  · exact .inl (nan_mul hx x).1
  · right
    rw [mul_eq, hx]
    cases s <;> exact unpack_pack_infinity .positive

theorem Topped.add {x y : Float} (hx : Topped x) (hy : Topped y) : Topped (x + y) := by
  rcases hx with hx | hx
  · exact .inl (nan_add hx y).1
  · rcases hy with hy | hy
    · exact .inl (nan_add hy x).2
    · right; rw [add_eq, hx, hy]; exact unpack_pack_infinity .positive

theorem Topped.sub {x y : Float} (hx : Topped x) (hy : Topped y) : up (x - y) = .notANumber := by
  rcases hx with hx | hx
  · exact (nan_sub hx y).1
  · rcases hy with hy | hy
    · exact (nan_sub hy x).2
    · rw [sub_eq, hx, hy]; exact unpack_pack_nan

theorem Bad.nearer {x : Float} (h : Bad x) (a b : Float) : Float.lt (x - a).abs (x - b).abs = false := by
  have key : ∀ a : Float, Topped (x - a).abs := by
    intro a
    unfold Topped
    rw [up_abs]
    rcases h.sub a with h | ⟨s, h⟩
    · rw [h]; exact .inl rfl
    · rw [h]; exact .inr rfl
  rcases key a with h1 | h1
  · exact (nan_lt h1 _).1
  · rcases key b with h2 | h2
    · exact (nan_lt h2 _).2
    · rw [lt_eq, h1, h2]; rfl

theorem sq_nonneg' {x : Float} (h : up x ≠ .notANumber) : GE 0 (x * x) := by
  by_cases hf : Fin x
  · exact GE.mul hf hf isF_zero le_rfl (mul_self_nonneg _)
  · left
    rw [mul_eq]
    rw [fin_iff] at hf
    cases hx : up x with
    | notANumber => exact absurd hx h
    | infinity s => cases s <;> exact unpack_pack_infinity .positive
    | zero s => rw [hx] at hf; exact absurd rfl hf
    | finite s m e hm => rw [hx] at hf; exact absurd rfl hf

/-- `+∞` divided by a positive number, and its root. -/
theorem inf_mean {x y n0 : Float} (hx : up x = .infinity .positive) (hy : Fin y) (hp : 0 < val y) (hn : Fin n0) :
    up (x / y) = .infinity .positive ∧ Float.lt n0 (x / y).sqrt = true := by
  have e : up (x / y) = .infinity .positive := by
    rw [div_eq, hx]
    rw [fin_iff] at hy
    unfold val at hp
    cases h : up y with
    | notANumber => rw [h] at hy; cases hy
    | infinity s => rw [h] at hy; cases hy
    | zero s => rw [h] at hp; simp [uval] at hp
    | finite s m e hm =>
      cases s with
      | positive => exact unpack_pack_infinity .positive
      | negative =>
        rw [h] at hp
        have := finite_pos hm e
        simp only [uval, sgn] at hp
        linarith
  refine ⟨e, ?_⟩
  have e2 : up (x / y).sqrt = .infinity .positive := by
    rw [sqrt_eq, e]; exact unpack_pack_infinity .positive
  rw [lt_eq, e2]
  rw [fin_iff] at hn
  cases h : up n0 with
  | notANumber => rw [h] at hn; cases hn
  | infinity s => rw [h] at hn; cases hn
  | zero s => cases s <;> rfl
  | finite s m e hm => cases s <;> rfl

end F64

variable {L : Libm}

theorem isMissing_iff (x : FloatL L) : isMissing x = true ↔ up x = .notANumber := by
  refine Iff.trans ?_ (nan_iff x)
  unfold isMissing
  rw [Bool.not_eq_true']
  rfl

theorem isUnusable_iff (x : FloatL L) : isUnusable x = true ↔ Bad x := by
  unfold isUnusable Bad
  rw [Bool.not_eq_true']
  exact bad_iff x

theorem rsum_nan {l : List (FloatL L)} (h : l.any isMissing = true) : isMissing (rsum l) = true := by
  have key : ∀ (l : List (FloatL L)) (a : FloatL L), (isMissing a = true ∨ l.any isMissing = true) → isMissing (l.foldl (· + ·) a) = true := by
    intro l
    induction l with
    | nil => intro a h; simpa using h
    | cons x l ih =>
      intro a h
      rw [List.foldl_cons]
      apply ih
      rw [List.any_cons, Bool.or_eq_true] at h
      rcases h with h | h | h
      · exact .inl ((isMissing_iff _).mpr (nan_add ((isMissing_iff _).mp h) x).1)
      · exact .inl ((isMissing_iff _).mpr (nan_add ((isMissing_iff _).mp h) a).2)
      · exact .inr h
  exact key l 0 (.inr h)

theorem foldl_bad {l : List (FloatL L)} {a : FloatL L} (h : isUnusable a = true ∨ l.any isUnusable = true) : isUnusable (l.foldl (· + ·) a) = true := by
  induction l generalizing a with
  | nil => simpa using h
  | cons x l ih =>
    rw [List.foldl_cons]
    apply ih
    rw [List.any_cons, Bool.or_eq_true] at h
    rcases h with h | h | h
    · exact .inl ((isUnusable_iff _).mpr (((isUnusable_iff _).mp h).add x).1)
    · exact .inl ((isUnusable_iff _).mpr (((isUnusable_iff _).mp h).add a).2)
    · exact .inr h

theorem mul_isMissing {x : FloatL L} (h : isMissing x = true) (c : FloatL L) : isMissing (x * c) = true :=
  (isMissing_iff _).mpr (nan_mul ((isMissing_iff _).mp h) c).1

theorem mul_isUnusable {x : FloatL L} (h : isUnusable x = true) (c : FloatL L) : isUnusable (x * c) = true :=
  (isUnusable_iff _).mpr (((isUnusable_iff _).mp h).mul c)

theorem any_mapIdx_mul {P : FloatL L → Bool} (hP : ∀ x c : FloatL L, P x = true → P (x * c) = true) {b : List (FloatL L)} (h : b.any P = true)
    (c : ℕ → FloatL L) : (b.mapIdx (fun j x => x * c j)).any P = true := by
  rw [List.any_eq_true] at h ⊢
  obtain ⟨x, hx, hp⟩ := h
  obtain ⟨j, hj, rfl⟩ := List.getElem_of_mem hx
  exact ⟨_, List.mem_mapIdx.mpr ⟨j, hj, rfl⟩, hP _ _ hp⟩

theorem corr_nan {b : List (FloatL L)} (h : b.any isMissing = true) (c : ℕ → FloatL L) :
    isMissing (rsum (b.mapIdx (fun j x => x * c j))) = true :=
  rsum_nan (any_mapIdx_mul (P := isMissing) (fun _ c h => mul_isMissing h c) h c)

theorem lt_isMissing {x : FloatL L} (h : isMissing x = true) (y : FloatL L) : Flt.lt y x = false := (nan_lt ((isMissing_iff _).mp h) y).2
theorem le_isMissing {x : FloatL L} (h : isMissing x = true) (y : FloatL L) : Flt.le y x = false := (nan_le ((isMissing_iff _).mp h) y).2

/-! ## Decisions -/

theorem decBpsk_nan {b : List (FloatL L)} (h : b.any isMissing = true) (fs k : ℕ) (fc : FloatL L) (n : ℕ) : decBpsk fs k fc n b = false :=
  lt_isMissing (corr_nan h fun j => Flt.cos (phase fs fc (n * k + j))) 0

theorem decQpsk_nan {b : List (FloatL L)} (h : b.any isMissing = true) (fs k : ℕ) (fc : FloatL L) (n : ℕ) :
    decQpsk fs k fc n b = [false, false] := by
  unfold decQpsk
  rw [le_isMissing (corr_nan h fun j => Flt.cos (phase fs fc (n * k + j))) 0,
    le_isMissing (corr_nan h fun j => -(Flt.sin (phase fs fc (n * k + j)))) 0]

theorem despread_nan {b : List (FloatL L)} (h : b.any isMissing = true) (key : List Bool) (spc k n : ℕ) :
    (despreadSym key spc k n b).any isMissing = true :=
  any_mapIdx_mul (P := isMissing) (fun _ c h => mul_isMissing h c) h (fun j => bitToNrz (keyBit key spc (n * k + j)))

theorem decFh_nan {ρ : Type} [Rng ρ] {b : List (FloatL L)} (h : b.any isMissing = true) (low high : FloatL L) (nf fs n : ℕ) :
    decFh ρ low high nf fs n b = false :=
  lt_isMissing (corr_nan h fun j => Flt.cos (phase fs (hopOf ρ low high nf n) j)) 0

/-- The four sums of the FSK receiver, one at a time. -/
theorem foldl_four {F : Type} [Add F] (l : List (F × F × F × F)) (a : F × F × F × F) :
    l.foldl (fun (a : F × F × F × F) v => (a.1 + v.1, a.2.1 + v.2.1, a.2.2.1 + v.2.2.1, a.2.2.2 + v.2.2.2)) a
      = ((l.map (·.1)).foldl (· + ·) a.1, (l.map (·.2.1)).foldl (· + ·) a.2.1, (l.map (·.2.2.1)).foldl (· + ·) a.2.2.1,
        (l.map (·.2.2.2)).foldl (· + ·) a.2.2.2) := by
  induction l generalizing a with
  | nil => rfl
  | cons v l ih => rw [List.foldl_cons, ih]; rfl

theorem rxFskChunk_bad {b : List (FloatL L)} (h : b.any isUnusable = true) (fs : ℕ) (fc : FloatL L) (n : ℕ) : rxFskChunk fs fc n b = false := by
  have key : ∀ c : ℕ → FloatL L, Topped (powi ((b.mapIdx (fun j x => x * c j)).foldl (· + ·) 0) 2) := fun c =>
    Bad.sq ((isUnusable_iff _).mp (foldl_bad (.inr (any_mapIdx_mul (P := isUnusable) (fun _ c h => mul_isUnusable h c) h c))))
  have key2 : ∀ c1 c2 c3 c4 : ℕ → FloatL L, Flt.le (0 : FloatL L)
      (powi ((b.mapIdx (fun j x => x * c1 j)).foldl (· + ·) 0) 2 + powi ((b.mapIdx (fun j x => x * c2 j)).foldl (· + ·) 0) 2
        - (powi ((b.mapIdx (fun j x => x * c3 j)).foldl (· + ·) 0) 2 + powi ((b.mapIdx (fun j x => x * c4 j)).foldl (· + ·) 0) 2)) = false :=
    fun c1 c2 c3 c4 => le_isMissing ((isMissing_iff _).mpr (Topped.sub (Topped.add (key c1) (key c2)) (Topped.add (key c3) (key c4)))) 0
  unfold rxFskChunk
  simp only [foldl_four, map_mapIdx']
  exact key2 (fun j => _) (fun j => _) (fun j => _) (fun j => _)

/-! ## Lost samples -/

theorem same_of_forall {A : Type} {P : A → Bool} {a b : List A} (h : List.Forall₂ (fun x y => y = x ∨ P y = true) a b)
    (hb : ∀ y ∈ b, P y = false) : b = a := by
  induction h with
  | nil => rfl
  | cons h _ ih =>
    rw [ih (fun y hy => hb y (by simp [hy]))]
    rcases h with rfl | h
    · rfl
    · rw [hb _ (by simp)] at h; cases h

theorem lost_form {P : FloatL L → Bool} {k m : ℕ} (hk : 0 < k) (hm : 0 < m) {l l' : List (FloatL L)}
    (h : Spoilt P l l') (D : ℕ → List (FloatL L) → List Bool) (hD : ∀ n b, (D n b).length = m)
    (hN : ∀ n b, b.any P = true → D n b = List.replicate m false) :
    ((fullBlocks k l').mapIdx D).flatten
      = (((fullBlocks k l).mapIdx D).flatten).mapIdx (fun i b => b && !(symbol k (i / m) l').any P) := by
  apply List.ext_getElem?
  intro i
  have hlen := h.length_eq
  have e : ∀ l : List (FloatL L), ((fullBlocks k l).mapIdx D).flatten[i]?
      = if (i / m + 1) * k ≤ l.length then (D (i / m) (symbol k (i / m) l))[i % m]? else none := by
    intro l
    rw [← List.flatMap_id, getElem?_flatMap_const hm id _ (by
      intro b hb
      obtain ⟨n, hn, rfl⟩ := List.mem_mapIdx.mp hb
      exact hD _ _), List.getElem?_mapIdx, fullBlocks_getElem? hk]
    split_ifs <;> rfl
  rw [List.getElem?_mapIdx, e, e, hlen]
  split_ifs with hc
  · by_cases hP : (symbol k (i / m) l').any P = true
    · rw [hN _ _ hP, hP]
      have : i % m < m := Nat.mod_lt _ hm
      rw [List.getElem?_replicate, if_pos this, List.getElem?_eq_getElem (by rw [hD]; exact this)]
      simp
    · have heq : symbol k (i / m) l' = symbol k (i / m) l := by
        have h2 : List.Forall₂ (fun x y => y = x ∨ P y = true) (symbol k (i / m) l) (symbol k (i / m) l') :=
          List.forall₂_take _ (List.forall₂_drop _ h)
        rw [Bool.not_eq_true, List.any_eq_false] at hP
        exact same_of_forall h2 (fun y hy => by simpa using hP y hy)
      rw [Bool.not_eq_true] at hP
      rw [hP, heq]
      simp
  · rfl

theorem lost_blocks {P : FloatL L → Bool} {k : ℕ} (hk : 0 < k) {l l' : List (FloatL L)}
    (h : Spoilt P l l') (D : ℕ → List (FloatL L) → Bool)
    (hN : ∀ n b, b.any P = true → D n b = false) :
    (blocks k l').mapIdx D = ((blocks k l).mapIdx D).mapIdx (fun i b => b && !(symbol k i l').any P) := by
  apply List.ext_getElem?
  intro i
  have hlen := h.length_eq
  rw [List.getElem?_mapIdx, List.getElem?_mapIdx, List.getElem?_mapIdx, blocks_getElem?' hk, blocks_getElem?' hk, hlen]
  split_ifs with hc
  · show some (D i (symbol k i l')) = some (D i (symbol k i l) && !(symbol k i l').any P)
    by_cases hP : (symbol k i l').any P = true
    · rw [hN _ _ hP, hP]; simp
    · have h2 : List.Forall₂ (fun x y => y = x ∨ P y = true) (symbol k i l) (symbol k i l') :=
        List.forall₂_take _ (List.forall₂_drop _ h)
      have heq := same_of_forall h2 (fun y hy => by
        rw [Bool.not_eq_true, List.any_eq_false] at hP
        simpa using hP y hy)
      rw [Bool.not_eq_true] at hP
      rw [hP, heq]; simp
  · rfl

theorem lost_map {P : FloatL L → Bool} {l l' : List (FloatL L)} (h : Spoilt P l l')
    (D : ℕ → FloatL L → Bool) (hN : ∀ n x, P x = true → D n x = false) :
    l'.mapIdx D = (l.mapIdx D).mapIdx (fun i b => b && !(symbol 1 i l').any P) := by
  induction h generalizing D with
  | nil => rfl
  | @cons x y l l' h _ ih =>
    have e : (fun (i : ℕ) (b : Bool) => b && !(symbol 1 (i + 1) (y :: l')).any P) = fun i b => b && !(symbol 1 i l').any P := by
      funext i b
      unfold symbol
      rw [Nat.mul_one, Nat.mul_one, List.drop_succ_cons]
    rw [List.mapIdx_cons, List.mapIdx_cons, List.mapIdx_cons, ih _ (fun n x hx => hN (n + 1) x hx), e]
    congr 1
    show D 0 y = (D 0 x && !([y].any P))
    rw [List.any_cons, List.any_nil, Bool.or_false]
    by_cases hy : P y = true
    · rw [hN 0 y hy, hy]; simp
    · rcases h with rfl | h
      · rw [Bool.not_eq_true] at hy; rw [hy]; simp
      · exact absurd h hy

/-- The decision of the DCSK receiver on its two samples. -/
def decDcsk (b : List (FloatL L)) : List Bool :=
  match b with
  | [x, y] => [Flt.lt 0 (x * y)]
  | _ => [false]

theorem dcsk_form (l : List (FloatL L)) :
    (pairs l).map (fun p => Flt.lt 0 (p.1 * p.2)) = ((fullBlocks 2 l).mapIdx (fun _ b => decDcsk b)).flatten := by
  induction l using pairs.induct with
  | case1 a b t ih =>
    rw [pairs, List.map_cons, ih, show a :: b :: t = [a, b] ++ t from rfl, fullBlocks_append (k := 2) (by norm_num) rfl, List.mapIdx_cons,
      List.flatten_cons]
    rfl
  | case2 l h =>
    have : l.length < 2 := by
      match l, h with
      | [], _ => simp
      | [_], _ => simp
      | a :: b :: t, h => exact absurd rfl (h a b t)
    rw [fullBlocks_short this]
    unfold pairs
    split
    · rename_i h'; exact absurd rfl (h _ _ _)
    · rfl

theorem decDcsk_nan {b : List (FloatL L)} (h : b.any isMissing = true) : decDcsk b = [false] := by
  unfold decDcsk
  split
  · rename_i x y
    rw [List.any_cons, List.any_cons, List.any_nil, Bool.or_false, Bool.or_eq_true] at h
    congr 1
    rcases h with h | h
    · exact lt_isMissing (mul_isMissing h y) 0
    · exact lt_isMissing ((isMissing_iff _).mpr (nan_mul ((isMissing_iff _).mp h) x).2) 0
  · rfl

theorem csk_bad {x : FloatL L} (h : isUnusable x = true) (a b : FloatL L) : Flt.lt (Flt.abs (x - a)) (Flt.abs (x - b)) = false :=
  ((isUnusable_iff _).mp h).nearer a b

/-! ## Energies -/

theorem energy_nan {l : List (FloatL L)} (h : l.any isMissing = true) : isMissing (rsum (l.map (fun s => powi s 2))) = true := by
  apply rsum_nan
  rw [List.any_eq_true] at h ⊢
  obtain ⟨x, hx, hp⟩ := h
  exact ⟨_, List.mem_map.mpr ⟨x, hx, rfl⟩, mul_isMissing hp x⟩

theorem sq_ge {x : FloatL L} (h : isMissing x = false) : GE 0 (powi x 2) :=
  sq_nonneg' (fun h' => by rw [(isMissing_iff x).mpr h'] at h; cases h)

/-- An infinite sample makes the sum of the squares infinite. -/
theorem energy_inf {l : List (FloatL L)} (h : l.any isMissing = false) (h2 : l.any isUnusable = true) :
    up (rsum (l.map (fun s => powi s 2))) = .infinity .positive := by
  have hge : GE 0 (rsum (l.map (fun s => powi s 2))) := by
    apply GE.rsum _ isF_zero le_rfl
    · rw [List.any_eq_true] at h2
      obtain ⟨x, hx, -⟩ := h2
      rw [List.any_eq_false] at h
      exact ⟨_, List.mem_map.mpr ⟨x, hx, rfl⟩, sq_ge (by simpa using h x hx)⟩
    · intro y hy
      obtain ⟨x, hx, rfl⟩ := List.mem_map.mp hy
      rw [List.any_eq_false] at h
      exact sq_ge (by simpa using h x hx)
  have hbad : isUnusable (rsum (l.map (fun s => powi s 2))) = true := by
    apply foldl_bad (.inr _)
    rw [List.any_eq_true] at h2 ⊢
    obtain ⟨x, hx, hp⟩ := h2
    exact ⟨_, List.mem_map.mpr ⟨x, hx, rfl⟩, mul_isUnusable hp x⟩
  rcases hge with h | ⟨h1, -⟩
  · exact h
  · unfold isUnusable at hbad
    rw [Bool.not_eq_true'] at hbad
    rw [show Flt.isFinite (F := FloatL L) (rsum (l.map (fun s => powi s 2))) = true from h1] at hbad
    cases hbad

end Verif
