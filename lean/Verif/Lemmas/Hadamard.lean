import Verif.Model.Hadamard
import Verif.Spec.Hadamard
import Mathlib.Data.Nat.Init
import Mathlib.Tactic.Ring
import Mathlib.Data.List.Basic

/-! The Hadamard construction. -/
namespace Verif
open Spec

/-! ### Bits -/
theorem popcount_zero : popcount 0 = 0 := by unfold popcount; simp

theorem popcount_step (n : Nat) : popcount n = n % 2 + popcount (n / 2) := by
  by_cases h : n = 0
  · subst h; simp [popcount_zero]
  · conv_lhs => unfold popcount
    rw [if_neg h]

theorem popcount_two_pow_add (k x : Nat) (h : x < 2 ^ k) : popcount (2 ^ k + x) = popcount x + 1 := by
  induction k generalizing x with
  | zero =>
    have : x = 0 := by simpa using h
    subst this
    rw [popcount_step]; simp [popcount_zero]
  | succ k ih =>
    rw [popcount_step, popcount_step x, Nat.pow_succ, Nat.mul_comm, Nat.mul_add_mod, Nat.mul_add_div (by omega),
      ih (x / 2) (by rw [Nat.pow_succ] at h; omega)]
    omega

theorem high_and_low (k i j : Nat) (hi : i < 2 ^ k) (hj : j < 2 ^ k) : (2 ^ k + i) &&& j = i &&& j := by
  have h1 : (2 ^ k + i) % 2 ^ k = i := by rw [Nat.add_mod_left, Nat.mod_eq_of_lt hi]
  have h2 : ((2 ^ k + i) &&& j) < 2 ^ k := lt_of_le_of_lt Nat.and_le_right hj
  have := Nat.and_mod_two_pow (a := 2 ^ k + i) (b := j) (n := k)
  rwa [Nat.mod_eq_of_lt h2, h1, Nat.mod_eq_of_lt hj] at this

theorem high_and_high (k i j : Nat) (hi : i < 2 ^ k) (hj : j < 2 ^ k) :
    (2 ^ k + i) &&& (2 ^ k + j) = 2 ^ k + (i &&& j) := by
  have hp : 0 < 2 ^ k := Nat.two_pow_pos k
  have h1 := Nat.and_mod_two_pow (a := 2 ^ k + i) (b := 2 ^ k + j) (n := k)
  have h2 := Nat.and_div_two_pow (a := 2 ^ k + i) (b := 2 ^ k + j) (n := k)
  rw [Nat.add_mod_left, Nat.add_mod_left, Nat.mod_eq_of_lt hi, Nat.mod_eq_of_lt hj] at h1
  rw [Nat.add_div_left _ hp, Nat.add_div_left _ hp, Nat.div_eq_of_lt hi, Nat.div_eq_of_lt hj] at h2
  have := Nat.div_add_mod ((2 ^ k + i) &&& (2 ^ k + j)) (2 ^ k)
  rw [h1, h2] at this
  simpa using this.symm

theorem walsh_symm (i j : Nat) : walsh i j = walsh j i := by unfold walsh; rw [Nat.and_comm]
theorem walsh_zero (j : Nat) : walsh 0 j = true := by unfold walsh; simp [popcount_zero]

section
variable {k i j : Nat} (hi : i < 2 ^ k) (hj : j < 2 ^ k)
include hi hj
theorem walsh_high_low : walsh (2 ^ k + i) j = walsh i j := by unfold walsh; rw [high_and_low k i j hi hj]
theorem walsh_low_high : walsh i (2 ^ k + j) = walsh i j := by
  rw [walsh_symm, walsh_high_low hj hi, walsh_symm]
theorem walsh_high_high : walsh (2 ^ k + i) (2 ^ k + j) = !walsh i j := by
  unfold walsh
  rw [high_and_high k i j hi hj, popcount_two_pow_add k _ (lt_of_le_of_lt Nat.and_le_left hi)]
  rcases Nat.mod_two_eq_zero_or_one (popcount (i &&& j)) with h | h
  · rw [Nat.add_mod, h]; rfl
  · rw [Nat.add_mod, h]; rfl
end

/-! ### Matrices as functions -/
/-- `m` is an `n × n` matrix with entries `g`. -/
def Rep (n : Nat) (m : BMat) (g : Nat → Nat → Bool) : Prop :=
  m.length = n ∧ ∀ i, i < n → ∃ r, m[i]? = some r ∧ r.length = n ∧ ∀ j, j < n → r[j]? = some (g i j)

theorem Rep.get {n : Nat} {m : BMat} {g} (h : Rep n m g) {i j : Nat} (hi : i < n) (hj : j < n) :
    getM m i j = pure (g i j) := by
  obtain ⟨r, h1, h2, h3⟩ := h.2 i hi
  unfold getM index
  rw [h1, pure_bind, h3 j hj]

theorem Rep.set {n : Nat} {m : BMat} {g} (h : Rep n m g) {i j : Nat} (hi : i < n) (hj : j < n) (b : Bool) :
    ∃ m', setM m i j b = pure m' ∧ Rep n m' (fun a c => if a = i ∧ c = j then b else g a c) := by
  obtain ⟨r, h1, h2, h3⟩ := h.2 i hi
  refine ⟨m.set i (r.set j b), ?_, ?_, ?_⟩
  · unfold setM index
    rw [h1, pure_bind, h3 j hj]; rfl
  · rw [List.length_set]; exact h.1
  · intro a ha
    by_cases e : a = i
    · subst e
      refine ⟨r.set j b, by rw [List.getElem?_set_self (by rw [h.1]; exact ha)], by simpa using h2, ?_⟩
      intro c hc
      by_cases e2 : c = j
      · subst e2; rw [List.getElem?_set_self (by omega)]; simp
      · rw [List.getElem?_set_ne (Ne.symm e2), h3 c hc]; simp [e2]
    · obtain ⟨r', h1', h2', h3'⟩ := h.2 a ha
      refine ⟨r', by rw [List.getElem?_set_ne (Ne.symm e), h1'], h2', ?_⟩
      intro c hc; rw [h3' c hc]; simp [e]

/-- Loop invariant: the top left `i1 × i1` corner is `w`, and the three copies of the cells in `S` are in place. -/
def HInv (i1 : Nat) (w : Nat → Nat → Bool) (S : Nat → Nat → Prop) (g : Nat → Nat → Bool) : Prop :=
  (∀ a b, a < i1 → b < i1 → g a b = w a b) ∧
  ∀ a b, a < i1 → b < i1 → S a b →
    g (i1 + a) b = w a b ∧ g a (i1 + b) = w a b ∧ g (i1 + a) (i1 + b) = !w a b

theorem hadInner_ok {n i1 i2 i3 : Nat} (hn : i1 + i1 ≤ n) (h2 : i2 < i1) (h3 : i3 < i1) {m : BMat} {w S g}
    (hr : Rep n m g) (hi : HInv i1 w S g) :
    ∃ m' g', hadInner i1 i2 m i3 = pure m' ∧ Rep n m' g' ∧ HInv i1 w (fun a b => S a b ∨ (a = i2 ∧ b = i3)) g' := by
  unfold hadInner
  rw [hr.get (by omega) (by omega), pure_bind]
  obtain ⟨m1, e1, r1⟩ := hr.set (i := i1 + i2) (j := i3) (by omega) (by omega) (g i2 i3)
  rw [e1, pure_bind, r1.get (by omega) (by omega), pure_bind]
  obtain ⟨m2, e2, r2⟩ := r1.set (i := i2) (j := i1 + i3) (by omega) (by omega) (if i2 = i1 + i2 ∧ i3 = i3 then g i2 i3 else g i2 i3)
  rw [e2, pure_bind, r2.get (by omega) (by omega), pure_bind]
  obtain ⟨m3, e3, r3⟩ := r2.set (i := i1 + i2) (j := i1 + i3) (by omega) (by omega)
    (!(if i2 = i2 ∧ i3 = i1 + i3 then (if i2 = i1 + i2 ∧ i3 = i3 then g i2 i3 else g i2 i3)
      else if i2 = i1 + i2 ∧ i3 = i3 then g i2 i3 else g i2 i3))
  refine ⟨m3, _, e3, r3, ?_⟩
  simp only [ite_self]
  have hw := hi.1 i2 i3 h2 h3
  constructor
  · intro a b ha hb
    beta_reduce
    rw [if_neg (by omega), if_neg (by omega), if_neg (by omega)]; exact hi.1 a b ha hb
  · intro a b ha hb hS
    by_cases hab : a = i2 ∧ b = i3
    · obtain ⟨rfl, rfl⟩ := hab
      refine ⟨?_, ?_, ?_⟩
      · beta_reduce; rw [if_neg (by omega), if_neg (by omega), if_pos ⟨rfl, rfl⟩, hw]
      · beta_reduce; rw [if_neg (by omega), if_pos ⟨rfl, rfl⟩, hw]
      · beta_reduce; rw [if_pos ⟨rfl, rfl⟩, hw]
    · have hS' : S a b := hS.resolve_right hab
      obtain ⟨q1, q2, q3⟩ := hi.2 a b ha hb hS'
      refine ⟨?_, ?_, ?_⟩
      · beta_reduce; rw [if_neg (by omega), if_neg (by omega), if_neg (by omega)]; exact q1
      · beta_reduce; rw [if_neg (by omega), if_neg (by omega), if_neg (by omega)]; exact q2
      · beta_reduce; rw [if_neg (by omega), if_neg (by omega), if_neg (by omega)]; exact q3

theorem hadRow_ok {n i1 i2 : Nat} (hn : i1 + i1 ≤ n) (h2 : i2 < i1) (l : List Nat) (hl : ∀ x ∈ l, x < i1) {m : BMat}
    {w S g} (hr : Rep n m g) (hi : HInv i1 w S g) :
    ∃ m' g', l.foldlM (hadInner i1 i2) m = pure m' ∧ Rep n m' g' ∧ HInv i1 w (fun a b => S a b ∨ (a = i2 ∧ b ∈ l)) g' := by
  induction l generalizing m g S with
  | nil => exact ⟨m, g, rfl, hr, by simpa using hi⟩
  | cons x l ih =>
    obtain ⟨m1, g1, e1, r1, i1'⟩ := hadInner_ok hn h2 (hl x (by simp)) hr hi
    obtain ⟨m2, g2, e2, r2, i2'⟩ := ih (fun y hy => hl y (by simp [hy])) r1 i1'
    refine ⟨m2, g2, by rw [List.foldlM_cons, e1, pure_bind, e2], r2, i2'.1, ?_⟩
    intro a b ha hb hS
    apply i2'.2 a b ha hb
    simp only [List.mem_cons] at hS
    tauto

theorem hadBlock_ok {n i1 : Nat} (hn : i1 + i1 ≤ n) (l : List Nat) (hl : ∀ x ∈ l, x < i1) {m : BMat}
    {w S g} (hr : Rep n m g) (hi : HInv i1 w S g) :
    ∃ m' g', l.foldlM (fun m i2 => (List.range i1).foldlM (hadInner i1 i2) m) m = pure m' ∧ Rep n m' g' ∧
      HInv i1 w (fun a b => S a b ∨ (a ∈ l ∧ b < i1)) g' := by
  induction l generalizing m g S with
  | nil => exact ⟨m, g, rfl, hr, by simpa using hi⟩
  | cons x l ih =>
    obtain ⟨m1, g1, e1, r1, i1'⟩ := hadRow_ok hn (hl x (by simp)) (List.range i1) (by simp) hr hi
    obtain ⟨m2, g2, e2, r2, i2'⟩ := ih (fun y hy => hl y (by simp [hy])) r1 i1'
    refine ⟨m2, g2, by rw [List.foldlM_cons, e1, pure_bind, e2], r2, i2'.1, ?_⟩
    intro a b ha hb hS
    apply i2'.2 a b ha hb
    simp only [List.mem_cons, List.mem_range] at hS ⊢
    tauto

theorem hadLoop_ok (k t : Nat) (ht : t ≤ k) {m : BMat} {g} (hr : Rep (2 ^ k) m g)
    (hg : ∀ a b, a < 2 ^ t → b < 2 ^ t → g a b = walsh a b) :
    ∃ m' g', hadLoop (2 ^ k) (2 ^ t) m = pure m' ∧ Rep (2 ^ k) m' g' ∧
      ∀ a b, a < 2 ^ k → b < 2 ^ k → g' a b = walsh a b := by
  induction hd : k - t generalizing t m g with
  | zero =>
    have : t = k := by omega
    subst this
    exact ⟨m, g, by unfold hadLoop; simp, hr, hg⟩
  | succ d ih =>
    have hlt : 2 ^ t < 2 ^ k := Nat.pow_lt_pow_right (by omega) (by omega)
    have hdbl : 2 ^ t + 2 ^ t = 2 ^ (t + 1) := by rw [Nat.pow_succ]; omega
    have hle : 2 ^ t + 2 ^ t ≤ 2 ^ k := by rw [hdbl]; exact Nat.pow_le_pow_right (by omega) (by omega)
    obtain ⟨m1, g1, e1, r1, q1⟩ := hadBlock_ok hle (List.range (2 ^ t)) (by simp) (w := walsh) (S := fun _ _ => False)
      hr ⟨hg, by intros; contradiction⟩
    obtain ⟨m2, g2, e2, r2, q2⟩ := ih (t + 1) (by omega) r1 (by
      intro a b ha hb
      rw [← hdbl] at ha hb
      have hc : ∀ x, x < 2 ^ t + 2 ^ t → x < 2 ^ t ∨ ∃ y, y < 2 ^ t ∧ x = 2 ^ t + y := by
        intro x hx
        by_cases h : x < 2 ^ t
        · exact .inl h
        · exact .inr ⟨x - 2 ^ t, by omega, by omega⟩
      rcases hc a ha with ha' | ⟨a', ha', rfl⟩ <;> rcases hc b hb with hb' | ⟨b', hb', rfl⟩
      · exact q1.1 a b ha' hb'
      · rw [(q1.2 a b' ha' hb' (by simp [ha', hb'])).2.1, walsh_low_high ha' hb']
      · rw [(q1.2 a' b ha' hb' (by simp [ha', hb'])).1, walsh_high_low ha' hb']
      · rw [(q1.2 a' b' ha' hb' (by simp [ha', hb'])).2.2, walsh_high_high ha' hb']) (by omega)
    refine ⟨m2, g2, ?_, r2, q2⟩
    unfold hadLoop
    rw [if_pos hlt, e1, pure_bind, hdbl, e2]

theorem Rep.eq {n : Nat} {m : BMat} {g} (h : Rep n m g) : m = (List.range n).map (fun i => (List.range n).map (g i)) := by
  apply List.ext_getElem?
  intro i
  by_cases hi : i < n
  · obtain ⟨r, h1, h2, h3⟩ := h.2 i hi
    rw [h1, List.getElem?_map, List.getElem?_range hi]
    simp only [Option.map_some, Option.some.injEq]
    apply List.ext_getElem?
    intro j
    by_cases hj : j < n
    · rw [h3 j hj, List.getElem?_map, List.getElem?_range hj]; rfl
    · rw [List.getElem?_eq_none (by omega), List.getElem?_eq_none (by simp; omega)]
  · rw [List.getElem?_eq_none (by rw [h.1]; omega), List.getElem?_eq_none (by simp; omega)]

theorem hadamardNew_ok (k : Nat) :
    hadamardNew (2 ^ k) = pure ((List.range (2 ^ k)).map (fun i => (List.range (2 ^ k)).map (walsh i))) := by
  have hp : 0 < 2 ^ k := Nat.two_pow_pos k
  unfold hadamardNew
  rw [usub_le hp, pure_bind,
    rassert_pos (by rw [beq_iff_eq]; exact (Nat.and_sub_one_eq_zero_iff_isPowerOfTwo hp.ne').mpr ⟨k, rfl⟩), pure_bind]
  obtain ⟨m', g', e, r, q⟩ := hadLoop_ok k 0 (by omega) (m := List.replicate (2 ^ k) (List.replicate (2 ^ k) true))
    (g := fun _ _ => true) ⟨by simp, fun i hi => ⟨List.replicate (2 ^ k) true, by simp [hi], by simp,
      fun j hj => by simp [hj]⟩⟩ (by
      intro a b ha hb
      have : a = 0 := by simpa using ha
      subst this; rw [walsh_zero])
  rw [Nat.pow_zero] at e
  rw [e, r.eq]
  congr 1
  apply List.map_congr_left; intro i hi
  apply List.map_congr_left; intro j hj
  exact q i j (by simpa using hi) (by simpa using hj)

/-! ### Orthogonality -/
/-- Agreements of rows `i` and `i'` on the first `2^k` columns. -/
def agr (k i i' : Nat) : Nat := (List.range (2 ^ k)).countP (fun j => walsh i j == walsh i' j)

theorem range_double (k : Nat) : List.range (2 ^ (k + 1)) = List.range (2 ^ k) ++ (List.range (2 ^ k)).map (2 ^ k + ·) := by
  rw [Nat.pow_succ, Nat.mul_two, List.range_add]

theorem countP_congr_range {n : Nat} {p q : Nat → Bool} (h : ∀ j, j < n → p j = q j) :
    (List.range n).countP p = (List.range n).countP q :=
  List.countP_congr (by intro j hj; rw [h j (by simpa using hj)])

theorem countP_not (l : List Nat) (p : Nat → Bool) : l.countP (fun j => !p j) = l.length - l.countP p := by
  have := List.length_eq_countP_add_countP p (l := l)
  have e : (fun j => !p j) = (fun a => decide ¬p a = true) := by funext j; cases p j <;> simp
  rw [e]; omega

theorem agr_half (k i i' : Nat) (hi : i < 2 ^ k) (hi' : i' < 2 ^ k) (hne : i ≠ i') : 2 * agr k i i' = 2 ^ k := by
  induction k generalizing i i' with
  | zero => simp at hi hi'; omega
  | succ k ih =>
    have hle : ∀ a b, agr k a b ≤ 2 ^ k := fun a b => by
      unfold agr; exact le_trans List.countP_le_length (by simp)
    have split : ∀ a b, agr (k + 1) a b = agr k a b
        + (List.range (2 ^ k)).countP (fun j => walsh a (2 ^ k + j) == walsh b (2 ^ k + j)) := by
      intro a b
      unfold agr
      rw [range_double, List.countP_append, List.countP_map]; rfl
    have hdbl : 2 ^ (k + 1) = 2 ^ k + 2 ^ k := by rw [Nat.pow_succ]; omega
    have hc : ∀ x, x < 2 ^ (k + 1) → x < 2 ^ k ∨ ∃ y, y < 2 ^ k ∧ x = 2 ^ k + y := by
      intro x hx
      by_cases h : x < 2 ^ k
      · exact .inl h
      · exact .inr ⟨x - 2 ^ k, by omega, by omega⟩
    have mixed : ∀ a b, a < 2 ^ k → b < 2 ^ k → 2 * agr (k + 1) a (2 ^ k + b) = 2 ^ (k + 1) := by
      intro a b ha hb
      rw [split]
      have e1 : agr k a (2 ^ k + b) = agr k a b :=
        countP_congr_range (fun j hj => by rw [walsh_high_low hb hj])
      have e2 : (List.range (2 ^ k)).countP (fun j => walsh a (2 ^ k + j) == walsh (2 ^ k + b) (2 ^ k + j))
          = 2 ^ k - agr k a b := by
        rw [countP_congr_range (q := fun j => !(walsh a j == walsh b j)) (fun j hj => by
          rw [walsh_low_high ha hj, walsh_high_high hb hj]; cases walsh a j <;> cases walsh b j <;> rfl),
          countP_not, List.length_range]; rfl
      rw [e1, e2]; have := hle a b; omega
    rcases hc i hi with h1 | ⟨a, h1, rfl⟩ <;> rcases hc i' hi' with h2 | ⟨b, h2, rfl⟩
    · rw [split]
      have e2 : (List.range (2 ^ k)).countP (fun j => walsh i (2 ^ k + j) == walsh i' (2 ^ k + j)) = agr k i i' :=
        countP_congr_range (fun j hj => by rw [walsh_low_high h1 hj, walsh_low_high h2 hj])
      rw [e2]; have := ih i i' h1 h2 hne; omega
    · exact mixed i b h1 h2
    · have := mixed i' a h2 h1
      have e : agr (k + 1) (2 ^ k + a) i' = agr (k + 1) i' (2 ^ k + a) := by
        unfold agr; congr 1; funext j; exact Bool.beq_comm
      rw [e]; exact this
    · rw [split]
      have e1 : agr k (2 ^ k + a) (2 ^ k + b) = agr k a b :=
        countP_congr_range (fun j hj => by rw [walsh_high_low h1 hj, walsh_high_low h2 hj])
      have e2 : (List.range (2 ^ k)).countP (fun j => walsh (2 ^ k + a) (2 ^ k + j) == walsh (2 ^ k + b) (2 ^ k + j))
          = agr k a b :=
        countP_congr_range (fun j hj => by
          rw [walsh_high_high h1 hj, walsh_high_high h2 hj]; cases walsh a j <;> cases walsh b j <;> rfl)
      rw [e1, e2]; have := ih a b h1 h2 (by omega); omega

theorem agreements_rows (k i i' : Nat) :
    agreements ((List.range (2 ^ k)).map (walsh i)) ((List.range (2 ^ k)).map (walsh i')) = agr k i i' := by
  unfold agreements agr
  rw [List.zip_map', List.countP_map]
  rfl

end Verif
