import Verif.Lemmas.Ssca
import Mathlib.Algebra.Order.Floor.Semifield

/-! Helper lemmas for `ssca_mapped` and the detectors. -/
namespace Verif
open Spec
set_option linter.unusedSectionVars false

/-- Loops whose state is represented by a mathematical object. -/
theorem foldlM_rep {α γ σ : Type} (R : γ → σ) {f : σ → α → RM σ} {h : γ → α → γ} {l : List α}
    (hf : ∀ g, ∀ a ∈ l, f (R g) a = pure (R (h g a))) (g : γ) : l.foldlM f (R g) = pure (R (l.foldl h g)) := by
  induction l generalizing g with
  | nil => rfl
  | cons a l ih =>
    rw [List.foldlM_cons, hf g a (by simp), pure_bind, ih (fun g b hb => hf g b (by simp [hb])), List.foldl_cons]

section anyF
variable {F : Type} [Add F] [Sub F] [Mul F] [Div F] [Neg F] [Zero F] [One F] [Flt F]

/-- The array with entries `g`. -/
def matOf (R C : ℕ) (g : ℕ × ℕ → Cx F) : Mat F := (List.range R).map (fun i => (List.range C).map (fun j => g (i, j)))

theorem matOf_length (R C : ℕ) (g : ℕ × ℕ → Cx F) : (matOf R C g).length = R := by simp [matOf]

theorem matOf_index (R C : ℕ) (g : ℕ × ℕ → Cx F) {i : ℕ} (hi : i < R) :
    index (matOf R C g) i = pure ((List.range C).map (fun j => g (i, j))) := by
  rw [index_lt (by rw [matOf_length]; exact hi)]
  simp [matOf]

theorem matOf_index2 (R C : ℕ) (g : ℕ × ℕ → Cx F) {i j : ℕ} (hi : i < R) (hj : j < C) :
    index2 (matOf R C g) i j = pure (g (i, j)) := by
  unfold index2
  rw [matOf_index _ _ _ hi, pure_bind, index_lt (by simpa using hj)]
  simp

theorem set_map_range {α : Type} (f : ℕ → α) (n i : ℕ) (v : α) :
    ((List.range n).map f).set i v = (List.range n).map (fun j => if j = i then v else f j) := by
  apply List.ext_getElem
  · simp
  · intro j h1 h2
    simp only [List.getElem_set, List.getElem_map, List.getElem_range]
    by_cases h : i = j
    · subst h; simp
    · rw [if_neg h, if_neg (Ne.symm h)]

theorem assign2_matOf (R C : ℕ) (g : ℕ × ℕ → Cx F) {p : ℕ × ℕ} (hi : p.1 < R) (hj : p.2 < C) (v : Cx F) :
    assign2 (matOf R C g) p.1 p.2 v = pure (matOf R C (Function.update g p v)) := by
  unfold assign2
  rw [matOf_index _ _ _ hi, pure_bind, assignIdx, if_pos (by simpa using hj), pure_bind, assignIdx,
    if_pos (by rw [matOf_length]; exact hi), matOf, set_map_range, set_map_range]
  refine congrArg pure (List.map_congr_left fun i _ => ?_)
  by_cases h : i = p.1
  · rw [if_pos h]
    refine List.map_congr_left fun j _ => ?_
    by_cases h2 : j = p.2
    · rw [if_pos h2, h, h2, Function.update_self]
    · rw [if_neg h2, Function.update_of_ne (by rintro rfl; exact h2 rfl), h]
  · rw [if_neg h]
    refine List.map_congr_left fun j _ => ?_
    rw [Function.update_of_ne (by rintro rfl; exact h rfl)]

theorem foldl_update_of_not {P K V : Type} [DecidableEq K] (pos : P → K) (val : P → V) {l : List P} {x : K}
    (h : ∀ p ∈ l, pos p ≠ x) (g : K → V) :
    (l.foldl (fun g p => Function.update g (pos p) (val p)) g) x = g x := by
  induction l generalizing g with
  | nil => rfl
  | cons p l ih =>
    rw [List.foldl_cons, ih (fun q hq => h q (by simp [hq])), Function.update_of_ne (Ne.symm (h p (by simp)))]

theorem foldl_update_of_inj {P K V : Type} [DecidableEq K] (pos : P → K) (val : P → V) {l : List P} {p : P}
    (hp : p ∈ l) (h : ∀ q ∈ l, pos q = pos p → q = p) (g : K → V) :
    (l.foldl (fun g p => Function.update g (pos p) (val p)) g) (pos p) = val p := by
  induction l generalizing g with
  | nil => simp at hp
  | cons q l ih =>
    rw [List.foldl_cons]
    by_cases hl : p ∈ l
    · exact ih hl (fun r hr => h r (by simp [hr])) _
    · have hqp : q = p := by
        rcases List.mem_cons.mp hp with h1 | h1
        · exact h1.symm
        · exact absurd h1 hl
      subst hqp
      rw [foldl_update_of_not pos val (l := l) (fun r hr e => hl (h r (List.mem_cons_of_mem _ hr) e ▸ hr)), Function.update_self]

theorem foldl_update_mem {P K V : Type} [DecidableEq K] (pos : P → K) (val : P → V) (l : List P) (x : K) (g : K → V) :
    (l.foldl (fun g p => Function.update g (pos p) (val p)) g) x = g x ∨
      ∃ p ∈ l, pos p = x ∧ (l.foldl (fun g p => Function.update g (pos p) (val p)) g) x = val p := by
  induction l generalizing g with
  | nil => exact .inl rfl
  | cons q l ih =>
    rw [List.foldl_cons]
    rcases ih (Function.update g (pos q) (val q)) with h | ⟨p, hp, h1, h2⟩
    · by_cases hx : x = pos q
      · subst hx
        rw [Function.update_self] at h
        exact .inr ⟨q, by simp, rfl, h⟩
      · rw [Function.update_of_ne hx] at h
        exact .inl h
    · exact .inr ⟨p, by simp [hp], h1, h2⟩

/-- The pairs of the two nested loops. -/
def sscaPairs (n np : ℕ) : List (ℕ × ℕ) := (List.range n).flatMap (fun q => (List.range np).map (fun k => (q, k)))

theorem mem_sscaPairs {n np : ℕ} {p : ℕ × ℕ} : p ∈ sscaPairs n np ↔ p.1 < n ∧ p.2 < np := by
  simp only [sscaPairs, List.mem_flatMap, List.mem_map, List.mem_range]
  constructor
  · rintro ⟨q, hq, k, hk, rfl⟩; exact ⟨hq, hk⟩
  · rintro ⟨h1, h2⟩; exact ⟨p.1, h1, p.2, h2, rfl⟩

variable [Fft F]

/-- The target cell of an entry. -/
def sscaPos (F : Type) [Add F] [Sub F] [Mul F] [Div F] [Flt F] (n np : ℕ) (p : ℕ × ℕ) : ℕ × ℕ :=
  (mappedRow F n np p.1 p.2, mappedCol F n np p.1 p.2)

theorem sscaMapped_ok {s : List F} {n np : ℕ} (h1 : np < n) (h2 : n + np ≤ s.length + 1)
    (hr : ∀ p, p.1 < n → p.2 < np → (sscaPos F n np p).1 < np + 1 ∧ (sscaPos F n np p).2 < 2 * n + 1) :
    sscaMapped s n np = pure (matOf (np + 1) (2 * n + 1) ((sscaPairs n np).foldl
      (fun g p => Function.update g (sscaPos F n np p) (sscaVal s n np p.1 p.2)) (fun _ => 0))) := by
  unfold sscaMapped
  rw [sscaBase_ok h1 h2, pure_bind]
  simp only []
  have h0 : (List.replicate (np + 1) (List.replicate (2 * n + 1) 0) : Mat F)
      = matOf (np + 1) (2 * n + 1) (fun _ => 0) := by
    rw [matOf, replicate_eq_map, replicate_eq_map]
  rw [h0, foldlM_rep (matOf (np + 1) (2 * n + 1)) (h := fun g q => (List.range np).foldl
      (fun g k => Function.update g (sscaPos F n np (q, k)) (sscaVal s n np q k)) g)]
  · refine congrArg (fun g => pure (matOf (np + 1) (2 * n + 1) g)) ?_
    rw [sscaPairs, List.foldl_flatMap]
    simp only [List.foldl_map]
  · intro g q hq
    have hq := List.mem_range.mp hq
    refine foldlM_rep (matOf (np + 1) (2 * n + 1))
      (h := fun g k => Function.update g (sscaPos F n np (q, k)) (sscaVal s n np q k)) ?_ g
    intro g k hk
    have hk := List.mem_range.mp hk
    have hm : (List.range n).map (fun q => (List.range np).map (sscaVal s n np q))
      = matOf n np (fun p => sscaVal s n np p.1 p.2) := rfl
    rw [hm, matOf_index2 _ _ _ hq hk, pure_bind]
    obtain ⟨h3, h4⟩ := hr (q, k) hq hk
    exact assign2_matOf _ _ g (p := sscaPos F n np (q, k)) h3 h4 _

end anyF

/-! ## Exact arithmetic -/

theorem floor_nat_div (a b : ℕ) : ⌊(a : ℝ) / b⌋₊ = a / b := by
  rw [Nat.floor_div_natCast, Nat.floor_natCast]

theorem mappedRow_real {n np q k : ℕ} (hq : q < n) (hk : k < np) (h64 : np < 2 ^ 64) :
    mappedRow ℝ n np q k = (n * (k + np) - np * q) / (2 * n) := by
  have hn : (n : ℝ) ≠ 0 := by exact_mod_cast (by omega : n ≠ 0)
  have hnp : (np : ℝ) ≠ 0 := by exact_mod_cast (by omega : np ≠ 0)
  have hle : np * q ≤ n * (k + np) := by
    calc np * q ≤ np * n := Nat.mul_le_mul_left _ hq.le
      _ = n * np := Nat.mul_comm _ _
      _ ≤ n * (k + np) := Nat.mul_le_mul_left _ (by omega)
  unfold mappedRow
  simp only [Flt.ofNat_real, Flt.lit_real, Flt.toNat_real]
  have e : (np : ℝ) * ((k : ℝ) / ((2 : ℕ) * np) - (q : ℝ) / ((2 : ℕ) * n) + (5 : ℕ) / 10 ^ 1)
      = ((n * (k + np) - np * q : ℕ) : ℝ) / ((2 * n : ℕ) : ℝ) := by
    rw [Nat.cast_sub hle]; push_cast; field_simp; ring
  rw [e, floor_nat_div]
  have hlt : (n * (k + np) - np * q) / (2 * n) < np := by
    rw [Nat.div_lt_iff_lt_mul (by omega)]
    have : n * (k + np) < n * (2 * np) := Nat.mul_lt_mul_of_pos_left (by omega) (by omega)
    have h2 : n * (2 * np) = np * (2 * n) := by ring
    omega
  omega

theorem mappedCol_real {n np q k : ℕ} (hq : q < n) (hk : k < np) (h64 : 2 * n < 2 ^ 64) :
    mappedCol ℝ n np q k = n * k / np + q := by
  have hn : (n : ℝ) ≠ 0 := by exact_mod_cast (by omega : n ≠ 0)
  have hnp : (np : ℝ) ≠ 0 := by exact_mod_cast (by omega : np ≠ 0)
  unfold mappedCol
  simp only [Flt.ofNat_real, Flt.toNat_real]
  have e : (n : ℝ) * ((k : ℝ) / np + (q : ℝ) / n) = ((n * k + q * np : ℕ) : ℝ) / (np : ℝ) := by
    push_cast; field_simp
  rw [e, floor_nat_div, Nat.add_mul_div_right _ _ (by omega)]
  have hlt : n * k / np < n := by
    rw [Nat.div_lt_iff_lt_mul (by omega)]
    exact Nat.mul_lt_mul_of_pos_left hk (by omega)
  omega

theorem sscaPos_range {n np : ℕ} (h64 : 2 * n < 2 ^ 64) (hnp : np < n) (p : ℕ × ℕ) (h1 : p.1 < n) (h2 : p.2 < np) :
    (sscaPos ℝ n np p).1 < np + 1 ∧ (sscaPos ℝ n np p).2 < 2 * n + 1 := by
  unfold sscaPos
  rw [mappedRow_real h1 h2 (by omega), mappedCol_real h1 h2 h64]
  constructor
  · rw [Nat.lt_succ_iff]
    refine Nat.div_le_of_le_mul ?_
    have : n * (p.2 + np) ≤ n * (2 * np) := Nat.mul_le_mul_left _ (by omega)
    have h2 : n * (2 * np) = 2 * n * np := by ring
    omega
  · have hlt : n * p.2 / np < n := by
      rw [Nat.div_lt_iff_lt_mul (by omega)]
      exact Nat.mul_lt_mul_of_pos_left h2 (by omega)
    simp only
    omega

theorem sscaPos_inj {n np : ℕ} (h64 : 2 * n < 2 ^ 64) (hnp : np < n) (hd : np ∣ n) {p p' : ℕ × ℕ} (h1 : p.1 < n)
    (h2 : p.2 < np) (h1' : p'.1 < n) (h2' : p'.2 < np) (h : sscaPos ℝ n np p = sscaPos ℝ n np p') : p = p' := by
  obtain ⟨q, k⟩ := p
  obtain ⟨q', k'⟩ := p'
  obtain ⟨r, rfl⟩ := hd
  simp only at h1 h2 h1' h2'
  unfold sscaPos at h
  simp only [Prod.mk.injEq] at h
  rw [mappedRow_real h1 h2 (by omega), mappedRow_real h1' h2' (by omega), mappedCol_real h1 h2 h64,
    mappedCol_real h1' h2' h64] at h
  obtain ⟨hr, hc⟩ := h
  have hnp0 : 0 < np := by omega
  have hr0 : 0 < r := by
    rcases Nat.eq_zero_or_pos r with h | h
    · subst h; simp at h1
    · exact h
  have hcol : ∀ k, np * r * k / np = r * k := by
    intro k; rw [Nat.mul_assoc, Nat.mul_div_cancel_left _ hnp0]
  rw [hcol, hcol] at hc
  -- wlog k ≤ k'
  have key : ∀ {q k q' k' : ℕ}, q < np * r → k < np → q' < np * r → k' < np → k < k' → r * k + q = r * k' + q' →
      (np * r * (k + np) - np * q) / (2 * (np * r)) ≠ (np * r * (k' + np) - np * q') / (2 * (np * r)) := by
    intro q k q' k' h1 h2 h1' h2' hlt hc he
    obtain ⟨d, rfl⟩ := Nat.exists_eq_add_of_lt hlt
    have hq : q = r * (d + 1) + q' := by
      have : r * (k + d + 1) = r * k + r * (d + 1) := by ring
      omega
    have hle : np * q ≤ np * r * (k + np) := by
      have : np * q ≤ np * (np * r) := Nat.mul_le_mul_left _ h1.le
      have h3 : np * (np * r) ≤ np * r * (k + np) := by
        rw [Nat.mul_comm np (np * r)]; exact Nat.mul_le_mul_left _ (by omega)
      omega
    have hnum : np * r * (k + d + 1 + np) - np * q' = (np * r * (k + np) - np * q) + (d + 1) * (2 * (np * r)) := by
      have e1 : np * r * (k + d + 1 + np) = np * r * (k + np) + np * r * (d + 1) := by ring
      have e2 : np * q = np * r * (d + 1) + np * q' := by rw [hq]; ring
      have e3 : (d + 1) * (2 * (np * r)) = 2 * (np * r * (d + 1)) := by ring
      omega
    rw [hnum, Nat.add_mul_div_right _ _ (by positivity)] at he
    omega
  rcases Nat.lt_trichotomy k k' with hlt | rfl | hlt
  · exact absurd hr (key h1 h2 h1' h2' hlt hc)
  · have : q = q' := by omega
    subst this; rfl
  · exact absurd hr.symm (key h1' h2' h1 h2 hlt hc.symm)

/-! ## The maximum -/

theorem partialCmp_real (a b : ℝ) : partialCmp a b = some (if b < a then .gt else if a < b then .lt else .eq) := by
  unfold partialCmp
  rcases lt_trichotomy a b with h | h | h
  · simp [h, h.le, not_lt.mpr h.le, not_le.mpr h]
  · subst h; simp
  · simp [h, h.le, not_le.mpr h]

theorem maxStep_real (a b : ℝ) : maxStep a b = if b < a then pure a else pure b := by
  unfold maxStep
  rw [partialCmp_real]
  by_cases h : b < a
  · simp [h]
  · by_cases h2 : a < b <;> simp [h, h2]

theorem maxBy_real (x : ℝ) (l : List ℝ) :
    ∃ M, maxBy (x :: l) = pure (some M) ∧ M ∈ x :: l ∧ ∀ y ∈ x :: l, y ≤ M := by
  unfold maxBy
  have : ∀ l : List ℝ, ∀ x, ∃ M, l.foldlM maxStep x = pure M ∧ M ∈ x :: l ∧ ∀ y ∈ x :: l, y ≤ M := by
    intro l
    induction l with
    | nil => intro x; exact ⟨x, rfl, by simp, by simp⟩
    | cons z l ih =>
      intro x
      rw [List.foldlM_cons, maxStep_real]
      by_cases h : z < x
      · rw [if_pos h, pure_bind]
        obtain ⟨M, h1, h2, h3⟩ := ih x
        refine ⟨M, h1, ?_, ?_⟩
        · rcases List.mem_cons.mp h2 with h | h <;> simp [h]
        · intro y hy
          rcases List.mem_cons.mp hy with rfl | hy
          · exact h3 _ (by simp)
          · rcases List.mem_cons.mp hy with rfl | hy
            · exact h.le.trans (h3 _ (by simp))
            · exact h3 _ (by simp [hy])
      · rw [if_neg h, pure_bind]
        obtain ⟨M, h1, h2, h3⟩ := ih z
        refine ⟨M, h1, by simp [List.mem_cons.mp h2], ?_⟩
        intro y hy
        rcases List.mem_cons.mp hy with rfl | hy
        · exact (not_lt.mp h).trans (h3 _ (by simp))
        · exact h3 _ hy
  obtain ⟨M, h1, h2, h3⟩ := this l x
  refine ⟨M, ?_, h2, h3⟩
  simp only []
  rw [h1, pure_bind]

end Verif
