import Verif.Lemmas.Hadamard

/-!
# Properties C19, C20: Walsh–Hadamard codes
-/
namespace Verif.Props
open Verif Spec

/-! ## C19 -/

/-- The matrix: `2^k` rows of `2^k` entries, entry `(i, j)` true exactly when `i AND j` has an even number of set bits. -/
theorem C19_entries (k : ℕ) : ∃ m, hadamardNew (2 ^ k) = pure m ∧ m.length = 2 ^ k ∧
    ∀ i, i < 2 ^ k → ∃ r, m[i]? = some r ∧ r.length = 2 ^ k ∧
      ∀ j, j < 2 ^ k → r[j]? = some (popcount (i &&& j) % 2 == 0) := by
  refine ⟨_, hadamardNew_ok k, by simp, ?_⟩
  intro i hi
  refine ⟨(List.range (2 ^ k)).map (walsh i), by simp [hi], by simp, ?_⟩
  intro j hj
  simp [hj, walsh]

/-- Symmetric. -/
theorem C19_symmetric (k : ℕ) {m : BMat} (hm : hadamardNew (2 ^ k) = pure m) (i j : ℕ) :
    (m[i]?.bind (·[j]?)) = (m[j]?.bind (·[i]?)) := by
  rw [hadamardNew_ok, RM.ok_inj] at hm
  subst hm
  by_cases hi : i < 2 ^ k <;> by_cases hj : j < 2 ^ k <;> simp [hi, hj, walsh_symm i j]

example : ∃ m, hadamardNew (2 ^ 5) = pure m ∧ (m[7]?.bind (·[30]?)) = (m[30]?.bind (·[7]?)) :=
  ⟨_, hadamardNew_ok 5, C19_symmetric 5 (hadamardNew_ok 5) 7 30⟩

/-- The first row is all true. -/
theorem C19_first_row (k : ℕ) {m : BMat} (hm : hadamardNew (2 ^ k) = pure m) :
    m[0]? = some (List.replicate (2 ^ k) true) := by
  rw [hadamardNew_ok, RM.ok_inj] at hm
  subst hm
  have : 0 < 2 ^ k := Nat.two_pow_pos k
  rw [List.getElem?_map, List.getElem?_range this]
  simp only [Option.map_some, Option.some.injEq]
  rw [List.eq_replicate_iff]
  constructor
  · simp
  · intro b hb
    obtain ⟨j, _, rfl⟩ := List.mem_map.mp hb
    exact walsh_zero j

example : ∃ m, hadamardNew (2 ^ 3) = pure m ∧ m[0]? = some (List.replicate 8 true) :=
  ⟨_, hadamardNew_ok 3, C19_first_row 3 (hadamardNew_ok 3)⟩

/-- Two distinct rows agree in exactly half of their positions. -/
theorem C19_orthogonal (k : ℕ) {m : BMat} (hm : hadamardNew (2 ^ k) = pure m) {i i' : ℕ} (hne : i ≠ i')
    {r r' : List Bool} (hr : m[i]? = some r) (hr' : m[i']? = some r') : 2 * agreements r r' = 2 ^ k := by
  rw [hadamardNew_ok, RM.ok_inj] at hm
  subst hm
  have key : ∀ {a : ℕ} {s : List Bool},
      ((List.range (2 ^ k)).map (fun i => (List.range (2 ^ k)).map (walsh i)))[a]? = some s →
      a < 2 ^ k ∧ s = (List.range (2 ^ k)).map (walsh a) := by
    intro a s h
    by_cases ha : a < 2 ^ k
    · simp [ha] at h; exact ⟨ha, h.symm⟩
    · simp [ha] at h
  obtain ⟨hi, rfl⟩ := key hr
  obtain ⟨hi', rfl⟩ := key hr'
  rw [agreements_rows]
  exact agr_half k i i' hi hi' hne

example : ∃ m r r', hadamardNew (2 ^ 3) = pure m ∧ m[2]? = some r ∧ m[5]? = some r' ∧ 2 * agreements r r' = 2 ^ 3 := by
  obtain ⟨m, hm, -, h⟩ := C19_entries 3
  obtain ⟨r, hr, -⟩ := h 2 (by decide)
  obtain ⟨r', hr', -⟩ := h 5 (by decide)
  exact ⟨m, r, r', hm, hr, hr', C19_orthogonal 3 hm (by decide) hr hr'⟩

/-- As ±1 vectors, two distinct rows have inner product zero. -/
theorem C19_inner_product (k : ℕ) {m : BMat} (hm : hadamardNew (2 ^ k) = pure m) {i i' : ℕ} (hne : i ≠ i')
    {r r' : List Bool} (hr : m[i]? = some r) (hr' : m[i']? = some r') :
    ((r.zip r').map (fun p => (if p.1 then (1 : ℤ) else -1) * (if p.2 then (1 : ℤ) else -1))).sum = 0 := by
  have h := C19_orthogonal k hm hne hr hr'
  have hlen : (r.zip r').length = 2 ^ k := by
    obtain ⟨m', hm', _, h3⟩ := C19_entries k
    rw [hm, RM.ok_inj] at hm'
    subst hm'
    have hl : ∀ {a : ℕ} {s : List Bool}, m[a]? = some s → s.length = 2 ^ k := by
      intro a s hs
      have ha : a < 2 ^ k := by
        have := (List.getElem?_eq_some_iff.mp hs).1
        omega
      obtain ⟨t, h1, h2, _⟩ := h3 a ha
      rw [hs] at h1; cases h1; exact h2
    rw [List.length_zip, hl hr, hl hr', Nat.min_self]
  have gen : ∀ l : List (Bool × Bool), (l.map (fun p => (if p.1 then (1 : ℤ) else -1) * (if p.2 then (1 : ℤ) else -1))).sum
      = 2 * ((l.countP (fun p => p.1 == p.2) : ℕ) : ℤ) - (l.length : ℤ) := by
    intro l
    induction l with
    | nil => rfl
    | cons p l ih =>
      rw [List.map_cons, List.sum_cons, ih, List.countP_cons, List.length_cons]
      rcases p with ⟨_ | _, _ | _⟩ <;> simp <;> ring
  rw [gen, hlen]
  unfold agreements at h
  push_cast
  rw [← show ((2 ^ k : ℕ) : ℤ) = 2 ^ k by push_cast; rfl]
  omega

example : ∃ m r r', hadamardNew (2 ^ 3) = pure m ∧ m[0]? = some r ∧ m[7]? = some r' ∧
    ((r.zip r').map (fun p => (if p.1 then (1 : ℤ) else -1) * (if p.2 then (1 : ℤ) else -1))).sum = 0 := by
  obtain ⟨m, hm, -, h⟩ := C19_entries 3
  obtain ⟨r, hr, -⟩ := h 0 (by decide)
  obtain ⟨r', hr', -⟩ := h 7 (by decide)
  exact ⟨m, r, r', hm, hr, hr', C19_inner_product 3 hm (by decide) hr hr'⟩

/-- The constructor panics exactly for sizes that are not a power of two (zero included). -/
theorem C19_panics (n : ℕ) : (hadamardNew n).Panics ↔ ∀ k, n ≠ 2 ^ k := by
  constructor
  · rintro hp k rfl
    rw [hadamardNew_ok] at hp
    exact RM.not_panics_ok _ hp
  · intro h
    unfold hadamardNew
    rcases Nat.eq_zero_or_pos n with rfl | hn
    · rw [usub_lt (by omega)]; simp
    · rw [usub_le hn, pure_bind]
      have : (n &&& (n - 1) == 0) = false := by
        rw [beq_eq_false_iff_ne]
        intro h0
        obtain ⟨k, hk⟩ := (Nat.and_sub_one_eq_zero_iff_isPowerOfTwo hn.ne').mp h0
        exact h k hk
      rw [this]; simp

example : hadamardNew 4 = pure [[true, true, true, true], [true, false, true, false],
    [true, true, false, false], [true, false, false, true]] := by
  have := hadamardNew_ok 2
  rw [show (4 : ℕ) = 2 ^ 2 by norm_num, this]
  decide +kernel

/-! ## C20 -/

/-- `key(u)` panics exactly when `u ≡ n - 1 (mod n)`: the claimed "no index panics" is false. -/
theorem C20_panics (k : ℕ) {m : BMat} (hm : hadamardNew (2 ^ k) = pure m) (u : ℕ) :
    (hadamardKey m u).Panics ↔ u % 2 ^ k = 2 ^ k - 1 := by
  have hlen : m.length = 2 ^ k := by
    obtain ⟨m', hm', h2, _⟩ := C19_entries k
    rw [hm, RM.ok_inj] at hm'; rw [hm']; exact h2
  have hp : 0 < 2 ^ k := Nat.two_pow_pos k
  have hlt := Nat.mod_lt u hp
  unfold hadamardKey
  rw [hlen, umod_pos hp, pure_bind]
  by_cases h : u % 2 ^ k + 1 < 2 ^ k
  · rw [List.getElem?_eq_getElem (by omega)]; simp; omega
  · rw [List.getElem?_eq_none (by omega)]; simp; omega

/-- The claim "no index panics" is refuted for every size. -/
theorem C20_refuted (k : ℕ) {m : BMat} (hm : hadamardNew (2 ^ k) = pure m) : ∃ u, u < 2 ^ k ∧ (hadamardKey m u).Panics :=
  have : 0 < 2 ^ k := Nat.two_pow_pos k
  ⟨2 ^ k - 1, by omega, (C20_panics k hm _).mpr (Nat.mod_eq_of_lt (by omega))⟩

example : ∃ m, hadamardNew (2 ^ 3) = pure m ∧ ∃ u, u < 8 ∧ (hadamardKey m u).Panics :=
  ⟨_, hadamardNew_ok 3, C20_refuted 3 (hadamardNew_ok 3)⟩

/-- For the other indices: row `u mod n + 1`, of length `n`, balanced (hence not the all-true row). -/
theorem C20_key_partial (k : ℕ) {m : BMat} (hm : hadamardNew (2 ^ k) = pure m) (u : ℕ) (hu : u % 2 ^ k ≠ 2 ^ k - 1) :
    ∃ r, hadamardKey m u = pure r ∧ m[u % 2 ^ k + 1]? = some r ∧ r.length = 2 ^ k ∧
      2 * r.countP (fun b => b) = 2 ^ k := by
  have hlen : m.length = 2 ^ k := by
    obtain ⟨m', hm', h2, _⟩ := C19_entries k
    rw [hm, RM.ok_inj] at hm'; rw [hm']; exact h2
  have hp : 0 < 2 ^ k := Nat.two_pow_pos k
  have hlt := Nat.mod_lt u hp
  obtain ⟨m', hm', _, h3⟩ := C19_entries k
  rw [hm, RM.ok_inj] at hm'; subst hm'
  obtain ⟨r, h4, h5, h7⟩ := h3 (u % 2 ^ k + 1) (by omega)
  refine ⟨r, ?_, h4, h5, ?_⟩
  · unfold hadamardKey
    rw [hlen, umod_pos hp, pure_bind, h4]; rfl
  · have h6 := C19_orthogonal k hm (i := 0) (i' := u % 2 ^ k + 1) (by omega) (C19_first_row k hm) h4
    rw [← h6]
    congr 1
    unfold agreements
    rw [← h5]
    clear h7 h6 h5 h4
    induction r with
    | nil => rfl
    | cons b r ih => rw [List.length_cons, List.replicate_succ, List.zip_cons_cons, List.countP_cons, List.countP_cons, ih]; simp

example : ∃ m r, hadamardNew (2 ^ 3) = pure m ∧ hadamardKey m 12 = pure r ∧ m[5]? = some r ∧ 2 * r.countP (fun b => b) = 8 := by
  obtain ⟨r, h1, h2, -, h4⟩ := C20_key_partial 3 (hadamardNew_ok 3) 12 (by decide)
  exact ⟨_, r, hadamardNew_ok 3, h1, h2, h4⟩

/-- Indices wrap modulo the size (including the panicking ones). -/
theorem C20_wraps (m : BMat) (u : ℕ) : hadamardKey m (u + m.length) = hadamardKey m u := by
  unfold hadamardKey umod
  by_cases h : m.length = 0 <;> simp [h]

/-- Distinct users below `n - 1` get orthogonal, hence distinct, codes. -/
theorem C20_distinct_users (k : ℕ) {m : BMat} (hm : hadamardNew (2 ^ k) = pure m) {u v : ℕ} (hu : u < 2 ^ k - 1)
    (hv : v < 2 ^ k - 1) (huv : u ≠ v) : ∃ r s, hadamardKey m u = pure r ∧ hadamardKey m v = pure s ∧
      2 * agreements r s = 2 ^ k ∧ r ≠ s := by
  have eu : u % 2 ^ k = u := Nat.mod_eq_of_lt (by omega)
  have ev : v % 2 ^ k = v := Nat.mod_eq_of_lt (by omega)
  obtain ⟨r, h1, h2, h3, h3'⟩ := C20_key_partial k hm u (by omega)
  obtain ⟨s, h4, h5, h6, h6'⟩ := C20_key_partial k hm v (by omega)
  have ho := C19_orthogonal k hm (by omega) h2 h5
  refine ⟨r, s, h1, h4, ho, ?_⟩
  rintro rfl
  have : agreements r r = r.length := by
    unfold agreements
    clear h1 h2 h3 h4 h5 h6 ho h3' h6'
    induction r with
    | nil => rfl
    | cons b r ih => rw [List.zip_cons_cons, List.countP_cons, ih]; simp
  have : 0 < 2 ^ k := Nat.two_pow_pos k
  omega

example : ∃ m, hadamardNew 4 = pure m ∧ hadamardKey m 0 = pure [true, false, true, false] ∧
    (hadamardKey m 3).Panics ∧ (hadamardKey m 7).Panics := by
  have h : hadamardNew (2 ^ 2) = _ := hadamardNew_ok 2
  refine ⟨_, h, ?_, (C20_panics 2 h 3).mpr (by norm_num), (C20_panics 2 h 7).mpr (by norm_num)⟩
  decide +kernel

end Verif.Props
