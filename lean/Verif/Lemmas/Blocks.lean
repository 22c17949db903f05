import Verif.Lemmas.Adapters
import Verif.Lemmas.Std2
import Mathlib.Data.List.Basic

/-! # Blocks of lists -/
namespace Verif
open Spec

variable {A B : Type}

theorem blocks_append {k : ℕ} (hk : 0 < k) {a l : List A} (ha : a.length = k) :
    blocks k (a ++ l) = a :: blocks k l := by
  rw [blocks_cons hk (by intro h; have := congrArg List.length h; rw [List.length_append, List.length_nil] at this; omega)]
  rw [List.take_left' ha, List.drop_left' ha]

/-- Cutting the concatenation of blocks of equal size gives the blocks back. -/
theorem blocks_flatMap {k : ℕ} (hk : 0 < k) (f : B → List A) (l : List B) (hf : ∀ b ∈ l, (f b).length = k) :
    blocks k (l.flatMap f) = l.map f := by
  induction l with
  | nil => simp [blocks_nil]
  | cons b l ih =>
    rw [List.flatMap_cons, blocks_append hk (hf b (by simp)), ih (fun b hb => hf b (by simp [hb]))]; rfl

theorem blocks_flatten (k : ℕ) (hk : 0 < k) (l : List A) : (blocks k l).flatten = l := by
  induction hn : l.length using Nat.strongRecOn generalizing l with
  | _ n ih =>
    subst hn
    by_cases hl : l = []
    · subst hl; rw [blocks_nil]; rfl
    · have hlen : 0 < l.length := List.length_pos_iff.mpr hl
      rw [blocks_cons hk hl, List.flatten_cons, ih (l.drop k).length (by simp; omega) _ rfl, List.take_append_drop]

theorem blocks_length (k : ℕ) (hk : 0 < k) (l : List A) : (blocks k l).length = (l.length + k - 1) / k := by
  induction hn : l.length using Nat.strongRecOn generalizing l with
  | _ n ih =>
    subst hn
    by_cases hl : l = []
    · subst hl; rw [blocks_nil]; rw [Nat.div_eq_of_lt] <;> simp; omega
    · have hlen : 0 < l.length := List.length_pos_iff.mpr hl
      rw [blocks_cons hk hl, List.length_cons, ih (l.drop k).length (by simp; omega) _ rfl, List.length_drop]
      rcases Nat.lt_or_ge l.length k with hlt | hge
      · rw [show l.length - k = 0 by omega, Nat.div_eq_of_lt (by omega : 0 + k - 1 < k)]
        rw [show l.length + k - 1 = (l.length - 1) + k by omega, Nat.add_div_right _ hk,
          Nat.div_eq_of_lt (by omega)]
      · rw [show l.length + k - 1 = (l.length - k + k - 1) + k by omega, Nat.add_div_right _ hk]

theorem blocks_map (k : ℕ) (f : A → B) (l : List A) : blocks k (l.map f) = (blocks k l).map (List.map f) := by
  induction hn : l.length using Nat.strongRecOn generalizing l with
  | _ n ih =>
    subst hn
    by_cases hk : k = 0
    · subst hk; simp [blocks_zero]
    by_cases hl : l = []
    · subst hl; simp [blocks_nil]
    · have hlen : 0 < l.length := List.length_pos_iff.mpr hl
      rw [blocks_cons (by omega) hl, blocks_cons (by omega) (by simpa using hl), List.map_cons, ← List.map_take,
        ← List.map_drop, ih (l.drop k).length (by simp; omega) _ rfl]

theorem mem_blocks_full {k : ℕ} (hk : 0 < k) (l : List A) (hd : k ∣ l.length) :
    ∀ b ∈ blocks k l, b.length = k := by
  induction hn : l.length using Nat.strongRecOn generalizing l with
  | _ n ih =>
    subst hn
    intro b hb
    by_cases hl : l = []
    · subst hl; rw [blocks_nil] at hb; simp at hb
    · have hlen : 0 < l.length := List.length_pos_iff.mpr hl
      have hle := Nat.le_of_dvd hlen hd
      rw [blocks_cons hk hl] at hb
      rcases List.mem_cons.mp hb with rfl | hb
      · simp; omega
      · exact ih (l.drop k).length (by simp; omega) (l.drop k)
          (by rw [List.length_drop]; exact Nat.dvd_sub hd (Nat.dvd_refl k)) rfl b hb

theorem fullBlocks_append {k : ℕ} (hk : 0 < k) {a l : List A} (ha : a.length = k) :
    fullBlocks k (a ++ l) = a :: fullBlocks k l := by
  rw [fullBlocks_cons hk (by simp; omega), List.take_left' ha, List.drop_left' ha]

theorem fullBlocks_flatMap {k : ℕ} (hk : 0 < k) (f : B → List A) (l : List B) (hf : ∀ b ∈ l, (f b).length = k) :
    fullBlocks k (l.flatMap f) = l.map f := by
  induction l with
  | nil => simp [fullBlocks]
  | cons b l ih =>
    rw [List.flatMap_cons, fullBlocks_append hk (hf b (by simp)), ih (fun b hb => hf b (by simp [hb]))]; rfl

theorem fullBlocks_map (k : ℕ) (f : A → B) (l : List A) :
    fullBlocks k (l.map f) = (fullBlocks k l).map (List.map f) := by
  simp [fullBlocks, List.map_drop, List.map_take]

/-- An item of `l.flatMap f` when every `f b` has `k` items. -/
theorem getElem?_flatMap_const {k : ℕ} (hk : 0 < k) (f : B → List A) (l : List B) (hf : ∀ b ∈ l, (f b).length = k)
    (i : ℕ) : (l.flatMap f)[i]? = l[i / k]?.bind (fun b => (f b)[i % k]?) := by
  induction l generalizing i with
  | nil => simp
  | cons b l ih =>
    have hb := hf b (by simp)
    rw [List.flatMap_cons]
    rcases Nat.lt_or_ge i k with h | h
    · rw [List.getElem?_append_left (by omega), Nat.div_eq_of_lt h, Nat.mod_eq_of_lt h]; rfl
    · obtain ⟨j, rfl⟩ := Nat.exists_eq_add_of_le h
      rw [List.getElem?_append_right (by omega), hb, Nat.add_sub_cancel_left,
        ih (fun b hb => hf b (by simp [hb])), Nat.add_mod_left, Nat.add_div_left _ hk]
      rfl

theorem length_flatMap_const {k : ℕ} (f : B → List A) (l : List B) (hf : ∀ b ∈ l, (f b).length = k) :
    (l.flatMap f).length = l.length * k := by
  induction l with
  | nil => simp
  | cons b l ih =>
    rw [List.flatMap_cons, List.length_append, hf b (by simp), ih (fun b hb => hf b (by simp [hb])), List.length_cons,
      Nat.add_mul]
    omega

/-- `mapIdx` over equal blocks, block by block. -/
theorem mapIdx_flatMap {C : Type} {k : ℕ} (f : B → List A) (l : List B) (hf : ∀ b ∈ l, (f b).length = k)
    (g : ℕ → A → C) :
    (l.flatMap f).mapIdx g
      = (l.mapIdx (fun n b => (f b).mapIdx (fun j a => g (n * k + j) a))).flatten := by
  induction l generalizing g with
  | nil => simp
  | cons b l ih =>
    have hb := hf b (by simp)
    rw [List.flatMap_cons, List.mapIdx_append, ih (fun b hb => hf b (by simp [hb])), List.mapIdx_cons,
      List.flatten_cons, hb]
    congr 1
    · simp
    · congr 1
      apply List.ext_getElem?
      intro n
      simp only [List.getElem?_mapIdx]
      congr 1; funext b; congr 1; funext j a; congr 1
      rw [Nat.add_mul]; omega

theorem fullBlocks_flatten_eq {k : ℕ} (hk : 0 < k) (L : List (List A)) (h : ∀ b ∈ L, b.length = k) :
    fullBlocks k L.flatten = L := by
  have := fullBlocks_flatMap hk (fun b : List A => b) L h
  simpa [List.flatMap_id'] using this

theorem blocks_flatten_eq {k : ℕ} (hk : 0 < k) (L : List (List A)) (h : ∀ b ∈ L, b.length = k) :
    blocks k L.flatten = L := by
  have := blocks_flatMap hk (fun b : List A => b) L h
  simpa [List.flatMap_id'] using this

end Verif
