import Verif.Model.Lib
import Verif.Spec.Bits
import Verif.Lemmas.Adapters
import Verif.Lemmas.Std2

/-! # Lemmas about bits and bytes -/
namespace Verif
open Spec

theorem boolToU8_take (l : List Bool) : boolToU8 l = boolToU8 (l.take 8) := by
  unfold boolToU8
  have : (l.mapIdx fun i b => (i, b)).take (min l.length 8)
      = ((l.take 8).mapIdx fun i b => (i, b)).take (min (l.take 8).length 8) := by
    apply List.ext_getElem?
    intro i
    simp only [List.getElem?_take, List.getElem?_mapIdx, List.length_take]
    by_cases h : i < min l.length 8
    · have h1 : i < min (min 8 l.length) 8 := by omega
      have h2 : i < 8 := by omega
      simp [h, h2]
    · have h1 : ¬ i < min (min 8 l.length) 8 := by omega
      rw [if_neg h, if_neg h1]
  rw [this]

/-- Whole-table check: all `2^k` bit lists of the lengths `k ≤ 8`. -/
theorem boolToU8_val_le (l : List Bool) (h : l.length ≤ 8) : (boolToU8 l).toNat = bitsVal l := by
  match l, h with
  | [], _ => decide
  | [a], _ => revert a; decide
  | [a, b], _ => revert a b; decide
  | [a, b, c], _ => revert a b c; decide
  | [a, b, c, d], _ => revert a b c d; decide +kernel
  | [a, b, c, d, e], _ => revert a b c d e; decide +kernel
  | [a, b, c, d, e, f], _ => revert a b c d e f; decide +kernel
  | [a, b, c, d, e, f, g], _ => revert a b c d e f g; decide +kernel
  | [a, b, c, d, e, f, g, i], _ => revert a b c d e f g i; decide +kernel
  | _ :: _ :: _ :: _ :: _ :: _ :: _ :: _ :: _ :: _, h => exact absurd h (by simp)

theorem u8ToBools_length (b : UInt8) : (u8ToBools b).length = 8 := by simp [u8ToBools]

theorem bitsVal_lt (l : List Bool) : bitsVal l < 2 ^ l.length := by
  induction l with
  | nil => simp [bitsVal]
  | cons a l ih => simp only [bitsVal, List.length_cons, Nat.pow_succ]; split <;> omega

theorem bitsVal_append_false (l : List Bool) (n : Nat) : bitsVal (l ++ List.replicate n false) = bitsVal l := by
  induction l with
  | nil => induction n with
    | zero => rfl
    | succ n ih => simpa [bitsVal, List.replicate_succ] using ih
  | cons a l ih => simp [bitsVal, ih]

theorem bitsVal_inj (l l' : List Bool) (hl : l.length = l'.length) (h : bitsVal l = bitsVal l') : l = l' := by
  induction l generalizing l' with
  | nil => exact (List.length_eq_zero_iff.mp hl.symm).symm
  | cons a l ih =>
    cases l' with
    | nil => simp at hl
    | cons b l' =>
      simp only [bitsVal] at h
      have hab : a = b := by
        cases a <;> cases b <;> simp at h <;> first | rfl | omega
      subst hab
      rw [ih l' (by simpa using hl) (by omega)]

/-- Whole-table check over the 256 bytes. -/
theorem bitsVal_u8ToBools (b : UInt8) : bitsVal (u8ToBools b) = b.toNat := by
  have h : ∀ n : Fin 256, bitsVal (u8ToBools (UInt8.ofNat n.val)) = n.val := by decide +kernel
  have := h ⟨b.toNat, b.toNat_lt⟩
  simpa using this

theorem u8ToBools_boolToU8 (l : List Bool) (h : l.length = 8) : u8ToBools (boolToU8 l) = l := by
  apply bitsVal_inj
  · rw [u8ToBools_length, h]
  · rw [bitsVal_u8ToBools, boolToU8_val_le l (by omega)]

theorem boolToU8_u8ToBools (b : UInt8) : boolToU8 (u8ToBools b) = b := by
  apply UInt8.toNat_inj.mp
  rw [boolToU8_val_le _ (by rw [u8ToBools_length]), bitsVal_u8ToBools]

theorem boolToU8_pad (l : List Bool) (n : Nat) : boolToU8 (l ++ List.replicate n false) = boolToU8 l := by
  apply UInt8.toNat_inj.mp
  rw [boolToU8_take, boolToU8_take l, boolToU8_val_le _ (by simp), boolToU8_val_le _ (by simp),
    List.take_append, List.take_replicate, bitsVal_append_false]

/-- The padding loop of `bools_to_u8s` does nothing for every list that fits in memory with room to spare. -/
theorem padLoop_eq (l : List Bool) (h : l.length ≤ 8) : padLoop l = pure l := by
  unfold padLoop; rw [if_neg (by omega)]

theorem chunkToU8_eq (l : List Bool) (h : l.length ≤ 8) : chunkToU8 l = pure (boolToU8 l) := by
  unfold chunkToU8
  split
  · rw [padLoop_eq l h]; rfl
  · rfl

variable {ι : Type}

theorem mem_blocks_length {T : Type} {k : Nat} {l b : List T} (hb : b ∈ blocks k l) : b.length ≤ k := by
  induction l using (measure List.length).wf.induction generalizing b with
  | _ l ih =>
  by_cases hk : k = 0
  · subst hk; rw [blocks_zero] at hb; simp at hb
  by_cases hl : l = []
  · subst hl; rw [blocks_nil] at hb; simp at hb
  rw [blocks_cons (by omega) hl] at hb
  rcases List.mem_cons.mp hb with rfl | hb
  · simp
  · refine ih (l.drop k) ?_ hb
    have : 0 < l.length := List.length_pos_iff.mpr hl
    simp only [InvImage, WellFoundedRelation.rel, List.length_drop]
    omega

theorem Yields.boolsToU8s [RIter ι Bool] {s : ι} {l : List Bool} (h : Yields s l) :
    Yields (boolsToU8s s) ((blocks 8 l).map boolToU8) :=
  Yields.mapM (h.chunks 8) (fun b hb => chunkToU8_eq b (mem_blocks_length hb))

theorem Yields.u8sToBools [RIter ι UInt8] {s : ι} {l : List UInt8} (h : Yields s l) :
    Yields (u8sToBools s) (l.flatMap u8ToBools) :=
  Yields.rflatMap (fun _ => ⟨_, rfl, yields_ofList _⟩) h

/-- Packing and unpacking pads with `false` to a whole number of bytes. -/
theorem unpack_pack (bits : List Bool) : ((blocks 8 bits).map boolToU8).flatMap u8ToBools
    = bits ++ List.replicate ((8 - bits.length % 8) % 8) false := by
  induction hn : bits.length using Nat.strongRecOn generalizing bits with
  | _ n ih =>
    subst hn
    by_cases hl : bits = []
    · subst hl; simp [blocks_nil]
    · have hlen : 0 < bits.length := List.length_pos_iff.mpr hl
      rw [blocks_cons (by decide) hl, List.map_cons, List.flatMap_cons,
        ih (bits.drop 8).length (by simp; omega) (bits.drop 8) rfl, List.length_drop]
      rcases Nat.lt_or_ge bits.length 8 with hlt | hge
      · rw [List.take_of_length_le (by omega), List.drop_eq_nil_of_le (by omega),
          show bits.length - 8 = 0 by omega, Nat.mod_eq_of_lt hlt, Nat.mod_eq_of_lt (by omega : 8 - bits.length < 8),
          ← boolToU8_pad bits (8 - bits.length), u8ToBools_boolToU8 _ (by simp; omega)]
        simp
      · rw [u8ToBools_boolToU8 _ (by simp; omega), ← List.append_assoc, List.take_append_drop]
        congr 3
        omega

end Verif
