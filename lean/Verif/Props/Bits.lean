import Verif.Lemmas.Bits
import Verif.Lemmas.Blocks

/-! # Properties C01, C02: bits and bytes -/
namespace Verif.Props
open Verif Spec

variable {ι : Type}

/-! ## C01 -/

/-- Unpacking gives 8 bits; bit `i` is the coefficient of `2^i`; packing them gives the byte back. -/
theorem C01_unpack (b : UInt8) :
    (u8ToBools b).length = 8 ∧ bitsVal (u8ToBools b) = b.toNat ∧
      (∀ i, (hi : i < 8) → (u8ToBools b)[i]? = some (b.toNat.testBit i)) ∧ boolToU8 (u8ToBools b) = b := by
  refine ⟨u8ToBools_length b, bitsVal_u8ToBools b, ?_, boolToU8_u8ToBools b⟩
  have h : ∀ (n : Fin 256) (i : Fin 8), (u8ToBools (UInt8.ofNat n.val))[i.val]? = some (n.val.testBit i.val) := by
    decide +kernel
  intro i hi
  have := h ⟨b.toNat, b.toNat_lt⟩ ⟨i, hi⟩
  simpa using this

theorem C01_pack (l : List Bool) (hl : l.length = 8) : u8ToBools (boolToU8 l) = l := u8ToBools_boolToU8 l hl

example : u8ToBools (boolToU8 [true, false, true, true, false, false, true, false]) =
    [true, false, true, true, false, false, true, false] := C01_pack _ rfl

/-- Packing reads the first eight bits as a binary number, least significant bit first (any number of bits). -/
theorem C01_pack_value (l : List Bool) : (boolToU8 l).toNat = bitsVal (l.take 8) := by
  rw [boolToU8_take, boolToU8_val_le _ (by simp)]

theorem C01_pack_short (l : List Bool) : boolToU8 l = boolToU8 (l ++ List.replicate (8 - l.length) false) :=
  (boolToU8_pad l _).symm

theorem C01_pack_long (l : List Bool) : boolToU8 l = boolToU8 (l.take 8) := boolToU8_take l

example : boolToU8 [true, false, true, true] = 13 ∧ u8ToBools 13 =
    [true, false, true, true, false, false, false, false] := by decide +kernel

/-! ## C02 -/

/-- Bits → bytes: `ceil(n/8)` bytes, byte `j` packing the `j`-th group of eight bits; it terminates. -/
theorem C02_bits_to_bytes [RIter ι Bool] {src : ι} {bits : List Bool} (h : Yields src bits) :
    ∃ bytes, Yields (boolsToU8s src) bytes ∧ bytes.length = (bits.length + 7) / 8 ∧
      bytes = (blocks 8 bits).map boolToU8 := by
  refine ⟨_, h.boolsToU8s, ?_, rfl⟩
  rw [List.length_map, blocks_length 8 (by decide)]; rfl

example : ∃ bytes, Yields (boolsToU8s (ofList (List.replicate 9 true))) bytes ∧ bytes.length = 2 ∧ bytes = [255, 1] := by
  obtain ⟨b, h1, h2, h3⟩ := C02_bits_to_bytes (yields_ofList (List.replicate 9 true))
  have h4 : b = [255, 1] := h3.trans (by decide +kernel)
  exact ⟨b, h1, by rw [h4]; rfl, h4⟩

/-- Bits → bytes → bits: the original bits followed by fewer than 8 `false`. -/
theorem C02_bits_roundtrip [RIter ι Bool] {src : ι} {bits : List Bool} (h : Yields src bits) :
    ∃ pad, pad < 8 ∧ (bits.length + pad) % 8 = 0 ∧
      Yields (u8sToBools (boolsToU8s src)) (bits ++ List.replicate pad false) := by
  refine ⟨(8 - bits.length % 8) % 8, by omega, by omega, ?_⟩
  rw [← unpack_pack bits]
  exact h.boolsToU8s.u8sToBools

/-- Bytes → bits → bytes is the identity. -/
theorem C02_bytes_roundtrip [RIter ι UInt8] {src : ι} {bytes : List UInt8} (h : Yields src bytes) :
    Yields (boolsToU8s (u8sToBools src)) bytes := by
  have := h.u8sToBools.boolsToU8s
  rw [blocks_flatMap (by decide) _ _ (fun b _ => u8ToBools_length b), List.map_map,
    show boolToU8 ∘ u8ToBools = id from funext boolToU8_u8ToBools, List.map_id] at this
  exact this

example : collect (u8sToBools (boolsToU8s (ofList [true, true, false])))
    = pure [true, true, false, false, false, false, false, false] := by
  obtain ⟨pad, h1, h2, h3⟩ := C02_bits_roundtrip (yields_ofList [true, true, false])
  obtain rfl : pad = 5 := by simp at h2; omega
  rw [collect_of_yields h3]; rfl

end Verif.Props
