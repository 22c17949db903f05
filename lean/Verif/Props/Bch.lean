import Verif.Lemmas.RsExists

/-!
# Property C48: the block-coded bit stream

`rs.Contract` is the published contract of the Reed–Solomon crate; `rsIdeal_contract` shows that it can be met.
-/
namespace Verif.Props
open Verif Spec
variable {ι κ : Type}

theorem frameErrors_bytes {n t : ℕ} {a b : List Bool} (h : FrameErrors n t a b) :
    FrameErrors8 n t ((blocks 8 a).map boolToU8) ((blocks 8 b).map boolToU8) := by
  obtain ⟨hl, he⟩ := h
  refine ⟨by rw [List.length_map, List.length_map, blocks_length 8 (by decide), blocks_length 8 (by decide), hl], ?_⟩
  have e1 : diffs (blocks 8 a) (blocks 8 b) = ((blocks 8 a).zip (blocks 8 b)).map (fun p => p.1 != p.2) := by
    unfold diffs; rw [List.zip, List.map_zipWith]
  have e2 : diffs ((blocks 8 a).map boolToU8) ((blocks 8 b).map boolToU8)
      = ((blocks 8 a).zip (blocks 8 b)).map (fun p => boolToU8 p.1 != boolToU8 p.2) := by
    unfold diffs; rw [List.zip, List.map_zipWith, List.zipWith_map]
  rw [e1, blocks_map] at he
  rw [e2, blocks_map]
  intro e hmem
  obtain ⟨z, hz, rfl⟩ := List.mem_map.mp hmem
  refine le_trans ?_ (he _ (List.mem_map.mpr ⟨z, hz, rfl⟩))
  rw [List.countP_map, List.countP_map]
  apply List.countP_mono_left
  intro p _
  simp only [Function.comp, id, bne_iff_ne, ne_eq]
  exact fun h h' => h (by rw [h'])

/-- Decoding a stream in which at most 2 bytes of every 12-byte frame of the encoded stream were corrupted gives the
data, padded with `false` to whole bytes. -/
theorem C48_corrects [RIter ι Bool] [RIter κ Bool] {rs : RS} (hrs : rs.Contract) {src : ι} {bits : List Bool}
    (h : Yields src bits) {enc : List Bool} (henc : Yields (bchStreamEncode rs src) enc) {rcv : κ} {bits' : List Bool}
    (h' : Yields rcv bits') (herr : FrameErrors 12 2 enc bits') :
    ∃ pad, pad < 8 ∧ (bits.length + pad) % 8 = 0 ∧
      Yields (bchStreamDecode rs rcv) (bits ++ List.replicate pad false) := by
  have e := (bchEncode_yields hrs h).unique henc
  refine ⟨(8 - bits.length % 8) % 8, by omega, by omega, ?_⟩
  rw [← unpack_pack]
  apply bchDecode_yields hrs h'
  have := frameErrors_bytes herr
  rw [← e, blocks_flatMap (by decide) _ _ (fun b _ => u8ToBools_length b), List.map_map,
    show boolToU8 ∘ u8ToBools = id from funext boolToU8_u8ToBools, List.map_id] at this
  exact this

/-- One byte of a frame is damaged: flipping the first bit of a stream of at most 12 bytes. -/
theorem frameErrors_flip (x : Bool) (l : List Bool) (hl : l.length < 96) : FrameErrors 12 2 (x :: l) ((!x) :: l) := by
  refine ⟨rfl, fun e he => ?_⟩
  rw [blocks_cons (l := x :: l) (by decide) (by simp), blocks_cons (l := (!x) :: l) (by decide) (by simp)] at he
  have hz : ∀ M : List (List Bool), diffs M M = List.replicate M.length false := by
    intro M; unfold diffs; rw [List.zipWith_self, List.eq_replicate_iff]; simp
  have hd : diffs ((x :: l).take 8 :: blocks 8 ((x :: l).drop 8)) (((!x) :: l).take 8 :: blocks 8 (((!x) :: l).drop 8))
      = true :: List.replicate (blocks 8 (l.drop 7)).length false := by
    rw [← hz]; simp [diffs]
  rw [hd, blocks_of_le (by decide) (by simp) (by
    rw [List.length_cons, List.length_replicate, blocks_length 8 (by decide), List.length_drop]; omega)] at he
  obtain rfl := List.mem_singleton.mp he
  simp [List.countP_replicate]

/-- No error: the data comes back, followed by fewer than 8 `false` bits. -/
theorem C48_roundtrip [RIter ι Bool] {rs : RS} (hrs : rs.Contract) {src : ι} {bits : List Bool} (h : Yields src bits) :
    ∃ pad, pad < 8 ∧ (bits.length + pad) % 8 = 0 ∧
      Yields (bchStreamDecode rs (bchStreamEncode rs src)) (bits ++ List.replicate pad false) := by
  refine C48_corrects hrs h (bchEncode_yields hrs h) (bchEncode_yields hrs h) ⟨rfl, ?_⟩
  intro e he
  have : diffs (blocks 8 ((encBytes rs ((blocks 8 bits).map boolToU8)).flatMap u8ToBools))
      (blocks 8 ((encBytes rs ((blocks 8 bits).map boolToU8)).flatMap u8ToBools))
      = List.replicate (blocks 8 ((encBytes rs ((blocks 8 bits).map boolToU8)).flatMap u8ToBools)).length false := by
    unfold diffs
    rw [List.zipWith_self, List.eq_replicate_iff]
    simp
  rw [this] at he
  have hall : ∀ x ∈ e, x = false := by
    intro x hx
    have hmem : x ∈ (blocks 12 (List.replicate
      (blocks 8 ((encBytes rs ((blocks 8 bits).map boolToU8)).flatMap u8ToBools)).length false)).flatten :=
      List.mem_flatten.mpr ⟨e, he, hx⟩
    rw [blocks_flatten 12 (by decide)] at hmem
    exact (List.mem_replicate.mp hmem).2
  have : e.countP id = 0 := by
    rw [List.countP_eq_zero]
    intro x hx; rw [hall x hx]; simp
  omega

/-- Rate: `n` data bytes become `n` bytes plus 5 per started group of 7 (so 12 bytes for every full group of 7). -/
theorem C48_length [RIter ι Bool] {rs : RS} (hrs : rs.Contract) {src : ι} {bits : List Bool} (h : Yields src bits)
    {n : ℕ} (hn : n = (bits.length + 7) / 8) :
    ∃ enc, Yields (bchStreamEncode rs src) enc ∧ enc.length = 8 * (n + 5 * ((n + 6) / 7)) := by
  refine ⟨_, bchEncode_yields hrs h, ?_⟩
  rw [length_flatMap_const (k := 8) _ _ (fun b _ => u8ToBools_length b)]
  have hl : ((blocks 8 bits).map boolToU8).length = n := by
    rw [List.length_map, blocks_length 8 (by decide), hn]; rfl
  have key : ∀ D : List UInt8, (encBytes rs D).length = D.length + 5 * ((D.length + 6) / 7) := by
    intro D
    induction hm : D.length using Nat.strongRecOn generalizing D with
    | _ m ih =>
      subst hm
      by_cases hD : D = []
      · subst hD; simp [encBytes, blocks_nil]
      · have hDl : 0 < D.length := List.length_pos_iff.mpr hD
        rw [encBytes_cons hD, List.length_append, ih (D.drop 7).length (by simp; omega) _ rfl,
          (hrs.word_eq (d := D.take 7) (by simp; omega) (by simp <;> omega)).2.1]
        simp only [List.length_take, List.length_drop]
        omega
  rw [key, hl, Nat.mul_comm]

example : ∃ enc, Yields (bchStreamEncode rsIdeal (ofList (List.replicate 57 true))) enc ∧ enc.length = 144 :=
  C48_length rsIdeal_contract (yields_ofList _) (n := 8) (by decide)

/-- Three bits sent through the code (6 bytes) arrive with the first bit flipped and are still decoded. -/
example : ∃ x rcv, Yields (bchStreamEncode rsIdeal (ofList [true, false, true])) (x :: rcv) ∧
    ∃ pad, pad < 8 ∧ (3 + pad) % 8 = 0 ∧
      Yields (bchStreamDecode rsIdeal (ofList ((!x) :: rcv))) ([true, false, true] ++ List.replicate pad false) := by
  obtain ⟨enc, h1, h2⟩ := C48_length rsIdeal_contract (yields_ofList [true, false, true]) (n := 1) (by decide)
  match enc, h2 with
  | x :: rcv, h2 =>
    have h3 : rcv.length + 1 = 48 := h2
    exact ⟨x, rcv, h1, C48_corrects rsIdeal_contract (yields_ofList _) h1 (yields_ofList _)
      (frameErrors_flip x rcv (by omega))⟩

/-- The code is systematic: the first bits of the encoded stream are the first 56 data bits. -/
theorem C48_systematic [RIter ι Bool] {rs : RS} (hrs : rs.Contract) {src : ι} {bits : List Bool} (h : Yields src bits)
    (hb : 56 ≤ bits.length) : ∃ enc, Yields (bchStreamEncode rs src) enc ∧ enc.take 56 = bits.take 56 := by
  refine ⟨_, bchEncode_yields hrs h, ?_⟩
  set D := (blocks 8 bits).map boolToU8 with hD
  have hDl : 7 ≤ D.length := by rw [hD, List.length_map, blocks_length 8 (by decide)]; omega
  have hne : D ≠ [] := by intro h0; rw [h0] at hDl; simp at hDl
  have htake : ∀ (l l' : List UInt8), 7 ≤ l.length →
      ((l ++ l').flatMap u8ToBools).take 56 = (l.take 7).flatMap u8ToBools := by
    intro l l' hl
    have h7 : ((l.take 7).flatMap u8ToBools).length = 56 := by
      rw [length_flatMap_const (k := 8) _ _ (fun b _ => u8ToBools_length b)]; simp; omega
    conv_lhs => rw [← List.take_append_drop 7 l, List.append_assoc, List.flatMap_append]
    rw [List.take_left' h7]
  obtain ⟨-, w1, w2⟩ := hrs.word_eq (d := D.take 7) (by simp; omega) (by simp <;> omega)
  have hlen7 : (D.take 7).length = 7 := by simp; omega
  rw [encBytes_cons hne, htake _ _ (by rw [w1]; omega)]
  rw [hlen7] at w2
  rw [w2]
  have := htake D [] hDl
  rw [List.append_nil] at this
  rw [← this, hD, unpack_pack, List.take_append_of_le_length hb]

example : ∃ enc, Yields (bchStreamEncode rsIdeal (ofList (List.replicate 60 true))) enc ∧
    enc.take 56 = List.replicate 56 true :=
  C48_systematic rsIdeal_contract (yields_ofList _) (by decide)

/-- A trailing frame of fewer than 5 bytes that the codec rejects makes the decoder panic. -/
theorem C48_short_tail_panics {rs : RS} {w : List UInt8} (hw : w.length < 5) (hrej : rs.correct w = pure none) :
    (bchDecodeChunk rs w).Panics := by
  unfold bchDecodeChunk
  rw [hrej, pure_bind]
  show (usub w.length eccValue >>= _).Panics
  rw [usub_lt (show w.length < eccValue from hw)]; simp

example : (bchDecodeChunk rsIdeal [1, 2, 3]).Panics := by
  refine C48_short_tail_panics (by decide) (dif_neg ?_)
  rintro ⟨d, -, h, -⟩
  simp at h

example : ∃ pad, pad < 8 ∧ (3 + pad) % 8 = 0 ∧
    Yields (bchStreamDecode rsIdeal (bchStreamEncode rsIdeal (ofList [true, false, true])))
      ([true, false, true] ++ List.replicate pad false) := C48_roundtrip rsIdeal_contract (yields_ofList [true, false, true])

end Verif.Props
