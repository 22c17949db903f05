import Verif.Lemmas.RsExists

/-!
# Property C70: damage to one coded frame does not spread
-/
namespace Verif.Props
open Verif Spec
variable {ι κ : Type}

private theorem bitsOf_eq (l : List UInt8) : bitsOf l = l.flatMap u8ToBools := by
  have h : ∀ n : Fin 256, (List.range 8).map ((UInt8.ofNat n.val).toNat.testBit) = u8ToBools (UInt8.ofNat n.val) := by
    decide +kernel
  unfold bitsOf
  congr 1
  funext b
  simpa using h ⟨b.toNat, b.toNat_lt⟩

/-- The decoder works frame by frame, whatever the received bytes: a frame that the codec corrects becomes the corrected
data, a frame that it rejects becomes its own bytes without the last five. -/
theorem C70_frames [RIter κ Bool] {rs : RS} {rcv : κ} {bytes : List UInt8} (h : Yields rcv (bitsOf bytes))
    (hlen : ∀ w ∈ blocks 12 bytes, 5 ≤ w.length) {dec : List UInt8 → Option (List UInt8)}
    (hdec : ∀ w ∈ blocks 12 bytes, rs.correct w = pure (dec w)) :
    Yields (bchStreamDecode rs rcv)
      (bitsOf ((blocks 12 bytes).flatMap (fun w => (dec w).getD (w.take (w.length - 5))))) := by
  rw [bitsOf_eq] at h ⊢
  have hb : (blocks 8 (bytes.flatMap u8ToBools)).map boolToU8 = bytes := by
    rw [blocks_flatMap (by decide) _ _ (fun b _ => u8ToBools_length b), List.map_map,
      show boolToU8 ∘ u8ToBools = id from funext boolToU8_u8ToBools, List.map_id]
  unfold bchStreamDecode
  refine Yields.rflatMap (fun _ => ⟨_, rfl, yields_ofList _⟩) ?_
  have hc := h.boolsToU8s.chunks frameValue
  rw [hb] at hc
  refine hc.rflatMap_mem (out := fun w => (dec w).getD (w.take (w.length - 5))) ?_
  intro w hw
  have hw' : w ∈ blocks 12 bytes := hw
  refine ⟨ofList ((dec w).getD (w.take (w.length - 5))), ?_, yields_ofList _⟩
  unfold bchDecodeChunk
  rw [hdec w hw', pure_bind]
  cases hd : dec w with
  | some d => rfl
  | none =>
    show (usub w.length eccValue >>= _) = _
    rw [usub_le (show eccValue ≤ w.length from hlen w hw')]
    rfl

/-- A codec that rejects everything: the data bytes of every frame are handed on as they came. -/
example (rs : RS) (h : ∀ w, rs.correct w = pure none) :
    Yields (bchStreamDecode rs (ofList (bitsOf [1, 2, 3, 4, 5, 6, 7, 8, 9, 10, 11, 12, 21, 22, 23, 24, 25, 26])))
      (bitsOf [1, 2, 3, 4, 5, 6, 7, 21]) := by
  have hb : blocks 12 ([1, 2, 3, 4, 5, 6, 7, 8, 9, 10, 11, 12, 21, 22, 23, 24, 25, 26] : List UInt8)
      = [[1, 2, 3, 4, 5, 6, 7, 8, 9, 10, 11, 12], [21, 22, 23, 24, 25, 26]] := by decide +kernel
  refine (C70_frames (yields_ofList _) (dec := fun _ => none) ?_ (fun w _ => h w)).of_eq ?_
  · rw [hb]; simp
  · rw [hb]; rfl

/-- Whatever happens to the other frames: a frame with at most two damaged bytes gives its seven data bytes, and a frame
that the codec rejects gives its first seven bytes as received; nothing is shifted.  (`htot` is the rest of the contract of
the codec: it answers, and with as many data bytes as the frame has.) -/
theorem C70_local [RIter ι Bool] [RIter κ Bool] {rs : RS} (hrs : rs.Contract)
    (htot : ∀ w : List UInt8, w.length = 12 → ∃ o, rs.correct w = pure o ∧ ∀ d, o = some d → d.length = 7)
    {src : ι} {groups words : List (List UInt8)} (hg : ∀ g ∈ groups, g.length = 7) (h : Yields src (bitsOf groups.flatten))
    (hwords : List.Forall₂ (fun g c => rs.encode g = pure c) groups words)
    {rcv : κ} {frames : List (List UInt8)} (hf : ∀ w ∈ frames, w.length = 12) (hn : frames.length = groups.length)
    (h' : Yields rcv (bitsOf frames.flatten)) :
    Yields (bchStreamEncode rs src) (bitsOf words.flatten) ∧ ∃ out : List (List UInt8),
      Yields (bchStreamDecode rs rcv) (bitsOf out.flatten) ∧ out.length = groups.length ∧ (∀ d ∈ out, d.length = 7) ∧
      ∀ (f : ℕ) (g c w : List UInt8), groups[f]? = some g → words[f]? = some c → frames[f]? = some w →
        (hamming c w ≤ 2 → out[f]? = some g) ∧ (rs.correct w = pure none → out[f]? = some (w.take 7)) := by
  obtain rfl : words = groups.map rs.word := by
    clear h hn
    induction hwords with
    | nil => rfl
    | @cons g c gs cs hgc _ ih =>
      have h7 := hg g (by simp)
      rw [(hrs.word_eq (d := g) (by omega) (by omega)).1, RM.ok_inj] at hgc
      rw [List.map_cons, ← ih (fun x hx => hg x (by simp [hx])), hgc]
  have hw : ∀ g ∈ groups, (rs.word g).length = 12 := by
    intro g hgm
    have h7 := hg g hgm
    rw [(hrs.word_eq (d := g) (by omega) (by omega)).2.1, h7]
  choose! dec hd1 hd2 using htot
  have hbl : blocks 12 frames.flatten = frames := blocks_flatten_eq (by decide) _ hf
  have henc := bchEncode_yields hrs h
  rw [bitsOf_eq, blocks_flatMap (by decide) _ _ (fun b _ => u8ToBools_length b), List.map_map,
    show boolToU8 ∘ u8ToBools = id from funext boolToU8_u8ToBools, List.map_id, encBytes,
    blocks_flatten_eq (by decide) _ hg, ← bitsOf_eq] at henc
  have hdecy := C70_frames h' (by rw [hbl]; intro w hm; have := hf w hm; omega) (dec := dec)
    (by rw [hbl]; exact fun w hm => hd1 w (hf w hm))
  rw [hbl] at hdecy
  refine ⟨by rw [← List.flatMap_def]; exact henc, frames.map (fun w => (dec w).getD (w.take (w.length - 5))),
    by rw [← List.flatMap_def]; exact hdecy, by simpa using hn, ?_, ?_⟩
  · intro d hdm
    obtain ⟨w, hwm, rfl⟩ := List.mem_map.mp hdm
    have h12 := hf w hwm
    cases hd : dec w with
    | some d => exact hd2 w h12 d hd
    | none => simp [h12]
  · intro f g c w e1 e2 e3
    have hgm := List.mem_of_getElem? e1
    have hwm := List.mem_of_getElem? e3
    have h7 := hg g hgm
    have h12 := hf w hwm
    rw [List.getElem?_map, e1, Option.map_some, Option.some_inj] at e2
    rw [List.getElem?_map, e3, Option.map_some]
    constructor
    · intro hh
      rw [← e2] at hh
      have := hrs.correct_ok g _ w (by omega) (by omega) (hrs.word_eq (d := g) (by omega) (by omega)).1
        (by rw [h12, hw g hgm]) hh
      rw [hd1 w h12, RM.ok_inj] at this
      rw [this]; rfl
    · intro hrej
      rw [hd1 w h12, RM.ok_inj] at hrej
      rw [hrej, h12]; rfl

/-- The hypotheses on the codec can be met. -/
theorem C70_codec_exists : rsIdeal.Contract ∧
    ∀ w : List UInt8, w.length = 12 → ∃ o, rsIdeal.correct w = pure o ∧ ∀ d, o = some d → d.length = 7 := by
  refine ⟨rsIdeal_contract, ?_⟩
  intro w hw
  by_cases hex : ∃ d : List UInt8, d.length ≤ 250 ∧ w.length = d.length + 5 ∧ hamming (rsWord d) w ≤ 2
  · refine ⟨_, dif_pos hex, ?_⟩
    intro d hd
    have := hex.choose_spec.2.1
    rw [← Option.some.inj hd]
    omega
  · exact ⟨_, dif_neg hex, fun d hd => by cases hd⟩

/-- Two frames; the first one arrives as twelve zero bytes, the second one is intact. -/
example (g₁ g₂ c₁ c₂ : List UInt8) (h₁ : g₁.length = 7) (h₂ : g₂.length = 7) (hc₁ : rsIdeal.encode g₁ = pure c₁)
    (hc : rsIdeal.encode g₂ = pure c₂) : ∃ d, d.length = 7 ∧
    Yields (bchStreamDecode rsIdeal (ofList (bitsOf (List.replicate 12 0 ++ c₂)))) (bitsOf (d ++ g₂)) := by
  obtain ⟨e1, e2, -⟩ := rsIdeal_contract.word_eq (d := g₂) (by omega) (by omega)
  rw [hc, RM.ok_inj] at e1
  obtain ⟨-, out, o1, o2, o3, o4⟩ := C70_local rsIdeal_contract C70_codec_exists.2 (groups := [g₁, g₂]) (words := [c₁, c₂])
    (by simp [h₁, h₂]) (yields_ofList _) (by simp [hc₁, hc]) (frames := [List.replicate 12 0, c₂])
    (by simp [e1, e2, h₂]) rfl (yields_ofList _)
  obtain ⟨d₁, d₂, rfl⟩ : ∃ a b, out = [a, b] := by
    match out, o2 with
    | [a, b], _ => exact ⟨a, b, rfl⟩
  have := (o4 1 g₂ c₂ c₂ rfl rfl rfl).1 (by simp [hamming, diffs, List.zipWith_self, List.countP_replicate])
  simp only [List.getElem?_cons_succ, List.getElem?_cons_zero, Option.some_inj] at this
  subst this
  exact ⟨d₁, o3 _ (by simp), by simpa using o1⟩

end Verif.Props
