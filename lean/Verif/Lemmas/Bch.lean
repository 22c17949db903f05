import Verif.Lemmas.Wave
import Verif.Lemmas.Bits
import Verif.Model.Cdma
import Verif.Spec.Codes

/-! The block code: framing. -/
namespace Verif
open Spec
variable {ι : Type}

/-- The published contract of the Reed–Solomon crate with 5 check bytes: encoding appends 5 bytes; decoding undoes it
when at most 2 bytes are wrong. -/
structure RS.Contract (rs : RS) : Prop where
  encode_ok : ∀ d : List UInt8, 0 < d.length → d.length ≤ 250 → ∃ p : List UInt8, p.length = 5 ∧ rs.encode d = pure (d ++ p)
  correct_ok : ∀ d c w : List UInt8, 0 < d.length → d.length ≤ 250 → rs.encode d = pure c → w.length = c.length →
    hamming c w ≤ 2 → rs.correct w = pure (some d)

/-- The codeword of a data block (a name for the value of `encode`). -/
def RS.word (rs : RS) (d : List UInt8) : List UInt8 :=
  match rs.encode d with
  | some (.ok c) => c
  | _ => []

theorem RS.Contract.word_eq {rs : RS} (h : rs.Contract) {d : List UInt8} (h0 : 0 < d.length) (h1 : d.length ≤ 250) :
    rs.encode d = pure (rs.word d) ∧ (rs.word d).length = d.length + 5 ∧ (rs.word d).take d.length = d := by
  obtain ⟨p, h2, h3⟩ := h.encode_ok d h0 h1
  have : rs.word d = d ++ p := by unfold RS.word; rw [h3]; rfl
  rw [this]
  exact ⟨h3, by simp [h2], by simp⟩

/-- All codewords. -/
def encBytes (rs : RS) (D : List UInt8) : List UInt8 := (blocks 7 D).flatMap rs.word

theorem encBytes_cons {rs : RS} {D : List UInt8} (hD : D ≠ []) :
    encBytes rs D = rs.word (D.take 7) ++ encBytes rs (D.drop 7) := by
  unfold encBytes; rw [blocks_cons (by decide) hD, List.flatMap_cons]

theorem blocks_mem_pos {T : Type} {k : ℕ} {l b : List T} (hb : b ∈ blocks k l) : 0 < b.length := by
  induction l using (measure List.length).wf.induction generalizing b with
  | _ l ih =>
  by_cases hk : k = 0
  · subst hk; rw [blocks_zero] at hb; simp at hb
  by_cases hl : l = []
  · subst hl; rw [blocks_nil] at hb; simp at hb
  have hl' : 0 < l.length := List.length_pos_iff.mpr hl
  rw [blocks_cons (by omega) hl] at hb
  rcases List.mem_cons.mp hb with rfl | hb
  · simp; omega
  · refine ih (l.drop k) ?_ hb
    simp only [InvImage, WellFoundedRelation.rel, List.length_drop]
    omega

theorem bchEncode_yields [RIter ι Bool] {rs : RS} (h : rs.Contract) {s : ι} {bits : List Bool} (hs : Yields s bits) :
    Yields (bchStreamEncode rs s) ((encBytes rs ((blocks 8 bits).map boolToU8)).flatMap u8ToBools) := by
  unfold bchStreamEncode
  refine Yields.rflatMap (fun _ => ⟨_, rfl, yields_ofList _⟩) ?_
  refine (hs.boolsToU8s.chunks datValue).rflatMap_mem (out := rs.word) ?_
  intro d hd
  have h1 : d.length ≤ 7 := mem_blocks_length hd
  exact ⟨_, by rw [(h.word_eq (blocks_mem_pos hd) (by omega)).1, pure_bind], yields_ofList _⟩

theorem blocks_of_le {T : Type} {k : ℕ} (hk : 0 < k) {l : List T} (hl : l ≠ []) (h : l.length ≤ k) : blocks k l = [l] := by
  rw [blocks_cons hk hl, List.take_of_length_le h, List.drop_eq_nil_of_le h, blocks_nil]

/-- The frames of a corrupted encoded stream decode to the data. -/
theorem decode_frames {rs : RS} (h : rs.Contract) (D W : List UInt8) (hW : FrameErrors8 12 2 (encBytes rs D) W) :
    ∃ L : List (List UInt8), (blocks 12 W).map (bchDecodeChunk rs) = L.map (fun d => pure (ofList d)) ∧ L.flatten = D := by
  induction hn : D.length using Nat.strongRecOn generalizing D W with
  | _ n ih =>
    subst hn
    by_cases hD : D = []
    · subst hD
      have : W = [] := by
        have := hW.1
        simpa [encBytes, blocks_nil] using this.symm
      subst this
      exact ⟨[], by simp [blocks_nil], rfl⟩
    · have hDl : 0 < D.length := List.length_pos_iff.mpr hD
      obtain ⟨e1, e2, e3⟩ := h.word_eq (d := D.take 7) (by simp <;> omega) (by simp <;> omega)
      have hE := encBytes_cons (rs := rs) hD
      have hdec : ∀ w : List UInt8, w.length = (rs.word (D.take 7)).length → hamming (rs.word (D.take 7)) w ≤ 2 →
          bchDecodeChunk rs w = pure (ofList (D.take 7)) := by
        intro w hw hd
        unfold bchDecodeChunk
        rw [h.correct_ok _ _ w (by simp <;> omega) (by simp <;> omega) e1 hw hd, pure_bind]
      rw [hE] at hW
      obtain ⟨hl, he⟩ := hW
      have hWne : W ≠ [] := by
        intro h0; rw [h0] at hl; simp [e2] at hl
      have hdne : diffs (rs.word (D.take 7) ++ encBytes rs (D.drop 7)) W ≠ [] := by
        intro h0
        have := congrArg List.length h0
        simp [diffs, ← hl, e2] at this
      by_cases h7 : 7 ≤ D.length
      · have e2' : (rs.word (D.take 7)).length = 12 := by rw [e2]; simp; omega
        rw [blocks_cons (by decide) hdne] at he
        simp only [List.forall_mem_cons] at he
        obtain ⟨he1, he2⟩ := he
        unfold diffs at he1 he2
        rw [List.take_zipWith, List.take_left' e2'] at he1
        rw [List.drop_zipWith, List.drop_left' e2'] at he2
        obtain ⟨L, hL1, hL2⟩ := ih (D.drop 7).length (by simp; omega) (D.drop 7) (W.drop 12)
          ⟨by simp [e2'] at hl; simp; omega, he2⟩ rfl
        refine ⟨D.take 7 :: L, ?_, by rw [List.flatten_cons, hL2, List.take_append_drop]⟩
        rw [blocks_cons (by decide) hWne, List.map_cons, List.map_cons, hL1,
          hdec (W.take 12) (by simp [e2'] at hl ⊢; omega) he1]
      · have hdrop : D.drop 7 = [] := List.drop_eq_nil_of_le (by omega)
        rw [hdrop] at hl he
        have e0 : encBytes rs [] = [] := by simp [encBytes, blocks_nil]
        rw [e0, List.append_nil] at hl he
        refine ⟨[D.take 7], ?_, by simp; omega⟩
        have hlen : W.length ≤ 12 := by rw [← hl, e2]; simp <;> omega
        rw [blocks_of_le (by decide) hWne hlen]
        rw [blocks_of_le (by decide) (by intro h0; have := congrArg List.length h0; simp [diffs, ← hl, e2] at this)
          (by unfold diffs; simp; omega)] at he
        simp only [List.map_cons, List.map_nil]
        rw [hdec W hl.symm (he _ (by simp))]

theorem bchDecode_yields [RIter ι Bool] {rs : RS} (h : rs.Contract) {s : ι} {bits : List Bool} {D : List UInt8}
    (hs : Yields s bits) (hW : FrameErrors8 12 2 (encBytes rs D) ((blocks 8 bits).map boolToU8)) :
    Yields (bchStreamDecode rs s) (D.flatMap u8ToBools) := by
  obtain ⟨L, h1, h2⟩ := decode_frames h D _ hW
  unfold bchStreamDecode
  refine Yields.rflatMap (fun _ => ⟨_, rfl, yields_ofList _⟩) ?_
  -- the decoded block of a frame
  let out : List UInt8 → List UInt8 := fun w => match bchDecodeChunk rs w with
    | some (.ok it) => it.rest
    | _ => []
  have hout : (blocks 12 ((blocks 8 bits).map boolToU8)).map out = L := by
    have := congrArg (List.map (fun r : RM (VecIter UInt8) => match r with
      | some (.ok it) => it.rest
      | _ => [])) h1
    rw [List.map_map, List.map_map] at this
    refine this.trans ?_
    conv_rhs => rw [← List.map_id L]
    rfl
  have hy := (hs.boolsToU8s.chunks frameValue).rflatMap_mem (f := bchDecodeChunk rs) (out := out) (by
    intro w hw
    have : bchDecodeChunk rs w ∈ (blocks 12 ((blocks 8 bits).map boolToU8)).map (bchDecodeChunk rs) :=
      List.mem_map.mpr ⟨w, hw, rfl⟩
    rw [h1] at this
    obtain ⟨d, _, hd⟩ := List.mem_map.mp this
    refine ⟨ofList d, hd.symm, ?_⟩
    have : out w = d := by
      show (match bchDecodeChunk rs w with
        | some (.ok it) => it.rest
        | _ => []) = d
      rw [← hd]; rfl
    rw [this]; exact yields_ofList d)
  refine hy.of_eq ?_
  rw [← h2, ← hout, List.flatMap]
  rfl

end Verif
