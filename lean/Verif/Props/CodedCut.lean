import Verif.Props.Bch
import Verif.Props.Coded
import Verif.Props.Cdma
import Verif.Props.IeeeRadio
import Verif.Props.IeeeRx
import Verif.Lemmas.Symbols
import Verif.Lemmas.Bpf

/-!
# Property C130: a coded transmission that breaks off in its last byte
-/
namespace Verif.Props
open Verif Spec
variable {ι κ : Type}

private theorem byte_padded (a : List Bool) (k : ℕ) (h : a.length + k ≤ 8) :
    boolToU8 (a ++ List.replicate k false) = boolToU8 a := by
  apply UInt8.toNat_inj.mp
  rw [boolToU8_val_le _ (by simpa using h), boolToU8_val_le _ (by omega), bitsVal_append_false]

/-- Missing bits of the last byte are read as `false`. -/
private theorem bytes_padded (l : List Bool) (k : ℕ) (hk : k < 8) (h : (l.length + k) % 8 = 0) :
    (blocks 8 (l ++ List.replicate k false)).map boolToU8 = (blocks 8 l).map boolToU8 := by
  obtain ⟨a, b, rfl, ha, hb⟩ : ∃ a b, l = a ++ b ∧ 8 ∣ a.length ∧ (k = 0 ∨ 0 < b.length ∧ b.length + k = 8) := by
    refine ⟨l.take (8 * ((l.length + k) / 8 - 1)), l.drop (8 * ((l.length + k) / 8 - 1)), (List.take_append_drop _ _).symm, ?_, ?_⟩
    · rw [List.length_take]
      exact ⟨(l.length + k) / 8 - 1, by omega⟩
    · rw [List.length_drop]; omega
  rcases hb with rfl | ⟨hb, hb'⟩
  · simp
  · rw [List.append_assoc, blocks_append_dvd (by decide) ha, blocks_append_dvd (by decide) ha, List.map_append, List.map_append]
    congr 1
    have h1 : b ≠ [] := List.length_pos_iff.mp hb
    rw [blocks_of_le (by decide) h1 (by omega), blocks_of_le (by decide) (by simp [h1]) (by simp; omega)]
    simp only [List.map_cons, List.map_nil, List.cons.injEq, and_true]
    exact byte_padded b k (by omega)

private theorem bytes_damage {n t : ℕ} {a b : List Bool} (h : FrameErrors n t a b) :
    FrameErrors8 n t ((blocks 8 a).map boolToU8) ((blocks 8 b).map boolToU8) := by
  obtain ⟨hl, he⟩ := h
  refine ⟨by rw [List.length_map, List.length_map, blocks_length 8 (by decide), blocks_length 8 (by decide), hl], ?_⟩
  have e1 : diffs (blocks 8 a) (blocks 8 b) = ((blocks 8 a).zip (blocks 8 b)).map (fun p => p.1 != p.2) := by
    unfold diffs; rw [List.zip, List.map_zipWith]
  have e2 : diffs ((blocks 8 a).map boolToU8) ((blocks 8 b).map boolToU8)
      = ((blocks 8 a).zip (blocks 8 b)).map (fun p => boolToU8 p.1 != boolToU8 p.2) := by
    unfold diffs; rw [List.zip, List.map_zipWith, List.zipWith_map]
  rw [e1, blocks_map] at he
  rw [e2, blocks_map]
  intro e hmem
  obtain ⟨z, hz, rfl⟩ := List.mem_map.mp hmem
  refine le_trans ?_ (he _ (List.mem_map.mpr ⟨z, hz, rfl⟩))
  rw [List.countP_map, List.countP_map]
  apply List.countP_mono_left
  intro p _
  simp only [Function.comp, id, bne_iff_ne, ne_eq]
  exact fun h h' => h (by rw [h'])

/-- The received bits end within the last byte, and bytes may be damaged besides: if the received bits, completed with `k < 8`
bits `false`, differ from the coded ones in at most two bytes of every 12-byte frame, the data come back. -/
theorem C130_damaged [RIter ι Bool] [RIter κ Bool] {rs : RS} (hrs : rs.Contract) {src : ι} {bits : List Bool}
    (h : Yields src bits) {enc : List Bool} (henc : Yields (bchStreamEncode rs src) enc) {rcv : κ} {bits' : List Bool}
    (h' : Yields rcv bits') {k : ℕ} (hk : k < 8) (herr : FrameErrors 12 2 enc (bits' ++ List.replicate k false)) :
    ∃ pad, pad < 8 ∧ (bits.length + pad) % 8 = 0 ∧
      Yields (bchStreamDecode rs rcv) (bits ++ List.replicate pad false) := by
  have e := (bchEncode_yields hrs h).unique henc
  refine ⟨(8 - bits.length % 8) % 8, by omega, by omega, ?_⟩
  rw [← unpack_pack]
  apply bchDecode_yields hrs h'
  have hl := herr.1
  have := bytes_damage herr
  rw [← e, blocks_flatMap (by decide) _ _ (fun b _ => u8ToBools_length b), List.map_map,
    show boolToU8 ∘ u8ToBools = id from funext boolToU8_u8ToBools, List.map_id, bytes_padded _ _ hk ?_] at this
  · exact this
  · rw [← e, length_flatMap_const (k := 8) _ _ (fun b _ => u8ToBools_length b), List.length_append, List.length_replicate] at hl
    omega

private theorem sum_count {t n : ℕ} (hn : 0 < n) {l : List Bool} (h : l.countP id ≤ t) : ∀ e ∈ blocks n l, e.countP id ≤ t := by
  intro e he
  refine le_trans ?_ h
  conv_rhs => rw [← blocks_flatten n hn l]
  obtain ⟨a, b, hab⟩ := List.append_of_mem he
  rw [hab]
  simp only [List.flatten_append, List.flatten_cons, List.countP_append]
  omega

private theorem cut_errors {enc : List Bool} (h8 : 8 ∣ enc.length) {m : ℕ} (hm : enc.length < m + 8) :
    FrameErrors 12 2 enc (enc.take m ++ List.replicate (enc.length - m) false) := by
  have hlen : enc.length = (enc.take m ++ List.replicate (enc.length - m) false).length := by simp; omega
  refine ⟨hlen, sum_count (by decide) ?_⟩
  by_cases h0 : enc = []
  · subst h0; simp [diffs, blocks_nil]
  have hpos : 0 < enc.length := List.length_pos_iff.mpr h0
  obtain ⟨B, hB⟩ := h8
  have hsplit : ∀ l : List Bool, l.length = enc.length → blocks 8 l = blocks 8 (l.take (8 * (B - 1))) ++ [l.drop (8 * (B - 1))] := by
    intro l hl
    conv_lhs => rw [← List.take_append_drop (8 * (B - 1)) l]
    rw [blocks_append_dvd (by decide) (by rw [List.length_take]; exact ⟨B - 1, by omega⟩)]
    congr 1
    exact blocks_of_le (by decide) (List.length_pos_iff.mp (by rw [List.length_drop]; omega)) (by rw [List.length_drop]; omega)
  rw [hsplit enc rfl, hsplit _ hlen.symm, List.take_append_of_le_length (by rw [List.length_take]; omega), List.take_take,
    Nat.min_eq_left (by omega)]
  unfold diffs
  rw [List.zipWith_append rfl, List.countP_append, List.zipWith_self]
  have : ((blocks 8 (enc.take (8 * (B - 1)))).map (fun x => x != x)).countP id = 0 := by
    rw [List.countP_eq_zero]
    intro x hx
    obtain ⟨y, _, rfl⟩ := List.mem_map.mp hx
    simp
  rw [this, Nat.zero_add]
  exact le_trans List.countP_le_length (by simp)

/-- The coded stream broken off inside its last byte decodes to the data. -/
theorem C130_cut [RIter ι Bool] [RIter κ Bool] {rs : RS} (hrs : rs.Contract) {src : ι} {bits : List Bool}
    (h : Yields src bits) {enc : List Bool} (henc : Yields (bchStreamEncode rs src) enc) {m : ℕ} (hm : enc.length < m + 8)
    {rcv : κ} (h' : Yields rcv (enc.take m)) :
    ∃ pad, pad < 8 ∧ (bits.length + pad) % 8 = 0 ∧
      Yields (bchStreamDecode rs rcv) (bits ++ List.replicate pad false) := by
  refine C130_damaged hrs h henc h' (k := enc.length - m) (by omega) (cut_errors ?_ hm)
  rw [← (bchEncode_yields hrs h).unique henc, length_flatMap_const (k := 8) _ _ (fun b _ => u8ToBools_length b)]
  exact ⟨_, Nat.mul_comm _ _⟩

/-- Of 48 coded bits 41 arrive. -/
example : ∃ enc, enc.length = 48 ∧ Yields (bchStreamEncode rsIdeal (ofList [true, false, true])) enc ∧
    ∃ pad, pad < 8 ∧ (3 + pad) % 8 = 0 ∧
      Yields (bchStreamDecode rsIdeal (ofList (enc.take 41))) ([true, false, true] ++ List.replicate pad false) := by
  obtain ⟨enc, h1, h2⟩ := C48_length rsIdeal_contract (yields_ofList [true, false, true]) (n := 1) (by decide)
  exact ⟨enc, h2, h1, C130_cut rsIdeal_contract (yields_ofList [true, false, true]) h1 (by rw [h2]; decide) (yields_ofList _)⟩

/-- The first bit is flipped besides and the last one is missing (it was `false`). -/
example {x : Bool} {rest : List Bool} (hl : rest.length = 46)
    (h : Yields (bchStreamEncode rsIdeal (ofList [true, false, true])) (x :: (rest ++ [false]))) :
    ∃ pad, pad < 8 ∧ (3 + pad) % 8 = 0 ∧
      Yields (bchStreamDecode rsIdeal (ofList ((!x) :: rest))) ([true, false, true] ++ List.replicate pad false) :=
  C130_damaged rsIdeal_contract (yields_ofList [true, false, true]) h (yields_ofList ((!x) :: rest)) (k := 1) (by decide)
    (frameErrors_flip x (rest ++ [false]) (by rw [List.length_append, hl]; decide))

/-! ## More is missing -/

private theorem frames_total {out : List UInt8 → List UInt8} (hout : ∀ w : List UInt8, 5 ≤ w.length → (out w).length + 5 = w.length)
    (W : List UInt8) (hW : W.length % 12 = 0 ∨ 5 ≤ W.length % 12) :
    (∀ w ∈ blocks 12 W, 5 ≤ w.length) ∧ ((blocks 12 W).flatMap out).length + 5 * ((W.length + 11) / 12) = W.length := by
  induction hn : W.length using Nat.strongRecOn generalizing W with
  | _ n ih =>
    subst hn
    by_cases h0 : W = []
    · subst h0; simp [blocks_nil]
    have hpos : 0 < W.length := List.length_pos_iff.mpr h0
    by_cases h12 : W.length ≤ 12
    · rw [blocks_of_le (by decide) h0 h12]
      have h5 : 5 ≤ W.length := by omega
      have := hout W h5
      refine ⟨by simpa using h5, ?_⟩
      simp only [List.flatMap_cons, List.flatMap_nil, List.append_nil]
      omega
    · obtain ⟨i1, i2⟩ := ih (W.drop 12).length (by rw [List.length_drop]; omega) (W.drop 12) (by rw [List.length_drop]; omega) rfl
      have ht : (W.take 12).length = 12 := by rw [List.length_take]; omega
      rw [blocks_cons (by decide) h0]
      refine ⟨?_, ?_⟩
      · intro w hw
        rcases List.mem_cons.mp hw with rfl | hw
        · omega
        · exact i1 w hw
      · have := hout (W.take 12) (by omega)
        rw [List.flatMap_cons, List.length_append]
        rw [List.length_drop] at i2
        omega

/-- At least one whole byte is missing: whatever the received bits, the result is shorter than the data (as long as the last frame
keeps five bytes, so that the decoder answers at all).  `htot`: the codec answers every word of five or more bytes, with five bytes
less. -/
theorem C130_short [RIter ι Bool] [RIter κ Bool] {rs : RS} (hrs : rs.Contract)
    (htot : ∀ w : List UInt8, 5 ≤ w.length → ∃ o, rs.correct w = pure o ∧ ∀ d, o = some d → d.length + 5 = w.length)
    {src : ι} {bits : List Bool} (h : Yields src bits) {enc : List Bool} (henc : Yields (bchStreamEncode rs src) enc)
    {rcv : κ} {bits' : List Bool} (h' : Yields rcv bits') (hless : bits'.length + 8 ≤ enc.length)
    (hlast : (bits'.length + 7) / 8 % 12 = 0 ∨ 5 ≤ (bits'.length + 7) / 8 % 12) :
    ∃ out, Yields (bchStreamDecode rs rcv) out ∧ out.length < bits.length := by
  obtain ⟨enc', g1, g2⟩ := C48_length hrs h rfl
  obtain rfl := g1.unique henc
  choose! o ho1 ho2 using htot
  obtain ⟨W, hW⟩ : ∃ W, W = (blocks 8 bits').map boolToU8 := ⟨_, rfl⟩
  have hWl : W.length = (bits'.length + 7) / 8 := by rw [hW, List.length_map, blocks_length 8 (by decide)]; rfl
  obtain ⟨f1, f2⟩ := frames_total (out := fun w => (o w).getD (w.take (w.length - 5))) (fun w hw => by
    show ((o w).getD (w.take (w.length - 5))).length + 5 = w.length
    cases hd : o w with
    | none => rw [Option.getD_none, List.length_take]; omega
    | some d => rw [Option.getD_some]; exact ho2 w hw d hd) W (by rw [hWl]; exact hlast)
  refine ⟨((blocks 12 W).flatMap (fun w => (o w).getD (w.take (w.length - 5)))).flatMap u8ToBools, ?_, ?_⟩
  · unfold bchStreamDecode
    refine Yields.rflatMap (fun _ => ⟨_, rfl, yields_ofList _⟩) ?_
    have hc := h'.boolsToU8s.chunks frameValue
    rw [← hW] at hc
    refine hc.rflatMap_mem (out := fun w => (o w).getD (w.take (w.length - 5))) ?_
    intro w hw
    have hw' : 5 ≤ w.length := f1 w hw
    refine ⟨ofList ((o w).getD (w.take (w.length - 5))), ?_, yields_ofList _⟩
    unfold bchDecodeChunk
    rw [ho1 w hw', pure_bind]
    cases hd : o w with
    | some d => rfl
    | none =>
      show (usub w.length eccValue >>= _) = _
      rw [usub_le (show eccValue ≤ w.length from hw')]
      rfl
  · rw [length_flatMap_const (k := 8) _ _ (fun b _ => u8ToBools_length b)]
    omega

/-- The condition on the codec can be met. -/
theorem C130_codec_exists : rsIdeal.Contract ∧
    ∀ w : List UInt8, 5 ≤ w.length → ∃ o, rsIdeal.correct w = pure o ∧ ∀ d, o = some d → d.length + 5 = w.length := by
  refine ⟨rsIdeal_contract, fun w hw => ?_⟩
  by_cases hex : ∃ d : List UInt8, d.length ≤ 250 ∧ w.length = d.length + 5 ∧ hamming (rsWord d) w ≤ 2
  · refine ⟨_, dif_pos hex, fun d hd => ?_⟩
    have := hex.choose_spec.2.1
    rw [← Option.some.inj hd]
    omega
  · exact ⟨_, dif_neg hex, fun d hd => by cases hd⟩

/-- Of 48 coded bits 40 arrive: nothing comes out. -/
example {rcv : List Bool} (hl : rcv.length = 40) :
    ∃ out, Yields (bchStreamDecode rsIdeal (ofList rcv)) out ∧ out.length < 3 := by
  obtain ⟨enc, h1, h2⟩ := C48_length rsIdeal_contract (yields_ofList [true, false, true]) (n := 1) (by decide)
  exact C130_short C130_codec_exists.1 C130_codec_exists.2 (yields_ofList [true, false, true]) h1 (yields_ofList rcv)
    (by rw [h2, hl]) (by rw [hl]; decide)

/-! ## Through the radio -/

private theorem fullBlocks_take {A : Type} {k : ℕ} (hk : 0 < k) (r : List A) (m : ℕ) :
    fullBlocks k (r.take m) = (fullBlocks k r).take (m / k) := by
  apply List.ext_getElem?
  intro n
  rw [List.getElem?_take, fullBlocks_getElem? hk, fullBlocks_getElem? hk, List.length_take]
  have hd : n < m / k ↔ (n + 1) * k ≤ m := Nat.le_div_iff_mul_le hk
  by_cases h : (n + 1) * k ≤ m
  · rw [if_pos (hd.mpr h)]
    by_cases h2 : (n + 1) * k ≤ r.length
    · rw [if_pos (by omega), if_pos h2, List.drop_take, List.take_take, Nat.min_eq_left]
      rw [Nat.add_mul] at h; omega
    · rw [if_neg (by omega), if_neg h2]
  · rw [if_neg (fun h' => h (hd.mp h')), if_neg (by omega)]

section
variable {F : Type} [Add F] [Sub F] [Mul F] [Div F] [Neg F] [Zero F] [One F] [Flt F]

/-- Any arithmetic: the uncoded receiver on the beginning of a recording gives the beginning of what it gives on the whole. -/
theorem C130_beginning {κ' : Type} [RIter κ F] [RIter κ' F] {rcv : κ} {rcv' : κ'} {r : List F} {m : ℕ} (hr : Yields rcv r)
    (hr' : Yields rcv' (r.take m)) {fs sym : ℕ} {fc : F} {key bits : List Bool}
    (h : (do let rx ← rxCdmaBpsk rcv fs sym fc key; collect rx) = pure bits) :
    ∃ it, rxCdmaBpsk rcv' fs sym fc key = pure it ∧ Yields it (bits.take (m / (fs / sym))) := by
  obtain ⟨it, h1, h2⟩ := RM.bind_eq_ok.mp h
  have h1' := h1
  obtain ⟨_, h3, _⟩ := RM.bind_eq_ok.mp h1'
  have hok := cdmaOk_of_guards h3
  have hsps := hok.sps
  have hkp := hok.key_pos
  obtain ⟨it1, e1, e2⟩ := rxCdmaBpsk_sym hr hok
  rw [e1, RM.ok_inj] at h1
  subst h1
  rw [collect_of_yields e2, RM.ok_inj] at h2
  obtain ⟨it2, e3, e4⟩ := rxCdmaBpsk_sym hr' hok
  refine ⟨it2, e3, e4.of_eq ?_⟩
  rw [← h2, fullBlocks_take (by omega)]
  apply List.ext_getElem?
  intro n
  simp only [List.getElem?_mapIdx, List.getElem?_take]
  split <;> rfl

/-- Any arithmetic: if the uncoded receiver gets the coded bits from the recording `r`, the coded one gets the data from its first
`m` samples, provided that at most seven bits are missing. -/
theorem C130_recording {κ' : Type} [RIter ι Bool] [RIter κ F] [RIter κ' F] {rs : RS} (hrs : rs.Contract) {src : ι} {bits : List Bool}
    (h : Yields src bits) {enc : List Bool} (henc : Yields (bchStreamEncode rs src) enc) {rcv : κ} {rcv' : κ'} {r : List F} {m : ℕ}
    (hr : Yields rcv r) (hr' : Yields rcv' (r.take m)) {fs sym : ℕ} {fc : F} {key : List Bool}
    (hrx : (do let rx ← rxCdmaBpsk rcv fs sym fc key; collect rx) = pure enc) (hm : enc.length < m / (fs / sym) + 8) :
    ∃ pad, pad < 8 ∧ (bits.length + pad) % 8 = 0 ∧
      (do let rx ← rxCodedCdmaBpsk rs rcv' fs sym fc key; collect rx) = pure (bits ++ List.replicate pad false) := by
  obtain ⟨it, e1, e2⟩ := C130_beginning hr hr' hrx
  obtain ⟨pad, p1, p2, p3⟩ := C130_cut hrs h henc hm e2
  refine ⟨pad, p1, p2, ?_⟩
  rw [rxCodedCdmaBpsk, e1, pure_bind, pure_bind, collect_of_yields p3]

private theorem sent_length [RIter ι Bool] {s : ι} {enc : List Bool} (he : Yields s enc) {fs sym : ℕ} {fc : F} {key : List Bool}
    {a : List F} (ha : (do let tx ← txCdmaBpsk s fs sym fc key; collect tx) = pure a) :
    0 < fs / sym ∧ a.length = enc.length * (fs / sym) ∧ CdmaOk fs sym fc key.length := by
  obtain ⟨h1, h2⟩ := txCdmaBpsk_collected he ha
  obtain ⟨it, h3, _⟩ := RM.bind_eq_ok.mp ha
  obtain ⟨_, h4, _⟩ := RM.bind_eq_ok.mp h3
  refine ⟨h1, ?_, cdmaOk_of_guards h4⟩
  rw [h2, List.length_mapIdx, wave_length]

end

private theorem seven {n k cut : ℕ} (hk : 0 < k) (h : n * k ≤ cut + 7 * k) : n < cut / k + 8 := by
  have h1 : n - 7 ≤ cut / k := by
    rw [Nat.le_div_iff_mul_le hk, Nat.sub_mul]; omega
  omega

/-- Exact arithmetic: the recording of a coded CDMA transmission misses at most seven symbols at its end (not necessarily whole
ones); the receiver returns the data all the same. -/
theorem C130_radio [RIter ι Bool] [RIter κ ℝ] {rs : RS} (hrs : rs.Contract) {m : ι} {msg : List Bool} (h : Yields m msg)
    {fs sym : ℕ} {fc : ℝ} {key : List Bool} (hfs : fs < 2 ^ 64) {a : List ℝ}
    (ha : (do let tx ← txCodedCdmaBpsk rs m fs sym fc key; collect tx) = pure a) {cut : ℕ} (hcut : a.length ≤ cut + 7 * (fs / sym))
    {rcv : κ} (hr : Yields rcv (a.take cut)) :
    ∃ pad, pad < 8 ∧ (msg.length + pad) % 8 = 0 ∧
      (do let rx ← rxCodedCdmaBpsk rs rcv fs sym fc key; collect rx) = pure (msg ++ List.replicate pad false) := by
  have henc := bchEncode_yields hrs h
  obtain ⟨hk, hl, hok⟩ := sent_length henc ha
  obtain ⟨g1, g2, g3, g4, g5⟩ := (cdmaOk_real hfs).mp hok
  obtain ⟨it, it', e1, e2, e3⟩ := cdmaBpsk_trip henc hfs g1 (List.length_pos_iff.mp g2) g3 g4 g5
  have ha' : (do let tx ← txCdmaBpsk (bchStreamEncode rs m) fs sym fc key; collect tx) = pure a := ha
  obtain ⟨it1, e4, e5⟩ := txCdmaBpsk_ok henc hok
  have hae := (txCdmaBpsk_collected henc ha').2
  rw [e4, RM.ok_inj] at e1
  subst e1
  refine C130_recording hrs h henc (e5.of_eq hae.symm) hr (by rw [e2, pure_bind, collect_of_yields e3]) (seven hk ?_)
  rw [← hl]; exact hcut

/-- 48 coded bits of 16 samples; 100 samples are missing. -/
example : ∃ a : List ℝ, a.length = 768 ∧
    (do let tx ← txCodedCdmaBpsk rsIdeal (ofList [true, false, true]) 16000 1000 (2000 : ℝ) [true, false]; collect tx) = pure a ∧
    ∃ pad, pad < 8 ∧ (3 + pad) % 8 = 0 ∧
      (do let rx ← rxCodedCdmaBpsk rsIdeal (ofList (a.take 668)) 16000 1000 (2000 : ℝ) [true, false]; collect rx)
        = pure ([true, false, true] ++ List.replicate pad false) := by
  have hok : CdmaOk 16000 1000 (2000 : ℝ) [true, false].length := (cdmaOk_real (by norm_num)).mpr (by norm_num)
  obtain ⟨enc, h1, h2⟩ := C48_length rsIdeal_contract (yields_ofList [true, false, true]) (n := 1) (by decide)
  obtain ⟨it, e1, e2⟩ := txCdmaBpsk_ok h1 hok
  obtain ⟨a, ha⟩ : ∃ a, (do let tx ← txCodedCdmaBpsk rsIdeal (ofList [true, false, true]) 16000 1000 (2000 : ℝ) [true, false]; collect tx)
      = pure a := ⟨_, by rw [txCodedCdmaBpsk, e1, pure_bind, collect_of_yields e2]⟩
  have hl : a.length = 768 := by rw [(sent_length h1 ha).2.1, h2]
  exact ⟨a, hl, ha, C130_radio rsIdeal_contract (yields_ofList [true, false, true]) (by norm_num) ha (cut := 668) (by rw [hl]; norm_num)
    (yields_ofList _)⟩

/-- The same in double precision, and with every recorded sample off by up to 0.48 (the amplitude being 1). -/
theorem C130_radio_ieee [RIter ι Bool] {L : Libm} [RIter κ (FloatL L)] {ε : ℝ} {rs : RS} (hrs : rs.Contract) {m : ι}
    {msg : List Bool} (h : Yields m msg) {fs sym : ℕ} {fc : FloatL L} {key : List Bool} {n : ℕ} (hn : n = (msg.length + 7) / 8)
    (hR : Radio L ε fs (fs / sym) (8 * (n + 5 * ((n + 6) / 7))) fc 2) (hw : WholeHalf fs (fs / sym) (F64.val fc))
    {a r : List (FloatL L)} (ha : (do let tx ← txCodedCdmaBpsk rs m fs sym fc key; collect tx) = pure a) (hd : Disturbed 0.48 a r)
    {cut : ℕ} (hcut : a.length ≤ cut + 7 * (fs / sym)) {rcv : κ} (hr : Yields rcv (r.take cut)) :
    ∃ pad, pad < 8 ∧ (msg.length + pad) % 8 = 0 ∧
      (do let rx ← rxCodedCdmaBpsk rs rcv fs sym fc key; collect rx) = pure (msg ++ List.replicate pad false) := by
  obtain ⟨enc, henc, hel⟩ := C48_length hrs h hn
  obtain ⟨hk, hl, hok⟩ := sent_length henc ha
  rw [← hel] at hR
  refine C130_recording hrs h henc (yields_ofList r) hr (C86_noise_cdma_bpsk hR hw henc ha hd (yields_ofList r)) (seven hk ?_)
  rw [← hl]; exact hcut

/-! ## The unit test -/

/-- The number of samples of the channel in the unit test (src/cdma.rs:416-431), in double precision. -/
theorem C130_test_samples : (Flt.toNat (Flt.ofNat (1000 * 80000 / 1000) * (Flt.ofNat (7 + 5) / Flt.ofNat 7) : Float) = 137142) ∧
    (Flt.toNat (Flt.ofNat (1000 * 256000 / 1000) * (Flt.ofNat (7 + 5) / Flt.ofNat 7) : Float) = 438857) := by
  constructor <;> decide +kernel

/-- The five cases of the unit test `coded_bpsk_cdma_multi_user`: matrix size and sample rate (src/cdma.rs:407-427). -/
def codedCases : List (ℕ × ℕ) := [(4, 80000), (8, 80000), (16, 80000), (32, 256000), (64, 256000)]

/-- The channel of the test: a vector of zeros of the computed length, to which the transmission is added as far as it fits
(src/cdma.rs:431, 445-460). -/
def CodedChannel {L : Libm} (fs : ℕ) (a ch : List (FloatL L)) : Prop :=
  ch.length = Flt.toNat (Flt.ofNat (1000 * fs / 1000) * (Flt.ofNat (7 + 5) / Flt.ofNat 7) : Float) ∧
    ∀ (i : ℕ) (x : FloatL L), i < ch.length → a[i]? = some x → ch[i]? = some (0 + x)

private theorem case_rate {L' fs : ℕ} (h : (L', fs) ∈ codedCases) : fs = 80000 ∨ fs = 256000 := by
  simp only [codedCases, List.mem_cons, Prod.mk.injEq, List.not_mem_nil, or_false] at h
  omega

private theorem case_samples {L : Libm} {fs : ℕ} (h : fs = 80000 ∨ fs = 256000) {a ch : List (FloatL L)} (hc : CodedChannel fs a ch) :
    ch.length = 12000 * fs / 7000 := by
  obtain ⟨h1, -⟩ := hc
  rcases h with rfl | rfl
  · rw [h1, C130_test_samples.1]
  · rw [h1, C130_test_samples.2]

/-- The channel of the test is too short for the transmission: 1720 coded bits are sent and 1714 arrive. -/
theorem C130_test_too_short {L : Libm} {rs : RS} (hrs : rs.Contract) {L' fs : ℕ} (hcase : (L', fs) ∈ codedCases) {key data : List Bool}
    (hdata : data.length = 1000) {fc : FloatL L} {a ch : List (FloatL L)}
    (ha : (do let tx ← txCodedCdmaBpsk rs (ofList data) fs 1000 fc key; collect tx) = pure a) (hch : CodedChannel fs a ch) :
    a.length = 1720 * (fs / 1000) ∧ ch.length / (fs / 1000) = 1714 := by
  obtain ⟨enc, henc, hel⟩ := C48_length hrs (yields_ofList data) rfl
  obtain ⟨hk, hl, hok⟩ := sent_length henc ha
  have h1 := case_rate hcase
  have h2 := case_samples h1 hch
  rw [hdata] at hel
  rw [hl, hel, h2]
  refine ⟨rfl, ?_⟩
  rcases h1 with rfl | rfl <;> rfl

/-- The unit test passes all the same, for every set of 1000 data bits, every key of the size, every codec that meets the contract and
every sine and cosine accurate to `ε ≤ 2^-10`: the code makes up for the missing end. -/
theorem C130_test {L : Libm} {ε : ℝ} (hε : ε ≤ 1 / 2 ^ 10) (hL : F64.Accurate L ε (2 ^ 40)) {rs : RS} (hrs : rs.Contract)
    {L' fs : ℕ} (hcase : (L', fs) ∈ codedCases) {key data : List Bool} (hkey : key.length = L') (hdata : data.length = 1000) :
    ∃ a : List (FloatL L), (do let tx ← txCodedCdmaBpsk rs (ofList data) fs 1000 (Flt.ofNat 2500 : FloatL L) key; collect tx) = pure a ∧
      ∀ ch, CodedChannel fs a ch →
        (do let rx ← rxCodedCdmaBpsk rs (ofList ch) fs 1000 (Flt.ofNat 2500 : FloatL L) key; collect rx) = pure data := by
  have h1 := case_rate hcase
  obtain ⟨f1, f2⟩ : F64.Fin (Flt.ofNat 2500 : FloatL L) ∧ F64.val (Flt.ofNat 2500 : FloatL L) = 2500 := by
    obtain ⟨g1, g2⟩ := F64.ofNat_exact (n := 2500) (by norm_num)
    exact ⟨g1, g2.trans (by norm_num)⟩
  have hok : CdmaOk fs 1000 (Flt.ofNat 2500 : FloatL L) key.length := by
    refine (F64.cdmaOk_ieee (by rcases h1 with rfl | rfl <;> norm_num) f1).mpr ?_
    rw [f2, hkey]
    have h3 : ⌊(2500 : ℝ)⌋₊ = 2500 := by exact_mod_cast Nat.floor_natCast (R := ℝ) 2500
    rw [h3]
    simp only [codedCases, List.mem_cons, Prod.mk.injEq, List.not_mem_nil, or_false] at hcase
    rcases hcase with ⟨rfl, rfl⟩ | ⟨rfl, rfl⟩ | ⟨rfl, rfl⟩ | ⟨rfl, rfl⟩ | ⟨rfl, rfl⟩ <;> norm_num
  obtain ⟨enc, henc, hel⟩ := C48_length hrs (yields_ofList data) rfl
  rw [hdata] at hel
  obtain ⟨it, e1, e2⟩ := txCdmaBpsk_ok henc hok
  obtain ⟨a, ha⟩ : ∃ a, (do let tx ← txCodedCdmaBpsk rs (ofList data) fs 1000 (Flt.ofNat 2500 : FloatL L) key; collect tx) = pure a :=
    ⟨_, by rw [txCodedCdmaBpsk, e1, pure_bind, collect_of_yields e2]⟩
  refine ⟨a, ha, fun ch hch => ?_⟩
  have hR : Radio L ε fs (fs / 1000) 1720 (Flt.ofNat 2500) 2 := by
    refine ⟨hε, hL, ?_, ?_, ?_, f1, ?_, ?_, ?_, ?_⟩
    · rcases h1 with rfl | rfl <;> norm_num
    · rcases h1 with rfl | rfl <;> norm_num
    · rcases h1 with rfl | rfl <;> norm_num
    · rw [f2]; norm_num
    · rw [f2]; rcases h1 with rfl | rfl <;> norm_num
    · refine le_trans ?_ (show (1 : ℝ) ≤ 2 by norm_num)
      rw [div_le_one (by positivity)]
      exact one_le_pow₀ (by norm_num)
    · exact le_trans (show (2 : ℝ) ≤ 2 ^ 20 by norm_num) (pow_le_pow_right₀ (by norm_num) (by norm_num))
  have hw : WholeHalf fs (fs / 1000) (F64.val (Flt.ofNat 2500 : FloatL L)) := by
    rw [f2]
    refine ⟨⟨5, ?_⟩, fun q h => ?_⟩
    · rcases h1 with rfl | rfl <;> norm_num
    · have hq : (5000 : ℝ) = q * fs := by linarith
      have hq' : (5000 : ℤ) = q * fs := by exact_mod_cast hq
      rcases h1 with rfl | rfl <;> omega
  have hsent := C86_sent_cdma_bpsk (key := key) (by rw [hel]; exact hR) henc ha
  obtain ⟨t1, t2⟩ := C130_test_too_short hrs hcase hdata ha hch
  have hdist : Disturbed 0.48 a (a.map (fun x => 0 + x)) := by
    refine ⟨List.length_map .., fun i hi => ?_⟩
    obtain ⟨x, x1, x2, x3⟩ := hsent.2 i (by rw [← hsent.1]; exact hi)
    obtain ⟨g, rfl⟩ : ∃ g : Float, @Eq (FloatL L) g x := ⟨x, rfl⟩
    have hx : |F64.val g| ≤ 2 := by
      have hb : |fadedBpsk fs (F64.val (Flt.ofNat 2500 : FloatL L)) enc (fun _ => 1) (fun _ => 0) (i / (fs / 1000)) i
          * chip key (fs / 1000) i| ≤ 1 := by
        rw [abs_mul, chip_abs, mul_one]
        unfold fadedBpsk
        rw [abs_mul, abs_mul, pm_abs, abs_one, one_mul, one_mul]
        exact Real.abs_cos_le_one _
      have := abs_sub_abs_le_abs_sub (F64.val g) (fadedBpsk fs (F64.val (Flt.ofNat 2500 : FloatL L)) enc (fun _ => 1) (fun _ => 0)
        (i / (fs / 1000)) i * chip key (fs / 1000) i)
      have h9 : (1 : ℝ) / 2 ^ 9 ≤ 1 := by norm_num
      linarith
    have hA := F64.Ap.add (F64.Ap.exact F64.fin_zero) (F64.Ap.exact x2) (R := 2) (by rw [F64.val_zero, zero_add]; exact hx)
      (F64.le_big (k := 2) (by norm_num) (by norm_num))
    refine ⟨g, _, x1, by rw [List.getElem?_map, x1]; rfl, hA.1, ?_⟩
    have h2 := hA.2
    rw [F64.val_zero, zero_add] at h2
    refine h2.trans ?_
    have := F64.tiny_le (k := 10) (by norm_num)
    rw [F64.uu_eq]
    norm_num at this ⊢
    linarith
  have hcut : a.length ≤ ch.length + 7 * (fs / 1000) := by
    have h3 := case_samples h1 hch
    rcases h1 with rfl | rfl <;> omega
  have hlt : ch.length ≤ a.length := by
    have h3 := case_samples h1 hch
    rcases h1 with rfl | rfl <;> omega
  have hcheq : ch = (a.map (fun x => 0 + x)).take ch.length := by
    apply List.ext_getElem?
    intro i
    rw [List.getElem?_take]
    by_cases hi : i < ch.length
    · rw [if_pos hi, List.getElem?_map, List.getElem?_eq_getElem (show i < a.length by omega)]
      exact hch.2 i _ hi (List.getElem?_eq_getElem (show i < a.length by omega))
    · rw [if_neg hi, List.getElem?_eq_none (by omega)]
  obtain ⟨pad, p1, p2, p3⟩ := C130_radio_ieee (κ := VecIter (FloatL L)) hrs (yields_ofList data) rfl (by rw [hdata]; exact hR) hw ha hdist hcut (rcv := ofList ch)
    (by conv_lhs => rw [hcheq]
        exact yields_ofList _)
  rw [hdata] at p2
  obtain rfl : pad = 0 := by omega
  simpa using p3

/-- A correctly rounded sine and cosine, the matrix of size 16 and the channel of the test. -/
example {key data : List Bool} (hkey : key.length = 16) (hdata : data.length = 1000) :
    ∃ a ch : List (FloatL F64.Libm.rounded), CodedChannel 80000 a ch ∧ ch.length = 137142 ∧ a.length = 137600 ∧
      (do let tx ← txCodedCdmaBpsk rsIdeal (ofList data) 80000 1000 (Flt.ofNat 2500 : FloatL F64.Libm.rounded) key; collect tx) = pure a ∧
      (do let rx ← rxCodedCdmaBpsk rsIdeal (ofList ch) 80000 1000 (Flt.ofNat 2500 : FloatL F64.Libm.rounded) key; collect rx)
        = pure data := by
  have hcase : (16, 80000) ∈ codedCases := by simp [codedCases]
  obtain ⟨a, h1, h2⟩ := C130_test (L := F64.Libm.rounded) (ε := 1 / 2 ^ 52) (by norm_num) (F64.accurate_rounded _) rsIdeal_contract hcase hkey hdata
  obtain ⟨enc, g1, g2⟩ := C48_length rsIdeal_contract (yields_ofList data) rfl
  have hl : a.length = 137600 := by rw [(sent_length g1 h1).2.1, g2, hdata]
  have hlen : ((a.map (fun x => 0 + x)).take 137142).length = 137142 := by rw [List.length_take, List.length_map, hl]; norm_num
  have hch : CodedChannel 80000 a ((a.map (fun x => 0 + x)).take 137142) := by
    refine ⟨hlen.trans C130_test_samples.1.symm, fun i x hi hx => ?_⟩
    rw [hlen] at hi
    rw [List.getElem?_take, if_pos hi, List.getElem?_map, hx]; rfl
  exact ⟨a, _, hch, hlen, hl, h1, h2 _ hch⟩

end Verif.Props
