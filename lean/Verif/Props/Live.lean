import Verif.Lemmas.LiveRadio
import Verif.Props.Psk
import Verif.Props.Cdma
import Verif.Props.Fh
import Verif.Props.Fsk
import Verif.Lemmas.OfdmPass
import Verif.Lemmas.Bch
import Verif.Lemmas.Cases

/-!
# C74: transmitters and receivers work on live streams

`KeepsUp live batch` (Spec/Live): everything the batch run on the items that have arrived so far would return is delivered by
the live run without waiting for another item.  The source may do anything afterwards (`Starts`).
Any number type, so in particular IEEE doubles with any `libm`, unless stated otherwise.
-/
namespace Verif.Props
open Verif.Spec
set_option linter.unusedSectionVars false
variable {ι : Type}

section anyF
variable {F : Type} [Add F] [Sub F] [Mul F] [Div F] [Neg F] [Zero F] [One F] [Flt F]

theorem C74_tx_bpsk [RIter ι Bool] {m : ι} {msg : List Bool} (h : Starts m msg) {fs sym : ℕ} {fc : F}
    (hsps : 0 < fs / sym) : KeepsUp (txBpsk m fs sym fc) (txBpsk (ofList msg) fs sym fc) := by
  intro out hb
  obtain ⟨it, h1, _⟩ := RM.bind_eq_ok.mp hb
  obtain ⟨g1, g2⟩ := txBpsk_guards h1
  exact KeepsUp.of_list (txBpsk_live h hsps g1 g2) (txBpsk_ok (yields_ofList msg) hsps g1 g2) out hb

theorem C74_tx_qpsk [RIter ι Bool] {m : ι} {msg : List Bool} (h : Starts m msg) {fs sym : ℕ} {fc : F}
    (hsps : 0 < fs / sym) : KeepsUp (txQpsk m fs sym fc) (txQpsk (ofList msg) fs sym fc) :=
  .of_list (txQpsk_live h hsps) (txQpsk_ok (yields_ofList msg) hsps)

theorem C74_tx_cdma_bpsk [RIter ι Bool] {m : ι} {msg : List Bool} (h : Starts m msg) {fs sym : ℕ} {fc : F}
    {key : List Bool} : KeepsUp (txCdmaBpsk m fs sym fc key) (txCdmaBpsk (ofList msg) fs sym fc key) := by
  intro out hb
  obtain ⟨it, h1, _⟩ := RM.bind_eq_ok.mp hb
  obtain ⟨_, h2, _⟩ := RM.bind_eq_ok.mp h1
  have hok := cdmaOk_of_guards h2
  exact KeepsUp.of_list (txCdmaBpsk_live h hok) (txCdmaBpsk_ok (yields_ofList msg) hok) out hb

theorem C74_tx_cdma_qpsk [RIter ι Bool] {m : ι} {msg : List Bool} (h : Starts m msg) {fs sym : ℕ} {fc : F}
    {key : List Bool} : KeepsUp (txCdmaQpsk m fs sym fc key) (txCdmaQpsk (ofList msg) fs sym fc key) := by
  intro out hb
  obtain ⟨it, h1, _⟩ := RM.bind_eq_ok.mp hb
  obtain ⟨_, h2, _⟩ := RM.bind_eq_ok.mp h1
  have hok := cdmaOk_of_guards h2
  exact KeepsUp.of_list (txCdmaQpsk_live h hok) (txCdmaQpsk_ok (yields_ofList msg) hok) out hb

theorem C74_tx_bfsk [RIter ι Bool] {m : ι} {msg : List Bool} (h : Starts m msg) {fs sym : ℕ} {lo hi : F}
    (hsps : 0 < fs / sym) : KeepsUp (txBfsk m fs sym lo hi) (txBfsk (ofList msg) fs sym lo hi) := by
  intro out hb
  obtain ⟨it, h1, _⟩ := RM.bind_eq_ok.mp hb
  obtain ⟨g1, g2⟩ := txBfsk_guards h1
  exact KeepsUp.of_list (txBfsk_live h hsps g1 g2) (txBfsk_ok (yields_ofList msg) hsps g1 g2) out hb

theorem C74_tx_fsk [RIter ι Bool] {m : ι} {msg : List Bool} (h : Starts m msg) {fs sym : ℕ} {fc : F}
    (hsps : 0 < fs / sym) : KeepsUp (txFsk m fs sym fc) (txFsk (ofList msg) fs sym fc) :=
  .of_list (txFsk_live h hsps) (txFsk_ok (yields_ofList msg) hsps)

theorem C74_tx_fm [RIter ι F] {m : ι} {msg : List F} (h : Starts m msg) {fs sym : ℕ} {fc : F}
    (hsps : 0 < fs / sym) : KeepsUp (txFm m fs sym fc) (txFm (ofList msg) fs sym fc) :=
  .of_list (txFm_live h hsps) (txFm_ok (yields_ofList msg) hsps)

theorem C74_tx_hopping {ρ : Type} [Rng ρ] [RIter ι Bool] {m : ι} {msg : List Bool} (h : Starts m msg) {low high : F}
    {nf fs sym : ℕ} (hn : 2 ≤ nf) (hsps : 0 < fs / sym) :
    KeepsUp (txFhBpsk ρ m low high nf fs sym) (txFhBpsk ρ (ofList msg) low high nf fs sym) := by
  intro out hb
  obtain ⟨it, h1, hb'⟩ := RM.bind_eq_ok.mp hb
  have h1' := h1
  unfold txFhBpsk at h1
  obtain ⟨_, g1, h1⟩ := RM.bind_eq_ok.mp h1
  obtain ⟨_, g2, h1⟩ := RM.bind_eq_ok.mp h1
  have g1' := rassert_ok g1
  have g2' := rassert_ok g2
  have hg := hopTable_gives (ρ := ρ) (hopFreqs low high nf) (Rng.seed SEED) (by rw [hopFreqs_length]; exact hn)
  have hk := KeepsUp.rflatMap (h.rzip_gives hg) ((yields_ofList msg).rzip_gives hg)
    (f := fun p : Bool × F => txBpsk (ofList [p.1]) fs sym p.2)
    (out := fun p : Bool × F => wave (fs / sym) (fun n b j => bitToNrz b * Flt.cos (phase fs p.2 (n * (fs / sym) + j))) [p.1])
    (by
      intro p _ t ht
      obtain ⟨a1, a2⟩ := txBpsk_guards ht
      obtain ⟨t', e1, e2⟩ := txBpsk_ok (yields_ofList [p.1]) (fs := fs) (sym := sym) (fc := p.2) hsps a1 a2
      rw [e1, RM.ok_inj] at ht
      exact ht ▸ e2)
  have e : ∀ {κ : Type} [RIter κ Bool] (x : κ), txFhBpsk ρ x low high nf fs sym
      = pure (rflatMap (rzip x (HopTable.mk (Rng.seed SEED : ρ) (hopFreqs low high nf) 0))
        (fun p : Bool × F => txBpsk (ofList [p.1]) fs sym p.2)) := by
    intro κ _ x
    rw [txFhBpsk, rassert_pos g1', pure_bind, rassert_pos g2', pure_bind, hopTable_ok, pure_bind]
  rw [e] at hb ⊢
  exact hk out hb

theorem C74_rx_bpsk [RIter ι F] {s : ι} {sig : List F} (h : Starts s sig) {fs sym : ℕ} {fc : F}
    (hsps : 0 < fs / sym) : KeepsUp (rxBpsk s fs sym fc) (rxBpsk (ofList sig) fs sym fc) :=
  .of_list (rxBpsk_live h hsps) (rxBpsk_sym (yields_ofList sig) hsps)

theorem C74_rx_qpsk [RIter ι F] {s : ι} {sig : List F} (h : Starts s sig) {fs sym : ℕ} {fc : F}
    (hsps : 0 < fs / sym) : KeepsUp (rxQpsk s fs sym fc) (rxQpsk (ofList sig) fs sym fc) :=
  .of_list (rxQpsk_live h hsps) (rxQpsk_sym (yields_ofList sig) hsps)

theorem C74_rx_cdma_bpsk [RIter ι F] {s : ι} {sig : List F} (h : Starts s sig) {fs sym : ℕ} {fc : F} {key : List Bool} :
    KeepsUp (rxCdmaBpsk s fs sym fc key) (rxCdmaBpsk (ofList sig) fs sym fc key) := by
  intro out hb
  obtain ⟨it, h1, _⟩ := RM.bind_eq_ok.mp hb
  obtain ⟨_, h2, _⟩ := RM.bind_eq_ok.mp h1
  have hok := cdmaOk_of_guards h2
  exact KeepsUp.of_list (rxCdmaBpsk_live h hok) (rxCdmaBpsk_sym (yields_ofList sig) hok) out hb

theorem C74_rx_cdma_qpsk [RIter ι F] {s : ι} {sig : List F} (h : Starts s sig) {fs sym : ℕ} {fc : F} {key : List Bool} :
    KeepsUp (rxCdmaQpsk s fs sym fc key) (rxCdmaQpsk (ofList sig) fs sym fc key) := by
  intro out hb
  obtain ⟨it, h1, _⟩ := RM.bind_eq_ok.mp hb
  obtain ⟨_, h2, _⟩ := RM.bind_eq_ok.mp h1
  have hok := cdmaOk_of_guards h2
  exact KeepsUp.of_list (rxCdmaQpsk_live h hok) (rxCdmaQpsk_sym (yields_ofList sig) hok) out hb

/-- The FSK receiver also decides on an incomplete last symbol once the signal ends, so a live one keeps up with whole
symbols. -/
theorem C74_rx_fsk [RIter ι F] {s : ι} {sig : List F} (h : Starts s sig) {fs sym : ℕ} {fc : F}
    (hsps : 0 < fs / sym) (hw : fs / sym ∣ sig.length) : KeepsUp (rxFsk s fs sym fc) (rxFsk (ofList sig) fs sym fc) := by
  refine .of_list (rxFsk_live h hsps) ?_
  rw [← blocks_of_dvd hsps hw]
  exact rxFsk_sym (yields_ofList sig) hsps

theorem C74_rx_hopping {ρ : Type} [Rng ρ] [RIter ι F] {s : ι} {sig : List F} (h : Starts s sig) {low high : F}
    {nf fs sym : ℕ} (hn : 2 ≤ nf) (hsps : 0 < fs / sym) :
    KeepsUp (rxFhBpsk ρ s low high nf fs sym) (rxFhBpsk ρ (ofList sig) low high nf fs sym) := by
  intro out hb
  obtain ⟨it, h1, _⟩ := RM.bind_eq_ok.mp hb
  unfold rxFhBpsk at h1
  obtain ⟨_, _, h1⟩ := RM.bind_eq_ok.mp h1
  obtain ⟨_, g1, h1⟩ := RM.bind_eq_ok.mp h1
  obtain ⟨_, g2, h1⟩ := RM.bind_eq_ok.mp h1
  have g1' := of_decide_eq_true (rassert_ok g1)
  have g2' := rassert_ok g2
  exact KeepsUp.of_list (rxFhBpsk_live h hn hsps g1' g2') (rxFhBpsk_sym (yields_ofList sig) hn hsps g1' g2') out hb

/-! ### Whole links: the receiver has decided every bit that has been handed to the transmitter -/

theorem C74_link_bpsk [RIter ι Bool] {m : ι} {msg : List Bool} (h : Starts m msg) {fs sym : ℕ} {fc : F}
    (hsps : 0 < fs / sym) :
    KeepsUp (do let tx ← txBpsk m fs sym fc; rxBpsk tx fs sym fc)
      (do let tx ← txBpsk (ofList msg) fs sym fc; rxBpsk tx fs sym fc) := by
  intro out hb
  obtain ⟨_, hb', _⟩ := RM.bind_eq_ok.mp hb
  obtain ⟨t, h1, _⟩ := RM.bind_eq_ok.mp hb'
  obtain ⟨g1, g2⟩ := txBpsk_guards h1
  obtain ⟨a, e1, a1⟩ := txBpsk_live h hsps g1 g2
  obtain ⟨b, e2, b1⟩ := txBpsk_ok (yields_ofList msg) hsps g1 g2
  rw [e2, pure_bind] at hb
  rw [e1, pure_bind]
  exact KeepsUp.of_list (rxBpsk_live a1 hsps) (rxBpsk_sym b1 hsps) out hb

theorem C74_link_qpsk [RIter ι Bool] {m : ι} {msg : List Bool} (h : Starts m msg) {fs sym : ℕ} {fc : F}
    (hsps : 0 < fs / sym) :
    KeepsUp (do let tx ← txQpsk m fs sym fc; rxQpsk tx fs sym fc)
      (do let tx ← txQpsk (ofList msg) fs sym fc; rxQpsk tx fs sym fc) := by
  obtain ⟨a, e1, a1⟩ := txQpsk_live h (fc := fc) hsps
  obtain ⟨b, e2, b1⟩ := txQpsk_ok (yields_ofList msg) (fc := fc) hsps
  rw [e1, e2, pure_bind, pure_bind]
  exact .of_list (rxQpsk_live a1 hsps) (rxQpsk_sym b1 hsps)

theorem C74_link_cdma_bpsk [RIter ι Bool] {m : ι} {msg : List Bool} (h : Starts m msg) {fs sym : ℕ} {fc : F}
    {key : List Bool} :
    KeepsUp (do let tx ← txCdmaBpsk m fs sym fc key; rxCdmaBpsk tx fs sym fc key)
      (do let tx ← txCdmaBpsk (ofList msg) fs sym fc key; rxCdmaBpsk tx fs sym fc key) := by
  intro out hb
  obtain ⟨_, hb', _⟩ := RM.bind_eq_ok.mp hb
  obtain ⟨t, h1, _⟩ := RM.bind_eq_ok.mp hb'
  obtain ⟨_, h2, _⟩ := RM.bind_eq_ok.mp h1
  have hok := cdmaOk_of_guards h2
  obtain ⟨a, e1, a1⟩ := txCdmaBpsk_live h hok
  obtain ⟨b, e2, b1⟩ := txCdmaBpsk_ok (yields_ofList msg) hok
  rw [e2, pure_bind] at hb
  rw [e1, pure_bind]
  exact KeepsUp.of_list (rxCdmaBpsk_live a1 hok) (rxCdmaBpsk_sym b1 hok) out hb

theorem C74_link_cdma_qpsk [RIter ι Bool] {m : ι} {msg : List Bool} (h : Starts m msg) {fs sym : ℕ} {fc : F}
    {key : List Bool} :
    KeepsUp (do let tx ← txCdmaQpsk m fs sym fc key; rxCdmaQpsk tx fs sym fc key)
      (do let tx ← txCdmaQpsk (ofList msg) fs sym fc key; rxCdmaQpsk tx fs sym fc key) := by
  intro out hb
  obtain ⟨_, hb', _⟩ := RM.bind_eq_ok.mp hb
  obtain ⟨t, h1, _⟩ := RM.bind_eq_ok.mp hb'
  obtain ⟨_, h2, _⟩ := RM.bind_eq_ok.mp h1
  have hok := cdmaOk_of_guards h2
  obtain ⟨a, e1, a1⟩ := txCdmaQpsk_live h hok
  obtain ⟨b, e2, b1⟩ := txCdmaQpsk_ok (yields_ofList msg) hok
  rw [e2, pure_bind] at hb
  rw [e1, pure_bind]
  exact KeepsUp.of_list (rxCdmaQpsk_live a1 hok) (rxCdmaQpsk_sym b1 hok) out hb

theorem C74_link_fsk [RIter ι Bool] {m : ι} {msg : List Bool} (h : Starts m msg) {fs sym : ℕ} {fc : F}
    (hsps : 0 < fs / sym) :
    KeepsUp (do let tx ← txFsk m fs sym fc; rxFsk tx fs sym fc)
      (do let tx ← txFsk (ofList msg) fs sym fc; rxFsk tx fs sym fc) := by
  obtain ⟨a, e1, a1⟩ := txFsk_live h (fc := fc) hsps
  obtain ⟨b, e2, b1⟩ := txFsk_ok (yields_ofList msg) (fc := fc) hsps
  rw [e1, e2, pure_bind, pure_bind]
  refine .of_list (rxFsk_live a1 hsps) ?_
  rw [← blocks_of_dvd hsps (fullBlocks_wave_length _ _)]
  exact rxFsk_sym b1 hsps

theorem C74_link_hopping {ρ : Type} [Rng ρ] [RIter ι Bool] {m : ι} {msg : List Bool} (h : Starts m msg) {low high : F}
    {nf fs sym : ℕ} (hn : 2 ≤ nf) (hsps : 0 < fs / sym)
    (htx : ∃ t sig, txFhBpsk ρ (ofList msg) low high nf fs sym = pure t ∧ Yields (α := F) t sig) :
    KeepsUp (do let tx ← txFhBpsk ρ m low high nf fs sym; rxFhBpsk ρ tx low high nf fs sym)
      (do let tx ← txFhBpsk ρ (ofList msg) low high nf fs sym; rxFhBpsk ρ tx low high nf fs sym) := by
  obtain ⟨t, sig, e1, b1⟩ := htx
  obtain ⟨s, e2, a1⟩ := C74_tx_hopping (ρ := ρ) h hn hsps sig (by rw [e1, pure_bind, collect_of_yields b1])
  rw [e1, e2, pure_bind, pure_bind]
  unfold txFhBpsk at e1
  obtain ⟨_, g1, e1⟩ := RM.bind_eq_ok.mp e1
  obtain ⟨_, g2, e1⟩ := RM.bind_eq_ok.mp e1
  have g1' := of_decide_eq_true (rassert_ok g1)
  have g2' := rassert_ok g2
  exact .of_list (rxFhBpsk_live a1 hn hsps g1' g2') (rxFhBpsk_sym b1 hn hsps g1' g2')

/-! ### OFDM: whole frames -/

theorem C74_ofdm_tx [Fft F] [RIter ι (Cx F)] {s : ι} {l : List (Cx F)} (h : Starts s l) {n p : ℕ} (h1 : 1 ≤ p) (h2 : p < n)
    (hw : n - p ∣ l.length) : KeepsUp (txBasebandOfdm (F := F) s n p) (txBasebandOfdm (F := F) (ofList l) n p) := by
  refine .of_list ?_ (txBasebandOfdm_ok (yields_ofList l) h1 h2.le)
  unfold txBasebandOfdm
  rw [usub_le h2.le, pure_bind]
  simp only []
  rw [getDataSubcarriers_ok h1 h2.le, pure_bind, blocks_of_dvd (by omega) hw]
  refine ⟨_, rfl, (h.chunks (k := n - p) (by omega)).rflatMap fun d _ => ⟨ofList (frameL n p d), ?_, yields_ofList _⟩⟩
  rw [ofdmFrame_ok h1 h2.le, pure_bind]

theorem C74_ofdm_rx [Fft F] [RIter ι (Cx F)] {s : ι} {l : List (Cx F)} (h : Starts s l) {n p : ℕ} (h1 : 1 ≤ p) (h2 : p < n)
    (hw : n + n / 4 ∣ l.length) : KeepsUp (rxBasebandOfdm (F := F) s n p) (rxBasebandOfdm (F := F) (ofList l) n p) := by
  refine .of_list ?_ (rxBasebandOfdm_ok (yields_ofList l) h1 h2.le hw)
  unfold rxBasebandOfdm
  rw [usub_le h2.le, pure_bind]
  simp only []
  rw [getDataSubcarriers_ok h1 h2.le, pure_bind, blocks_of_dvd (by omega) hw]
  refine ⟨_, rfl, (h.chunks (k := n + n / 4) (by omega)).rflatMap fun d hd => ⟨ofList (deframeL n p d), ?_, yields_ofList _⟩⟩
  rw [ofdmDeframe_ok h1 h2.le (mem_fullBlocks_length (by omega) hd), pure_bind]

theorem C74_tx_ofdm [Fft F] [RIter ι Bool] {m : ι} {msg : List Bool} (h : Starts m msg) {n p fs sym : ℕ} {fc : F}
    (h1 : 1 ≤ p) (h2 : p < n) (hsps : 0 < fs / sym) (hw : 2 * (n - p) ∣ msg.length) :
    KeepsUp (txOfdmQpsk m n p fs sym fc) (txOfdmQpsk (ofList msg) n p fs sym fc) := by
  intro out hb
  obtain ⟨_, hb', _⟩ := RM.bind_eq_ok.mp hb
  unfold txOfdmQpsk at hb'
  obtain ⟨_, g1, _⟩ := RM.bind_eq_ok.mp hb'
  have hint := rassert_ok g1
  refine KeepsUp.of_list ?_ (txOfdmQpsk_ok (yields_ofList msg) h1 h2.le hsps hint) out hb
  have hq : Starts (txBasebandQpsk (F := F) m) ((pairs msg).map qpskPoint) := by
    refine (h.rtuples.rmap _).of_eq (List.map_congr_left fun p _ => ?_)
    rcases p with ⟨_ | _, _ | _⟩ <;> rfl
  obtain ⟨it, e, hs⟩ := C74_ofdm_tx hq h1 h2 (by
    rw [List.length_map, pairs_length]
    obtain ⟨c, hc⟩ := hw
    exact ⟨c, by rw [hc, Nat.mul_assoc, Nat.mul_div_cancel_left _ (by norm_num)]⟩) (ofdmSamples n p msg) (by
      obtain ⟨b, e2, b1⟩ := txBasebandOfdm_ok (yields_ofList ((pairs msg).map (qpskPoint (F := F)))) h1 h2.le
      rw [e2, pure_bind, collect_of_yields b1]; rfl)
  unfold txOfdmQpsk
  rw [rassert_pos hint, pure_bind, udiv_pos (pos_of_sps hsps), pure_bind, e, pure_bind]
  refine ⟨_, rfl, ?_⟩
  have := ((hs.inflate hsps).renumerate).rmap (fun q : ℕ × Cx F => (q.2 * Cx.exp ⟨0, phase fs fc q.1⟩).re)
  rw [map_mapIdx', flatMap_replicate_eq_wave, mapIdx_wave] at this
  exact this

end anyF

/-! ### Byte packing and forward error correction: whole bytes and whole frames -/

theorem boolsToU8s_live [RIter ι Bool] {m : ι} {bits : List Bool} (h : Starts m bits) (hw : 8 ∣ bits.length) :
    Starts (boolsToU8s m) ((blocks 8 bits).map boolToU8) := by
  rw [blocks_of_dvd (by norm_num) hw]
  exact (h.chunks (by norm_num)).mapM fun b hb => chunkToU8_eq b (by rw [mem_fullBlocks_length (by norm_num) hb])

theorem C74_bytes [RIter ι Bool] {m : ι} {bits : List Bool} (h : Starts m bits) (hw : 8 ∣ bits.length) :
    KeepsUp (pure (boolsToU8s m)) (pure (boolsToU8s (ofList bits))) :=
  .of_list ⟨_, rfl, boolsToU8s_live h hw⟩ ⟨_, rfl, (yields_ofList bits).boolsToU8s⟩

theorem bytes_dvd {k : ℕ} {bits : List Bool} (hw : 8 * k ∣ bits.length) : k ∣ ((blocks 8 bits).map boolToU8).length := by
  obtain ⟨c, hc⟩ := hw
  rw [List.length_map, blocks_length _ (by norm_num), hc]
  refine ⟨c, ?_⟩
  rw [Nat.mul_assoc]; omega

/-- The encoder emits the code word of a frame as soon as its seventh byte is complete. -/
theorem C74_encode {rs : RS} (hrs : rs.Contract) [RIter ι Bool] {m : ι} {bits : List Bool} (h : Starts m bits)
    (hw : 56 ∣ bits.length) : KeepsUp (pure (bchStreamEncode rs m)) (pure (bchStreamEncode rs (ofList bits))) := by
  refine .of_list ⟨_, rfl, ?_⟩ ⟨_, rfl, bchEncode_yields hrs (yields_ofList bits)⟩
  refine Starts.rflatMap ?_ (fun _ _ => ⟨_, rfl, yields_ofList _⟩)
  have h8 : 8 ∣ bits.length := Dvd.dvd.trans (by norm_num) hw
  unfold encBytes
  rw [blocks_of_dvd (by norm_num) (bytes_dvd (k := 7) hw)]
  refine Starts.rflatMap ((boolsToU8s_live h h8).chunks (k := datValue) (by decide)) ?_
  intro d hd
  have hl : d.length = 7 := mem_fullBlocks_length (by norm_num) hd
  exact ⟨_, by rw [(hrs.word_eq (by omega) (by omega)).1, pure_bind], yields_ofList _⟩

/-- The decoder emits the data of a frame as soon as its twelfth byte is complete, damaged or not. -/
theorem C74_decode {rs : RS} (hrs : ∀ w, ∃ o, rs.correct w = pure o) [RIter ι Bool] {m : ι} {bits : List Bool}
    (h : Starts m bits) (hw : 96 ∣ bits.length) :
    KeepsUp (pure (bchStreamDecode rs m)) (pure (bchStreamDecode rs (ofList bits))) := by
  have h8 : 8 ∣ bits.length := Dvd.dvd.trans (by norm_num) hw
  have hd : ∀ d : List UInt8, d.length = 12 → ∃ l, bchDecodeChunk rs d = pure (ofList l) := by
    intro d hl
    obtain ⟨o, ho⟩ := hrs d
    unfold bchDecodeChunk
    rw [ho, pure_bind]
    cases o with
    | some x => exact ⟨x, rfl⟩
    | none => exact ⟨_, by rw [usub_le (by rw [hl]; decide)]; rfl⟩
  choose! dec hdec using hd
  have hb := blocks_of_dvd (k := 12) (by norm_num) (bytes_dvd (k := 12) hw)
  refine .of_list (out := (((fullBlocks 12 ((blocks 8 bits).map boolToU8)).flatMap dec).flatMap u8ToBools))
    ⟨_, rfl, ?_⟩ ⟨_, rfl, ?_⟩
  · refine Starts.rflatMap ?_ (fun _ _ => ⟨_, rfl, yields_ofList _⟩)
    refine Starts.rflatMap ((boolsToU8s_live h h8).chunks (k := frameValue) (by decide)) ?_
    intro d hd
    exact ⟨_, hdec d (mem_fullBlocks_length (by norm_num) hd), yields_ofList _⟩
  · refine Yields.rflatMap (fun _ => ⟨_, rfl, yields_ofList _⟩) ?_
    rw [← hb]
    refine ((yields_ofList bits).boolsToU8s.chunks frameValue).rflatMap_mem ?_
    intro d hd
    exact ⟨_, hdec d (mem_fullBlocks_length (by norm_num) (hb ▸ hd)), yields_ofList _⟩

/-! ### Endless messages (exact arithmetic): received bit for bit, for ever -/

theorem C74_endless_bpsk [RIter ι Bool] {m : ι} {g : ℕ → Bool} (h : Gives m g) {fs sym : ℕ} {fc : ℝ}
    (hfs : fs < 2 ^ 64) (hdvd : sym ∣ fs) (hsps : 2 ≤ fs / sym) (hfc : ⌊fc⌋₊ ≤ fs / 2) :
    ∃ r, (do let tx ← txBpsk m fs sym fc; rxBpsk tx fs sym fc) = pure r ∧ Gives r g := by
  apply gives_of_keepsUp
  intro n
  refine ⟨n, le_rfl, C74_link_bpsk (h.starts n) (by omega) _ ?_⟩
  have := C25_roundtrip (yields_ofList ((List.range n).map g)) hfs hdvd hsps hfc
  simpa only [bind_assoc] using this

theorem C74_endless_cdma [RIter ι Bool] {m : ι} {g : ℕ → Bool} (h : Gives m g) {fs sym : ℕ} {fc : ℝ} {key : List Bool}
    (hfs : fs < 2 ^ 64) (hsym : 0 < sym) (hkey : key ≠ []) (hdvd : sym * key.length ∣ fs)
    (hnyq : 2 * (sym * key.length) ≤ fs) (hfc : ⌊fc⌋₊ ≤ fs / 2) :
    ∃ r, (do let tx ← txCdmaBpsk m fs sym fc key; rxCdmaBpsk tx fs sym fc key) = pure r ∧ Gives r g := by
  apply gives_of_keepsUp
  intro n
  refine ⟨n, le_rfl, C74_link_cdma_bpsk (h.starts n) _ ?_⟩
  have := C29_roundtrip (yields_ofList ((List.range n).map g)) hfs hsym hkey hdvd hnyq hfc
  simpa only [bind_assoc] using this

theorem C74_endless_qpsk [RIter ι Bool] {m : ι} {g : ℕ → Bool} (h : Gives m g) {fs sym : ℕ} {fc : ℝ}
    (hsps : 0 < fs / sym) {p : ℤ} (hp : (fs / sym : ℕ) * (2 * fc) = p * fs) (hne : ∀ q : ℤ, 2 * fc ≠ q * fs) :
    ∃ r, (do let tx ← txQpsk m fs sym fc; rxQpsk tx fs sym fc) = pure r ∧ Gives r g := by
  apply gives_of_keepsUp
  intro n
  refine ⟨2 * n, by omega, C74_link_qpsk (h.starts (2 * n)) hsps _ ?_⟩
  have := C28_roundtrip (yields_ofList ((List.range (2 * n)).map g)) hsps hp hne
  rw [List.take_of_length_le (by simp)] at this
  simpa only [bind_assoc] using this

/-! ### Non-trivial cases -/

/-- A line on which some items arrive and which is then silent for ever: the next call never returns. -/
structure Line (α : Type) where
  arrived : List α

instance {α : Type} : RIter (Line α) α where
  next s :=
    match s.arrived with
    | [] => RM.diverge
    | a :: l => pure (some a, ⟨l⟩)

theorem Line.starts {α : Type} (l : List α) : Starts (Line.mk l) l := by
  induction l with
  | nil => exact trivial
  | cons a l ih => exact .cons (s' := ⟨l⟩) rfl ih

/-- It never ends, so no batch run on it returns. -/
example : collect (Line.mk [true, false]) = (RM.diverge : RM (List Bool)) := by
  rw [collect]; show collect _ >>= _ = _; rw [collect]; show (collect _ >>= _) >>= _ = _; rw [collect]; rfl

/-- A BPSK receiver on a line that fell silent after two bits has delivered both. -/
example : ∃ r, (do let tx ← txBpsk (Line.mk [true, false]) 44100 900 (1800 : ℝ); rxBpsk tx 44100 900 (1800 : ℝ)) = pure r ∧
    Starts r [true, false] := by
  refine C74_link_bpsk (Line.starts _) (by norm_num) _ ?_
  have := C25_roundtrip (yields_ofList [true, false]) (fs := 44100) (sym := 900) (fc := 1800) (by norm_num) (by norm_num)
    (by norm_num) (by norm_num)
  simpa only [bind_assoc] using this

/-- Endless alternating bits over BPSK. -/
example : ∃ r, (do let tx ← txBpsk (rcycle (ofList [true, false])) 44100 900 (1800 : ℝ); rxBpsk tx 44100 900 (1800 : ℝ))
      = pure r ∧ ∃ g : ℕ → Bool, Gives r g ∧ g 0 = true ∧ g 1 = false ∧ g 2 = true := by
  have hg := (yields_ofList [true, false]).rcycle (by simp)
  obtain ⟨r, h1, h2⟩ := C74_endless_bpsk hg (fs := 44100) (sym := 900) (fc := 1800) (by norm_num) (by norm_num)
    (by norm_num) (by norm_num)
  exact ⟨r, h1, _, h2, rfl, rfl, rfl⟩

/-- The FSK receiver needs whole symbols: on half a symbol the batch run guesses a bit that the live run does not have. -/
theorem C74_fsk_half : ¬ KeepsUp (rxFsk (Line.mk [(1 : ℝ)]) 2 1 1) (rxFsk (ofList [(1 : ℝ)]) 2 1 1) := by
  intro h
  obtain ⟨it, e, hy⟩ := rxFsk_sym (yields_ofList [(1 : ℝ)]) (fs := 2) (sym := 1) (fc := 1) (by norm_num)
  have hb : blocks (2 / 1) [(1 : ℝ)] = [[1]] := by
    rw [blocks]; simp; rw [blocks]; simp
  rw [hb] at hy
  obtain ⟨s, h1, h2⟩ := h _ (by rw [e, pure_bind, collect_of_yields hy])
  obtain ⟨s', h3, _⟩ := starts_cons.mp h2
  have : s = rmap (renumerate (chunks (Line.mk [(1 : ℝ)]) 2)) (fun p : ℕ × List ℝ => rxFskChunk 2 1 p.1 p.2) := by
    rw [rxFsk, udiv_pos (by norm_num), pure_bind, RM.ok_inj] at h1
    exact h1.symm
  subst this
  have hd : (next (rmap (renumerate (chunks (Line.mk [(1 : ℝ)]) 2)) (fun p : ℕ × List ℝ => rxFskChunk 2 1 p.1 p.2))
      : RM (Option Bool × _)) = RM.diverge := rfl
  rw [hd] at h3
  exact absurd h3 (by simp)

/-! ## Worked cases: the other links on a line that fell silent after two bits (`Verif.Cases` gives the batch run) -/

example : ∃ r, txQpsk (Line.mk [true, false]) 16000 1000 (2000 : ℝ) = pure r ∧ ∃ l : List ℝ, l.length = 16 ∧ Starts r l := by
  obtain ⟨a, ha, hl⟩ := Cases.qpsk [true, false]
  obtain ⟨r, h1, h2⟩ := C74_tx_qpsk (Line.starts [true, false]) (fs := 16000) (sym := 1000) (fc := (2000 : ℝ)) (by norm_num) a ha
  exact ⟨r, h1, a, hl, h2⟩

example : ∃ r, txCdmaBpsk (Line.mk [true, false]) 16000 1000 (2000 : ℝ) [true, false] = pure r ∧
    ∃ l : List ℝ, l.length = 32 ∧ Starts r l := by
  obtain ⟨a, ha, hl⟩ := Cases.cdmaBpsk [true, false] (key := [true, false]) (by decide)
  obtain ⟨r, h1, h2⟩ := C74_tx_cdma_bpsk (Line.starts [true, false]) a ha
  exact ⟨r, h1, a, hl, h2⟩

example : ∃ r, txCdmaQpsk (Line.mk [true, false]) 16000 1000 (2000 : ℝ) [true, false] = pure r ∧
    ∃ l : List ℝ, l.length = 16 ∧ Starts r l := by
  obtain ⟨a, ha, hl⟩ := Cases.cdmaQpsk [true, false] (key := [true, false]) (by decide)
  obtain ⟨r, h1, h2⟩ := C74_tx_cdma_qpsk (Line.starts [true, false]) a ha
  exact ⟨r, h1, a, hl, h2⟩

example : ∃ r, txBfsk (Line.mk [true, false]) 16000 1000 (2000 : ℝ) 3000 = pure r ∧ ∃ l : List ℝ, l.length = 32 ∧ Starts r l := by
  obtain ⟨a, ha, hl⟩ := Cases.bfsk [true, false]
  obtain ⟨r, h1, h2⟩ := C74_tx_bfsk (Line.starts [true, false]) (by norm_num) a ha
  exact ⟨r, h1, a, hl, h2⟩

example : ∃ r, txFsk (Line.mk [true, false]) 160000 1000 (20000 : ℝ) = pure r ∧ ∃ l : List ℝ, l.length = 320 ∧ Starts r l := by
  obtain ⟨a, ha, hl⟩ := Cases.fsk [true, false]
  obtain ⟨r, h1, h2⟩ := C74_tx_fsk (Line.starts [true, false]) (by norm_num) a ha
  exact ⟨r, h1, a, hl, h2⟩

/-- Whole links. -/
example (msg : List Bool) (h : msg.length % 2 = 0) :
    ∃ r, (do let tx ← txQpsk (Line.mk msg) 8000 1000 (1000 : ℝ); rxQpsk tx 8000 1000 1000) = pure r ∧ Starts r msg := by
  refine C74_link_qpsk (Line.starts msg) (by norm_num) _ ?_
  have := C28_roundtrip (yields_ofList msg) (fs := 8000) (sym := 1000) (fc := 1000) (p := 2) (by norm_num) (by norm_num) (fun q hq => by
    have h1 : (2000 : ℝ) = (q * 8000 : ℤ) := by push_cast at hq ⊢; linarith
    have h2 : (2000 : ℤ) = q * 8000 := by exact_mod_cast h1
    omega)
  rw [show 2 * (msg.length / 2) = msg.length by omega, List.take_length] at this
  simpa only [bind_assoc] using this

example (msg : List Bool) :
    ∃ r, (do let tx ← txCdmaBpsk (Line.mk msg) 16000 1000 (2000 : ℝ) [true, false]; rxCdmaBpsk tx 16000 1000 2000 [true, false]) = pure r ∧
      Starts r msg := by
  refine C74_link_cdma_bpsk (Line.starts msg) _ ?_
  have := C29_roundtrip (yields_ofList msg) (fs := 16000) (sym := 1000) (fc := 2000) (key := [true, false]) (by norm_num) (by norm_num)
    (by simp) (by norm_num) (by norm_num) (by norm_num)
  simpa only [bind_assoc] using this

/-- A stream of bytes: 8 bits make one. -/
example : ∃ r, pure (boolsToU8s (Line.mk [true, false, false, false, false, false, false, true])) = (pure r : RM _) ∧ Starts r [129] := by
  refine C74_bytes (Line.starts _) (by decide) _ ?_
  rw [pure_bind, collect_of_yields (yields_ofList _).boolsToU8s]
  rw [blocks_of_le (by simp) (by simp) (by decide)]
  decide

end Verif.Props
