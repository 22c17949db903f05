import Verif.Lemmas.Live

/-! Transmitters and receivers on live streams. -/
namespace Verif
open Spec
set_option linter.unusedSectionVars false
variable {ι κ κ' α β : Type}

theorem KeepsUp.of_list [RIter κ β] [RIter κ' β] {live : RM κ} {batch : RM κ'} {out : List β}
    (h1 : ∃ s, live = pure s ∧ Starts s out) (h2 : ∃ s, batch = pure s ∧ Yields s out) : KeepsUp live batch := by
  intro out' h
  obtain ⟨s, e, hs⟩ := h2
  rw [e, pure_bind, collect_of_yields hs, RM.ok_inj] at h
  exact h ▸ h1

/-- A live run that keeps up with arbitrarily long batch runs delivers an endless sequence. -/
theorem gives_of_keepsUp [RIter κ β] {live : RM κ} {g : ℕ → β}
    (h : ∀ n, ∃ N, n ≤ N ∧ ∃ s, live = pure s ∧ Starts s ((List.range N).map g)) : ∃ s, live = pure s ∧ Gives s g := by
  obtain ⟨_, _, s, hs, _⟩ := h 0
  refine ⟨s, hs, gives_of_starts fun n => ?_⟩
  obtain ⟨N, hN, s', hs', h'⟩ := h n
  rw [hs, RM.ok_inj] at hs'
  subst hs'
  have := h'.take n
  rwa [← List.map_take, List.take_range, Nat.min_eq_left hN] at this

section anyF
variable {F : Type} [Add F] [Sub F] [Mul F] [Div F] [Neg F] [Zero F] [One F] [Flt F]

theorem txBpsk_live [RIter ι Bool] {m : ι} {msg : List Bool} (h : Starts m msg) {fs sym : ℕ} {fc : F}
    (hsps : 0 < fs / sym) (h1 : Flt.toNat fc ≤ fs / 2) (h2 : isInt (Flt.ofNat fs / Flt.ofNat sym : F) = true) :
    ∃ it, txBpsk m fs sym fc = pure it ∧
      Starts it (wave (fs / sym) (fun n b j => bitToNrz b * Flt.cos (phase fs fc (n * (fs / sym) + j))) msg) := by
  unfold txBpsk
  rw [udiv_pos (pos_of_sps hsps), pure_bind, rassert_pos (decide_eq_true h1), pure_bind, rassert_pos h2, pure_bind]
  refine ⟨_, rfl, ?_⟩
  have := (((h.rmap (bitToNrz (F := F))).inflate hsps).renumerate).rmap
    (fun p : ℕ × F => p.2 * Flt.cos (phase fs fc p.1))
  rw [map_mapIdx', flatMap_replicate_eq_wave, mapIdx_wave, wave_map] at this
  exact this

theorem rxBpsk_live [RIter ι F] {s : ι} {l : List F} (h : Starts s l) {fs sym : ℕ} {fc : F} (hsps : 0 < fs / sym) :
    ∃ it, rxBpsk s fs sym fc = pure it ∧ Starts it ((fullBlocks (fs / sym) l).mapIdx (decBpsk fs (fs / sym) fc)) := by
  unfold rxBpsk
  rw [udiv_pos (pos_of_sps hsps), pure_bind]
  refine ⟨_, rfl, ?_⟩
  have := ((h.renumerate.rmap (fun p : ℕ × F => p.2 * Flt.cos (phase fs fc p.1))).integrateAndDump hsps).rmap
    (fun x : F => Flt.lt (0 : F) x)
  refine this.of_eq ?_
  rw [map_mapIdx', fullBlocks_mapIdx, map_mapIdx', map_mapIdx']
  rfl

theorem txQpsk_live [RIter ι Bool] {m : ι} {msg : List Bool} (h : Starts m msg) {fs sym : ℕ} {fc : F}
    (hsps : 0 < fs / sym) :
    ∃ it, txQpsk m fs sym fc = pure it ∧
      Starts it (wave (fs / sym) (fun n (p : Bool × Bool) j =>
        bitToNrz p.1 * Flt.cos (phase fs fc (n * (fs / sym) + j))
          + -(bitToNrz p.2) * Flt.sin (phase fs fc (n * (fs / sym) + j))) (pairs msg)) := by
  unfold txQpsk
  rw [udiv_pos (pos_of_sps hsps), pure_bind]
  refine ⟨_, rfl, ?_⟩
  have := ((h.rtuples.inflate hsps).renumerate).rmap (fun p : ℕ × (Bool × Bool) =>
      bitToNrz p.2.1 * Flt.cos (phase fs fc p.1) + -(bitToNrz p.2.2) * Flt.sin (phase fs fc p.1))
  rw [map_mapIdx', flatMap_replicate_eq_wave, mapIdx_wave] at this
  exact this

theorem rxQpsk_live [RIter ι F] {s : ι} {l : List F} (h : Starts s l) {fs sym : ℕ} {fc : F} (hsps : 0 < fs / sym) :
    ∃ it, rxQpsk s fs sym fc = pure it ∧
      Starts it ((fullBlocks (fs / sym) l).mapIdx (decQpsk fs (fs / sym) fc)).flatten := by
  obtain ⟨it, h1, h2⟩ := rxQpsk_sym (yields_ofList l) (fs := fs) (sym := sym) (fc := fc) hsps
  unfold rxQpsk at h1 ⊢
  rw [udiv_pos (pos_of_sps hsps), pure_bind] at h1 ⊢
  rw [RM.ok_inj] at h1
  refine ⟨_, rfl, ?_⟩
  have key : ∀ L : List (Vector F 2), Starts (nintegrateAndDump (rmap (renumerate s)
      (fun p : ℕ × F =>
        let ii := p.2 * Flt.cos (phase fs fc p.1)
        let qi := p.2 * -(Flt.sin (phase fs fc p.1))
        (#v[ii, qi] : Vector F 2))) (fs / sym)) L → Yields (nintegrateAndDump (rmap (renumerate (ofList l))
      (fun p : ℕ × F =>
        let ii := p.2 * Flt.cos (phase fs fc p.1)
        let qi := p.2 * -(Flt.sin (phase fs fc p.1))
        (#v[ii, qi] : Vector F 2))) (fs / sym)) L → Starts (rflatMap (nintegrateAndDump (rmap (renumerate s)
      (fun p : ℕ × F =>
        let ii := p.2 * Flt.cos (phase fs fc p.1)
        let qi := p.2 * -(Flt.sin (phase fs fc p.1))
        (#v[ii, qi] : Vector F 2))) (fs / sym))
    (fun v : Vector F 2 => pure (ofList [Flt.le (0 : F) v[0], Flt.le (0 : F) v[1]])))
      ((fullBlocks (fs / sym) l).mapIdx (decQpsk fs (fs / sym) fc)).flatten := by
    intro L a b
    have hY := Yields.rflatMap (f := fun v : Vector F 2 => pure (ofList [Flt.le (0 : F) v[0], Flt.le (0 : F) v[1]]))
      (out := fun v : Vector F 2 => [Flt.le (0 : F) v[0], Flt.le (0 : F) v[1]]) (fun _ => ⟨_, rfl, yields_ofList _⟩) b
    have hS := Starts.rflatMap (f := fun v : Vector F 2 => pure (ofList [Flt.le (0 : F) v[0], Flt.le (0 : F) v[1]]))
      (out := fun v : Vector F 2 => [Flt.le (0 : F) v[0], Flt.le (0 : F) v[1]]) a (fun _ _ => ⟨_, rfl, yields_ofList _⟩)
    rw [← h1] at h2
    exact hS.of_eq (hY.unique h2)
  exact key _ ((h.renumerate.rmap _).nintegrateAndDump hsps)
    (((yields_ofList l).renumerate.rmap _).nintegrateAndDump hsps)

theorem Starts.spread [RIter ι F] {s : ι} {l : List F} (h : Starts s l) {key : List Bool} {spc : ℕ}
    (hk : 0 < key.length) (hspc : 0 < spc) :
    Starts (spread s key spc) (l.mapIdx (fun i x => x * bitToNrz (keyBit key spc i))) := by
  have hl : (key.flatMap (List.replicate spc)).length = key.length * spc :=
    length_flatMap_const _ _ (by simp)
  have hpos : 0 < (key.flatMap (List.replicate spc)).length := by rw [hl]; exact Nat.mul_pos hk hspc
  have hg := ((yields_ofList key).inflate hspc).rcycle hpos
  have hS := (h.rzip_gives hg).rmap (fun p : F × Bool => p.1 * bitToNrz p.2)
  have hY := ((yields_ofList l).rzip_gives hg).rmap (fun p : F × Bool => p.1 * bitToNrz p.2)
  exact hS.of_eq (hY.unique ((yields_ofList l).spread hk hspc))

theorem txCdmaBpsk_live [RIter ι Bool] {m : ι} {msg : List Bool} (h : Starts m msg) {fs sym : ℕ} {fc : F} {key : List Bool}
    (hok : CdmaOk fs sym fc key.length) :
    ∃ it, txCdmaBpsk m fs sym fc key = pure it ∧
      Starts it ((wave (fs / sym) (fun n b j => bitToNrz b * Flt.cos (phase fs fc (n * (fs / sym) + j))) msg).mapIdx
        (fun i x => x * bitToNrz (keyBit key (fs / sym / key.length) i))) := by
  have h1 := hok.sps
  have h2 := hok.spc
  have h3 := hok.key_pos
  obtain ⟨it, e1, e2⟩ := txBpsk_live h (fs := fs) (sym := sym) (fc := fc) (by omega) hok.car hok.int1
  exact ⟨_, by rw [txCdmaBpsk, hok.guards, pure_bind, e1, pure_bind], e2.spread hok.key_pos (by omega)⟩

theorem txCdmaQpsk_live [RIter ι Bool] {m : ι} {msg : List Bool} (h : Starts m msg) {fs sym : ℕ} {fc : F} {key : List Bool}
    (hok : CdmaOk fs sym fc key.length) :
    ∃ it, txCdmaQpsk m fs sym fc key = pure it ∧
      Starts it ((wave (fs / sym) (fun n (p : Bool × Bool) j =>
        bitToNrz p.1 * Flt.cos (phase fs fc (n * (fs / sym) + j))
          + -(bitToNrz p.2) * Flt.sin (phase fs fc (n * (fs / sym) + j))) (pairs msg)).mapIdx
        (fun i x => x * bitToNrz (keyBit key (fs / sym / key.length) i))) := by
  have h1 := hok.sps
  have h2 := hok.spc
  have h3 := hok.key_pos
  obtain ⟨it, e1, e2⟩ := txQpsk_live h (fs := fs) (sym := sym) (fc := fc) (by omega)
  exact ⟨_, by rw [txCdmaQpsk, hok.guards, pure_bind, e1, pure_bind], e2.spread hok.key_pos (by omega)⟩

theorem rxCdmaBpsk_live [RIter ι F] {s : ι} {l : List F} (h : Starts s l) {fs sym : ℕ} {fc : F} {key : List Bool}
    (hok : CdmaOk fs sym fc key.length) :
    ∃ it, rxCdmaBpsk s fs sym fc key = pure it ∧ Starts it ((fullBlocks (fs / sym) l).mapIdx (fun n b =>
      decBpsk fs (fs / sym) fc n (despreadSym key (fs / sym / key.length) (fs / sym) n b))) := by
  have h1 := hok.sps
  have h2 := hok.spc
  have h3 := hok.key_pos
  obtain ⟨it, e1, e2⟩ := rxBpsk_live (h.spread (key := key) (spc := fs / sym / key.length) h3 (by omega)) (fs := fs)
    (sym := sym) (fc := fc) (by omega)
  refine ⟨it, by rw [rxCdmaBpsk, hok.guards, pure_bind]; exact e1, e2.of_eq ?_⟩
  rw [fullBlocks_mapIdx, mapIdx_mapIdx']
  rfl

theorem rxCdmaQpsk_live [RIter ι F] {s : ι} {l : List F} (h : Starts s l) {fs sym : ℕ} {fc : F} {key : List Bool}
    (hok : CdmaOk fs sym fc key.length) :
    ∃ it, rxCdmaQpsk s fs sym fc key = pure it ∧ Starts it ((fullBlocks (fs / sym) l).mapIdx (fun n b =>
      decQpsk fs (fs / sym) fc n (despreadSym key (fs / sym / key.length) (fs / sym) n b))).flatten := by
  have h1 := hok.sps
  have h2 := hok.spc
  have h3 := hok.key_pos
  obtain ⟨it, e1, e2⟩ := rxQpsk_live (h.spread (key := key) (spc := fs / sym / key.length) h3 (by omega)) (fs := fs)
    (sym := sym) (fc := fc) (by omega)
  refine ⟨it, by rw [rxCdmaQpsk, hok.guards, pure_bind]; exact e1, e2.of_eq ?_⟩
  rw [fullBlocks_mapIdx, mapIdx_mapIdx']
  rfl

theorem txBfsk_live [RIter ι Bool] {m : ι} {msg : List Bool} (h : Starts m msg) {fs sym : ℕ} {lo hi : F}
    (hsps : 0 < fs / sym) (h1 : Flt.toNat hi ≤ fs / 2)
    (h2 : isInt (Flt.ofNat fs / Flt.ofNat sym : F) = true) :
    ∃ it, txBfsk m fs sym lo hi = pure it ∧
      Starts it (wave (fs / sym) (fun n b j => Flt.cos (phase fs (if b then hi else lo) (n * (fs / sym) + j))) msg) := by
  unfold txBfsk
  rw [udiv_pos (pos_of_sps hsps), pure_bind, rassert_pos (decide_eq_true h1), pure_bind, rassert_pos h2, pure_bind]
  refine ⟨_, rfl, ?_⟩
  have := (((h.rmap (fun b => if b then hi else lo)).inflate hsps).renumerate).rmap
    (fun p : ℕ × F => Flt.cos (phase fs p.2 p.1))
  rw [map_mapIdx', flatMap_replicate_eq_wave, mapIdx_wave, wave_map] at this
  exact this

theorem txFsk_live [RIter ι Bool] {m : ι} {msg : List Bool} (h : Starts m msg) {fs sym : ℕ} {fc : F}
    (hsps : 0 < fs / sym) :
    ∃ it, txFsk m fs sym fc = pure it ∧
      Starts it (wave (fs / sym) (fun n b j =>
        Flt.cos (phase fs (fc + bitToNrz b * (fskSep fc / Flt.ofNat 2)) (n * (fs / sym) + j))) msg) := by
  unfold txFsk
  rw [udiv_pos (pos_of_sps hsps), pure_bind]
  refine ⟨_, rfl, ?_⟩
  have := (((h.rmap (bitToNrz (F := F))).inflate hsps).renumerate).rmap
    (fun p : ℕ × F => Flt.cos (phase fs (fc + p.2 * (fskSep fc / Flt.ofNat 2)) p.1))
  rw [map_mapIdx', flatMap_replicate_eq_wave, mapIdx_wave, wave_map] at this
  exact this

theorem rxFsk_live [RIter ι F] {s : ι} {l : List F} (h : Starts s l) {fs sym : ℕ} {fc : F} (hsps : 0 < fs / sym) :
    ∃ it, rxFsk s fs sym fc = pure it ∧ Starts it ((fullBlocks (fs / sym) l).mapIdx (rxFskChunk fs fc)) := by
  unfold rxFsk
  rw [udiv_pos (pos_of_sps hsps), pure_bind]
  refine ⟨_, rfl, ?_⟩
  have := ((h.chunks hsps).renumerate).rmap (fun p : ℕ × List F => rxFskChunk fs fc p.1 p.2)
  rw [map_mapIdx'] at this
  exact this

theorem txFm_live [RIter ι F] {m : ι} {msg : List F} (h : Starts m msg) {fs sym : ℕ} {fc : F} (hsps : 0 < fs / sym) :
    ∃ it, txFm m fs sym fc = pure it ∧
      Starts it ((runSums 0 (msg.flatMap (List.replicate (fs / sym)))).mapIdx (fun i c =>
        Flt.cos (Flt.ofNat 2 * Flt.pi * fc * (Flt.ofNat i / Flt.ofNat fs) + Flt.lit 5 2 * c))) := by
  unfold txFm
  rw [udiv_pos (pos_of_sps hsps)]
  refine ⟨_, by simp only [pure_bind]; rfl, ?_⟩
  have := (((h.inflate hsps).integrate_state (0 : F)).renumerate).rmap (fun p : ℕ × F =>
    Flt.cos (Flt.ofNat 2 * Flt.pi * fc * (Flt.ofNat p.1 / Flt.ofNat fs) + Flt.lit 5 2 * p.2))
  rw [map_mapIdx'] at this
  exact this

theorem txFhBpsk_live {ρ : Type} [Rng ρ] [RIter ι Bool] {m : ι} {msg : List Bool} (h : Starts m msg) {low high : F}
    {n fs sym : ℕ} (hn : 2 ≤ n) (hsps : 0 < fs / sym) (h1 : Flt.toNat high ≤ fs / 2)
    (h2 : isInt (Flt.ofNat fs / Flt.ofNat sym : F) = true)
    (h3 : ∀ x ∈ hopFreqs low high n, Flt.toNat x ≤ fs / 2) :
    ∃ it, txFhBpsk ρ m low high n fs sym = pure it ∧
      Starts it (wave (fs / sym) (fun i b j => bitToNrz b * Flt.cos (phase fs (hopOf ρ low high n i) j)) msg) := by
  have hg := hopTable_gives (ρ := ρ) (hopFreqs low high n) (Rng.seed SEED) (by rw [hopFreqs_length]; exact hn)
  refine ⟨_, by rw [txFhBpsk, rassert_pos (by simpa using h1), rassert_pos h2, hopTable_ok]; simp only [pure_bind]; rfl, ?_⟩
  refine (Starts.rflatMap (out := fun p : Bool × F => (List.range (fs / sym)).map
    (fun j => bitToNrz p.1 * Flt.cos (phase fs p.2 j))) (h.rzip_gives hg) ?_).of_eq ?_
  · intro p hp
    obtain ⟨i, hi, rfl⟩ := List.mem_mapIdx.mp hp
    obtain ⟨it, e1, e2⟩ := txBpsk_ok (yields_ofList [msg[i]]) (fs := fs) (sym := sym)
      (fc := hopAt (hopFreqs low high n, (Rng.seed SEED : ρ)) i) hsps
      (h3 _ (hopAt_mem _ (by simp only [hopFreqs_length]; omega) _)) h2
    refine ⟨it, e1, e2.of_eq ?_⟩
    rw [wave_one]
    simp only [Nat.zero_mul, Nat.zero_add]
  · unfold wave hopOf
    rw [List.flatMap_def, map_mapIdx']

theorem rxFhBpsk_live {ρ : Type} [Rng ρ] [RIter ι F] {s : ι} {l : List F} (h : Starts s l) {low high : F} {nf fs sym : ℕ}
    (hn : 2 ≤ nf) (hsps : 0 < fs / sym) (h1 : Flt.toNat high ≤ fs / 2)
    (h2 : isInt (Flt.ofNat fs / Flt.ofNat sym : F) = true) :
    ∃ it, rxFhBpsk ρ s low high nf fs sym = pure it ∧
      Starts it ((fullBlocks (fs / sym) l).mapIdx (decFh ρ low high nf fs)) := by
  have hg := hopTable_gives (ρ := ρ) (hopFreqs low high nf) (Rng.seed SEED) (by rw [hopFreqs_length]; exact hn)
  refine ⟨_, by rw [rxFhBpsk, udiv_pos (pos_of_sps hsps), pure_bind, rassert_pos (by simpa using h1), rassert_pos h2, hopTable_ok]; simp only [pure_bind]; rfl, ?_⟩
  refine (Starts.rflatMap (out := fun p : List F × F =>
    [Flt.lt (0 : F) (rsum (p.1.mapIdx (fun j x => x * Flt.cos (phase fs p.2 j))))])
    ((h.chunks hsps).rzip_gives hg) ?_).of_eq ?_
  · intro p hp
    obtain ⟨i, hi, rfl⟩ := List.mem_mapIdx.mp hp
    obtain ⟨it, e1, e2⟩ := rxBpsk_sym (yields_ofList (fullBlocks (fs / sym) l)[i]) hsps (fs := fs) (sym := sym)
      (fc := hopAt (hopFreqs low high nf, (Rng.seed SEED : ρ)) i)
    refine ⟨it, e1, e2.of_eq ?_⟩
    have hlen := mem_fullBlocks_length hsps (List.getElem_mem (l := fullBlocks (fs / sym) l) hi)
    have hone : fullBlocks (fs / sym) (fullBlocks (fs / sym) l)[i] = [(fullBlocks (fs / sym) l)[i]] := by
      have := fullBlocks_flatten_eq hsps [(fullBlocks (fs / sym) l)[i]] (by simpa using hlen)
      simpa using this
    rw [hone]
    simp [decBpsk]
  · rw [List.flatMap_def, map_mapIdx', ← flatten_mapIdx_singleton (decFh ρ low high nf fs)]
    rfl

theorem rassert_ok {c : Bool} {u : Unit} (h : rassert c = pure u) : c = true := by
  cases c
  · simp at h
  · rfl

theorem txBpsk_guards [RIter ι Bool] {m : ι} {fs sym : ℕ} {fc : F} {it : TxBpsk ι F} (h : txBpsk m fs sym fc = pure it) :
    Flt.toNat fc ≤ fs / 2 ∧ isInt (Flt.ofNat fs / Flt.ofNat sym : F) = true := by
  unfold txBpsk at h
  obtain ⟨_, _, h⟩ := RM.bind_eq_ok.mp h
  obtain ⟨_, h1, h⟩ := RM.bind_eq_ok.mp h
  obtain ⟨_, h2, h⟩ := RM.bind_eq_ok.mp h
  exact ⟨of_decide_eq_true (rassert_ok h1), rassert_ok h2⟩

theorem txBfsk_guards [RIter ι Bool] {m : ι} {fs sym : ℕ} {lo hi : F} {it : TxFsk ι F} (h : txBfsk m fs sym lo hi = pure it) :
    Flt.toNat hi ≤ fs / 2 ∧ isInt (Flt.ofNat fs / Flt.ofNat sym : F) = true := by
  unfold txBfsk at h
  obtain ⟨_, _, h⟩ := RM.bind_eq_ok.mp h
  obtain ⟨_, h1, h⟩ := RM.bind_eq_ok.mp h
  obtain ⟨_, h2, h⟩ := RM.bind_eq_ok.mp h
  exact ⟨of_decide_eq_true (rassert_ok h1), rassert_ok h2⟩

theorem cdmaOk_of_guards {fs sym : ℕ} {fc : F} {L : ℕ} {r : ℕ} (h : cdmaGuards fs sym fc L = pure r) :
    CdmaOk fs sym fc L := by
  by_contra hn
  have := (cdmaGuards_panics fs sym fc L).mpr hn
  rw [h] at this
  exact RM.not_panics_ok _ this

theorem fullBlocks_wave_length {A B : Type} {k : ℕ} (w : ℕ → A → ℕ → B) (l : List A) : k ∣ (wave k w l).length :=
  ⟨l.length, by rw [wave_length, Nat.mul_comm]⟩

theorem blocks_of_dvd {A : Type} {k : ℕ} (hk : 0 < k) {l : List A} (h : k ∣ l.length) : blocks k l = fullBlocks k l := by
  obtain ⟨n, hn⟩ := h
  apply List.ext_getElem?
  intro i
  rw [blocks_getElem?' hk, fullBlocks_getElem? hk]
  congr 1
  rw [hn, Nat.mul_comm k n, eq_iff_iff, Nat.mul_lt_mul_right hk, Nat.mul_le_mul_right_iff hk]
  omega
end anyF
end Verif
