import Verif.Lemmas.Noise
import Verif.Props.Fsk
import Verif.Props.Psk
import Verif.Lemmas.Ofdm
import Mathlib.Tactic.IntervalCases
import Verif.Lemmas.Cases
import Verif.Lemmas.CdmaRx
import Verif.Props.Energy

/-!
# Properties C71–C73: receivers on arbitrary signals

The signals here need not come from a transmitter.
-/
namespace Verif.Props
open Verif Spec
set_option linter.unusedSectionVars false
variable {ι ρ : Type}

section anyF
variable {F : Type} [Add F] [Sub F] [Mul F] [Div F] [Neg F] [Zero F] [One F] [Flt F]

/-! ## C71 symbol by symbol, any number type -/

theorem C71_bpsk {fs sym : ℕ} (fc : F) (hsps : 0 < fs / sym) :
    Symbolwise (fs / sym) 1 (fun l : List F => do let rx ← rxBpsk (ofList l) fs sym fc; collect rx) := by
  refine Symbolwise.of_form hsps (by norm_num) (fun n b => [decBpsk fs (fs / sym) fc n b]) (fun _ _ => rfl) ?_
  intro l
  obtain ⟨it, h1, h2⟩ := rxBpsk_sym (yields_ofList l) (fc := fc) hsps
  rw [h1, pure_bind, collect_of_yields h2, flatten_mapIdx_singleton]

theorem C71_qpsk {fs sym : ℕ} (fc : F) (hsps : 0 < fs / sym) :
    Symbolwise (fs / sym) 2 (fun l : List F => do let rx ← rxQpsk (ofList l) fs sym fc; collect rx) := by
  refine Symbolwise.of_form hsps (by norm_num) (decQpsk fs (fs / sym) fc) (fun _ _ => rfl) ?_
  intro l
  obtain ⟨it, h1, h2⟩ := rxQpsk_sym (yields_ofList l) (fc := fc) hsps
  rw [h1, pure_bind, collect_of_yields h2]

/-- The parameters the keyed receivers accept are those of the transmitters (C29, C31). -/
theorem C71_cdma_accepts [RIter ι ℝ] (s : ι) {fs sym : ℕ} {fc : ℝ} {key : List Bool} (hfs : fs < 2 ^ 64) :
    ((rxCdmaBpsk s fs sym fc key).Panics ↔
      ¬ (0 < sym ∧ key ≠ [] ∧ sym * key.length ∣ fs ∧ 2 * (sym * key.length) ≤ fs ∧ ⌊fc⌋₊ ≤ fs / 2)) ∧
    ((rxCdmaQpsk s fs sym fc key).Panics ↔
      ¬ (0 < sym ∧ key ≠ [] ∧ sym * key.length ∣ fs ∧ 2 * (sym * key.length) ≤ fs ∧ ⌊fc⌋₊ ≤ fs / 2)) := by
  rw [← List.length_pos_iff, ← cdmaOk_real hfs]
  exact ⟨rxCdmaBpsk_panics .., rxCdmaQpsk_panics ..⟩

theorem C71_cdma_bpsk {fs sym : ℕ} {fc : F} {key : List Bool}
    (hok : ¬ (rxCdmaBpsk (ofList ([] : List F)) fs sym fc key).Panics) :
    Symbolwise (fs / sym) 1 (fun l : List F => do let rx ← rxCdmaBpsk (ofList l) fs sym fc key; collect rx) := by
  rw [rxCdmaBpsk_panics, not_not] at hok
  have h1 := hok.sps
  have h2 := hok.key_pos
  refine Symbolwise.of_form (by omega) (by norm_num) (fun n b =>
    [decBpsk fs (fs / sym) fc n (despreadSym key (fs / sym / key.length) (fs / sym) n b)]) (fun _ _ => rfl) ?_
  intro l
  obtain ⟨it, h1, h2⟩ := rxCdmaBpsk_sym (yields_ofList l) hok
  rw [h1, pure_bind, collect_of_yields h2, flatten_mapIdx_singleton]

theorem C71_cdma_qpsk {fs sym : ℕ} {fc : F} {key : List Bool}
    (hok : ¬ (rxCdmaQpsk (ofList ([] : List F)) fs sym fc key).Panics) :
    Symbolwise (fs / sym) 2 (fun l : List F => do let rx ← rxCdmaQpsk (ofList l) fs sym fc key; collect rx) := by
  rw [rxCdmaQpsk_panics, not_not] at hok
  have h1 := hok.sps
  have h2 := hok.key_pos
  refine Symbolwise.of_form (by omega) (by norm_num) (fun n b =>
    decQpsk fs (fs / sym) fc n (despreadSym key (fs / sym / key.length) (fs / sym) n b)) (fun _ _ => rfl) ?_
  intro l
  obtain ⟨it, h1, h2⟩ := rxCdmaQpsk_sym (yields_ofList l) hok
  rw [h1, pure_bind, collect_of_yields h2]

theorem C71_hopping [Rng ρ] {low high : F} {nf fs sym : ℕ}
    (hn : 2 ≤ nf) (hsps : 0 < fs / sym) (h1 : Flt.toNat high ≤ fs / 2)
    (h2 : isInt (Flt.ofNat fs / Flt.ofNat sym : F) = true) :
    Symbolwise (fs / sym) 1 (fun l : List F => do let rx ← rxFhBpsk ρ (ofList l) low high nf fs sym; collect rx) := by
  refine Symbolwise.of_form hsps (by norm_num) (fun n b => [decFh ρ low high nf fs n b]) (fun _ _ => rfl) ?_
  intro l
  obtain ⟨it, h1, h2⟩ := rxFhBpsk_sym (ρ := ρ) (yields_ofList l) hn hsps h1 h2 (low := low)
  rw [h1, pure_bind, collect_of_yields h2, flatten_mapIdx_singleton]

/-- The FSK receiver answers an incomplete last symbol too. -/
theorem C71_fsk {fs sym : ℕ} (fc : F) (hsps : 0 < fs / sym) :
    SymbolwiseCeil (fs / sym) (fun l : List F => do let rx ← rxFsk (ofList l) fs sym fc; collect rx) := by
  have key : ∀ l : List F, (do let rx ← rxFsk (ofList l) fs sym fc; collect rx)
      = pure ((blocks (fs / sym) l).mapIdx (rxFskChunk fs fc)) := by
    intro l
    obtain ⟨it, h1, h2⟩ := rxFsk_sym (yields_ofList l) (fc := fc) hsps
    rw [h1, pure_bind, collect_of_yields h2]
  constructor
  · intro l
    refine ⟨_, key l, ?_⟩
    rw [List.length_mapIdx, blocks_length _ hsps]
  · intro l l' bits bits' n e e' hn hn' heq
    simp only [key, RM.ok_inj] at e e'
    rw [← e, ← e', List.getElem?_mapIdx, List.getElem?_mapIdx, blocks_getElem?' hsps, blocks_getElem?' hsps, if_pos hn,
      if_pos hn', heq]
end anyF

/-- Five samples at two samples per symbol are two symbols; in IEEE arithmetic, whatever the samples are (NaN included). -/
example (l : List Float) (h : l.length = 5) :
    ∃ bits, (do let rx ← rxBpsk (ofList l) 8 4 (1 : Float); collect rx) = pure bits ∧ bits.length = 2 := by
  obtain ⟨bits, h1, h2⟩ := (C71_bpsk (fs := 8) (sym := 4) (1 : Float) (by norm_num)).total l
  exact ⟨bits, h1, by rw [h2, h]⟩

/-! ## C72 gain, exact arithmetic -/

private theorem getD_scale (b : List ℝ) (g : ℝ) (j : ℕ) : (b.map (g * ·)).getD j 0 = g * b.getD j 0 := by
  by_cases hj : j < b.length <;> simp [List.getD_eq_getElem?_getD, hj]

private theorem corr_scale (b : List ℝ) (g : ℝ) (c : ℕ → ℝ) :
    rsum ((b.map (g * ·)).mapIdx (fun j x => x * c j)) = g * rsum (b.mapIdx (fun j x => x * c j)) := by
  rw [rsum_mapIdx_real, rsum_mapIdx_real, List.length_map, Finset.mul_sum]
  apply Finset.sum_congr rfl
  intro j _
  rw [getD_scale, mul_assoc]

private theorem lt_scale {g : ℝ} (hg : 0 < g) (x : ℝ) : Flt.lt (0 : ℝ) (g * x) = Flt.lt (0 : ℝ) x := by
  simp only [Flt.lt_real, mul_pos_iff_of_pos_left hg]

private theorem le_scale {g : ℝ} (hg : 0 < g) (x : ℝ) : Flt.le (0 : ℝ) (g * x) = Flt.le (0 : ℝ) x := by
  simp only [Flt.le_real, mul_nonneg_iff_of_pos_left hg]

private theorem decBpsk_scale {g : ℝ} (hg : 0 < g) (fs k : ℕ) (fc : ℝ) (n : ℕ) (b : List ℝ) :
    decBpsk fs k fc n (b.map (g * ·)) = decBpsk fs k fc n b := by
  unfold decBpsk
  rw [corr_scale b g (fun j => Flt.cos (phase fs fc (n * k + j))), lt_scale hg]

private theorem decQpsk_scale {g : ℝ} (hg : 0 < g) (fs k : ℕ) (fc : ℝ) (n : ℕ) (b : List ℝ) :
    decQpsk fs k fc n (b.map (g * ·)) = decQpsk fs k fc n b := by
  unfold decQpsk
  rw [corr_scale b g (fun j => Flt.cos (phase fs fc (n * k + j))), le_scale hg,
    corr_scale b g (fun j => -Flt.sin (phase fs fc (n * k + j))), le_scale hg]

private theorem despread_scale (g : ℝ) (key : List Bool) (spc k n : ℕ) (b : List ℝ) :
    despreadSym key spc k n (b.map (g * ·)) = (despreadSym key spc k n b).map (g * ·) := by
  unfold despreadSym
  apply List.ext_getElem?; intro i
  simp [Function.comp_def, mul_assoc]

private theorem fullBlocks_scale (k : ℕ) (g : ℝ) (l : List ℝ) {T : Type} (D : ℕ → List ℝ → T)
    (hD : ∀ n b, D n (b.map (g * ·)) = D n b) :
    (fullBlocks k (l.map (g * ·))).mapIdx D = (fullBlocks k l).mapIdx D := by
  rw [fullBlocks_map]
  apply List.ext_getElem?; intro i
  simp only [List.getElem?_mapIdx, List.getElem?_map]
  cases (fullBlocks k l)[i]? with
  | none => rfl
  | some b => simp [hD]

/-- A change of volume by any positive factor changes no decision, on any signal: BPSK, -/
theorem C72_bpsk {fs sym : ℕ} (fc : ℝ) (hsps : 0 < fs / sym) (l : List ℝ) {g : ℝ} (hg : 0 < g) :
    (do let rx ← rxBpsk (ofList (l.map (g * ·))) fs sym fc; collect rx)
      = (do let rx ← rxBpsk (ofList l) fs sym fc; collect rx) := by
  obtain ⟨it, h1, h2⟩ := rxBpsk_sym (yields_ofList l) (fc := fc) hsps
  obtain ⟨it', h1', h2'⟩ := rxBpsk_sym (yields_ofList (l.map (g * ·))) (fc := fc) hsps
  rw [h1, h1', pure_bind, pure_bind, collect_of_yields h2, collect_of_yields h2',
    fullBlocks_scale _ _ _ _ (decBpsk_scale hg _ _ _)]

/-- QPSK, -/
theorem C72_qpsk {fs sym : ℕ} (fc : ℝ) (hsps : 0 < fs / sym) (l : List ℝ) {g : ℝ} (hg : 0 < g) :
    (do let rx ← rxQpsk (ofList (l.map (g * ·))) fs sym fc; collect rx)
      = (do let rx ← rxQpsk (ofList l) fs sym fc; collect rx) := by
  obtain ⟨it, h1, h2⟩ := rxQpsk_sym (yields_ofList l) (fc := fc) hsps
  obtain ⟨it', h1', h2'⟩ := rxQpsk_sym (yields_ofList (l.map (g * ·))) (fc := fc) hsps
  rw [h1, h1', pure_bind, pure_bind, collect_of_yields h2, collect_of_yields h2',
    fullBlocks_scale _ _ _ _ (decQpsk_scale hg _ _ _)]

/-- CDMA over BPSK, -/
theorem C72_cdma_bpsk {fs sym : ℕ} {fc : ℝ} {key : List Bool} (hok : ¬ (rxCdmaBpsk (ofList ([] : List ℝ)) fs sym fc key).Panics)
    (l : List ℝ) {g : ℝ} (hg : 0 < g) :
    (do let rx ← rxCdmaBpsk (ofList (l.map (g * ·))) fs sym fc key; collect rx)
      = (do let rx ← rxCdmaBpsk (ofList l) fs sym fc key; collect rx) := by
  rw [rxCdmaBpsk_panics, not_not] at hok
  obtain ⟨it, h1, h2⟩ := rxCdmaBpsk_sym (yields_ofList l) hok
  obtain ⟨it', h1', h2'⟩ := rxCdmaBpsk_sym (yields_ofList (l.map (g * ·))) hok
  rw [h1, h1', pure_bind, pure_bind, collect_of_yields h2, collect_of_yields h2',
    fullBlocks_scale _ _ _ _ (fun n b => by rw [despread_scale, decBpsk_scale hg])]

/-- CDMA over QPSK, -/
theorem C72_cdma_qpsk {fs sym : ℕ} {fc : ℝ} {key : List Bool} (hok : ¬ (rxCdmaQpsk (ofList ([] : List ℝ)) fs sym fc key).Panics)
    (l : List ℝ) {g : ℝ} (hg : 0 < g) :
    (do let rx ← rxCdmaQpsk (ofList (l.map (g * ·))) fs sym fc key; collect rx)
      = (do let rx ← rxCdmaQpsk (ofList l) fs sym fc key; collect rx) := by
  rw [rxCdmaQpsk_panics, not_not] at hok
  obtain ⟨it, h1, h2⟩ := rxCdmaQpsk_sym (yields_ofList l) hok
  obtain ⟨it', h1', h2'⟩ := rxCdmaQpsk_sym (yields_ofList (l.map (g * ·))) hok
  rw [h1, h1', pure_bind, pure_bind, collect_of_yields h2, collect_of_yields h2',
    fullBlocks_scale _ _ _ _ (fun n b => by rw [despread_scale, decQpsk_scale hg])]

/-- frequency hopping, -/
theorem C72_hopping [Rng ρ] {low high : ℝ} {nf fs sym : ℕ} (hn : 2 ≤ nf) (hfs : fs < 2 ^ 64) (hsps : 0 < fs / sym)
    (hdvd : sym ∣ fs) (h1 : ⌊high⌋₊ ≤ fs / 2) (l : List ℝ) {g : ℝ} (hg : 0 < g) :
    (do let rx ← rxFhBpsk ρ (ofList (l.map (g * ·))) low high nf fs sym; collect rx)
      = (do let rx ← rxFhBpsk ρ (ofList l) low high nf fs sym; collect rx) := by
  have hsym := pos_of_sps hsps
  have h1 : Flt.toNat high ≤ fs / 2 := by rw [Flt.toNat_real]; omega
  have h2 := (isInt_real hfs hsym).mpr hdvd
  obtain ⟨it, e1, e2⟩ := rxFhBpsk_sym (ρ := ρ) (yields_ofList l) (low := low) hn hsps h1 h2
  obtain ⟨it', e1', e2'⟩ := rxFhBpsk_sym (ρ := ρ) (yields_ofList (l.map (g * ·))) (low := low) hn hsps h1 h2
  rw [e1, e1', pure_bind, pure_bind, collect_of_yields e2, collect_of_yields e2', fullBlocks_scale]
  intro n b
  unfold decFh
  rw [corr_scale b g (fun j => Flt.cos (phase fs (hopOf ρ low high nf n) j)), lt_scale hg]

/-- FSK (here the sign of the factor does not matter either). -/
theorem C72_fsk {fs sym : ℕ} (fc : ℝ) (hsps : 0 < fs / sym) (l : List ℝ) {g : ℝ} (hg : g ≠ 0) :
    (do let rx ← rxFsk (ofList (l.map (g * ·))) fs sym fc; collect rx)
      = (do let rx ← rxFsk (ofList l) fs sym fc; collect rx) := by
  obtain ⟨it, h1, h2⟩ := rxFsk_sym (yields_ofList l) (fc := fc) hsps
  obtain ⟨it', h1', h2'⟩ := rxFsk_sym (yields_ofList (l.map (g * ·))) (fc := fc) hsps
  rw [h1, h1', pure_bind, pure_bind, collect_of_yields h2, collect_of_yields h2', blocks_map]
  congr 1
  apply List.ext_getElem?; intro i
  simp only [List.getElem?_mapIdx, List.getElem?_map]
  cases (blocks (fs / sym) l)[i]? with
  | none => rfl
  | some b =>
    simp only [Option.map_some, rxFskChunk_real, List.length_map, getD_scale, mul_assoc, ← Finset.mul_sum, mul_pow,
      ← mul_add]
    congr 2
    have : 0 < g ^ 2 := by positivity
    rw [eq_iff_iff]
    exact mul_le_mul_iff_right₀ this

/-- An inverted signal, in contrast, inverts the BPSK decision of every symbol that is not exactly undecided. -/
theorem C72_inverted {fs sym : ℕ} (fc : ℝ) (hsps : 0 < fs / sym) (l : List ℝ) {bits bits' : List Bool} {n : ℕ}
    (h : (do let rx ← rxBpsk (ofList l) fs sym fc; collect rx) = pure bits)
    (h' : (do let rx ← rxBpsk (ofList (l.map (- ·))) fs sym fc; collect rx) = pure bits')
    (hn : (n + 1) * (fs / sym) ≤ l.length)
    (hne : ∑ j ∈ Finset.range (fs / sym), l.getD (n * (fs / sym) + j) 0 * Real.cos (2 * Real.pi * fc * (n * (fs / sym) + j : ℕ) / fs) ≠ 0) :
    bits'[n]? = bits[n]?.map (!·) := by
  obtain ⟨it, h1, h2⟩ := rxBpsk_sym (yields_ofList l) (fc := fc) hsps
  obtain ⟨it', h1', h2'⟩ := rxBpsk_sym (yields_ofList (l.map (- ·))) (fc := fc) hsps
  rw [h1, pure_bind, collect_of_yields h2, RM.ok_inj] at h
  rw [h1', pure_bind, collect_of_yields h2', RM.ok_inj, fullBlocks_map] at h'
  rw [← h, ← h']
  simp only [List.getElem?_mapIdx, List.getElem?_map, fullBlocks_getElem? hsps, if_pos hn, Option.map_some]
  congr 1
  have hlen : ((l.drop (n * (fs / sym))).take (fs / sym)).length = fs / sym := by
    rw [List.length_take, List.length_drop]; rw [Nat.add_mul] at hn; omega
  have hneg : ((l.drop (n * (fs / sym))).take (fs / sym)).map (- ·)
      = ((l.drop (n * (fs / sym))).take (fs / sym)).map ((-1) * ·) := by
    apply List.map_congr_left; intro x _; ring
  rw [hneg]
  unfold decBpsk
  rw [corr_scale _ (-1) (fun j => Flt.cos (phase fs fc (n * (fs / sym) + j))), rsum_mapIdx_real, hlen]
  have e : ∑ j ∈ Finset.range (fs / sym), ((l.drop (n * (fs / sym))).take (fs / sym)).getD j 0
        * Flt.cos (phase fs fc (n * (fs / sym) + j))
      = ∑ j ∈ Finset.range (fs / sym), l.getD (n * (fs / sym) + j) 0
        * Real.cos (2 * Real.pi * fc * (n * (fs / sym) + j : ℕ) / fs) := by
    apply Finset.sum_congr rfl
    intro j hj
    rw [Finset.mem_range] at hj
    rw [phase_real, dphi, Flt.cos_real]
    congr 1
    · simp [List.getD_eq_getElem?_getD, List.getElem?_take, hj]
    · congr 1; ring
  rw [e]
  generalize ∑ j ∈ Finset.range (fs / sym), l.getD (n * (fs / sym) + j) 0
        * Real.cos (2 * Real.pi * fc * (n * (fs / sym) + j : ℕ) / fs) = x at hne
  simp only [Flt.lt_real]
  rcases lt_or_gt_of_ne hne with h | h
  · rw [decide_eq_false h.not_gt, decide_eq_true (by linarith)]; rfl
  · rw [decide_eq_true h, decide_eq_false (by linarith)]; rfl

/-! ## C73 noise, exact arithmetic -/

/-- BPSK survives every disturbance that has, in each symbol, less energy than the transmission. -/
theorem C73_bpsk [RIter ι Bool] {m : ι} {msg : List Bool} (h : Yields m msg) {fs sym : ℕ} {fc : ℝ}
    (hfs : fs < 2 ^ 64) (hdvd : sym ∣ fs) (hsps : 0 < fs / sym) (hfc : ⌊fc⌋₊ ≤ fs / 2) {tx noise : List ℝ}
    (htx : (do let it ← txBpsk m fs sym fc; collect it) = pure tx) (hlen : noise.length = tx.length)
    (hE : ∀ n < msg.length, ((symbol (fs / sym) n noise).map (· ^ 2)).sum < ((symbol (fs / sym) n tx).map (· ^ 2)).sum) :
    (do let rx ← rxBpsk (ofList (List.zipWith (· + ·) tx noise)) fs sym fc; collect rx) = pure msg := by
  obtain ⟨it, h1, h2⟩ := txBpsk_ok h (fc := fc) hsps (by rw [Flt.toNat_real]; omega)
    ((isInt_real hfs (pos_of_sps hsps)).mpr hdvd)
  rw [h1, pure_bind, collect_of_yields h2, RM.ok_inj] at htx
  obtain ⟨it', h3, h4⟩ := rxBpsk_sym (yields_ofList (List.zipWith (· + ·) tx noise)) (fc := fc) hsps
  rw [h3, pure_bind, collect_of_yields h4]
  congr 1
  refine noise_core hsps (fun n j => Flt.cos (phase fs fc (n * (fs / sym) + j))) _ ?_ htx.symm hlen hE
  intro n b hb
  unfold decBpsk
  rw [rsum_mapIdx_real, hb, Flt.lt_real]

/-- The bound cannot be improved: a disturbance with exactly the energy of the transmission can turn every bit. -/
theorem C73_bpsk_sharp [RIter ι Bool] {m : ι} {msg : List Bool} (h : Yields m msg) {fs sym : ℕ} {fc : ℝ}
    (hfs : fs < 2 ^ 64) (hdvd : sym ∣ fs) (hsps : 0 < fs / sym) (hfc : ⌊fc⌋₊ ≤ fs / 2) {tx : List ℝ}
    (htx : (do let it ← txBpsk m fs sym fc; collect it) = pure tx) :
    ∃ noise : List ℝ, noise.length = tx.length ∧
      (∀ n < msg.length, ((symbol (fs / sym) n noise).map (· ^ 2)).sum = ((symbol (fs / sym) n tx).map (· ^ 2)).sum) ∧
      (do let rx ← rxBpsk (ofList (List.zipWith (· + ·) tx noise)) fs sym fc; collect rx)
        = pure (msg.map (fun _ => false)) := by
  obtain ⟨it, h1, h2⟩ := txBpsk_ok h (fc := fc) hsps (by rw [Flt.toNat_real]; omega)
    ((isInt_real hfs (pos_of_sps hsps)).mpr hdvd)
  rw [h1, pure_bind, collect_of_yields h2, RM.ok_inj] at htx
  have hlt : tx.length = msg.length * (fs / sym) := by rw [← htx, wave_length]
  refine ⟨tx.map (- ·), by simp, ?_, ?_⟩
  · intro n _
    unfold symbol
    rw [← List.map_drop, ← List.map_take, List.map_map]
    congr 1
    apply List.map_congr_left; intro x _; simp
  · have hz : List.zipWith (· + ·) tx (tx.map (- ·)) = List.replicate (msg.length * (fs / sym)) 0 := by
      rw [← hlt]
      apply List.ext_getElem?; intro i
      by_cases hi : i < tx.length <;> simp [hi, List.getElem?_replicate]
    obtain ⟨it', h3, h4⟩ := rxBpsk_sym (yields_ofList (List.zipWith (· + ·) tx (tx.map (- ·)))) (fc := fc) hsps
    rw [h3, pure_bind, collect_of_yields h4, hz]
    congr 1
    apply List.ext_getElem?; intro n
    simp only [List.getElem?_mapIdx, fullBlocks_getElem? hsps, List.length_replicate, List.getElem?_map]
    by_cases hn : n < msg.length
    · rw [if_pos (Nat.mul_le_mul_right _ hn), List.getElem?_eq_getElem hn]
      simp only [Option.map_some, decBpsk, rsum_mapIdx_real, Flt.lt_real]
      congr 1
      rw [decide_eq_false_iff_not, not_lt]
      apply le_of_eq
      apply Finset.sum_eq_zero
      intro j _
      simp [List.getD_eq_getElem?_getD, List.getElem?_replicate]
      left
      split <;> simp
    · rw [if_neg (fun h => hn (Nat.le_of_mul_le_mul_right h hsps)), List.getElem?_eq_none (by omega)]
      rfl

/-- CDMA over BPSK, -/
theorem C73_cdma_bpsk [RIter ι Bool] {m : ι} {msg : List Bool} (h : Yields m msg) {fs sym : ℕ} {fc : ℝ} {key : List Bool}
    (hfs : fs < 2 ^ 64) (hsym : 0 < sym) (hkey : key ≠ []) (hdvd : sym * key.length ∣ fs)
    (hnyq : 2 * (sym * key.length) ≤ fs) (hfc : ⌊fc⌋₊ ≤ fs / 2) {tx noise : List ℝ}
    (htx : (do let it ← txCdmaBpsk m fs sym fc key; collect it) = pure tx) (hlen : noise.length = tx.length)
    (hE : ∀ n < msg.length, ((symbol (fs / sym) n noise).map (· ^ 2)).sum < ((symbol (fs / sym) n tx).map (· ^ 2)).sum) :
    (do let rx ← rxCdmaBpsk (ofList (List.zipWith (· + ·) tx noise)) fs sym fc key; collect rx) = pure msg := by
  have hok := (cdmaOk_real (fc := fc) hfs).mpr ⟨hsym, List.length_pos_iff.mpr hkey, hdvd, hnyq, hfc⟩
  have h1 := hok.sps
  have h3 := hok.key_pos
  obtain ⟨it, e1, e2⟩ := txCdmaBpsk_ok h hok
  rw [e1, pure_bind, collect_of_yields e2, RM.ok_inj, mapIdx_wave] at htx
  obtain ⟨it', e3, e4⟩ := rxCdmaBpsk_sym (yields_ofList (List.zipWith (· + ·) tx noise)) hok
  rw [e3, pure_bind, collect_of_yields e4]
  congr 1
  refine noise_core (k := fs / sym) (by omega) (fun n j => Flt.cos (phase fs fc (n * (fs / sym) + j))
    * bitToNrz (keyBit key (fs / sym / key.length) (n * (fs / sym) + j))) _ ?_ ?_ hlen hE
  · intro n b hb
    unfold decBpsk despreadSym
    rw [mapIdx_mapIdx', rsum_mapIdx_real, hb, Flt.lt_real]
    congr 3
    funext j
    ring
  · rw [← htx]
    congr 1
    funext n b j
    ring

/-- frequency hopping. -/
theorem C73_hopping [Rng ρ] [RIter ι Bool] {m : ι} {msg : List Bool} (h : Yields m msg) {low high : ℝ} {nf fs sym : ℕ}
    (hn : 2 ≤ nf) (hlh : low ≤ high) (hfs : fs < 2 ^ 64) (hfs0 : 0 < fs) (hsym : 0 < sym) (hdvd : sym ∣ fs)
    (hhigh : ⌊high⌋₊ ≤ fs / 2) {tx noise : List ℝ}
    (htx : (do let it ← txFhBpsk ρ m low high nf fs sym; collect it) = pure tx) (hlen : noise.length = tx.length)
    (hE : ∀ n < msg.length, ((symbol (fs / sym) n noise).map (· ^ 2)).sum < ((symbol (fs / sym) n tx).map (· ^ 2)).sum) :
    (do let rx ← rxFhBpsk ρ (ofList (List.zipWith (· + ·) tx noise)) low high nf fs sym; collect rx) = pure msg := by
  have hsps : 0 < fs / sym := Nat.div_pos (Nat.le_of_dvd hfs0 hdvd) hsym
  have htn : ∀ x : ℝ, x ≤ high → Flt.toNat x ≤ fs / 2 := by
    intro x hx
    rw [Flt.toNat_real]
    exact (min_le_left _ _).trans ((Nat.floor_mono hx).trans hhigh)
  have hint := (isInt_real hfs hsym).mpr hdvd
  obtain ⟨it, e1, e2⟩ := txFhBpsk_ok (ρ := ρ) h hn hsps (htn high le_rfl) hint
    (fun x hx => htn x (hopFreqs_real hlh hx).2)
  rw [e1, pure_bind, collect_of_yields e2, RM.ok_inj] at htx
  obtain ⟨it', e3, e4⟩ := rxFhBpsk_sym (ρ := ρ) (yields_ofList (List.zipWith (· + ·) tx noise)) (low := low) hn hsps
    (htn high le_rfl) hint
  rw [e3, pure_bind, collect_of_yields e4]
  congr 1
  refine noise_core hsps (fun n j => Flt.cos (phase fs (hopOf ρ low high nf n) j)) _ ?_ htx.symm hlen hE
  intro n b hb
  unfold decFh
  rw [rsum_mapIdx_real, hb, Flt.lt_real]

/-- QPSK with a whole number of half periods of the carrier per symbol: every disturbance with less than half the energy of
the symbol. -/
theorem C73_qpsk [RIter ι Bool] {m : ι} {msg : List Bool} (h : Yields m msg) {fs sym : ℕ} {fc : ℝ}
    (hsps : 0 < fs / sym) {p : ℤ} (hp : (fs / sym : ℕ) * (2 * fc) = p * fs) (hne : ∀ q : ℤ, 2 * fc ≠ q * fs)
    {tx noise : List ℝ} (htx : (do let it ← txQpsk m fs sym fc; collect it) = pure tx) (hlen : noise.length = tx.length)
    (hE : ∀ n < msg.length / 2,
      2 * ((symbol (fs / sym) n noise).map (· ^ 2)).sum < ((symbol (fs / sym) n tx).map (· ^ 2)).sum) :
    (do let rx ← rxQpsk (ofList (List.zipWith (· + ·) tx noise)) fs sym fc; collect rx)
      = pure (msg.take (2 * (msg.length / 2))) := by
  obtain ⟨hk, hs⟩ := half_periods hsps hp hne
  obtain ⟨it, h1, h2⟩ := txQpsk_ok h (fc := fc) hsps
  rw [h1, pure_bind, collect_of_yields h2, RM.ok_inj] at htx
  obtain ⟨it', h3, h4⟩ := rxQpsk_sym (yields_ofList (List.zipWith (· + ·) tx noise)) (fc := fc) hsps
  rw [h3, pure_bind, collect_of_yields h4, ← pairs_flat, List.flatMap_def]
  congr 2
  refine noise_quad hsps (fun n j => Real.cos ((n * (fs / sym) + j : ℕ) * dphi fs fc))
    (fun n j => Real.sin ((n * (fs / sym) + j : ℕ) * dphi fs fc)) _ ?_ (fun n => sum_cos_sq_half hk hs _)
    (fun n => sum_sin_sq_half hk hs _) (fun n => sum_cos_sin_half hk hs _) ?_ hlen (by
      rw [pairs_length]; exact hE)
  · intro n b hb
    unfold decQpsk
    rw [rsum_mapIdx_real, rsum_mapIdx_real, hb]
    simp only [Flt.le_real, phase_real, Flt.cos_real, Flt.sin_real]
  · rw [← htx]
    congr 1
    funext n p j
    simp only [phase_real, Flt.cos_real, Flt.sin_real]

/-- CDMA over QPSK. -/
theorem C73_cdma_qpsk [RIter ι Bool] {m : ι} {msg : List Bool} (h : Yields m msg) {fs sym : ℕ} {fc : ℝ} {key : List Bool}
    (hfs : fs < 2 ^ 64) (hsym : 0 < sym) (hkey : key ≠ []) (hdvd : sym * key.length ∣ fs)
    (hnyq : 2 * (sym * key.length) ≤ fs) (hfc : ⌊fc⌋₊ ≤ fs / 2)
    {p : ℤ} (hp : (fs / sym : ℕ) * (2 * fc) = p * fs) (hne : ∀ q : ℤ, 2 * fc ≠ q * fs)
    {tx noise : List ℝ} (htx : (do let it ← txCdmaQpsk m fs sym fc key; collect it) = pure tx)
    (hlen : noise.length = tx.length)
    (hE : ∀ n < msg.length / 2,
      2 * ((symbol (fs / sym) n noise).map (· ^ 2)).sum < ((symbol (fs / sym) n tx).map (· ^ 2)).sum) :
    (do let rx ← rxCdmaQpsk (ofList (List.zipWith (· + ·) tx noise)) fs sym fc key; collect rx)
      = pure (msg.take (2 * (msg.length / 2))) := by
  have hok := (cdmaOk_real (fc := fc) hfs).mpr ⟨hsym, List.length_pos_iff.mpr hkey, hdvd, hnyq, hfc⟩
  have h1 := hok.sps
  have h3 := hok.key_pos
  have hsps : 0 < fs / sym := by omega
  obtain ⟨hk, hs⟩ := half_periods hsps hp hne
  obtain ⟨it, e1, e2⟩ := txCdmaQpsk_ok h hok
  rw [e1, pure_bind, collect_of_yields e2, RM.ok_inj, mapIdx_wave] at htx
  obtain ⟨it', e3, e4⟩ := rxCdmaQpsk_sym (yields_ofList (List.zipWith (· + ·) tx noise)) hok
  rw [e3, pure_bind, collect_of_yields e4, ← pairs_flat, List.flatMap_def]
  congr 2
  have hk2 : ∀ i, (bitToNrz (keyBit key (fs / sym / key.length) i) : ℝ) ^ 2 = 1 := by
    intro i; rw [sq, bitToNrz_sq]
  refine noise_quad hsps (fun n j => Real.cos ((n * (fs / sym) + j : ℕ) * dphi fs fc)
      * bitToNrz (keyBit key (fs / sym / key.length) (n * (fs / sym) + j)))
    (fun n j => Real.sin ((n * (fs / sym) + j : ℕ) * dphi fs fc)
      * bitToNrz (keyBit key (fs / sym / key.length) (n * (fs / sym) + j))) _ ?_ (fun n => ?_)
    (fun n => ?_) (fun n => ?_) ?_ hlen (by rw [pairs_length]; exact hE)
  · intro n b hb
    unfold decQpsk despreadSym
    rw [mapIdx_mapIdx', mapIdx_mapIdx', rsum_mapIdx_real, rsum_mapIdx_real, hb]
    simp only [Flt.le_real, phase_real, Flt.cos_real, Flt.sin_real]
    congr 1
    · congr 3; funext j; ring
    · congr 4; funext j; ring
  · simp only [mul_pow, hk2, mul_one]; exact sum_cos_sq_half hk hs _
  · simp only [mul_pow, hk2, mul_one]; exact sum_sin_sq_half hk hs _
  · rw [← sum_cos_sin_half hk hs (n * (fs / sym))]
    apply Finset.sum_congr rfl
    intro j _
    have := hk2 (n * (fs / sym) + j)
    linear_combination (Real.cos ((n * (fs / sym) + j : ℕ) * dphi fs fc) * Real.sin ((n * (fs / sym) + j : ℕ) * dphi fs fc)) * this
  · rw [← htx]
    congr 1
    funext n p j
    simp only [phase_real, Flt.cos_real, Flt.sin_real]
    ring

private theorem tones {fs sym c : ℕ} (hsym : 0 < sym) (hc : 0 < c) (hdvd : sym ∣ fs) (hny : (41 * c * sym : ℕ) < fs)
    (b : Bool) :
    (∀ m : ℕ, toneEnergy (tone fs ((20 * c * sym : ℕ) : ℝ) b) (fs / sym)
      (fun j => Real.cos (tone fs ((20 * c * sym : ℕ) : ℝ) b * (m + j : ℕ))) = ((fs / sym : ℕ) / 2) ^ 2) ∧
    (∀ m : ℕ, toneEnergy (tone fs ((20 * c * sym : ℕ) : ℝ) (!b)) (fs / sym)
      (fun j => Real.cos (tone fs ((20 * c * sym : ℕ) : ℝ) b * (m + j : ℕ))) = 0) ∧
    (∀ m : ℕ, ∑ j ∈ Finset.range (fs / sym), Real.cos (tone fs ((20 * c * sym : ℕ) : ℝ) b * (m + j : ℕ)) ^ 2
      = (fs / sym : ℕ) / 2) ∧
    ∀ e : ℕ → ℝ, toneEnergy (tone fs ((20 * c * sym : ℕ) : ℝ) b) (fs / sym) e
      + toneEnergy (tone fs ((20 * c * sym : ℕ) : ℝ) (!b)) (fs / sym) e
      ≤ (fs / sym : ℕ) / 2 * ∑ j ∈ Finset.range (fs / sym), e j ^ 2 := by
  have hfs : 0 < fs := by omega
  have hsps : 0 < fs / sym := Nat.div_pos (Nat.le_of_dvd hfs hdvd) hsym
  have hk : ((fs / sym : ℕ) : ℝ) * sym = fs := by exact_mod_cast Nat.div_mul_cancel hdvd
  have hfsR : (0 : ℝ) < fs := by exact_mod_cast hfs
  have hsymR : (0 : ℝ) < sym := by exact_mod_cast hsym
  have hcR : (0 : ℝ) < c := by exact_mod_cast hc
  have hnyR : (41 : ℝ) * c * sym < fs := by exact_mod_cast hny
  have hkR : (0 : ℝ) < ((fs / sym : ℕ) : ℝ) := by exact_mod_cast hsps
  have hpi := Real.pi_pos
  set w := tone fs ((20 * c * sym : ℕ) : ℝ) with hw
  set u : Bool → ℤ := fun b => if b then 41 else 39 with hu
  have hr0 : 0 < (c : ℝ) * sym / fs := by positivity
  have hr1 : 41 * ((c : ℝ) * sym / fs) < 1 := by
    rw [← mul_div_assoc, div_lt_one hfsR]; linarith
  have hkr : ((fs / sym : ℕ) : ℝ) * (c * sym / fs) = c := by
    rw [show ((fs / sym : ℕ) : ℝ) * (c * sym / fs) = c * (((fs / sym : ℕ) : ℝ) * sym) / fs by ring, hk]
    field_simp
  have hwb : ∀ b, w b = u b * Real.pi * (c * sym / fs) := by
    intro b; cases b <;> rw [hw] <;> simp [tone, hu] <;> ring
  generalize hrd : (c : ℝ) * sym / fs = r at *
  have hsin : ∀ x : ℝ, 0 < x → x < 1 → Real.sin (x * Real.pi) ≠ 0 := fun x h0 h1 =>
    (Real.sin_pos_of_pos_of_lt_pi (by positivity) (by nlinarith)).ne'
  have hub : ∀ b, (u b : ℝ) ≤ 41 ∧ (0 : ℝ) < u b := by intro b; cases b <;> simp [hu] <;> norm_num
  have s1 : ∀ b, Real.sin (w b) ≠ 0 := by
    intro b
    have h1 := hub b
    rw [hwb, show (u b : ℝ) * Real.pi * r = (u b * r) * Real.pi by ring]
    exact hsin _ (by nlinarith) (by nlinarith)
  have hsum : w b + w (!b) = 2 * (40 * r * Real.pi) := by
    rw [hwb, hwb]; cases b <;> simp [hu] <;> ring
  have s3 : Real.sin ((w b + w (!b)) / 2) ≠ 0 := by
    rw [hsum, mul_div_cancel_left₀ _ (two_ne_zero)]
    exact hsin _ (by linarith) (by linarith)
  have hdif : ∃ q : ℤ, w b - w (!b) = 2 * (q * r * Real.pi) ∧ (q = 1 ∨ q = -1) := by
    rw [hwb, hwb]
    cases b
    · exact ⟨-1, by simp [hu]; ring, .inr rfl⟩
    · exact ⟨1, by simp [hu]; ring, .inl rfl⟩
  obtain ⟨q, hdif, hq⟩ := hdif
  have s4 : Real.sin ((w b - w (!b)) / 2) ≠ 0 := by
    rw [hdif, mul_div_cancel_left₀ _ (two_ne_zero)]
    rcases hq with rfl | rfl
    · simpa using hsin r hr0 (by linarith)
    · rw [show ((-1 : ℤ) : ℝ) * r * Real.pi = -(r * Real.pi) by push_cast; ring, Real.sin_neg, neg_ne_zero]
      exact hsin r hr0 (by linarith)
  have kb : ∀ b, ((fs / sym : ℕ) : ℝ) * w b = (u b * c : ℤ) * Real.pi := by
    intro b; rw [hwb]; push_cast; linear_combination (u b : ℝ) * Real.pi * hkr
  have k1 : ((fs / sym : ℕ) : ℝ) * (w b + w (!b)) = (40 * c : ℤ) * (2 * Real.pi) := by
    rw [hsum]; push_cast; linear_combination 80 * Real.pi * hkr
  have k2 : ((fs / sym : ℕ) : ℝ) * (w b - w (!b)) = (q * c : ℤ) * (2 * Real.pi) := by
    rw [hdif]; push_cast; linear_combination 2 * q * Real.pi * hkr
  refine ⟨fun m => toneEnergy_self (kb b) (s1 b) m, fun m => toneEnergy_other k1 k2 s3 s4 m, fun m => ?_, fun e => ?_⟩
  · rw [← sum_cos_sq_half (kb b) (s1 b) m]
    apply Finset.sum_congr rfl; intro j _; rw [mul_comm]
  · rw [add_comm]
    exact tone_bessel hsps (kb _) (kb _) k1 k2 (s1 _) (s1 _) s3 s4 e

/-- FSK with orthogonal tones: every disturbance with less than half the energy of the symbol. -/
theorem C73_fsk [RIter ι Bool] {m : ι} {msg : List Bool} (h : Yields m msg) {fs sym c : ℕ}
    (hsym : 0 < sym) (hc : 0 < c) (hdvd : sym ∣ fs) (hny : (41 * c * sym : ℕ) < fs) {tx noise : List ℝ}
    (htx : (do let it ← txFsk m fs sym ((20 * c * sym : ℕ) : ℝ); collect it) = pure tx) (hlen : noise.length = tx.length)
    (hE : ∀ n < msg.length,
      2 * ((symbol (fs / sym) n noise).map (· ^ 2)).sum < ((symbol (fs / sym) n tx).map (· ^ 2)).sum) :
    (do let rx ← rxFsk (ofList (List.zipWith (· + ·) tx noise)) fs sym ((20 * c * sym : ℕ) : ℝ); collect rx) = pure msg := by
  have hfs : 0 < fs := by omega
  have hsps : 0 < fs / sym := Nat.div_pos (Nat.le_of_dvd hfs hdvd) hsym
  obtain ⟨it, e1, e2⟩ := txFsk_ok h (fc := ((20 * c * sym : ℕ) : ℝ)) hsps
  rw [e1, pure_bind, collect_of_yields e2, RM.ok_inj] at htx
  obtain ⟨it', e3, e4⟩ := rxFsk_sym (yields_ofList (List.zipWith (· + ·) tx noise)) (fc := ((20 * c * sym : ℕ) : ℝ)) hsps
  have hlt : (List.zipWith (· + ·) tx noise).length = msg.length * (fs / sym) := by
    rw [List.length_zipWith, hlen, Nat.min_self, ← htx, wave_length]
  rw [e3, pure_bind, collect_of_yields e4, blocks_eq_fullBlocks hsps _ (by rw [hlt]; exact Nat.dvd_mul_left _ _)]
  congr 1
  have hid : msg = msg.map (fun b => b) := by simp
  conv_rhs => rw [hid]
  refine noise_gen hsps _ _ _ htx.symm hlen ?_
  intro n b e hn hel he hs
  have hlt : n < msg.length := by
    by_contra h
    rw [List.getElem?_eq_none (by omega)] at hn
    simp at hn
  have hE' := hE n hlt
  rw [← he, hs, sum_sq_getD hel, sum_sq_range] at hE'
  have hph : ∀ i : ℕ, phase fs (((20 * c * sym : ℕ) : ℝ) + bitToNrz b * (fskSep ((20 * c * sym : ℕ) : ℝ) / Flt.ofNat 2)) i
      = tone fs ((20 * c * sym : ℕ) : ℝ) b * i := by
    intro i
    rw [phase_real', tone, bitToNrz_real, fskSep, Flt.lit_real, Flt.ofNat_real]
    cases b <;> simp <;> ring
  simp only [hph, Flt.cos_real] at hE' ⊢
  obtain ⟨t1, t2, t3, t4⟩ := tones hsym hc hdvd hny b
  have t1 := t1 (n * (fs / sym))
  have t2 := t2 (n * (fs / sym))
  have t4 := t4 (fun j => e.getD j 0)
  rw [t3 (n * (fs / sym))] at hE'
  have hkR : (0 : ℝ) < ((fs / sym : ℕ) : ℝ) := by exact_mod_cast hsps
  have hlen2 : (List.zipWith (· + ·) ((List.range (fs / sym)).map
      (fun j => Real.cos (tone fs ((20 * c * sym : ℕ) : ℝ) b * (n * (fs / sym) + j : ℕ)))) e).length = fs / sym := by
    simp [hel]
  have hwin : toneEnergy (tone fs ((20 * c * sym : ℕ) : ℝ) !b) (fs / sym) (fun j => (List.zipWith (· + ·)
        ((List.range (fs / sym)).map (fun j => Real.cos (tone fs ((20 * c * sym : ℕ) : ℝ) b * (n * (fs / sym) + j : ℕ)))) e).getD j 0)
      < toneEnergy (tone fs ((20 * c * sym : ℕ) : ℝ) b) (fs / sym) (fun j => (List.zipWith (· + ·)
        ((List.range (fs / sym)).map (fun j => Real.cos (tone fs ((20 * c * sym : ℕ) : ℝ) b * (n * (fs / sym) + j : ℕ)))) e).getD j 0) := by
    unfold toneEnergy at t1 t2 t4 ⊢
    rw [corr_zipWith _ hel, corr_zipWith _ hel, corr_zipWith _ hel, corr_zipWith _ hel]
    have z1 := (add_eq_zero_iff_of_nonneg (sq_nonneg _) (sq_nonneg _)).mp t2
    rw [pow_eq_zero_iff two_ne_zero, pow_eq_zero_iff two_ne_zero] at z1
    rw [z1.1, z1.2, zero_add, zero_add]
    generalize ∑ j ∈ Finset.range (fs / sym), e.getD j 0 ^ 2 = E at hE' t4
    generalize ∑ j ∈ Finset.range (fs / sym), e.getD j 0 * Real.cos (tone fs ((20 * c * sym : ℕ) : ℝ) (!b) * j) = x1 at t4 ⊢
    generalize ∑ j ∈ Finset.range (fs / sym), e.getD j 0 * Real.sin (tone fs ((20 * c * sym : ℕ) : ℝ) (!b) * j) = x2 at t4 ⊢
    generalize ∑ j ∈ Finset.range (fs / sym), e.getD j 0 * Real.cos (tone fs ((20 * c * sym : ℕ) : ℝ) b * j) = y1 at t4 ⊢
    generalize ∑ j ∈ Finset.range (fs / sym), e.getD j 0 * Real.sin (tone fs ((20 * c * sym : ℕ) : ℝ) b * j) = y2 at t4 ⊢
    generalize ∑ j ∈ Finset.range (fs / sym), Real.cos (tone fs ((20 * c * sym : ℕ) : ℝ) b * (n * (fs / sym) + j : ℕ)) *
      Real.cos (tone fs ((20 * c * sym : ℕ) : ℝ) b * j) = a1 at t1 ⊢
    generalize ∑ j ∈ Finset.range (fs / sym), Real.cos (tone fs ((20 * c * sym : ℕ) : ℝ) b * (n * (fs / sym) + j : ℕ)) *
      Real.sin (tone fs ((20 * c * sym : ℕ) : ℝ) b * j) = a2 at t1 ⊢
    generalize ((fs / sym : ℕ) : ℝ) = k at *
    nlinarith [sq_nonneg (a1 / 2 + y1), sq_nonneg (a2 / 2 + y2)]
  rw [fskChunk_offset, hlen2]
  cases b
  · exact decide_eq_false (not_le.mpr hwin)
  · exact decide_eq_true hwin.le

/-- The transmission itself has positive energy, so that there are such disturbances: three BPSK bits at four samples
each, and a disturbance that puts `1/2` on every sample. -/
example : (do let rx ← rxBpsk (ofList (List.zipWith (· + ·) [1, 0, -1, 0, -1, 0, 1, 0] (List.replicate 8 (1 / 2 : ℝ)))) 8 2 (2 : ℝ)
              collect rx) = pure [true, false] := by
  have htx : (do let it ← txBpsk (ofList [true, false]) 8 2 (2 : ℝ); collect it) = pure [1, 0, -1, 0, -1, 0, 1, 0] := by
    obtain ⟨it, l, h1, h2, h3, h4⟩ := C26_waveform (yields_ofList [true, false]) (fs := 8) (sym := 2) (fc := 2)
      (by norm_num) (by norm_num) (by norm_num) (by norm_num)
    rw [h1, pure_bind, collect_of_yields h2]
    congr 1
    have c : ∀ i : ℕ, Real.cos (2 * Real.pi * 2 * i / (8 : ℕ)) = Real.cos (i * (Real.pi / 2)) := by
      intro i; congr 1; push_cast; ring
    simp only [c] at h4
    apply List.ext_getElem?
    intro i
    rw [h4]
    have c2 : Real.cos (3 * (Real.pi / 2)) = 0 := by
      rw [show 3 * (Real.pi / 2) = Real.pi + Real.pi / 2 by ring, Real.cos_add]; simp
    have c3 : Real.cos (2 * (Real.pi / 2)) = -1 := by rw [mul_div_cancel₀ _ two_ne_zero, Real.cos_pi]
    have per : ∀ j : ℕ, Real.cos ((j + 4 : ℕ) * (Real.pi / 2)) = Real.cos (j * (Real.pi / 2)) := by
      intro j
      rw [show ((j + 4 : ℕ) : ℝ) * (Real.pi / 2) = j * (Real.pi / 2) + 2 * Real.pi by push_cast; ring, Real.cos_add_two_pi]
    have c4 := per 0
    have c5 := per 1
    have c6 := per 2
    have c7 := per 3
    norm_num at c4 c5 c6 c7
    rw [c3] at c6
    rw [c2] at c7
    rcases i with _ | _ | _ | _ | _ | _ | _ | _ | i
    · simp
    · simp
    · simp [c3]
    · simp [c2]
    · simp [c4]
    · simp [c5]
    · simp [c6]
    · simp [c7]
    · simp; omega
  refine C73_bpsk (yields_ofList [true, false]) (by norm_num) (by norm_num) (by norm_num) (by norm_num) htx (by simp) ?_
  intro n hn
  have hn : n < 2 := hn
  interval_cases n <;> norm_num [symbol, List.replicate]

theorem guards_16 : ¬ (rxCdmaBpsk (ofList ([] : List ℝ)) 16000 1000 2000 [true, false]).Panics ∧
    ¬ (rxCdmaQpsk (ofList ([] : List ℝ)) 16000 1000 2000 [true, false]).Panics := by
  rw [rxCdmaBpsk_panics, rxCdmaQpsk_panics, not_not]; exact ⟨Cases.ok (by decide), Cases.ok (by decide)⟩

/-- Any recording of 50 samples, keyed receivers: three bits, and six; the two samples left over are ignored, … -/
example (l : List ℝ) (h : l.length = 50) :
    (∃ bits, (do let rx ← rxCdmaBpsk (ofList l) 16000 1000 (2000 : ℝ) [true, false]; collect rx) = pure bits ∧ bits.length = 3) ∧
    ∃ bits, (do let rx ← rxCdmaQpsk (ofList l) 16000 1000 (2000 : ℝ) [true, false]; collect rx) = pure bits ∧ bits.length = 6 := by
  obtain ⟨b, h1, h2⟩ := (C71_cdma_bpsk guards_16.1).total l
  obtain ⟨c, h3, h4⟩ := (C71_cdma_qpsk guards_16.2).total l
  exact ⟨⟨b, h1, by rw [h2, h]⟩, c, h3, by rw [h4, h]⟩

/-- … and doubling it changes nothing. -/
example (l : List ℝ) : (do let rx ← rxCdmaBpsk (ofList (l.map (2 * ·))) 16000 1000 (2000 : ℝ) [true, false]; collect rx)
    = (do let rx ← rxCdmaBpsk (ofList l) 16000 1000 2000 [true, false]; collect rx) := C72_cdma_bpsk guards_16.1 l (by norm_num)

example (l : List ℝ) : (do let rx ← rxCdmaQpsk (ofList (l.map (2 * ·))) 16000 1000 (2000 : ℝ) [true, false]; collect rx)
    = (do let rx ← rxCdmaQpsk (ofList l) 16000 1000 2000 [true, false]; collect rx) := C72_cdma_qpsk guards_16.2 l (by norm_num)

example (l : List ℝ) : (do let rx ← rxBpsk (ofList (l.map (2 * ·))) 16000 1000 (2000 : ℝ); collect rx)
    = (do let rx ← rxBpsk (ofList l) 16000 1000 2000; collect rx) := C72_bpsk _ (by norm_num) l (by norm_num)

example [Rng ρ] (l : List ℝ) : (do let rx ← rxFhBpsk ρ (ofList (l.map (2 * ·))) (1000 : ℝ) 3000 4 16000 1000; collect rx)
    = (do let rx ← rxFhBpsk ρ (ofList l) (1000 : ℝ) 3000 4 16000 1000; collect rx) :=
  C72_hopping (by norm_num) (by norm_num) (by norm_num) (by norm_num) (by norm_num) l (by norm_num)

/-- The FSK receiver does not even see the polarity. -/
example (l : List ℝ) : (do let rx ← rxFsk (ofList (l.map ((-2) * ·))) 16000 1000 (2000 : ℝ); collect rx)
    = (do let rx ← rxFsk (ofList l) 16000 1000 2000; collect rx) := C72_fsk _ (by norm_num) l (by norm_num)

/-! ## Worked cases of C71–C73 -/

example (l : List Float) (h : l.length = 5) :
    ∃ bits, (do let rx ← rxQpsk (ofList l) 8 4 (1 : Float); collect rx) = pure bits ∧ bits.length = 2 * 2 := by
  obtain ⟨bits, h1, h2⟩ := (C71_qpsk (fs := 8) (sym := 4) (1 : Float) (by norm_num)).total l
  exact ⟨bits, h1, by rw [h2, h]⟩

/-- The FSK receiver answers the incomplete last symbol as well. -/
example (l : List Float) (h : l.length = 5) :
    ∃ bits, (do let rx ← rxFsk (ofList l) 8 4 (1 : Float); collect rx) = pure bits ∧ bits.length = 3 := by
  obtain ⟨bits, h1, h2⟩ := (C71_fsk (fs := 8) (sym := 4) (1 : Float) (by norm_num)).total l
  exact ⟨bits, h1, by rw [h2, h]⟩

example [Rng ρ] (l : List ℝ) (h : l.length = 50) :
    ∃ bits, (do let rx ← rxFhBpsk ρ (ofList l) (1000 : ℝ) 3000 4 16000 1000; collect rx) = pure bits ∧ bits.length = 3 := by
  obtain ⟨bits, h1, h2⟩ := (C71_hopping (ρ := ρ) (low := (1000 : ℝ)) (high := 3000) (nf := 4) (fs := 16000) (sym := 1000)
    (by norm_num) (by norm_num) (by rw [Flt.toNat_real]; norm_num) Cases.guard16).total l
  exact ⟨bits, h1, by rw [h2, h]⟩

/-- A key of three chips does not divide the symbol of 16 samples: refused.  One of four does: accepted. -/
example (l : List ℝ) : (rxCdmaBpsk (ofList l) 16000 1000 (2000 : ℝ) [true, false, true]).Panics ∧
    ¬ (rxCdmaBpsk (ofList l) 16000 1000 (2000 : ℝ) [true, false, true, true]).Panics := by
  refine ⟨(C71_cdma_accepts _ (by norm_num)).1.mpr ?_, fun h => (C71_cdma_accepts _ (by norm_num)).1.mp h ?_⟩ <;> simp

example (l : List ℝ) : (do let rx ← rxQpsk (ofList (l.map (2 * ·))) 16000 1000 (2000 : ℝ); collect rx)
    = (do let rx ← rxQpsk (ofList l) 16000 1000 2000; collect rx) := C72_qpsk _ (by norm_num) l (by norm_num)

/-- One symbol of one sample at the carrier 0: `[3]` reads as one bit, `[-3]` as the other. -/
example (bits bits' : List Bool)
    (h : (do let rx ← rxBpsk (ofList [(3 : ℝ)]) 1 1 0; collect rx) = pure bits)
    (h' : (do let rx ← rxBpsk (ofList [(-3 : ℝ)]) 1 1 0; collect rx) = pure bits') : bits'[0]? = bits[0]?.map (!·) :=
  C72_inverted (fs := 1) (sym := 1) 0 (by norm_num) [3] (n := 0) h h' (by norm_num) (by norm_num)

private theorem quarter {a : List ℝ} {k N : ℕ} {E : ℝ} (hk : 0 < k) (h : SymbolEnergy a k N E) (hE : 0 < E) :
    ∀ n < N, 2 * ((symbol k n (a.map (· * (-1 / 2)))).map (· ^ 2)).sum < ((symbol k n a).map (· ^ 2)).sum := by
  intro n hn
  have h1 : symbol k n (a.map (· * (-1 / 2))) = (symbol k n a).map (· * (-1 / 2 : ℝ)) := by
    simp [symbol, List.map_take, List.map_drop]
  have h2 : ((symbol k n a).map (· ^ 2)).sum = E := by
    have e := congrArg (·[n]?) h.symbols
    simp only [List.getElem?_map, List.getElem?_replicate, if_pos hn, Option.map_eq_some_iff] at e
    obtain ⟨s, e1, e2⟩ := e
    rw [blocks_getElem?' hk] at e1
    split at e1
    · rw [← e2]; simp only [symbol]; rw [Option.some_inj.mp e1]
    · simp at e1
  have h3 : (((symbol k n a).map (· * (-1 / 2 : ℝ))).map (· ^ 2)).sum = 1 / 4 * ((symbol k n a).map (· ^ 2)).sum := by
    rw [← List.sum_map_mul_left, List.map_map]
    congr 1
    apply List.map_congr_left
    intro x _
    simp only [Function.comp_apply]
    ring
  rw [h1, h3, h2]
  linarith

private theorem quarter' {a : List ℝ} {k N : ℕ} {E : ℝ} (hk : 0 < k) (h : SymbolEnergy a k N E) (hE : 0 < E) :
    ∀ n < N, ((symbol k n (a.map (· * (-1 / 2)))).map (· ^ 2)).sum < ((symbol k n a).map (· ^ 2)).sum := by
  intro n hn
  have h1 := quarter hk h hE n hn
  have h2 : 0 ≤ ((symbol k n (a.map (· * (-1 / 2)))).map (· ^ 2)).sum := by
    apply List.sum_nonneg
    intro x hx
    obtain ⟨y, -, rfl⟩ := List.mem_map.mp hx
    positivity
  linarith

private theorem wh16' : WholeHalf 16000 (16000 / 1000) (2000 : ℝ) :=
  WholeHalf.of_nat (f := 2000) (p := 4) (by norm_num) (by norm_num)

/-- A disturbance which is the transmitted signal itself at half amplitude and inverted: a quarter of the energy of every
symbol. -/
example (msg : List Bool) : ∃ tx : List ℝ, (do let it ← txCdmaBpsk (ofList msg) 16000 1000 (2000 : ℝ) [true, false]; collect it) = pure tx ∧
    (do let rx ← rxCdmaBpsk (ofList (List.zipWith (· + ·) tx (tx.map (· * (-1 / 2))))) 16000 1000 (2000 : ℝ) [true, false]; collect rx)
      = pure msg := by
  obtain ⟨a, ha, -⟩ := Cases.cdmaBpsk msg (key := [true, false]) (by decide)
  refine ⟨a, ha, C73_cdma_bpsk (yields_ofList msg) (by norm_num) (by norm_num) (by simp) (by simp) (by simp) (by norm_num) ha
    (by simp) (quarter' (by norm_num) (C78_cdma_bpsk (yields_ofList msg) wh16' ha) (by norm_num))⟩

example (msg : List Bool) : ∃ tx : List ℝ, (do let it ← txQpsk (ofList msg) 16000 1000 (2000 : ℝ); collect it) = pure tx ∧
    (do let rx ← rxQpsk (ofList (List.zipWith (· + ·) tx (tx.map (· * (-1 / 2))))) 16000 1000 (2000 : ℝ); collect rx)
      = pure (msg.take (2 * (msg.length / 2))) := by
  obtain ⟨a, ha, -⟩ := Cases.qpsk msg
  obtain ⟨⟨p, hp⟩, hne⟩ := wh16'
  exact ⟨a, ha, C73_qpsk (yields_ofList msg) (by norm_num) hp hne ha (by simp)
    (quarter (by norm_num) (C78_qpsk (yields_ofList msg) (by norm_num) wh16' ha) (by norm_num))⟩

example (msg : List Bool) : ∃ tx : List ℝ, (do let it ← txCdmaQpsk (ofList msg) 16000 1000 (2000 : ℝ) [true, false]; collect it) = pure tx ∧
    (do let rx ← rxCdmaQpsk (ofList (List.zipWith (· + ·) tx (tx.map (· * (-1 / 2))))) 16000 1000 (2000 : ℝ) [true, false]; collect rx)
      = pure (msg.take (2 * (msg.length / 2))) := by
  obtain ⟨a, ha, -⟩ := Cases.cdmaQpsk msg (key := [true, false]) (by decide)
  obtain ⟨⟨p, hp⟩, hne⟩ := wh16'
  exact ⟨a, ha, C73_cdma_qpsk (yields_ofList msg) (by norm_num) (by norm_num) (by simp) (by simp) (by simp) (by norm_num) hp hne ha (by simp)
    (quarter (by norm_num) (C78_cdma_qpsk (yields_ofList msg) wh16' ha) (by norm_num))⟩

example [Rng ρ] (msg : List Bool) :
    ∃ tx : List ℝ, (do let it ← txFhBpsk ρ (ofList msg) (1000 : ℝ) 3000 4 16000 1000; collect it) = pure tx ∧
    (do let rx ← rxFhBpsk ρ (ofList (List.zipWith (· + ·) tx (tx.map (· * (-1 / 2))))) (1000 : ℝ) 3000 4 16000 1000; collect rx)
      = pure msg := by
  obtain ⟨a, ha, -⟩ := Cases.hopping ρ msg
  have hE := C78_hopping (yields_ofList msg) (by norm_num) (by norm_num) Cases.hop_freqs (fun f hf => by
    simp only [List.mem_cons, List.not_mem_nil, or_false] at hf
    rcases hf with rfl | rfl | rfl | rfl
    · exact WholeHalf.of_nat (f := 1000) (p := 2) (by norm_num) (by norm_num)
    · exact WholeHalf.of_nat (f := 1500) (p := 3) (by norm_num) (by norm_num)
    · exact WholeHalf.of_nat (f := 2000) (p := 4) (by norm_num) (by norm_num)
    · exact WholeHalf.of_nat (f := 2500) (p := 5) (by norm_num) (by norm_num)) ha
  exact ⟨a, ha, C73_hopping (yields_ofList msg) (by norm_num) (by norm_num) (by norm_num) (by norm_num) (by norm_num) (by norm_num)
    (by norm_num) ha (by simp) (quarter' (by norm_num) hE (by norm_num))⟩

example (msg : List Bool) :
    ∃ tx : List ℝ, (do let it ← txFsk (ofList msg) 160000 1000 ((20 * 2 * 1000 : ℕ) : ℝ); collect it) = pure tx ∧
    (do let rx ← rxFsk (ofList (List.zipWith (· + ·) tx (tx.map (· * (-1 / 2))))) 160000 1000 ((20 * 2 * 1000 : ℕ) : ℝ); collect rx)
      = pure msg := by
  obtain ⟨it, e1, e2⟩ := txFsk_ok (yields_ofList msg) (fs := 160000) (sym := 1000) (fc := ((20 * 2 * 1000 : ℕ) : ℝ)) (by norm_num)
  obtain ⟨a, ha⟩ : ∃ a : List ℝ, (do let it ← txFsk (ofList msg) 160000 1000 ((20 * 2 * 1000 : ℕ) : ℝ); collect it) = pure a :=
    ⟨_, by rw [e1, pure_bind]; exact collect_of_yields e2⟩
  have hl : WholeHalf 160000 (160000 / 1000) (975 / 1000 * ((20 * 2 * 1000 : ℕ) : ℝ)) := by
    rw [show 975 / 1000 * ((20 * 2 * 1000 : ℕ) : ℝ) = (39000 : ℕ) by norm_num]
    exact WholeHalf.of_nat (p := 78) (by norm_num) (by norm_num)
  have hh : WholeHalf 160000 (160000 / 1000) (1025 / 1000 * ((20 * 2 * 1000 : ℕ) : ℝ)) := by
    rw [show 1025 / 1000 * ((20 * 2 * 1000 : ℕ) : ℝ) = (41000 : ℕ) by norm_num]
    exact WholeHalf.of_nat (p := 82) (by norm_num) (by norm_num)
  exact ⟨a, ha, C73_fsk (yields_ofList msg) (by norm_num) (by norm_num) (by norm_num) (by norm_num) ha (by simp)
    (quarter (by norm_num) (C78_fsk (yields_ofList msg) (by norm_num) hl hh ha) (by norm_num))⟩

/-- A disturbance exactly as strong as the signal can erase it. -/
example (msg : List Bool) : ∃ tx : List ℝ, (do let it ← txBpsk (ofList msg) 16000 1000 (2000 : ℝ); collect it) = pure tx ∧
    ∃ noise : List ℝ, noise.length = tx.length ∧
      (∀ n < msg.length, ((symbol 16 n noise).map (· ^ 2)).sum = ((symbol 16 n tx).map (· ^ 2)).sum) ∧
      (do let rx ← rxBpsk (ofList (List.zipWith (· + ·) tx noise)) 16000 1000 (2000 : ℝ); collect rx)
        = pure (msg.map (fun _ => false)) := by
  obtain ⟨a, ha, -⟩ := Cases.bpsk msg
  exact ⟨a, ha, C73_bpsk_sharp (yields_ofList msg) (fs := 16000) (sym := 1000) (by norm_num) (by norm_num) (by norm_num) (by norm_num) ha⟩

end Verif.Props
