import Verif.Lemmas.Nan
import Verif.Props.Ieee
import Verif.Props.Receivers
import Verif.F64.Sign

/-!
# C123: samples that are not numbers

IEEE double arithmetic, any mathematical library, any recording.  `isMissing` (NaN), `isUnusable` (NaN or infinite), `Spoilt` and
`FailsLow` are in Spec/Bad.
-/
namespace Verif.Props
open Verif Spec F64
variable {L : Libm}

private theorem of_form {P : FloatL L → Bool} {k m : ℕ} (hk : 0 < k) (hm : 0 < m) {rx : List (FloatL L) → RM (List Bool)}
    (D : ℕ → List (FloatL L) → List Bool) (hD : ∀ n b, (D n b).length = m)
    (hN : ∀ n b, b.any P = true → D n b = List.replicate m false) (h : ∀ l, rx l = pure ((fullBlocks k l).mapIdx D).flatten) :
    FailsLow P k m rx :=
  fun l l' hl => ⟨_, h l, by rw [h l', lost_form hk hm hl D hD hN]⟩

/-! ## Receivers -/

theorem C123_bpsk {fs sym : ℕ} (fc : FloatL L) (hsps : 0 < fs / sym) :
    FailsLow isMissing (fs / sym) 1 (fun l => do let rx ← rxBpsk (ofList l) fs sym fc; collect rx) := by
  refine of_form hsps one_pos (fun n b => [decBpsk fs (fs / sym) fc n b]) (fun _ _ => rfl) (fun n b hb => by rw [decBpsk_nan hb]; rfl) ?_
  intro l
  obtain ⟨it, h1, h2⟩ := rxBpsk_sym (yields_ofList l) (fc := fc) hsps
  rw [h1, pure_bind, collect_of_yields h2, flatten_mapIdx_singleton]

theorem C123_qpsk {fs sym : ℕ} (fc : FloatL L) (hsps : 0 < fs / sym) :
    FailsLow isMissing (fs / sym) 2 (fun l => do let rx ← rxQpsk (ofList l) fs sym fc; collect rx) := by
  refine of_form hsps two_pos (decQpsk fs (fs / sym) fc) (fun _ _ => rfl) (fun n b hb => by rw [decQpsk_nan hb]; rfl) ?_
  intro l
  obtain ⟨it, h1, h2⟩ := rxQpsk_sym (yields_ofList l) (fc := fc) hsps
  rw [h1, pure_bind, collect_of_yields h2]

theorem C123_cdma_bpsk {fs sym : ℕ} {fc : FloatL L} {key : List Bool} (hok : ¬ (rxCdmaBpsk (ofList ([] : List (FloatL L))) fs sym fc key).Panics) :
    FailsLow isMissing (fs / sym) 1 (fun l => do let rx ← rxCdmaBpsk (ofList l) fs sym fc key; collect rx) := by
  rw [rxCdmaBpsk_panics, not_not] at hok
  have hs := hok.sps
  have hp := hok.key_pos
  refine of_form (show 0 < fs / sym by omega) one_pos
    (fun n b => [decBpsk fs (fs / sym) fc n (despreadSym key (fs / sym / key.length) (fs / sym) n b)]) (fun _ _ => rfl)
    (fun n b hb => by rw [decBpsk_nan (despread_nan hb _ _ _ _)]; rfl) ?_
  intro l
  obtain ⟨it, h1, h2⟩ := rxCdmaBpsk_sym (yields_ofList l) hok
  rw [h1, pure_bind, collect_of_yields h2, flatten_mapIdx_singleton]

theorem C123_cdma_qpsk {fs sym : ℕ} {fc : FloatL L} {key : List Bool} (hok : ¬ (rxCdmaQpsk (ofList ([] : List (FloatL L))) fs sym fc key).Panics) :
    FailsLow isMissing (fs / sym) 2 (fun l => do let rx ← rxCdmaQpsk (ofList l) fs sym fc key; collect rx) := by
  rw [rxCdmaQpsk_panics, not_not] at hok
  have hs := hok.sps
  have hp := hok.key_pos
  refine of_form (show 0 < fs / sym by omega) two_pos
    (fun n b => decQpsk fs (fs / sym) fc n (despreadSym key (fs / sym / key.length) (fs / sym) n b)) (fun _ _ => rfl)
    (fun n b hb => by rw [decQpsk_nan (despread_nan hb _ _ _ _)]; rfl) ?_
  intro l
  obtain ⟨it, h1, h2⟩ := rxCdmaQpsk_sym (yields_ofList l) hok
  rw [h1, pure_bind, collect_of_yields h2]

theorem C123_hopping {ρ : Type} [Rng ρ] {low high : FloatL L} {nf fs sym : ℕ} (hn : 2 ≤ nf) (hsps : 0 < fs / sym)
    (h1 : Flt.toNat high ≤ fs / 2) (h2 : isInt (Flt.ofNat fs / Flt.ofNat sym : FloatL L) = true) :
    FailsLow isMissing (fs / sym) 1 (fun l => do let rx ← rxFhBpsk ρ (ofList l) low high nf fs sym; collect rx) := by
  refine of_form hsps one_pos (fun n b => [decFh ρ low high nf fs n b]) (fun _ _ => rfl) (fun n b hb => by rw [decFh_nan hb]; rfl) ?_
  intro l
  obtain ⟨it, h1, h2⟩ := rxFhBpsk_sym (ρ := ρ) (yields_ofList l) hn hsps h1 h2 (low := low)
  rw [h1, pure_bind, collect_of_yields h2, flatten_mapIdx_singleton]

/-- FSK compares two energies; infinite samples make both infinite, and their difference is NaN. -/
theorem C123_fsk {fs sym : ℕ} (fc : FloatL L) (hsps : 0 < fs / sym) :
    FailsLow isUnusable (fs / sym) 1 (fun l => do let rx ← rxFsk (ofList l) fs sym fc; collect rx) := by
  have key : ∀ l : List (FloatL L), (do let rx ← rxFsk (ofList l) fs sym fc; collect rx)
      = pure ((blocks (fs / sym) l).mapIdx (rxFskChunk fs fc)) := by
    intro l
    obtain ⟨it, h1, h2⟩ := rxFsk_sym (yields_ofList l) (fc := fc) hsps
    rw [h1, pure_bind, collect_of_yields h2]
  intro l l' h
  refine ⟨_, key l, (key l').trans ?_⟩
  rw [lost_blocks hsps h _ (fun n b hb => rxFskChunk_bad hb fs fc n)]
  simp only [Nat.div_one]

theorem C123_dcsk : FailsLow (L := L) isMissing 2 1 (fun l => collect (rxDcsk (ofList l))) := by
  refine of_form two_pos one_pos (fun _ b => decDcsk b) (fun n b => by unfold decDcsk; split <;> rfl) (fun n b hb => decDcsk_nan hb) ?_
  intro l
  rw [collect_of_yields (rxDcsk_ok (yields_ofList l)), dcsk_form]

theorem C123_csk : FailsLow (L := L) isUnusable 1 1 (fun l => do let rx ← rxCsk (ofList l); collect rx) := by
  have g0 : Flt.le (0 : FloatL L) (Flt.lit 1 1) = true := by show Float.le 0 (F64.lit 1 1) = true; decide +kernel
  have g1 : Flt.le (Flt.lit 1 1 : FloatL L) 1 = true := by show Float.le (F64.lit 1 1) 1 = true; decide +kernel
  have g2 : Flt.le (0 : FloatL L) (Flt.lit 15 2) = true := by show Float.le 0 (F64.lit 15 2) = true; decide +kernel
  have g3 : Flt.le (Flt.lit 15 2 : FloatL L) 1 = true := by show Float.le (F64.lit 15 2) 1 = true; decide +kernel
  have key := fun l : List (FloatL L) => rxCsk_ok (yields_ofList l) g0 g1 g2 g3
  intro l l' h
  obtain ⟨it, h1, h2⟩ := key l
  obtain ⟨it', h1', h2'⟩ := key l'
  refine ⟨_, (congrArg (· >>= collect) h1).trans ((LawfulMonad.pure_bind _ _).trans (collect_of_yields h2)), ?_⟩
  refine ((congrArg (· >>= collect) h1').trans ((LawfulMonad.pure_bind _ _).trans (collect_of_yields h2'))).trans ?_
  rw [lost_map h _ (fun n x hx => csk_bad hx _ _)]
  simp only [Nat.div_one]

/-! ### Examples -/

theorem spoilt_set {P : FloatL L → Bool} (l : List (FloatL L)) (i : ℕ) {x : FloatL L} (hx : P x = true) : Spoilt P l (l.set i x) := by
  induction l generalizing i with
  | nil => exact List.Forall₂.nil
  | cons a l ih =>
    cases i with
    | zero => exact List.Forall₂.cons (.inr hx) (List.forall₂_same.mpr fun _ _ => .inl rfl)
    | succ i => exact List.Forall₂.cons (.inl rfl) (ih i)

/-- The NaN of the platform. -/
def nanL (L : Libm) : FloatL L := F64.nan
/-- `+∞`. -/
def infL (L : Libm) : FloatL L := F64.inf
theorem missing_nan : isMissing (nanL L) = true := (isMissing_iff _).mpr up_nan
theorem unusable_inf : isUnusable (infL L) = true := (isUnusable_iff _).mpr (.inr ⟨_, up_inf⟩)

/-- Three BPSK symbols of 16 samples; the 21st sample is lost, and with it the second bit. -/
example (l : List (FloatL L)) (hl : l.length = 48) (h : l.any isMissing = false) :
    ∃ a b c, (do let rx ← rxBpsk (ofList l) 16000 1000 (Flt.ofNat 2000 : FloatL L); collect rx) = pure [a, b, c] ∧
      (do let rx ← rxBpsk (ofList (l.set 20 (nanL L))) 16000 1000 (Flt.ofNat 2000 : FloatL L); collect rx) = pure [a, false, c] := by
  obtain ⟨bits, e1, e2⟩ := C123_bpsk (fs := 16000) (sym := 1000) (Flt.ofNat 2000 : FloatL L) (by norm_num) l _ (spoilt_set l 20 missing_nan)
  beta_reduce at e1 e2
  obtain ⟨bits', e3, hlen⟩ := (C71_bpsk (fs := 16000) (sym := 1000) (Flt.ofNat 2000 : FloatL L) (by norm_num)).total l
  rw [e3, RM.ok_inj] at e1
  subst e1
  rw [hl] at hlen
  match bits', hlen with
  | [a, b, c], _ =>
    refine ⟨a, b, c, e3, e2.trans ?_⟩
    have clean : ∀ n, n ≠ 1 → (symbol 16 n (l.set 20 (nanL L))).any isMissing = false := by
      intro n hn
      rw [List.any_eq_false] at h ⊢
      intro x hx
      obtain ⟨j, hj, rfl⟩ := List.getElem_of_mem hx
      unfold symbol at hj ⊢
      rw [List.getElem_take, List.getElem_drop, List.getElem_set_ne]
      · exact h _ (List.getElem_mem _)
      · simp at hj
        omega
    have lost : (symbol 16 1 (l.set 20 (nanL L))).any isMissing = true := by
      rw [List.any_eq_true]
      refine ⟨(nanL L), ?_, missing_nan⟩
      rw [List.mem_iff_getElem?]
      refine ⟨4, ?_⟩
      unfold symbol
      rw [List.getElem?_take_of_lt (by norm_num), List.getElem?_drop, List.getElem?_set_self (by omega)]
    simp only [List.mapIdx_cons, List.mapIdx_nil, Nat.div_one, zero_add]
    rw [clean 0 (by norm_num), lost, clean 2 (by norm_num)]
    simp

/-- DCSK: the second pair is spoilt by a NaN. -/
example : collect (rxDcsk (F := FloatL L) (ofList [1, 1, (nanL L), 1, 1, 1])) = pure [true, false, true] := by
  obtain ⟨bits, e1, e2⟩ := C123_dcsk (L := L) [1, 1, 1, 1, 1, 1] _ (spoilt_set _ 2 missing_nan)
  refine e2.trans ?_
  have : bits = [true, true, true] := by
    have := e1.symm.trans (collect_of_yields (rxDcsk_ok (yields_ofList ([1, 1, 1, 1, 1, 1] : List (FloatL L)))))
    rw [RM.ok_inj] at this
    rw [this]
    show [Float.lt 0 (1 * 1), Float.lt 0 (1 * 1), Float.lt 0 (1 * 1)] = [true, true, true]
    decide +kernel
  subst this
  have h1 : isMissing (1 : FloatL L) = false := by show (!Float.beq 1 1) = false; decide +kernel
  simp [symbol, missing_nan, h1]

/-- FSK and CSK read an infinite sample as a zero as well. -/
example (l : List (FloatL L)) : ∃ bits, (do let rx ← rxCsk (ofList l); collect rx) = pure bits ∧
    (do let rx ← rxCsk (ofList (l.set 3 (infL L))); collect rx)
      = pure (bits.mapIdx (fun i b => b && !(symbol 1 (i / 1) (l.set 3 (infL L))).any isUnusable)) :=
  C123_csk l _ (spoilt_set l 3 unusable_inf)

/-! ## The channel -/

/-- Noise repairs nothing and spreads nothing: `awgn` of a spoilt recording is the spoilt one of the noisy recording. -/
theorem C123_awgn {ν : Type} [RIter ν (FloatL L)] {std : ν} {z : ℕ → FloatL L} (hz : Gives std z) {σ : FloatL L} (hσ : Flt.isFinite σ = true)
    {P : FloatL L → Bool} (hP : P = isMissing ∨ P = isUnusable) {l l' : List (FloatL L)} (h : Spoilt P l l') :
    ∃ r r', awgnPy l σ std = pure r ∧ awgnPy l' σ std = pure r' ∧ Spoilt P r r' ∧
      ∀ (i : ℕ) x, l'[i]? = some x → P x = true → ∃ y, r'[i]? = some y ∧ P y = true := by
  have hadd : ∀ x c : FloatL L, P x = true → P (x + c) = true := by
    intro x c hx
    rcases hP with rfl | rfl
    · exact (isMissing_iff _).mpr (nan_add ((isMissing_iff _).mp hx) c).1
    · exact (isUnusable_iff _).mpr (((isUnusable_iff _).mp hx).add c).1
  have hrun : ∀ l : List (FloatL L), awgnPy l σ std = pure (l.mapIdx (fun i x => x + (0 + σ * z i))) := by
    intro l
    unfold awgnPy normalIter
    rw [if_pos hσ, pure_bind]
    have := ((yields_ofList l).rzip_gives (hz.rmap (fun z => (0 : FloatL L) + σ * z))).rmap (fun p : FloatL L × FloatL L => p.1 + p.2)
    rw [collect_of_yields this, map_mapIdx']
  refine ⟨_, _, hrun l, hrun l', ?_, ?_⟩
  · unfold Spoilt
    rw [List.forall₂_iff_get]
    refine ⟨by rw [List.length_mapIdx, List.length_mapIdx, h.length_eq], fun i hi hi' => ?_⟩
    rw [List.length_mapIdx] at hi hi'
    simp only [List.get_eq_getElem, List.getElem_mapIdx]
    rcases h.get hi hi' with e | e
    · left; simp only [List.get_eq_getElem] at e; rw [e]
    · right; exact hadd _ _ e
  · intro i x hx hp
    exact ⟨_, by rw [List.getElem?_mapIdx, hx]; rfl, hadd _ _ hp⟩

/-! ## Energy -/

/-- One NaN, and neither energy is a number; the detector is silent at every level. -/
theorem C123_energy_missing {l : List (FloatL L)} (h : l.any isMissing = true) (n0 fs : FloatL L) :
    isMissing (avgEnergy l) = true ∧ (∃ e, energy (ofList l) fs = pure e ∧ isMissing e = true) ∧ energyDetector l n0 = false := by
  have hs := energy_nan h
  have hd : ∀ y : FloatL L, isMissing (rsum (l.map (fun s => powi s 2)) / y) = true := fun y =>
    (isMissing_iff _).mpr (nan_div ((isMissing_iff _).mp hs) y).1
  refine ⟨hd _, ⟨_, ?_, hd fs⟩, ?_⟩
  · unfold energy
    rw [collect_of_yields ((yields_ofList l).rmap (fun s => powi s 2)), pure_bind]
  · exact (nan_lt (nan_sqrt ((isMissing_iff _).mp (hd (Flt.ofNat l.length)))) n0).2

/-- One infinite sample and no NaN, and the detector fires at every finite level. -/
theorem C123_energy_infinite {l : List (FloatL L)} (h : l.any isMissing = false) (h2 : l.any isUnusable = true) (hl : l.length ≤ 2 ^ 53)
    {n0 : FloatL L} (hn : Flt.isFinite n0 = true) : isUnusable (avgEnergy l) = true ∧ energyDetector l n0 = true := by
  obtain ⟨f1, f2⟩ := ofNat_exact hl
  have hpos : 0 < l.length := by
    rcases l with _ | ⟨x, l⟩
    · cases h2
    · simp
  obtain ⟨e1, e2⟩ := inf_mean (energy_inf h h2) f1 (by rw [f2]; exact_mod_cast hpos) hn
  exact ⟨(isUnusable_iff _).mpr (.inr ⟨_, e1⟩), e2⟩

example (n0 : FloatL L) : energyDetector [1, (nanL L), (infL L)] n0 = false :=
  (C123_energy_missing (by simp [missing_nan]) n0 1).2.2

example : energyDetector [1, (infL L), (1 : FloatL L)] (Flt.ofNat 1000) = true := by
  have h1 : isMissing (1 : FloatL L) = false := by show (!Float.beq 1 1) = false; decide +kernel
  have h2 : isMissing (infL L) = false := by show (!Float.beq F64.inf F64.inf) = false; decide +kernel
  exact (C123_energy_infinite (by simp [h1, h2]) (by simp [unusable_inf]) (by norm_num)
    (by show Float.isFinite (F64.ofNat 1000) = true; decide +kernel)).2

/-- The same sample lost, for each of the receivers (16 samples per symbol). -/
example (l : List (FloatL L)) : ∃ bits, (do let rx ← rxQpsk (ofList l) 16000 1000 (Flt.ofNat 2000 : FloatL L); collect rx) = pure bits ∧
    (do let rx ← rxQpsk (ofList (l.set 20 (nanL L))) 16000 1000 (Flt.ofNat 2000 : FloatL L); collect rx)
      = pure (bits.mapIdx (fun i b => b && !(symbol 16 (i / 2) (l.set 20 (nanL L))).any isMissing)) :=
  C123_qpsk (fs := 16000) (sym := 1000) _ (by norm_num) l _ (spoilt_set l 20 missing_nan)

private theorem accepts16 : CdmaOk 16000 1000 (Flt.ofNat 2000 : FloatL L) ([true, false] : List Bool).length := by
  obtain ⟨h1, h2⟩ := F64.ofNat_exact (n := 2000) (by norm_num)
  refine (F64.cdmaOk_ieee (by norm_num) h1).mpr ⟨by norm_num, by simp, by simp, by simp, ?_⟩
  rw [h2]
  norm_num

example (l : List (FloatL L)) :
    (∃ bits, (do let rx ← rxCdmaBpsk (ofList l) 16000 1000 (Flt.ofNat 2000 : FloatL L) [true, false]; collect rx) = pure bits ∧
      (do let rx ← rxCdmaBpsk (ofList (l.set 20 (nanL L))) 16000 1000 (Flt.ofNat 2000 : FloatL L) [true, false]; collect rx)
        = pure (bits.mapIdx (fun i b => b && !(symbol 16 (i / 1) (l.set 20 (nanL L))).any isMissing))) ∧
    ∃ bits, (do let rx ← rxCdmaQpsk (ofList l) 16000 1000 (Flt.ofNat 2000 : FloatL L) [true, false]; collect rx) = pure bits ∧
      (do let rx ← rxCdmaQpsk (ofList (l.set 20 (nanL L))) 16000 1000 (Flt.ofNat 2000 : FloatL L) [true, false]; collect rx)
        = pure (bits.mapIdx (fun i b => b && !(symbol 16 (i / 2) (l.set 20 (nanL L))).any isMissing)) :=
  ⟨C123_cdma_bpsk (fs := 16000) (sym := 1000) (by rw [rxCdmaBpsk_panics, not_not]; exact accepts16) l _ (spoilt_set l 20 missing_nan),
    C123_cdma_qpsk (fs := 16000) (sym := 1000) (by rw [rxCdmaQpsk_panics, not_not]; exact accepts16) l _ (spoilt_set l 20 missing_nan)⟩

example (l : List (FloatL L)) : ∃ bits, (do let rx ← rxFsk (ofList l) 160000 1000 (Flt.ofNat 20000 : FloatL L); collect rx) = pure bits ∧
    (do let rx ← rxFsk (ofList (l.set 200 (infL L))) 160000 1000 (Flt.ofNat 20000 : FloatL L); collect rx)
      = pure (bits.mapIdx (fun i b => b && !(symbol 160 (i / 1) (l.set 200 (infL L))).any isUnusable)) :=
  C123_fsk (fs := 160000) (sym := 1000) _ (by norm_num) l _ (spoilt_set l 200 unusable_inf)

example {ρ : Type} [Rng ρ] (l : List (FloatL L)) :
    ∃ bits, (do let rx ← rxFhBpsk ρ (ofList l) (Flt.ofNat 1000 : FloatL L) (Flt.ofNat 3000) 4 16000 1000; collect rx) = pure bits ∧
    (do let rx ← rxFhBpsk ρ (ofList (l.set 20 (nanL L))) (Flt.ofNat 1000 : FloatL L) (Flt.ofNat 3000) 4 16000 1000; collect rx)
      = pure (bits.mapIdx (fun i b => b && !(symbol 16 (i / 1) (l.set 20 (nanL L))).any isMissing)) := by
  refine C123_hopping (fs := 16000) (sym := 1000) (by norm_num) (by norm_num) ?_ ?_ l _ (spoilt_set l 20 missing_nan)
  · exact (show Flt.toNat (Flt.ofNat 3000 : Float) ≤ 16000 / 2 by decide +kernel)
  · exact (guard_iff (by norm_num) (by norm_num)).mpr ⟨by norm_num, by norm_num⟩

/-- Constant noise over a recording with one lost sample: the lost sample stays lost, the others are those of the clean
recording. -/
example : ∃ r r', awgnPy [1, 1, (1 : FloatL L)] 1 (Repeat.mk (1 : FloatL L)) = pure r ∧
    awgnPy [1, nanL L, (1 : FloatL L)] 1 (Repeat.mk (1 : FloatL L)) = pure r' ∧ Spoilt isMissing r r' := by
  obtain ⟨r, r', h1, h2, h3, -⟩ := C123_awgn (gives_repeat (1 : FloatL L)) (σ := 1) (by show Float.isFinite 1 = true; decide +kernel)
    (.inl rfl) (spoilt_set [1, 1, (1 : FloatL L)] 1 missing_nan)
  exact ⟨r, r', h1, h2, h3⟩

end Verif.Props
