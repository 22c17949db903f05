import Verif.Lemmas.Psk
import Verif.Lemmas.Bch
import Verif.Spec.Hadamard

/-! CDMA: key streams. -/
namespace Verif
open Spec
set_option linter.unusedSectionVars false
variable {ι : Type}

/-! ### Baseband -/

theorem cdmaVote_eq (L : ℕ) (b : List Bool) : cdmaVote L b = decide (L < 2 * b.countP id) := by
  unfold cdmaVote
  have : (b.map (fun bit => if bit then 1 else 0)).sum = b.countP id := by
    induction b with
    | nil => rfl
    | cons a b ih => rw [List.map_cons, List.sum_cons, ih, List.countP_cons]; cases a <;> simp [Nat.add_comm]
  simp only [this]
  rw [Nat.mul_comm]

theorem txBaseband_yields [RIter ι Bool] {m : ι} {msg key : List Bool} (h : Yields m msg) (hk : 0 < key.length) :
    Yields (txBasebandCdma m key) (msg.flatMap (fun b => key.map (fun k => b ^^ k))) := by
  have := ((h.inflate hk).rzip_gives ((yields_ofList key).rcycle hk)).rmap (fun p : Bool × Bool => p.1 ^^ p.2)
  refine this.of_eq ?_
  rw [map_mapIdx', flatMap_replicate_eq_wave, mapIdx_wave]
  apply List.ext_getElem?
  intro i
  rw [wave_getElem? hk, getElem?_flatMap_const hk _ _ (by simp)]
  cases msg[i / key.length]? with
  | none => rfl
  | some b =>
    have hm : i % key.length < key.length := Nat.mod_lt _ hk
    simp only [Option.map_some, Option.bind_some, List.getElem?_map]
    rw [List.getElem?_eq_getElem hm]
    simp [Nat.mul_comm]

theorem rxBaseband_yields [RIter ι Bool] {s : ι} {l key : List Bool} (h : Yields s l) (hk : 0 < key.length) :
    Yields (rxBasebandCdma s key) ((blocks key.length l).map (fun c =>
      decide (key.length < 2 * ((List.zipWith (fun x k => x ^^ k) c key).countP id)))) := by
  have := (((h.rzip_gives ((yields_ofList key).rcycle hk)).rmap (fun p : Bool × Bool => p.1 ^^ p.2)).chunks
    key.length).rmap (cdmaVote key.length)
  refine this.of_eq ?_
  rw [map_mapIdx']
  clear this h
  have hgen : ∀ (l : List Bool) (o : ℕ), blocks key.length (l.mapIdx (fun i x =>
        x ^^ key[(o * key.length + i) % key.length]'(Nat.mod_lt _ hk)))
      = (blocks key.length l).map (fun c => List.zipWith (fun x k => x ^^ k) c key) := by
    intro l
    induction hn : l.length using Nat.strongRecOn generalizing l with
    | _ n ih =>
      intro o
      subst hn
      by_cases hl : l = []
      · subst hl; simp [blocks_nil]
      · have hlen : 0 < l.length := List.length_pos_iff.mpr hl
        rw [blocks_cons hk hl, blocks_cons hk (by intro h0; simp at h0; exact hl h0), List.map_cons]
        have htake : (l.mapIdx (fun i x => x ^^ key[(o * key.length + i) % key.length]'(Nat.mod_lt _ hk))).take key.length
            = List.zipWith (fun x k => x ^^ k) (l.take key.length) key := by
          apply List.ext_getElem?
          intro i
          rw [List.getElem?_zipWith]
          by_cases hi : i < key.length
          · rw [List.getElem?_take_of_lt hi, List.getElem?_take_of_lt hi, List.getElem?_mapIdx,
              List.getElem?_eq_getElem hi]
            have : (o * key.length + i) % key.length = i := by
              rw [Nat.mul_comm, Nat.mul_add_mod, Nat.mod_eq_of_lt hi]
            cases l[i]? <;> simp [this]
          · rw [List.getElem?_eq_none (by simp; omega), List.getElem?_eq_none (show key.length ≤ i by omega)]
            cases (l.take key.length)[i]? <;> rfl
        have hdrop : (l.mapIdx (fun i x => x ^^ key[(o * key.length + i) % key.length]'(Nat.mod_lt _ hk))).drop key.length
            = (l.drop key.length).mapIdx (fun i x => x ^^ key[((o + 1) * key.length + i) % key.length]'(Nat.mod_lt _ hk)) := by
          apply List.ext_getElem?
          intro i
          rw [List.getElem?_drop, List.getElem?_mapIdx, List.getElem?_mapIdx, List.getElem?_drop]
          cases l[key.length + i]? with
          | none => rfl
          | some x =>
            simp only [Option.map_some, Option.some.injEq]
            congr 3
            rw [Nat.add_mul]; omega
        rw [htake, hdrop, ih (l.drop key.length).length (by simp; omega) _ rfl]
  have h0 := hgen l 0
  simp only [Nat.zero_mul, Nat.zero_add] at h0
  rw [h0, List.map_map]
  apply List.map_congr_left
  intro c _
  exact cdmaVote_eq _ _

/-! ### Passband -/
section anyF
variable {F : Type} [Add F] [Sub F] [Mul F] [Div F] [Neg F] [Zero F] [One F] [Flt F]

/-- The key bit that multiplies sample number `i` when chips are `spc` samples long. -/
def keyBit (key : List Bool) (spc i : ℕ) : Bool := key.getD (i / spc % key.length) false

theorem mod_mul_div (i a b : ℕ) : i % (a * b) / b = i / b % a := by
  rw [Nat.mul_comm, Nat.mod_mul_right_div_self]

theorem Yields.spread [RIter ι F] {s : ι} {l : List F} (h : Yields s l) {key : List Bool} {spc : ℕ}
    (hk : 0 < key.length) (hspc : 0 < spc) :
    Yields (spread s key spc) (l.mapIdx (fun i x => x * bitToNrz (keyBit key spc i))) := by
  have hl : (key.flatMap (List.replicate spc)).length = key.length * spc :=
    length_flatMap_const _ _ (by simp)
  have hpos : 0 < (key.flatMap (List.replicate spc)).length := by rw [hl]; exact Nat.mul_pos hk hspc
  have := (h.rzip_gives (((yields_ofList key).inflate hspc).rcycle hpos)).rmap
    (fun p : F × Bool => p.1 * bitToNrz p.2)
  refine this.of_eq ?_
  rw [map_mapIdx']
  apply mapIdx_congr'
  intro i x _
  congr 2
  have hlt : i % (key.flatMap (List.replicate spc)).length < (key.flatMap (List.replicate spc)).length :=
    Nat.mod_lt _ hpos
  have e := List.getElem?_eq_getElem hlt
  rw [getElem?_flatMap_const hspc _ _ (by simp)] at e
  have hdiv : i % (key.flatMap (List.replicate spc)).length / spc = i / spc % key.length := by
    rw [hl, mod_mul_div]
  rw [hdiv] at e
  have hk' : i / spc % key.length < key.length := Nat.mod_lt _ hk
  have hm : ∀ n, n % spc < spc := fun n => Nat.mod_lt _ hspc
  rw [List.getElem?_eq_getElem hk'] at e
  simp only [Option.bind_some, List.getElem?_replicate, hm, if_true, Option.some.injEq] at e
  rw [← e, keyBit, List.getD_eq_getElem?_getD, List.getElem?_eq_getElem hk']; rfl

/-- Parameters that pass all guards. -/
structure CdmaOk (fs sym : ℕ) (fc : F) (L : ℕ) : Prop where
  nyq : L * sym ≤ fs / 2
  car : Flt.toNat fc ≤ fs / 2
  int1 : isInt (Flt.ofNat fs / Flt.ofNat sym : F) = true
  int2 : isInt (Flt.ofNat fs / (Flt.ofNat sym * Flt.ofNat L) : F) = true
  sym_pos : 0 < sym
  key_pos : 0 < L

theorem CdmaOk.guards {fs sym : ℕ} {fc : F} {L : ℕ} (h : CdmaOk fs sym fc L) :
    cdmaGuards fs sym fc L = pure (fs / sym / L) := by
  unfold cdmaGuards
  rw [rassert_pos (decide_eq_true h.nyq), pure_bind, rassert_pos (decide_eq_true h.car), pure_bind,
    rassert_pos h.int1, pure_bind, rassert_pos h.int2, pure_bind, udiv_pos h.sym_pos, pure_bind, udiv_pos h.key_pos]

theorem CdmaOk.sps {fs sym : ℕ} {fc : F} {L : ℕ} (h : CdmaOk fs sym fc L) : 2 * L ≤ fs / sym := by
  rw [Nat.le_div_iff_mul_le h.sym_pos]
  have := h.nyq
  rw [Nat.mul_assoc]; omega

theorem CdmaOk.spc {fs sym : ℕ} {fc : F} {L : ℕ} (h : CdmaOk fs sym fc L) : 2 ≤ fs / sym / L := by
  rw [Nat.le_div_iff_mul_le h.key_pos]; exact h.sps

theorem cdmaGuards_panics (fs sym : ℕ) (fc : F) (L : ℕ) :
    (cdmaGuards fs sym fc L).Panics ↔ ¬ CdmaOk fs sym fc L := by
  constructor
  · intro hp h
    rw [h.guards] at hp
    exact RM.not_panics_ok _ hp
  · intro h
    unfold cdmaGuards
    by_cases h1 : L * sym ≤ fs / 2
    · by_cases h2 : Flt.toNat fc ≤ fs / 2
      · cases h3 : isInt (Flt.ofNat fs / Flt.ofNat sym : F)
        · simp [rassert, h1, h2]
        · cases h4 : isInt (Flt.ofNat fs / (Flt.ofNat sym * Flt.ofNat L) : F)
          · simp [rassert, h1, h2]
          · rcases Nat.eq_zero_or_pos sym with rfl | hs
            · simp [rassert, h2]
            · rcases Nat.eq_zero_or_pos L with rfl | hL
              · simp [rassert, h2, udiv_pos hs]
              · exact absurd ⟨h1, h2, h3, h4, hs, hL⟩ h
      · simp [rassert, h1, h2]
    · simp [rassert, h1]

theorem txCdmaBpsk_ok [RIter ι Bool] {m : ι} {msg : List Bool} (h : Yields m msg) {fs sym : ℕ} {fc : F} {key : List Bool}
    (hok : CdmaOk fs sym fc key.length) :
    ∃ it, txCdmaBpsk m fs sym fc key = pure it ∧
      Yields it ((wave (fs / sym) (fun n b j => bitToNrz b * Flt.cos (phase fs fc (n * (fs / sym) + j))) msg).mapIdx
        (fun i x => x * bitToNrz (keyBit key (fs / sym / key.length) i))) := by
  have h1 := hok.sps
  have h2 := hok.spc
  have h3 := hok.key_pos
  obtain ⟨it, e1, e2⟩ := txBpsk_ok h (fc := fc) (by omega) hok.car hok.int1
  refine ⟨_, by unfold txCdmaBpsk; rw [hok.guards, pure_bind, e1, pure_bind], ?_⟩
  exact e2.spread h3 (by omega)

theorem txCdmaQpsk_ok [RIter ι Bool] {m : ι} {msg : List Bool} (h : Yields m msg) {fs sym : ℕ} {fc : F} {key : List Bool}
    (hok : CdmaOk fs sym fc key.length) :
    ∃ it, txCdmaQpsk m fs sym fc key = pure it ∧
      Yields it ((wave (fs / sym) (fun n (p : Bool × Bool) j =>
        bitToNrz p.1 * Flt.cos (phase fs fc (n * (fs / sym) + j))
          + -(bitToNrz p.2) * Flt.sin (phase fs fc (n * (fs / sym) + j))) (pairs msg)).mapIdx
        (fun i x => x * bitToNrz (keyBit key (fs / sym / key.length) i))) := by
  have h1 := hok.sps
  have h2 := hok.spc
  have h3 := hok.key_pos
  obtain ⟨it, e1, e2⟩ := txQpsk_ok h (fc := fc) (fs := fs) (sym := sym) (by omega)
  refine ⟨_, by unfold txCdmaQpsk; rw [hok.guards, pure_bind, e1, pure_bind], ?_⟩
  exact e2.spread h3 (by omega)
end anyF

/-! ### Real numbers -/

/-- The guards over exact arithmetic. -/
theorem cdmaOk_real {fs sym L : ℕ} {fc : ℝ} (hfs : fs < 2 ^ 64) :
    CdmaOk fs sym fc L ↔ 0 < sym ∧ 0 < L ∧ sym * L ∣ fs ∧ 2 * (sym * L) ≤ fs ∧ ⌊fc⌋₊ ≤ fs / 2 := by
  constructor
  · intro h
    have h1 := h.nyq
    have h2 := h.car
    rw [Flt.toNat_real] at h2
    have h4 := h.int2
    simp only [Flt.ofNat_real] at h4
    have hsl : 0 < sym * L := Nat.mul_pos h.sym_pos h.key_pos
    rw [show ((sym : ℝ) * (L : ℝ)) = ((sym * L : ℕ) : ℝ) by push_cast; rfl, isInt_real hfs hsl] at h4
    rw [Nat.mul_comm] at h1
    exact ⟨h.sym_pos, h.key_pos, h4, by omega, by omega⟩
  · rintro ⟨h1, h2, h3, h4, h5⟩
    have hsl : 0 < sym * L := Nat.mul_pos h1 h2
    refine ⟨by rw [Nat.mul_comm]; omega, by rw [Flt.toNat_real]; omega, ?_, ?_, h1, h2⟩
    · simp only [Flt.ofNat_real]
      exact (isInt_real hfs h1).mpr (Dvd.dvd.trans (Dvd.intro _ rfl) h3)
    · simp only [Flt.ofNat_real]
      rw [show ((sym : ℝ) * (L : ℝ)) = ((sym * L : ℕ) : ℝ) by push_cast; rfl]
      exact (isInt_real hfs hsl).mpr h3

theorem despread_spread (key : List Bool) (spc : ℕ) (l : List ℝ) :
    (l.mapIdx (fun i x => x * bitToNrz (keyBit key spc i))).mapIdx (fun i x => x * bitToNrz (keyBit key spc i)) = l := by
  rw [mapIdx_mapIdx']
  apply mapIdx_eq_self
  intro i x _
  rw [mul_assoc, bitToNrz_sq, mul_one]

/-! ### Several users -/

theorem sum_range_mul' (L k : ℕ) (f : ℕ → ℝ) :
    ∑ j ∈ Finset.range (L * k), f j = ∑ c ∈ Finset.range L, ∑ t ∈ Finset.range k, f (c * k + t) := by
  induction L with
  | zero => simp
  | succ L ih => rw [Finset.sum_range_succ, ← ih, Nat.add_mul, Nat.one_mul, Finset.sum_range_add]

theorem keyBit_eq {key : List Bool} {spc n c t : ℕ} (hc : c < key.length) (ht : t < spc) :
    keyBit key spc (n * (key.length * spc) + (c * spc + t)) = key.getD c false := by
  unfold keyBit
  congr 1
  have hspc : 0 < spc := by omega
  rw [show n * (key.length * spc) + (c * spc + t) = t + spc * (n * key.length + c) by ring,
    Nat.add_mul_div_left _ _ hspc, Nat.div_eq_of_lt ht, Nat.zero_add, Nat.mul_comm n, Nat.mul_add_mod,
    Nat.mod_eq_of_lt hc]

/-- Energy of the carrier during chip `c` of symbol `n`. -/
noncomputable def chipEnergy (fs sps spc : ℕ) (fc : ℝ) (n c : ℕ) : ℝ :=
  ∑ t ∈ Finset.range spc, Real.cos (2 * Real.pi * fc * (n * sps + (c * spc + t) : ℕ) / fs) ^ 2

theorem chipEnergy_pos {fs sps spc : ℕ} (fc : ℝ) (n c : ℕ) (h : 2 ≤ spc) : 0 < chipEnergy fs sps spc fc n c := by
  have := sum_cos_sq_pos h (n * sps + c * spc) (dphi fs fc)
  refine lt_of_lt_of_eq this ?_
  unfold chipEnergy
  apply Finset.sum_congr rfl
  intro t _
  congr 2
  unfold dphi; push_cast; ring

theorem chipEnergy_const {fs sps spc : ℕ} {fc : ℝ} (hfs : 0 < fs) {p : ℤ} (hp : (spc : ℝ) * (2 * fc) = p * fs) :
    ∃ E, ∀ n c, chipEnergy fs sps spc fc n c = E := by
  have hfs' : (fs : ℝ) ≠ 0 := by exact_mod_cast hfs.ne'
  have hk : (spc : ℝ) * dphi fs fc = p * Real.pi := by
    unfold dphi; field_simp; linear_combination hp
  by_cases hs : Real.sin (dphi fs fc) = 0
  · obtain ⟨q, hq⟩ := Real.sin_eq_zero_iff.mp hs
    refine ⟨spc, fun n c => ?_⟩
    unfold chipEnergy
    rw [Finset.sum_eq_card_nsmul (b := 1), Finset.card_range, nsmul_eq_mul, mul_one]
    intro t _
    have e : 2 * Real.pi * fc * ((n * sps + (c * spc + t) : ℕ) : ℝ) / fs
        = (((n * sps + (c * spc + t) : ℕ) : ℤ) * q : ℤ) * Real.pi := by
      rw [show 2 * Real.pi * fc * ((n * sps + (c * spc + t) : ℕ) : ℝ) / fs
        = ((n * sps + (c * spc + t) : ℕ) : ℝ) * dphi fs fc by unfold dphi; ring, ← hq]
      push_cast; ring
    rw [e, Real.cos_sq, show 2 * (((((n * sps + (c * spc + t) : ℕ) : ℤ) * q : ℤ) : ℝ) * Real.pi)
      = ((((n * sps + (c * spc + t) : ℕ) : ℤ) * q : ℤ) : ℝ) * (2 * Real.pi) by ring, Real.cos_int_mul_two_pi]
    norm_num
  · refine ⟨(spc : ℝ) / 2, fun n c => ?_⟩
    rw [← sum_cos_sq_half hk hs (n * sps + c * spc)]
    unfold chipEnergy
    apply Finset.sum_congr rfl
    intro t _
    congr 2
    unfold dphi; push_cast; ring

theorem list_sum_map_mul_left {A : Type} (l : List A) (f : A → ℝ) (c : ℝ) :
    (l.map f).sum * c = (l.map (fun a => f a * c)).sum := by
  induction l with
  | nil => simp
  | cons a l ih => simp [add_mul, ih]

theorem finset_sum_list_sum {A : Type} (l : List A) (s : Finset ℕ) (f : A → ℕ → ℝ) :
    ∑ j ∈ s, (l.map (fun a => f a j)).sum = (l.map (fun a => ∑ j ∈ s, f a j)).sum := by
  induction l with
  | nil => simp
  | cons a l ih => simp [Finset.sum_add_distrib, ih]

/-- Inner product of two keys as ±1 vectors. -/
theorem key_inner {k k' : List Bool} {L : ℕ} (h : k.length = L) (h' : k'.length = L) :
    ∑ c ∈ Finset.range L, (bitToNrz (k.getD c false) : ℝ) * bitToNrz (k'.getD c false) = 2 * (agreements k k' : ℝ) - L := by
  induction L generalizing k k' with
  | zero =>
    rw [List.length_eq_zero_iff] at h h'
    subst h h'; simp [agreements]
  | succ L ih =>
    obtain ⟨a, k, rfl⟩ := List.exists_cons_of_length_eq_add_one h
    obtain ⟨b, k', rfl⟩ := List.exists_cons_of_length_eq_add_one h'
    rw [Finset.sum_range_succ']
    simp only [List.getD_cons_succ, List.getD_cons_zero]
    rw [ih (by simpa using h) (by simpa using h')]
    unfold agreements
    rw [List.zip_cons_cons, List.countP_cons]
    cases a <;> cases b <;> simp [bitToNrz] <;> ring

end Verif
