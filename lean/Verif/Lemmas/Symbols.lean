import Verif.Spec.Symbols
import Verif.Lemmas.Cdma
import Verif.Lemmas.Fh
import Verif.Lemmas.Fsk

/-! Receivers as maps over the symbols of an arbitrary signal. -/
namespace Verif
open Spec
set_option linter.unusedSectionVars false
variable {ι A B : Type}

theorem fullBlocks_short {k : ℕ} {l : List A} (h : l.length < k) : fullBlocks k l = [] := by
  simp [fullBlocks, Nat.div_eq_of_lt h]

theorem fullBlocks_getElem? {k : ℕ} (hk : 0 < k) (l : List A) (n : ℕ) :
    (fullBlocks k l)[n]? = if (n + 1) * k ≤ l.length then some ((l.drop (n * k)).take k) else none := by
  unfold fullBlocks
  rw [List.getElem?_map]
  by_cases h : n < l.length / k
  · rw [List.getElem?_range h, if_pos ((Nat.le_div_iff_mul_le hk).mp h)]; rfl
  · rw [if_neg (fun h' => h ((Nat.le_div_iff_mul_le hk).mpr h'))]
    simp only [Option.map_eq_none_iff, List.getElem?_eq_none_iff, List.length_range]; omega

theorem fullBlocks_mapIdx {k : ℕ} (l : List A) (g : ℕ → A → B) :
    fullBlocks k (l.mapIdx g) = (fullBlocks k l).mapIdx (fun n b => b.mapIdx (fun j x => g (n * k + j) x)) := by
  unfold fullBlocks
  rw [mapIdx_range_map, List.length_mapIdx]
  apply List.map_congr_left
  intro n _
  apply List.ext_getElem?
  intro i
  simp only [List.getElem?_take, List.getElem?_drop, List.getElem?_mapIdx]
  split <;> simp

theorem mem_fullBlocks_length {k : ℕ} (hk : 0 < k) {l b : List A} (h : b ∈ fullBlocks k l) : b.length = k := by
  obtain ⟨n, hn, rfl⟩ := List.mem_map.mp h
  rw [List.mem_range] at hn
  have : (n + 1) * k ≤ l.length := (Nat.le_div_iff_mul_le hk).mp hn
  rw [Nat.add_mul] at this
  rw [List.length_take, List.length_drop]; omega

/-- All blocks are the complete ones and possibly a shorter last one. -/
theorem blocks_eq_full {k : ℕ} (hk : 0 < k) (l : List A) :
    ∃ rest : List (List A), blocks k l = fullBlocks k l ++ rest ∧ ∀ b ∈ rest, b.length < k := by
  induction hn : l.length using Nat.strong_induction_on generalizing l with
  | _ n ih =>
    by_cases hlt : l.length < k
    · refine ⟨blocks k l, by rw [fullBlocks_short hlt]; rfl, ?_⟩
      intro b hb
      rw [blocks] at hb
      split at hb
      · simp at hb
      · rw [List.drop_eq_nil_of_le hlt.le, blocks] at hb
        simp at hb
        rw [hb, List.length_take]; omega
    · have ha : (l.take k).length = k := by rw [List.length_take]; omega
      obtain ⟨rest, h1, h2⟩ := ih (l.drop k).length (by rw [List.length_drop]; omega) (l.drop k) rfl
      refine ⟨rest, ?_, h2⟩
      conv_lhs => rw [← List.take_append_drop k l]
      conv_rhs => rw [← List.take_append_drop k l]
      rw [blocks_append hk ha, fullBlocks_append hk ha, h1]; rfl

theorem blocks_getElem?' {k : ℕ} (hk : 0 < k) (l : List A) (n : ℕ) :
    (blocks k l)[n]? = if n * k < l.length then some ((l.drop (n * k)).take k) else none := by
  induction n generalizing l with
  | zero =>
    rw [blocks]
    by_cases h : l = []
    · simp [h]
    · simp [h, hk.ne', List.length_pos_iff.mpr h]
  | succ n ih =>
    rw [blocks]
    by_cases h : l = []
    · simp [h]
    · rw [dif_neg (by simp [h, hk.ne']), List.getElem?_cons_succ, ih, List.length_drop, List.drop_drop]
      have e : k + n * k = (n + 1) * k := by ring
      rw [e]
      congr 1
      simp only [eq_iff_iff]
      omega

theorem length_flatten_mapIdx {m : ℕ} (D : ℕ → A → List B) (L : List A) (h : ∀ n b, (D n b).length = m) :
    (L.mapIdx D).flatten.length = m * L.length := by
  rw [List.length_flatten, map_mapIdx', show (fun i x => (D i x).length) = fun _ _ => m from funext₂ h]
  rw [show L.mapIdx (fun _ _ => m) = List.replicate L.length m from by
    apply List.ext_getElem?; intro i; simp [List.getElem?_replicate, List.getElem?_eq_none_iff]
    by_cases hi : i < L.length
    · simp [hi]
    · simp [hi]]
  simp [Nat.mul_comm]

/-- A map over the complete symbols is symbol-wise. -/
theorem Symbolwise.of_form {F : Type} {k m : ℕ} (hk : 0 < k) (hm : 0 < m) {rx : List F → RM (List Bool)}
    (D : ℕ → List F → List Bool) (hD : ∀ n b, (D n b).length = m)
    (h : ∀ l, rx l = pure ((fullBlocks k l).mapIdx D).flatten) : Symbolwise k m rx := by
  constructor
  · intro l
    refine ⟨_, h l, ?_⟩
    rw [length_flatten_mapIdx D _ hD]
    simp [fullBlocks]
  · intro l l' bits bits' n e e' hn hn' heq
    rw [h, RM.ok_inj] at e e'
    have key : ∀ l : List F, (n + 1) * k ≤ l.length →
        (((fullBlocks k l).mapIdx D).flatten.drop (n * m)).take m = D n ((l.drop (n * k)).take k) := by
      intro l hn
      have hb := fullBlocks_flatten_eq hm ((fullBlocks k l).mapIdx D) (by
        intro b hb; obtain ⟨i, hi, rfl⟩ := List.mem_mapIdx.mp hb; exact hD _ _)
      have hlen : (n + 1) * m ≤ (((fullBlocks k l).mapIdx D).flatten).length := by
        rw [length_flatten_mapIdx D _ hD, Nat.mul_comm]
        apply Nat.mul_le_mul_left
        simp only [fullBlocks, List.length_map, List.length_range]
        exact (Nat.le_div_iff_mul_le hk).mpr hn
      have h1 := fullBlocks_getElem? hm (((fullBlocks k l).mapIdx D).flatten) n
      rw [hb, if_pos hlen, List.getElem?_mapIdx, fullBlocks_getElem? hk, if_pos hn] at h1
      simpa using h1.symm
    rw [← e, ← e', key l hn, key l' hn', heq]

section anyF
variable {F : Type} [Add F] [Sub F] [Mul F] [Div F] [Neg F] [Zero F] [One F] [Flt F]

/-- Decision of the BPSK correlator on the samples `b` of symbol `n`. -/
def decBpsk (fs k : ℕ) (fc : F) (n : ℕ) (b : List F) : Bool :=
  Flt.lt (0 : F) (rsum (b.mapIdx (fun j x => x * Flt.cos (phase fs fc (n * k + j)))))

/-- Decisions of the QPSK correlators. -/
def decQpsk (fs k : ℕ) (fc : F) (n : ℕ) (b : List F) : List Bool :=
  [Flt.le (0 : F) (rsum (b.mapIdx (fun j x => x * Flt.cos (phase fs fc (n * k + j))))),
   Flt.le (0 : F) (rsum (b.mapIdx (fun j x => x * -(Flt.sin (phase fs fc (n * k + j))))))]

/-- Samples of symbol `n` multiplied by the key. -/
def despreadSym (key : List Bool) (spc k n : ℕ) (b : List F) : List F :=
  b.mapIdx (fun j x => x * bitToNrz (keyBit key spc (n * k + j)))

theorem rxBpsk_sym [RIter ι F] {s : ι} {l : List F} (h : Yields s l) {fs sym : ℕ} {fc : F} (hsps : 0 < fs / sym) :
    ∃ it, rxBpsk s fs sym fc = pure it ∧ Yields it ((fullBlocks (fs / sym) l).mapIdx (decBpsk fs (fs / sym) fc)) := by
  obtain ⟨it, h1, h2⟩ := rxBpsk_ok h (fc := fc) hsps
  refine ⟨it, h1, h2.of_eq ?_⟩
  rw [fullBlocks_mapIdx, map_mapIdx']
  rfl

theorem rxQpsk_sym [RIter ι F] {s : ι} {l : List F} (h : Yields s l) {fs sym : ℕ} {fc : F} (hsps : 0 < fs / sym) :
    ∃ it, rxQpsk s fs sym fc = pure it ∧
      Yields it ((fullBlocks (fs / sym) l).mapIdx (decQpsk fs (fs / sym) fc)).flatten := by
  obtain ⟨it, h1, h2⟩ := rxQpsk_ok h (fc := fc) hsps
  refine ⟨it, h1, h2.of_eq ?_⟩
  rw [fullBlocks_mapIdx, List.flatMap_def, map_mapIdx']
  simp only [map_mapIdx']
  rfl

theorem rxCdmaBpsk_sym [RIter ι F] {s : ι} {l : List F} (h : Yields s l) {fs sym : ℕ} {fc : F} {key : List Bool}
    (hok : CdmaOk fs sym fc key.length) :
    ∃ it, rxCdmaBpsk s fs sym fc key = pure it ∧ Yields it ((fullBlocks (fs / sym) l).mapIdx (fun n b =>
      decBpsk fs (fs / sym) fc n (despreadSym key (fs / sym / key.length) (fs / sym) n b))) := by
  have h1 := hok.sps
  have h2 := hok.spc
  have h3 := hok.key_pos
  obtain ⟨it, e1, e2⟩ := rxBpsk_sym (h.spread (key := key) (spc := fs / sym / key.length) h3 (by omega)) (fs := fs)
    (sym := sym) (fc := fc) (by omega)
  refine ⟨it, by rw [rxCdmaBpsk, hok.guards, pure_bind]; exact e1, e2.of_eq ?_⟩
  rw [fullBlocks_mapIdx, mapIdx_mapIdx']
  rfl

theorem rxCdmaQpsk_sym [RIter ι F] {s : ι} {l : List F} (h : Yields s l) {fs sym : ℕ} {fc : F} {key : List Bool}
    (hok : CdmaOk fs sym fc key.length) :
    ∃ it, rxCdmaQpsk s fs sym fc key = pure it ∧ Yields it ((fullBlocks (fs / sym) l).mapIdx (fun n b =>
      decQpsk fs (fs / sym) fc n (despreadSym key (fs / sym / key.length) (fs / sym) n b))).flatten := by
  have h1 := hok.sps
  have h2 := hok.spc
  have h3 := hok.key_pos
  obtain ⟨it, e1, e2⟩ := rxQpsk_sym (h.spread (key := key) (spc := fs / sym / key.length) h3 (by omega)) (fs := fs)
    (sym := sym) (fc := fc) (by omega)
  refine ⟨it, by rw [rxCdmaQpsk, hok.guards, pure_bind]; exact e1, e2.of_eq ?_⟩
  rw [fullBlocks_mapIdx, mapIdx_mapIdx']
  rfl

theorem flatten_mapIdx_singleton {A B : Type} (f : ℕ → A → B) (l : List A) :
    (l.mapIdx (fun i b => [f i b])).flatten = l.mapIdx f := by
  rw [← map_mapIdx' f (fun x : B => [x]) l]
  generalize l.mapIdx f = l
  induction l with
  | nil => rfl
  | cons a l ih => rw [List.map_cons, List.flatten_cons, ih]; rfl

/-- Decision of the hopping receiver. -/
def decFh (ρ : Type) [Rng ρ] (low high : F) (nf fs : ℕ) (n : ℕ) (b : List F) : Bool :=
  Flt.lt (0 : F) (rsum (b.mapIdx (fun j x => x * Flt.cos (phase fs (hopOf ρ low high nf n) j))))

theorem rxFhBpsk_sym {ρ : Type} [Rng ρ] [RIter ι F] {s : ι} {l : List F} (h : Yields s l) {low high : F} {nf fs sym : ℕ}
    (hn : 2 ≤ nf) (hsps : 0 < fs / sym) (h1 : Flt.toNat high ≤ fs / 2)
    (h2 : isInt (Flt.ofNat fs / Flt.ofNat sym : F) = true) :
    ∃ it, rxFhBpsk ρ s low high nf fs sym = pure it ∧
      Yields it ((fullBlocks (fs / sym) l).mapIdx (decFh ρ low high nf fs)) := by
  have hsym : 0 < sym := by
    rcases Nat.eq_zero_or_pos sym with rfl | h
    · simp at hsps
    · exact h
  have hg := hopTable_gives (ρ := ρ) (hopFreqs low high nf) (Rng.seed SEED) (by rw [hopFreqs_length]; exact hn)
  refine ⟨_, by rw [rxFhBpsk, udiv_pos hsym, pure_bind, rassert_pos (by simpa using h1), rassert_pos h2, hopTable_ok]; simp only [pure_bind]; rfl, ?_⟩
  obtain ⟨rest, hb, hr⟩ := blocks_eq_full hsps l
  refine (Yields.rflatMap_mem (out := fun p : List F × F => if p.1.length < fs / sym then [] else
    [Flt.lt (0 : F) (rsum (p.1.mapIdx (fun j x => x * Flt.cos (phase fs p.2 j))))]) ?_
    ((h.chunks (fs / sym)).rzip_gives hg)).of_eq ?_
  · intro p hp
    rw [hb] at hp
    obtain ⟨i, hi, rfl⟩ := List.mem_mapIdx.mp hp
    obtain ⟨it, e1, e2⟩ := rxBpsk_sym (yields_ofList (fullBlocks (fs / sym) l ++ rest)[i]) hsps (fs := fs) (sym := sym)
      (fc := hopAt (hopFreqs low high nf, (Rng.seed SEED : ρ)) i)
    refine ⟨it, e1, e2.of_eq ?_⟩
    dsimp only
    by_cases hl : i < (fullBlocks (fs / sym) l).length
    · rw [List.getElem_append_left hl]
      have hlen := mem_fullBlocks_length hsps (List.getElem_mem hl)
      have hone : fullBlocks (fs / sym) (fullBlocks (fs / sym) l)[i] = [(fullBlocks (fs / sym) l)[i]] := by
        have := fullBlocks_flatten_eq hsps [(fullBlocks (fs / sym) l)[i]] (by simpa using hlen)
        simpa using this
      rw [hone, if_neg (by omega)]
      simp [decBpsk]
    · have hi' := hi
      rw [List.length_append] at hi'
      rw [List.getElem_append_right (by omega)]
      have hlen := hr _ (List.getElem_mem (l := rest) (n := i - (fullBlocks (fs / sym) l).length) (by omega))
      rw [fullBlocks_short hlen, if_pos hlen]
      rfl
  · rw [hb, List.mapIdx_append, List.flatMap_append, List.flatMap_def, map_mapIdx', List.flatMap_def, map_mapIdx']
    have e2 : (rest.mapIdx (fun i x => if x.length < fs / sym then ([] : List Bool) else
        [Flt.lt (0 : F) (rsum (x.mapIdx (fun j x => x * Flt.cos (phase fs (hopAt (hopFreqs low high nf, (Rng.seed SEED : ρ)) (i + (fullBlocks (fs / sym) l).length)) j))))])).flatten = [] := by
      rw [List.flatten_eq_nil_iff]
      intro b hb'
      obtain ⟨i, hi, rfl⟩ := List.mem_mapIdx.mp hb'
      rw [if_pos (hr _ (List.getElem_mem _))]
    rw [e2, List.append_nil, ← flatten_mapIdx_singleton (decFh ρ low high nf fs)]
    congr 1
    apply mapIdx_congr'
    intro i b hb'
    have := mem_fullBlocks_length hsps (List.mem_of_getElem? hb')
    dsimp only
    rw [if_neg (by omega)]
    rfl

theorem rxFsk_sym [RIter ι F] {s : ι} {l : List F} (h : Yields s l) {fs sym : ℕ} {fc : F} (hsps : 0 < fs / sym) :
    ∃ it, rxFsk s fs sym fc = pure it ∧ Yields it ((blocks (fs / sym) l).mapIdx (rxFskChunk fs fc)) := by
  unfold rxFsk
  rw [udiv_pos (pos_of_sps hsps), pure_bind]
  refine ⟨_, rfl, ?_⟩
  have := ((h.chunks (fs / sym)).renumerate).rmap (fun p : ℕ × List F => rxFskChunk fs fc p.1 p.2)
  rw [map_mapIdx'] at this
  exact this

end anyF
end Verif
