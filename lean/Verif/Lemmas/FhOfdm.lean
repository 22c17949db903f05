import Verif.Model.FhOfdm
import Verif.Lemmas.Ofdm
import Verif.Lemmas.Fh
import Verif.Lemmas.Chaos

/-! Structure of FH-OFDM-DCSK. -/
namespace Verif
open Spec
set_option linter.unusedSectionVars false
variable {ι ρ : Type} [Rng ρ]

theorem stFlat_eq_flatten {σ α β : Type} (out : σ → α → List β) (upd : σ → α → σ) (st : σ) (l : List α) :
    stFlat out upd st l = (stMap out upd st l).flatten := by
  induction l generalizing st with
  | nil => rfl
  | cons a l ih => rw [stFlat, stMap, List.flatten_cons, ih]

theorem mem_stMap {σ α β : Type} {out : σ → α → β} {upd : σ → α → σ} {st : σ} {l : List α} {b : β}
    (h : b ∈ stMap out upd st l) : ∃ st' a, a ∈ l ∧ b = out st' a := by
  induction l generalizing st with
  | nil => simp [stMap] at h
  | cons a l ih =>
    rw [stMap, List.mem_cons] at h
    rcases h with h | h
    · exact ⟨st, a, by simp, h⟩
    · obtain ⟨st', a', h1, h2⟩ := ih h; exact ⟨st', a', by simp [h1], h2⟩

theorem stMap_length {σ α β : Type} (out : σ → α → β) (upd : σ → α → σ) (st : σ) (l : List α) :
    (stMap out upd st l).length = l.length := by
  induction l generalizing st with
  | nil => rfl
  | cons a l ih => simp [stMap, ih]

/-- The subcarrier permutation drawn from the generator. -/
def hopPerm (r : ρ) : List ℕ := (shuf (List.range 8, r)).1
/-- The generator afterwards. -/
def hopNext (r : ρ) : ρ := (shuf (List.range 8, r)).2

theorem hopPerm_perm (r : ρ) : (hopPerm r).Perm (List.range 8) := shuf_perm _
theorem hopPerm_length (r : ρ) : (hopPerm r).length = 8 := by rw [(hopPerm_perm r).length_eq]; rfl
theorem mem_hopPerm (r : ρ) (c : ℕ) : c ∈ hopPerm r ↔ c < 8 := by rw [(hopPerm_perm r).mem_iff, List.mem_range]
theorem hopPerm_nodup (r : ρ) : (hopPerm r).Nodup := (hopPerm_perm r).nodup_iff.mpr List.nodup_range

section anyF
variable {F : Type} [Add F] [Sub F] [Mul F] [Div F] [Neg F] [Zero F] [One F] [Flt F]

/-- The reference and the seven modulated samples. -/
def preHop (s : List (Cx F)) (c : List F) : List (Cx F) :=
  Cx.ofR (c.getD 0 0) :: ((c.drop 1).zip s).map (fun p => p.2 * (⟨p.1, 0⟩ : Cx F))

theorem preHop_length {s : List (Cx F)} {c : List F} (hs : s.length = 7) (hc : c.length = 8) : (preHop s c).length = 8 := by
  simp [preHop, hs, hc]

theorem preHopSymbols_ok {s : List (Cx F)} {c : List F} (hc : c.length = 8) : preHopSymbols s c = pure (preHop s c) := by
  unfold preHopSymbols
  rw [index_lt (by omega), pure_bind, sliceFrom_ok (by omega), pure_bind]
  simp [preHop, List.getD, hc]

theorem freqHop_ok {x : List (Cx F)} (hx : x.length = 8) (r : ρ) :
    freqHop x r = pure ((hopPerm r).map (fun i => x.getD i 0), hopNext r) := by
  unfold freqHop NUM_SUBCARRIERS
  rw [shuffle_eq, pure_bind]
  show ((hopPerm r).mapM (fun i => index x i) >>= _) = _
  rw [mapM_index x (hopPerm r) (fun c hc => by rw [hx]; exact (mem_hopPerm r c).mp hc), pure_bind]
  rfl

/-- The de-hopped symbols. -/
def unhop (r : ρ) (y : List (Cx F)) : List (Cx F) := place 8 (hopPerm r) y

theorem dehop_ok (y : List (Cx F)) (r : ρ) : dehop y r = pure (unhop r y, hopNext r) := by
  unfold dehop NUM_SUBCARRIERS
  rw [shuffle_eq, pure_bind]
  have : ∀ (cs : List ℕ) (y v : List (Cx F)), (y.zip cs).foldlM (fun v p => assignIdx v p.2 p.1) v
      = (cs.zip y).foldlM (fun v p => assignIdx v p.1 p.2) v := by
    intro cs
    induction cs with
    | nil => intro y v; simp
    | cons a cs ih =>
      intro y v
      cases y with
      | nil => rfl
      | cons b y => simp only [List.zip_cons_cons, List.foldlM_cons, ih]
  simp only [this]
  have h := insertData_ok (n := 8) (cs := hopPerm r) (fun c hc => (mem_hopPerm r c).mp hc) y
  rw [insertData] at h
  show ((hopPerm r).zip y).foldlM _ _ >>= _ = _
  rw [h, pure_bind]; rfl

theorem unhop_hop (r : ρ) {x : List (Cx F)} (hx : x.length = 8) :
    unhop r ((hopPerm r).map (fun i => x.getD i 0)) = x := by
  apply List.ext_getElem?
  intro c
  by_cases hc : c < 8
  · have hm := (mem_hopPerm r c).mpr hc
    obtain ⟨i, hi, e⟩ := List.mem_iff_getElem.mp hm
    have hget : (hopPerm r)[i]? = some c := by rw [List.getElem?_eq_getElem hi, e]
    rw [unhop, place_carrier (hopPerm_nodup r) (fun c hc => (mem_hopPerm r c).mp hc) _ hget, List.getD, List.getElem?_map,
      hget, Option.map_some, Option.getD_some, List.getD, List.getElem?_eq_getElem (by omega), Option.getD_some]
  · rw [List.getElem?_eq_none (by rw [unhop, place_length]; omega), List.getElem?_eq_none (by omega)]

variable [Fft F]

/-- One transmitted frame. -/
def fhFrame (r : ρ) (p : List (Cx F) × List F) : List (Cx F) :=
  ((Fft.dft true (fftshift ((hopPerm r).map (fun i => (preHop p.1 p.2).getD i 0)))).drop 6
    ++ Fft.dft true (fftshift ((hopPerm r).map (fun i => (preHop p.1 p.2).getD i 0)))).map
      (fun z => Cx.divR z (Flt.ofNat 8))

theorem fhFrame_length (r : ρ) (p : List (Cx F) × List F) : (fhFrame r p).length = 10 := by
  simp [fhFrame, Fft.length_dft, fftshift_length, hopPerm_length]

theorem fhOfdmFrame_ok {s : List (Cx F)} {c : List F} (hs : s.length = 7) (hc : c.length = 8) (r : ρ) :
    fhOfdmFrame r s c = pure (fhFrame r (s, c), hopNext r) := by
  unfold fhOfdmFrame
  rw [preHopSymbols_ok hc, pure_bind, freqHop_ok (preHop_length hs hc), pure_bind]
  simp only []
  set y := (hopPerm r).map (fun i => (preHop s c).getD i 0) with hy
  have hl : (fftshift y).length = 8 := by rw [fftshift_length, hy, List.length_map, hopPerm_length]
  have hl2 : (Fft.dft true (fftshift y)).length = 8 := by rw [Fft.length_dft, hl]
  unfold NUM_SUBCARRIERS
  rw [rassert_pos (by rw [hl]; rfl), pure_bind, fftProcess_one true hl, pure_bind, usub_le (by decide), pure_bind,
    slice_ok (by decide) (by rw [hl2]), pure_bind, List.take_of_length_le (by rw [List.length_drop, hl2])]
  rfl

theorem flatten_length_const {α : Type} {k : ℕ} {l : List (List α)} (h : ∀ f ∈ l, f.length = k) :
    l.flatten.length = k * l.length := by
  induction l with
  | nil => simp
  | cons a l ih =>
    rw [List.flatten_cons, List.length_append, h a (by simp), ih (fun f hf => h f (by simp [hf])), List.length_cons]
    ring

/-- The bits that the receiver reads from one frame. -/
def fhBits (r : ρ) (chunk : List (Cx F)) : List Bool :=
  let x := unhop r (fftshift (Fft.dft false (chunk.drop 2)))
  (x.drop 1).map (fun b => Flt.signPos (Cx.conj (x.getD 0 0) * b).re)

theorem fhOfdmDeframe_ok {chunk : List (Cx F)} (hc : chunk.length = 10) (r : ρ) :
    ∃ k, fhOfdmDeframe r chunk = pure (k, hopNext r) ∧ Yields k (fhBits r chunk) := by
  unfold fhOfdmDeframe CP_LEN NUM_SUBCARRIERS
  have hl : (chunk.drop 2).length = 8 := by rw [List.length_drop, hc]
  rw [sliceFrom_ok (by omega), pure_bind, fftProcess_one false hl, pure_bind]
  simp only []
  rw [dehop_ok, pure_bind]
  simp only []
  set x := unhop r (fftshift (Fft.dft false (chunk.drop 2))) with hx
  have hxl : x.length = 8 := by rw [hx, unhop, place_length]
  rw [index_lt (by omega), pure_bind, sliceFrom_ok (by omega), pure_bind, usub_le (by omega), pure_bind]
  refine ⟨_, rfl, ?_⟩
  have := Yields.mapM (s := ofList (List.range (x.length - 1))) (l := List.range (x.length - 1))
    (m := fun idx => do let b_i ← index (x.drop 1) idx; pure (Flt.signPos (Cx.conj x[0] * b_i).re))
    (g := fun i => Flt.signPos (Cx.conj x[0] * (x.drop 1).getD i 0).re)
    (yields_ofList _) (by
      intro i hi
      have hi : i < x.length - 1 := List.mem_range.mp hi
      have hlt : i < (x.drop 1).length := by rw [List.length_drop]; exact hi
      rw [index_lt hlt, pure_bind, List.getD, List.getElem?_eq_getElem hlt, Option.getD_some])
  refine this.of_eq ?_
  change _ = (x.drop 1).map (fun b => Flt.signPos (Cx.conj (x.getD 0 0) * b).re)
  apply List.ext_getElem
  · simp
  intro i h1 h2
  have hi : i + 1 < x.length := by simp at h1; omega
  have h0 : x[0]? = some x[0] := List.getElem?_eq_getElem (by omega)
  have h3 : x[i + 1]? = some x[i + 1] := List.getElem?_eq_getElem hi
  simp [List.getD, h0, h3]

/-- The symbols and chaotic samples of every frame. -/
def fhInput (msg : List Bool) : List (List (Cx F) × List F) :=
  (blocks 7 (msg.map (fun b => (if b then ⟨1, 0⟩ else ⟨-1, 0⟩ : Cx F)) ++ List.replicate (7 - msg.length % 7) 0)).mapIdx
    (fun i s => (s, (List.range 8).map (fun j => orbit chebyshev (Flt.lit 5 1 : F) (i * 8 + j))))

theorem fhInput_length (msg : List Bool) : (fhInput (F := F) msg).length = msg.length / 7 + 1 := by
  rw [fhInput, List.length_mapIdx, blocks_length _ (by norm_num)]
  simp only [List.length_append, List.length_map, List.length_replicate]
  omega

theorem mem_fhInput {msg : List Bool} {p : List (Cx F) × List F} (h : p ∈ fhInput msg) :
    p.1.length = 7 ∧ p.2.length = 8 := by
  obtain ⟨i, hi, rfl⟩ := List.mem_mapIdx.mp h
  refine ⟨mem_blocks_full (k := 7) (by norm_num) _ ?_ _ (List.getElem_mem _), by simp⟩
  simp only [List.length_append, List.length_map, List.length_replicate]
  omega

theorem txBasebandFhOfdm_ok [RIter ι Bool] {m : ι} {msg : List Bool} (h : Yields m msg)
    (h05 : (Flt.le (-1) (Flt.lit 5 1 : F) && Flt.le (Flt.lit 5 1 : F) 1) = true) :
    ∃ it, txBasebandFhOfdm ρ F m = pure it ∧
      Yields it (stMap fhFrame (fun r _ => hopNext r) (Rng.seed SEED : ρ) (fhInput msg)).flatten := by
  unfold txBasebandFhOfdm Chebyshev.new
  rw [usub_le (by decide), pure_bind, rassert_pos h05, pure_bind, pure_bind]
  refine ⟨_, rfl, ?_⟩
  have h1 := (h.rmap (fun bit => (if bit then ⟨1, 0⟩ else ⟨-1, 0⟩ : Cx F))).wchunks (k := 7) (by norm_num)
  have h2 := (gives_chebyshev (Flt.lit 5 1 : F)).chunks (k := 8) (by norm_num)
  have h3 := h1.rzip_gives h2
  rw [List.length_map] at h3
  rw [← stFlat_eq_flatten]
  refine h3.rflatMapSt_mem (out := fhFrame) (upd := fun r _ => hopNext r) (fun r p hp => ?_)
  obtain ⟨hs, hc⟩ := mem_fhInput (msg := msg) hp
  exact ⟨_, by rw [fhOfdmFrame_ok hs hc, pure_bind], yields_ofList _⟩

theorem rxBasebandFhOfdm_ok [RIter ι (Cx F)] {s : ι} {l : List (Cx F)} (h : Yields s l) (hl : 10 ∣ l.length) :
    Yields (rxBasebandFhOfdm ρ F s) (stFlat fhBits (fun r _ => hopNext r) (Rng.seed SEED : ρ) (blocks 10 l)) := by
  refine (h.chunks 10).rflatMapSt_mem (out := fhBits) (upd := fun r _ => hopNext r) (fun r c hc => ?_)
  exact fhOfdmDeframe_ok (mem_blocks_full (by norm_num) l hl c hc) r

end anyF

/-! ### Exact arithmetic -/

theorem fhBits_fhFrame (r : ρ) {p : List (Cx ℝ) × List ℝ} (hs : p.1.length = 7) (hc : p.2.length = 8) :
    fhBits r (fhFrame r p)
      = ((preHop p.1 p.2).drop 1).map (fun b => Flt.signPos (Cx.conj ((preHop p.1 p.2).getD 0 0) * b).re) := by
  set x := preHop p.1 p.2 with hx
  have hxl : x.length = 8 := preHop_length hs hc
  have hrt := fft_roundtrip (fftshift ((hopPerm r).map (fun i => x.getD i 0)))
  have hl : (fftshift ((hopPerm r).map (fun i => x.getD i 0))).length = 8 := by
    rw [fftshift_length, List.length_map, hopPerm_length]
  rw [hl] at hrt
  have hd : (fhFrame r p).drop 2 = (Fft.dft true (fftshift ((hopPerm r).map (fun i => x.getD i 0)))).map
      (fun z => Cx.divR z ((8 : ℕ) : ℝ)) := by
    rw [fhFrame, List.map_append, List.drop_left']
    · rfl
    · rw [List.length_map, List.length_drop, Fft.length_dft, hl]
  have : unhop r (fftshift (Fft.dft false ((fhFrame r p).drop 2))) = x := by
    rw [hd, hrt, fftshift_even _ (by rw [List.length_map, hopPerm_length]), unhop_hop r hxl]
  rw [fhBits, this]

theorem stFlat_stMap_fh (r : ρ) (l : List (List (Cx ℝ) × List ℝ)) (hl : ∀ p ∈ l, p.1.length = 7 ∧ p.2.length = 8) :
    stFlat fhBits (fun r _ => hopNext r) r (stMap fhFrame (fun r _ => hopNext r) r l)
      = l.flatMap (fun p => ((preHop p.1 p.2).drop 1).map
          (fun b => Flt.signPos (Cx.conj ((preHop p.1 p.2).getD 0 0) * b).re)) := by
  induction l generalizing r with
  | nil => rfl
  | cons p l ih =>
    obtain ⟨h1, h2⟩ := hl p (by simp)
    rw [stMap, stFlat, fhBits_fhFrame r h1 h2, ih _ (fun q hq => hl q (by simp [hq])), List.flatMap_cons]

theorem chebyshev_pos {x : ℝ} (hx : 0 < x) (n : ℕ) : 0 < orbit chebyshev x n := by
  induction n with
  | zero => rw [orbit, chebyshev_real]; positivity
  | succ n ih => rw [orbit, chebyshev_real]; positivity

/-- With positive chaotic samples the receiver reads the sign of the real part of every symbol. -/
theorem frame_bits {s : List (Cx ℝ)} {c : List ℝ} (hs : s.length = 7) (hc : c.length = 8) (hpos : ∀ x ∈ c, 0 < x) :
    ((preHop s c).drop 1).map (fun b => Flt.signPos (Cx.conj ((preHop s c).getD 0 0) * b).re)
      = s.map (fun z => decide (0 ≤ z.re)) := by
  have h0 : 0 < c.getD 0 0 := by
    rw [List.getD, List.getElem?_eq_getElem (by omega), Option.getD_some]; exact hpos _ (List.getElem_mem _)
  have h1 : ∀ (c : List ℝ) (s : List (Cx ℝ)) (a : ℝ), 0 < a → c.length = s.length → (∀ x ∈ c, 0 < x) →
      ((c.zip s).map (fun p => p.2 * (⟨p.1, 0⟩ : Cx ℝ))).map (fun b => Flt.signPos (Cx.conj (Cx.ofR a) * b).re)
        = s.map (fun z => decide (0 ≤ z.re)) := by
    intro c
    induction c with
    | nil => intro s a _ hl _; cases s <;> simp at hl ⊢
    | cons x c ih =>
      intro s a ha hl hp
      cases s with
      | nil => simp at hl
      | cons z s =>
        simp only [List.zip_cons_cons, List.map_cons]
        rw [ih s a ha (by simpa using hl) (fun y hy => hp y (by simp [hy]))]
        congr 1
        have hx := hp x (by simp)
        show decide (0 ≤ a * (z.re * x - z.im * 0) - (-0) * (z.re * 0 + z.im * x)) = decide (0 ≤ z.re)
        congr 1
        rw [show a * (z.re * x - z.im * 0) - (-0) * (z.re * 0 + z.im * x) = (a * x) * z.re by ring]
        exact propext (mul_nonneg_iff_of_pos_left (mul_pos ha hx))
  have := h1 (c.drop 1) s (c.getD 0 0) h0 (by rw [List.length_drop]; omega)
    (fun x hx => hpos x (List.mem_of_mem_drop hx))
  exact this

end Verif
