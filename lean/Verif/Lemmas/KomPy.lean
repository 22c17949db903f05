import Verif.Model.KomPy
import Verif.Lemmas.Psk
import Verif.Lemmas.Cdma

/-! Helper lemmas for the Python reference code. -/
namespace Verif.KomPy
open Finset Spec
set_option linter.unusedSectionVars false

theorem mapM_ok {A B : Type} (g : A → B) (l : List A) : l.mapM (fun a => (.ok (g a) : Py B)) = .ok (l.map g) := by
  induction l with
  | nil => rfl
  | cons a l ih => rw [List.mapM_cons, ih]; rfl

theorem ok_bind {A B : Type} (a : A) (f : A → Py B) : ((.ok a : Py A) >>= f) = f a := rfl
theorem err_bind {A B : Type} (e : PyErr) (f : A → Py B) : ((.error e : Py A) >>= f) = .error e := rfl

section generic
variable {F : Type} [Add F] [Sub F] [Mul F] [Div F] [Neg F] [Zero F] [One F] [Flt F]

theorem guards_ok {fs sr k : ℕ} {fc : F} : guards fs sr fc = .ok k ↔
    0 < sr ∧ fs % sr = 0 ∧ Flt.le fc (Flt.ofNat fs / Flt.ofNat 2) = true ∧ k = Flt.toNat (Flt.ofNat fs / Flt.ofNat sr : F) := by
  unfold guards pyDiv pyMod pyAssert
  by_cases h0 : sr = 0
  · simp [h0, err_bind]
  · rw [if_neg h0, ok_bind, if_neg (by omega), ok_bind]
    by_cases h1 : Flt.le fc (Flt.ofNat fs / Flt.ofNat 2) = true
    · rw [if_pos h1, ok_bind, if_neg h0, ok_bind]
      by_cases h2 : fs % sr = 0
      · rw [if_pos (by simpa using h2), ok_bind]
        constructor
        · intro h; cases h; exact ⟨by omega, h2, h1, rfl⟩
        · rintro ⟨-, -, -, rfl⟩; rfl
      · rw [if_neg (by simpa using h2), err_bind]
        constructor
        · intro h; cases h
        · rintro ⟨-, h, -⟩; exact absurd h h2
    · rw [if_neg h1, err_bind]
      constructor
      · intro h; cases h
      · rintro ⟨-, -, h, -⟩; exact absurd h h1

theorem mix_ok (f : F → F) (l : List F) {fs : ℕ} (hfs : 0 < fs) (fc : F) :
    mix f l fs fc = .ok (l.mapIdx (fun i x => x * f (phase fs fc i))) := by
  unfold mix
  have : (fun p : F × ℕ => (do let t ← pyDiv F p.2 fs; pure (p.1 * f (Flt.ofNat 2 * Flt.pi * fc * t)) : Py F))
      = fun p => .ok (p.1 * f (phase fs fc p.2)) := by
    funext p
    unfold pyDiv phase
    rw [if_neg (by omega)]; rfl
  rw [this, mapM_ok]
  congr 1
  apply List.ext_getElem?
  intro i
  simp [List.getElem?_mapIdx, Function.comp_def]

theorem txBpsk_eq {data : List Bool} {fs sr k : ℕ} {fc : F} (hg : guards fs sr fc = .ok k) :
    txBpsk data fs sr fc = .ok (wave k (fun n b j => Verif.bitToNrz b * Flt.cos (phase fs fc (n * k + j))) data) := by
  unfold txBpsk
  rw [hg, ok_bind]
  refine congrArg Except.ok ?_
  have e : (npRepeat (data.map bitToNrz) k : List F) = wave k (fun _ b _ => Verif.bitToNrz b) data := by
    unfold npRepeat
    rw [flatMap_replicate_eq_wave, wave_map]; rfl
  rw [e]
  have : ∀ l : List F, List.zipWith (fun d t => d * Flt.cos (Flt.ofNat 2 * Flt.pi * fc * t)) l
      ((List.range l.length).map (fun i => Flt.ofNat i / Flt.ofNat fs)) = l.mapIdx (fun i d => d * Flt.cos (phase fs fc i)) := by
    intro l
    apply List.ext_getElem?
    intro i
    rw [List.getElem?_zipWith, List.getElem?_mapIdx, List.getElem?_map]
    by_cases h : i < l.length
    · rw [List.getElem?_range h, List.getElem?_eq_getElem h]; rfl
    · rw [List.getElem?_eq_none (by omega)]; rfl
  rw [this, mapIdx_wave]

end generic

/-! ### The receiver's windows -/

theorem rsum_filterMap (f : ℕ → Option ℝ) (l : List ℕ) : rsum (l.filterMap f) = (l.map (fun m => (f m).getD 0)).sum := by
  rw [rsum_eq_sum]
  induction l with
  | nil => rfl
  | cons a l ih =>
    rw [List.filterMap_cons, List.map_cons, List.sum_cons, ← ih]
    cases f a <;> simp

theorem sum_range_list (k : ℕ) (f : ℕ → ℝ) : ((List.range k).map f).sum = ∑ j ∈ range k, f j := by
  rw [← rsum_range, rsum_eq_sum]

theorem filterMap_all {A B : Type} {f : A → Option B} {g : A → B} {l : List A} (h : ∀ a ∈ l, f a = some (g a)) :
    l.filterMap f = l.map g := by
  induction l with
  | nil => rfl
  | cons a l ih =>
    rw [List.filterMap_cons, h a (by simp), List.map_cons, ih (fun b hb => h b (by simp [hb]))]

/-- Convolution with `s` ones, read at a multiple of `s`. -/
theorem conv_window (l : List ℝ) {s : ℕ} (hs : 0 < s) (j : ℕ) :
    rsum ((List.range ((j + 1) * s + 1)).filterMap (fun m => do
      let x ← l[m]?
      let y ← (List.replicate s (1 : ℝ))[(j + 1) * s - m]?
      pure (x * y))) = ∑ i ∈ range s, l.getD (j * s + 1 + i) 0 := by
  rw [rsum_filterMap, sum_range_list, show (j + 1) * s + 1 = (j * s + 1) + s by ring, sum_range_add]
  rw [sum_eq_zero, zero_add]
  · apply sum_congr rfl
    intro i hi
    have hi' := mem_range.mp hi
    have e : (List.replicate s (1 : ℝ))[(j + 1) * s - (j * s + 1 + i)]? = some 1 := by
      rw [List.getElem?_replicate, if_pos]
      have : (j + 1) * s = j * s + s := by ring
      omega
    rw [List.getD_eq_getElem?_getD]
    cases e2 : l[j * s + 1 + i]? with
    | none => rfl
    | some x =>
      show ((do let y ← (List.replicate s (1 : ℝ))[(j + 1) * s - (j * s + 1 + i)]?; pure (x * y)) : Option ℝ).getD 0 = x
      rw [e]; exact mul_one x
  · intro m hm
    have hm' := mem_range.mp hm
    have e : (List.replicate s (1 : ℝ))[(j + 1) * s - m]? = none := by
      rw [List.getElem?_replicate, if_neg]
      have : (j + 1) * s = j * s + s := by ring
      omega
    cases e2 : l[m]? with
    | none => rfl
    | some x =>
      show ((do let y ← (List.replicate s (1 : ℝ))[(j + 1) * s - m]?; pure (x * y)) : Option ℝ).getD 0 = 0
      rw [e]; rfl

/-- What a receiver decides on a mixed recording: bit `j` looks at the `s` samples after sample `j·s`. -/
theorem slice_ok {l : List ℝ} (hl : l ≠ []) {s : ℕ} (hs : 0 < s) :
    slice l s = .ok ((List.range ((l.length + s - 2) / s)).map (fun j => decide (0 < ∑ i ∈ range s, l.getD (j * s + 1 + i) 0))) := by
  have hN : 0 < l.length := List.length_pos_iff.mpr hl
  unfold slice npConvolve
  rw [if_neg (by rintro (h | h); exacts [hl h, by rw [List.replicate_eq_nil_iff] at h; omega])]
  rw [ok_bind]
  unfold pyEvery
  rw [if_neg (by omega), ok_bind]
  refine congrArg Except.ok ?_
  simp only [List.length_map, List.length_range, List.length_replicate]
  have hcount : (l.length + s - 1 + s - 1) / s = (l.length + s - 2) / s + 1 := by
    rw [← Nat.add_div_right _ hs]; congr 1; omega
  rw [hcount, List.range_succ_eq_map]
  have h1 : ∀ k ∈ List.range ((l.length + s - 2) / s), k * s + s ≤ l.length + s - 2 := by
    intro k hk
    have := List.mem_range.mp hk
    have h2 : (k + 1) * s ≤ (l.length + s - 2) / s * s := Nat.mul_le_mul_right s (by omega)
    have h3 := Nat.div_mul_le_self (l.length + s - 2) s
    have h4 : (k + 1) * s = k * s + s := by ring
    omega
  rw [List.filterMap_cons]
  have h0 : (List.map (fun n => rsum (List.filterMap (fun m => do
      let x ← l[m]?
      let y ← (List.replicate s (1 : ℝ))[n - m]?
      pure (x * y)) (List.range (n + 1)))) (List.range (l.length + s - 1)))[0 * s]? ≠ none := by
    rw [ne_eq, List.getElem?_eq_none_iff]
    simp; omega
  revert h0
  cases (List.map (fun n => rsum (List.filterMap (fun m => do
      let x ← l[m]?
      let y ← (List.replicate s (1 : ℝ))[n - m]?
      pure (x * y)) (List.range (n + 1)))) (List.range (l.length + s - 1)))[0 * s]? with
  | none => intro h; exact absurd rfl h
  | some v =>
    intro _
    dsimp only
    rw [List.map_cons, List.drop_one, List.tail_cons, List.filterMap_map]
    rw [filterMap_all (g := fun j => ∑ i ∈ range s, l.getD (j * s + 1 + i) 0), List.map_map]
    · rfl
    · intro j hj
      have := h1 j hj
      simp only [Function.comp_apply, Nat.succ_eq_add_one]
      rw [List.getElem?_map, List.getElem?_range (by have : (j + 1) * s = j * s + s := by ring
                                                     omega)]
      simp only [Option.map_some]
      rw [conv_window l hs j]

theorem guards_real {fs sr : ℕ} {fc : ℝ} (hfs : fs < 2 ^ 64) {k : ℕ} :
    guards fs sr fc = .ok k ↔ 0 < sr ∧ sr ∣ fs ∧ fc ≤ fs / 2 ∧ k = fs / sr := by
  rw [guards_ok]
  have e : Flt.toNat (Flt.ofNat fs / Flt.ofNat sr : ℝ) = fs / sr := by
    rw [Flt.toNat_real, Flt.ofNat_real, Flt.ofNat_real, Nat.floor_div_eq_div, min_eq_left]
    have := Nat.div_le_self fs sr
    omega
  rw [e]
  simp only [Flt.le_real, Flt.ofNat_real, decide_eq_true_eq, Nat.cast_ofNat, Nat.dvd_iff_mod_eq_zero]

/-- One window of a wave: the symbol's samples without its first, and the first sample of the next symbol. -/
theorem window_wave {A : Type} {k : ℕ} (hk : 0 < k) (v : ℕ → A → ℕ → ℝ) (msg : List A) {j : ℕ} {b : A} (hj : msg[j]? = some b) :
    ∑ i ∈ range k, (wave k v msg).getD (j * k + 1 + i) 0
      = ∑ i ∈ range k, v j b i - v j b 0 + (msg[j + 1]?.map (fun b' => v (j + 1) b' 0)).getD 0 := by
  have h1 : ∀ i < k, (wave k v msg).getD (j * k + i) 0 = v j b i := by
    intro i hi
    rw [List.getD_eq_getElem?_getD, wave_getElem? hk, show j * k + i = i + k * j by ring, Nat.add_mul_div_left _ _ hk,
      Nat.div_eq_of_lt hi, Nat.zero_add, hj, Nat.add_mul_mod_self_left, Nat.mod_eq_of_lt hi]
    rfl
  have h2 : (wave k v msg).getD (j * k + k) 0 = (msg[j + 1]?.map (fun b' => v (j + 1) b' 0)).getD 0 := by
    rw [List.getD_eq_getElem?_getD, wave_getElem? hk, show j * k + k = (j + 1) * k by ring, Nat.mul_div_cancel _ hk,
      Nat.mul_mod_left]
  have h3 : ∑ i ∈ range k, v j b i = ∑ i ∈ range k, (wave k v msg).getD (j * k + i) 0 :=
    sum_congr rfl (fun i hi => (h1 i (mem_range.mp hi)).symm)
  have h4 := sum_range_succ (fun i => (wave k v msg).getD (j * k + i) 0) k
  have h5 := sum_range_succ' (fun i => (wave k v msg).getD (j * k + i) 0) k
  rw [h2] at h4
  rw [h1 0 hk] at h5
  rw [h3]
  have h6 : ∑ i ∈ range k, (wave k v msg).getD (j * k + 1 + i) 0 = ∑ i ∈ range k, (wave k v msg).getD (j * k + (i + 1)) 0 :=
    sum_congr rfl (fun i _ => by congr 1; ring)
  rw [h6]
  linarith

theorem slice_wave {A : Type} {k : ℕ} (hk : 2 ≤ k) (v : ℕ → A → ℕ → ℝ) {msg : List A} (hm : msg ≠ []) :
    slice (wave k v msg) k = .ok (msg.mapIdx (fun j b =>
      decide (0 < ∑ i ∈ range k, v j b i - v j b 0 + (msg[j + 1]?.map (fun b' => v (j + 1) b' 0)).getD 0))) := by
  have hl : 0 < msg.length := List.length_pos_iff.mpr hm
  rw [slice_ok (by
    rw [← List.length_pos_iff, wave_length]; exact Nat.mul_pos hl (by omega)) (by omega)]
  congr 1
  have hn : (((wave k v msg).length + k - 2) / k) = msg.length := by
    rw [wave_length]
    rw [show msg.length * k + k - 2 = (k - 2) + k * msg.length by rw [Nat.mul_comm]; omega, Nat.add_mul_div_left _ _ (by omega),
      Nat.div_eq_of_lt (by omega), Nat.zero_add]
  rw [hn]
  apply List.ext_getElem?
  intro j
  rw [List.getElem?_map, List.getElem?_mapIdx]
  cases e : msg[j]? with
  | none =>
    rw [List.getElem?_eq_none (by rw [List.length_range]; exact List.getElem?_eq_none_iff.mp e)]; rfl
  | some b =>
    obtain ⟨hlt, -⟩ := List.getElem?_eq_some_iff.mp e
    rw [List.getElem?_range hlt]
    simp only [Option.map_some]
    rw [window_wave (by omega) v msg e]

/-! ### Quadrature -/

theorem chunk_nil {A : Type} (n : ℕ) (fill : A) : chunk n fill [] = [] := by unfold chunk; simp

theorem chunk_two {A : Type} (fill a b : A) (l : List A) : chunk 2 fill (a :: b :: l) = [a, b] :: chunk 2 fill l := by
  rw [chunk]; simp

theorem chunk_one {A : Type} (fill a : A) : chunk 2 fill [a] = [[a, fill]] := by
  rw [chunk]; simp [chunk_nil]

/-- An odd message is completed by `False`. -/
def padded (data : List Bool) : List Bool := if data.length % 2 = 0 then data else data ++ [false]

theorem chunk_pairs (data : List Bool) : chunk 2 false data = (pairs (padded data)).map (fun p => [p.1, p.2]) := by
  induction data using pairs.induct with
  | case1 a b t ih =>
    have : padded (a :: b :: t) = a :: b :: padded t := by
      unfold padded
      simp only [List.length_cons]
      by_cases h : t.length % 2 = 0
      · rw [if_pos h, if_pos (show (t.length + 1 + 1) % 2 = 0 by omega)]
      · rw [if_neg h, if_neg (show ¬ (t.length + 1 + 1) % 2 = 0 by omega)]; rfl
    rw [chunk_two, ih, this, pairs]; rfl
  | case2 l h =>
    match l, h with
    | [], _ => rw [chunk_nil]; rfl
    | [a], _ => rw [chunk_one]; rfl
    | a :: b :: t, h => exact absurd rfl (h a b t)

theorem txBasebandQpsk_eq {F : Type} [Add F] [Sub F] [Mul F] [Div F] [Neg F] [Zero F] [One F] [Flt F] (data : List Bool) :
    (txBasebandQpsk data : Py (List (Cx F))) = .ok ((pairs (padded data)).map (fun p =>
      ⟨Verif.bitToNrz p.1 * Flt.sqrt (Flt.ofNat 2), Verif.bitToNrz p.2 * Flt.sqrt (Flt.ofNat 2)⟩)) := by
  unfold txBasebandQpsk
  rw [chunk_pairs]
  rw [List.mapM_map]
  exact mapM_ok (fun p : Bool × Bool => (⟨Verif.bitToNrz p.1 * Flt.sqrt (Flt.ofNat 2), Verif.bitToNrz p.2 * Flt.sqrt (Flt.ofNat 2)⟩ : Cx F)) _

theorem phase_half (fs : ℕ) (fc : ℝ) (i : ℕ) : phase fs (fc / 2) i = Real.pi * fc * ((i : ℝ) / fs) := by
  unfold phase
  simp only [Flt.ofNat_real, Flt.pi_real]
  push_cast; ring

theorem txQpsk_eq {data : List Bool} {fs sr k : ℕ} {fc : ℝ} (h0 : 0 < fs) (hg : guards fs sr fc = .ok k) :
    txQpsk data fs sr fc = .ok (wave k (fun n (p : Bool × Bool) j =>
      Real.sqrt 2 * (Verif.bitToNrz p.1 * Real.cos (phase fs (fc / 2) (n * k + j))
        + -(Verif.bitToNrz p.2) * Real.sin (phase fs (fc / 2) (n * k + j)))) (pairs (padded data))) := by
  unfold txQpsk
  rw [hg, ok_bind, txBasebandQpsk_eq, ok_bind]
  have e : (npRepeat ((pairs (padded data)).map (fun p =>
      (⟨Verif.bitToNrz p.1 * Flt.sqrt (Flt.ofNat 2), Verif.bitToNrz p.2 * Flt.sqrt (Flt.ofNat 2)⟩ : Cx ℝ))) k)
      = wave k (fun _ p _ => ⟨Verif.bitToNrz p.1 * Flt.sqrt (Flt.ofNat 2), Verif.bitToNrz p.2 * Flt.sqrt (Flt.ofNat 2)⟩)
          (pairs (padded data)) := by
    unfold npRepeat
    rw [flatMap_replicate_eq_wave, wave_map]
  rw [e]
  have : (fun p : Cx ℝ × ℕ => (do
      let t ← pyDiv ℝ p.2 fs
      let a := Flt.pi * fc * t
      pure (p.1.re * Flt.cos a - p.1.im * Flt.sin a) : Py ℝ))
      = fun p => .ok (p.1.re * Real.cos (phase fs (fc / 2) p.2) - p.1.im * Real.sin (phase fs (fc / 2) p.2)) := by
    funext p
    unfold pyDiv
    rw [if_neg (by omega), phase_half]; rfl
  rw [this, mapM_ok]
  congr 1
  have h2 : ∀ l : List (Cx ℝ), l.zipIdx.map (fun p => p.1.re * Real.cos (phase fs (fc / 2) p.2) - p.1.im * Real.sin (phase fs (fc / 2) p.2))
      = l.mapIdx (fun i z => z.re * Real.cos (phase fs (fc / 2) i) - z.im * Real.sin (phase fs (fc / 2) i)) := by
    intro l
    apply List.ext_getElem?
    intro i
    simp [List.getElem?_mapIdx, Function.comp_def]
  rw [h2, mapIdx_wave]
  congr 1
  funext n p j
  simp only [Flt.sqrt_real, Flt.ofNat_real, Nat.cast_ofNat]
  ring

/-! ### The reference key -/

section generic
variable {F : Type} [Add F] [Sub F] [Mul F] [Div F] [Neg F] [Zero F] [One F] [Flt F]

theorem tile_getElem? {A : Type} {l : List A} (hl : 0 < l.length) (n i : ℕ) :
    (npTile l n)[i]? = if i < n * l.length then l[i % l.length]? else none := by
  unfold npTile
  have e : (List.replicate n l).flatten = (List.range n).flatMap (fun _ => l) := by
    rw [List.flatMap_def]
    congr 1
    simp
  rw [e, getElem?_flatMap_const hl _ _ (fun _ _ => rfl)]
  by_cases h : i < n * l.length
  · have : i / l.length < n := Nat.div_lt_of_lt_mul (by rwa [Nat.mul_comm] at h)
    rw [if_pos h, List.getElem?_range this]; rfl
  · have : n ≤ i / l.length := (Nat.le_div_iff_mul_le hl).mpr (by omega)
    rw [if_neg h, List.getElem?_eq_none (by simpa using this)]; rfl

theorem code_getElem? {spc : ℕ} (hspc : 0 < spc) (n i : ℕ) (hi : i < n * (16 * spc)) :
    (npTile (npRepeat (KEY.map bitToNrz) spc) n : List F)[i]? = some (Verif.bitToNrz (keyBit KEY spc i)) := by
  have hl : (npRepeat (KEY.map bitToNrz) spc : List F).length = 16 * spc := by
    unfold npRepeat
    rw [length_flatMap_const (k := spc) _ _ (fun _ _ => List.length_replicate)]; rfl
  rw [tile_getElem? (by omega), hl, if_pos hi]
  unfold npRepeat
  rw [getElem?_flatMap_const hspc _ _ (by simp), mod_mul_div]
  have h16 : i / spc % 16 < 16 := Nat.mod_lt _ (by norm_num)
  rw [List.getElem?_map]
  have h3 : KEY[i / spc % 16]? = some (KEY.getD (i / spc % 16) false) := by
    rw [List.getD_eq_getElem?_getD, List.getElem?_eq_getElem (show i / spc % 16 < KEY.length from h16)]; rfl
  rw [h3]
  simp only [Option.map_some, Option.bind_some]
  rw [List.getElem?_replicate, if_pos (by exact Nat.mod_lt _ hspc)]
  rfl

end generic

theorem bind_ok {A B : Type} {x : Py A} {f : A → Py B} {b : B} : (x >>= f) = .ok b ↔ ∃ a, x = .ok a ∧ f a = .ok b := by
  cases x with
  | error e => constructor
               · intro h; cases h
               · rintro ⟨a, h, -⟩; cases h
  | ok a => constructor
            · intro h; exact ⟨a, rfl, h⟩
            · rintro ⟨a', h, h2⟩; cases h; exact h2

theorem pyAssert_ok {c : Bool} {u : Unit} : pyAssert c = .ok u ↔ c = true := by
  unfold pyAssert
  cases c <;> simp

theorem cdmaGuards_real {fs sr : ℕ} {fc : ℝ} (hfs : fs < 2 ^ 64) {k : ℕ} :
    cdmaGuards fs sr fc = .ok k ↔ 0 < sr ∧ sr * 16 ∣ fs ∧ 2 * (sr * 16) ≤ fs ∧ fc ≤ fs / 2 ∧ k = fs / sr := by
  have e : Flt.toNat (Flt.ofNat fs / Flt.ofNat sr : ℝ) = fs / sr := by
    rw [Flt.toNat_real, Flt.ofNat_real, Flt.ofNat_real, Nat.floor_div_eq_div, min_eq_left]
    have := Nat.div_le_self fs sr
    omega
  rcases Nat.eq_zero_or_pos sr with h0 | h0
  · subst h0
    simp [cdmaGuards, pyDiv, err_bind]
  · have d1 : pyDiv ℝ fs sr = .ok ((fs : ℝ) / sr) := by unfold pyDiv; rw [if_neg (by omega)]; rfl
    have d2 : pyDiv ℝ fs 2 = .ok ((fs : ℝ) / 2) := by unfold pyDiv; rw [if_neg (by omega)]; simp
    have d3 : pyDiv ℝ fs (sr * KEY.length) = .ok ((fs : ℝ) / (sr * 16 : ℕ)) := by
      unfold pyDiv; rw [if_neg (by show sr * 16 ≠ 0; omega)]; rfl
    have d4 : pyMod fs sr = .ok (fs % sr) := by unfold pyMod; rw [if_neg (by omega)]
    unfold cdmaGuards
    simp only [d1, d2, d3, d4, ok_bind, bind_ok, pyAssert_ok, exists_const, isInt_real hfs h0,
      isInt_real hfs (show 0 < sr * 16 by omega), beq_iff_eq, ← Nat.dvd_iff_mod_eq_zero]
    have e2 : Flt.toNat ((fs : ℝ) / sr) = fs / sr := e
    rw [e2]
    simp only [Flt.le_real, decide_eq_true_eq, Flt.ofNat_real]
    have e3 : (((KEY.length * sr : ℕ) : ℝ) ≤ fs / 2) ↔ 2 * (sr * 16) ≤ fs := by
      rw [le_div_iff₀ (by norm_num)]
      have : (KEY.length * sr : ℕ) = sr * 16 := Nat.mul_comm 16 sr
      rw [this]
      constructor
      · intro h; have : (sr * 16 * 2 : ℕ) ≤ fs := by exact_mod_cast h
        omega
      · intro h; have : (sr * 16 * 2 : ℕ) ≤ fs := by omega
        exact_mod_cast this
    rw [e3]
    constructor
    · rintro ⟨h1, h2, h3, h4, h5, h6⟩
      cases h6
      exact ⟨h0, h5, h2, h1, rfl⟩
    · rintro ⟨-, h5, h2, h1, rfl⟩
      have h3 : sr ∣ fs := Dvd.dvd.trans (Dvd.intro _ rfl) h5
      exact ⟨h1, h2, h3, h3, h5, rfl⟩

theorem cdmaGuards_guards {fs sr k : ℕ} {fc : ℝ} (hfs : fs < 2 ^ 64) (h : cdmaGuards fs sr fc = .ok k) : guards fs sr fc = .ok k := by
  obtain ⟨h1, h2, -, h4, h5⟩ := (cdmaGuards_real hfs).mp h
  exact (guards_real hfs).mpr ⟨h1, Dvd.dvd.trans (Dvd.intro _ rfl) h2, h4, h5⟩

theorem txBpskCdma_eq {data : List Bool} {fs sr k : ℕ} {fc : ℝ} (hfs : fs < 2 ^ 64) (hg : cdmaGuards fs sr fc = .ok k) :
    txBpskCdma data fs sr fc = .ok ((wave k (fun n b j => Verif.bitToNrz b * Real.cos (phase fs fc (n * k + j))) data).mapIdx
      (fun i x => x * Verif.bitToNrz (keyBit KEY (k / 16) i))) := by
  obtain ⟨h1, h2, h3, h4, rfl⟩ := (cdmaGuards_real hfs).mp hg
  obtain ⟨c, hc⟩ := h2
  have hc0 : 0 < c := by
    rcases Nat.eq_zero_or_pos c with h | h
    · subst h; simp at hc; omega
    · exact h
  have hk : fs / sr = 16 * c := by rw [hc, Nat.mul_assoc, Nat.mul_div_cancel_left _ h1]
  unfold txBpskCdma
  rw [hg, ok_bind, hk]
  have d1 : pyDiv ℝ (16 * c) KEY.length = .ok (c : ℝ) := by
    unfold pyDiv
    rw [if_neg (by decide)]
    congr 1
    show ((16 * c : ℕ) : ℝ) / ((16 : ℕ) : ℝ) = c
    push_cast; field_simp
  have d2 : Flt.toNat (c : ℝ) = c := by
    rw [Flt.toNat_real, Nat.floor_natCast, min_eq_left]
    have : c ≤ fs := by rw [hc]; exact Nat.le_mul_of_pos_left _ (by omega)
    omega
  rw [d1, ok_bind, d2, txBpsk_eq (cdmaGuards_guards hfs hg), ok_bind, hk]
  have e16 : 16 * c / 16 = c := by omega
  rw [e16]
  have hlen : (wave (16 * c) (fun n b j => Verif.bitToNrz b * Flt.cos (phase fs fc (n * (16 * c) + j))) data : List ℝ).length
      = data.length * (16 * c) := wave_length _ _ _
  rw [hlen]
  have d3 : pyFloorDiv (data.length * (16 * c)) c = .ok (data.length * 16) := by
    unfold pyFloorDiv
    rw [if_neg (by omega), ← Nat.mul_assoc, Nat.mul_div_cancel _ hc0]
  have d4 : pyFloorDiv (data.length * 16) KEY.length = .ok data.length := by
    unfold pyFloorDiv
    rw [if_neg (by decide)]
    congr 1
    exact Nat.mul_div_cancel _ (by norm_num)
  rw [d3, ok_bind, d4, ok_bind]
  have hl1 : (npRepeat (KEY.map bitToNrz) c : List ℝ).length = 16 * c := by
    unfold npRepeat
    rw [length_flatMap_const (k := c) _ _ (fun _ _ => List.length_replicate)]; rfl
  have hl2 : (npTile (npRepeat (KEY.map bitToNrz) c) data.length : List ℝ).length = data.length * (16 * c) := by
    unfold npTile
    rw [List.length_flatten, List.map_replicate, hl1, List.sum_replicate, smul_eq_mul]
  have d5 : pyAssert (data.length * (16 * c) == (npTile (npRepeat (KEY.map bitToNrz) c) data.length : List ℝ).length) = .ok () := by
    rw [hl2]; unfold pyAssert; simp
  dsimp only
  rw [d5, ok_bind]
  have key : ∀ l : List ℝ, l.length = data.length * (16 * c) →
      List.zipWith (· * ·) l (npTile (npRepeat (KEY.map bitToNrz) c) data.length : List ℝ)
        = l.mapIdx (fun i x => x * Verif.bitToNrz (keyBit KEY c i)) := by
    intro l hl
    apply List.ext_getElem?
    intro i
    rw [List.getElem?_zipWith, List.getElem?_mapIdx]
    by_cases h : i < data.length * (16 * c)
    · rw [code_getElem? hc0 _ _ h, List.getElem?_eq_getElem (by rw [hl]; exact h)]
      rfl
    · have : l[i]? = none := List.getElem?_eq_none (by omega)
      rw [this]
      rfl
  exact congrArg Except.ok (key _ hlen)

end Verif.KomPy
