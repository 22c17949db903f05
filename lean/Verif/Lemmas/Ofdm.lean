import Verif.Lemmas.Dft
import Verif.Lemmas.Helpers
import Verif.Lemmas.Psk
import Verif.Lemmas.Bits
import Verif.Model.Ofdm

/-! Structure of the OFDM modulators. -/
namespace Verif
open Spec
set_option linter.unusedSectionVars false
variable {ι : Type}

/-! ### Lists -/

theorem pairs_length {T : Type} (l : List T) : (pairs l).length = l.length / 2 := by
  fun_induction pairs l with
  | case1 a b t ih => simp only [List.length_cons, ih]; omega
  | case2 l hl =>
    match l, hl with
    | [], _ => simp
    | [_], _ => simp
    | a :: b :: t, hl => exact absurd rfl (hl a b t)

theorem blocks_pad {T : Type} {k : ℕ} (hk : 0 < k) (l : List T) (z : T) :
    ∃ c, c < k ∧ k ∣ l.length + c ∧
      (blocks k l).flatMap (fun d => d ++ List.replicate (k - d.length) z) = l ++ List.replicate c z := by
  induction hn : l.length using Nat.strongRecOn generalizing l with
  | _ n ih =>
    subst hn
    by_cases hl : l = []
    · subst hl; exact ⟨0, hk, by simp, by simp [blocks_nil]⟩
    have hpos : 0 < l.length := List.length_pos_iff.mpr hl
    rw [blocks_cons hk hl, List.flatMap_cons]
    by_cases hle : l.length ≤ k
    · refine ⟨k - l.length, by omega, ⟨1, by omega⟩, ?_⟩
      rw [List.drop_of_length_le hle, List.take_of_length_le hle, blocks_nil]; simp
    · obtain ⟨c, h1, h2, h3⟩ := ih (l.drop k).length (by rw [List.length_drop]; omega) (l.drop k) rfl
      refine ⟨c, h1, ?_, ?_⟩
      · rw [List.length_drop] at h2
        have : l.length + c = (l.length - k + c) + k := by omega
        rw [this]; exact Nat.dvd_add h2 ⟨1, by omega⟩
      · rw [h3, List.length_take, Nat.min_eq_left (by omega), Nat.sub_self, List.replicate_zero, List.append_nil,
          ← List.append_assoc, List.take_append_drop]

/-! ### Carriers -/

/-- The data carriers: `p/2 … n/2 - 1` and `n/2 + 1 … n - 1 - (p-1)/2`. -/
def carriers (n p : ℕ) : List ℕ :=
  List.range' (p / 2) (n / 2 - p / 2) ++ List.range' (n / 2 + 1) (n - (p - 1) / 2 - (n / 2 + 1))

theorem getDataSubcarriers_ok {n p : ℕ} (h1 : 1 ≤ p) (h2 : p ≤ n) :
    getDataSubcarriers n p = pure (carriers n p) := by
  unfold getDataSubcarriers
  simp only []
  rw [usub_le h1, pure_bind, usub_le (by omega : (p - 1) / 2 ≤ p - 1), pure_bind,
    usub_le (by omega : (p - 1) / 2 ≤ n), pure_bind, show p - 1 - (p - 1) / 2 = p / 2 by omega]
  rfl

theorem carriers_length {n p : ℕ} (h1 : 1 ≤ p) (h2 : p ≤ n) : (carriers n p).length = n - p := by
  simp only [carriers, List.length_append, List.length_range']; omega

theorem mem_carriers {n p c : ℕ} (h1 : 1 ≤ p) (h2 : p ≤ n) :
    c ∈ carriers n p ↔ p / 2 ≤ c ∧ c < n - (p - 1) / 2 ∧ c ≠ n / 2 := by
  simp only [carriers, List.mem_append, List.mem_range'_1]; omega

theorem carriers_lt {n p : ℕ} (h1 : 1 ≤ p) (h2 : p ≤ n) : ∀ c ∈ carriers n p, c < n := by
  intro c hc; rw [mem_carriers h1 h2] at hc; omega

theorem carriers_sorted (n p : ℕ) : (carriers n p).Pairwise (· < ·) := by
  unfold carriers
  rw [List.pairwise_append]
  refine ⟨List.pairwise_lt_range' .., List.pairwise_lt_range' .., fun a ha b hb => ?_⟩
  rw [List.mem_range'_1] at ha hb
  omega

theorem carriers_nodup (n p : ℕ) : (carriers n p).Nodup := (carriers_sorted n p).imp (fun h => by omega)

section anyF
variable {F : Type} [Add F] [Sub F] [Mul F] [Div F] [Neg F] [Zero F] [One F] [Flt F]

/-! ### Filling the carriers -/

/-- The data placed on the carriers, zero elsewhere. -/
def place (n : ℕ) (cs : List ℕ) (d : List (Cx F)) : List (Cx F) :=
  (cs.zip d).foldl (fun v p => v.set p.1 p.2) (List.replicate n 0)

theorem foldl_set_length {T : Type} (l : List (ℕ × T)) (v : List T) :
    (l.foldl (fun v p => v.set p.1 p.2) v).length = v.length := by
  induction l generalizing v with
  | nil => rfl
  | cons a l ih => simp [ih]

theorem place_length (n : ℕ) (cs : List ℕ) (d : List (Cx F)) : (place n cs d).length = n := by
  simp [place, foldl_set_length]

theorem insertData_ok {n : ℕ} {cs : List ℕ} (hc : ∀ c ∈ cs, c < n) (d : List (Cx F)) :
    insertData n cs d = pure (place n cs d) := by
  unfold insertData place
  have key : ∀ (l : List (ℕ × Cx F)) (v : List (Cx F)), v.length = n → (∀ q ∈ l, q.1 < n) →
      l.foldlM (fun v p => assignIdx v p.1 p.2) v = (pure (l.foldl (fun v p => v.set p.1 p.2) v) : RM _) := by
    intro l
    induction l with
    | nil => intros; rfl
    | cons a l ih =>
      intro v hv hl
      rw [List.foldlM_cons, assignIdx, if_pos (by rw [hv]; exact hl a (by simp)), pure_bind]
      exact ih _ (by simpa using hv) (fun q hq => hl q (by simp [hq]))
  refine key _ _ (by simp) (fun q hq => hc q.1 ?_)
  exact (List.of_mem_zip hq).1

theorem foldl_set_get {T : Type} (cs : List ℕ) (d : List T) (v : List T) (hnd : cs.Nodup) (hlt : ∀ c ∈ cs, c < v.length) :
    (∀ i c : ℕ, cs[i]? = some c → ((cs.zip d).foldl (fun v p => v.set p.1 p.2) v)[c]? = (d[i]?).or v[c]?) ∧
    (∀ c : ℕ, c ∉ cs → ((cs.zip d).foldl (fun v p => v.set p.1 p.2) v)[c]? = v[c]?) := by
  induction cs generalizing d v with
  | nil => simp
  | cons a cs ih =>
    cases d with
    | nil => simp
    | cons x d =>
      rw [List.nodup_cons] at hnd
      obtain ⟨ih1, ih2⟩ := ih d (v.set a x) hnd.2 (fun c hc => by simpa using hlt c (by simp [hc]))
      simp only [List.zip_cons_cons, List.foldl_cons]
      constructor
      · intro i c hi
        cases i with
        | zero =>
          simp only [List.getElem?_cons_zero, Option.some.injEq] at hi
          subst hi
          rw [ih2 a hnd.1]
          simp [hlt a (by simp)]
        | succ i =>
          simp only [List.getElem?_cons_succ] at hi ⊢
          have hca : c ≠ a := by rintro rfl; exact hnd.1 (List.mem_of_getElem? hi)
          rw [ih1 i c hi, List.getElem?_set_ne (Ne.symm hca)]
      · intro c hc
        simp only [List.mem_cons, not_or] at hc
        rw [ih2 c hc.2, List.getElem?_set_ne (Ne.symm hc.1)]

theorem place_carrier {n : ℕ} {cs : List ℕ} (hnd : cs.Nodup) (hlt : ∀ c ∈ cs, c < n) (d : List (Cx F)) {i c : ℕ}
    (hi : cs[i]? = some c) : (place n cs d)[c]? = some (d.getD i 0) := by
  have hc := hlt c (List.mem_of_getElem? hi)
  have := (foldl_set_get cs d (List.replicate n (0 : Cx F)) hnd (by simpa using hlt)).1 i c hi
  rw [place, this, List.getElem?_replicate, if_pos hc, List.getD]
  cases d[i]? <;> rfl

theorem place_empty {n : ℕ} {cs : List ℕ} (hnd : cs.Nodup) (hlt : ∀ c ∈ cs, c < n) (d : List (Cx F)) {c : ℕ}
    (hc : c < n) (hi : c ∉ cs) : (place n cs d)[c]? = some 0 := by
  have := (foldl_set_get cs d (List.replicate n (0 : Cx F)) hnd (by simpa using hlt)).2 c hi
  rw [place, this, List.getElem?_replicate, if_pos hc]

/-! ### Frames -/
variable [Fft F]

/-- The time signal of a frame without prefix, not normalised. -/
def frameBody (n p : ℕ) (d : List (Cx F)) : List (Cx F) :=
  Fft.dft true (fftshift (place n (carriers n p) d))

theorem frameBody_length (n p : ℕ) (d : List (Cx F)) : (frameBody n p d).length = n := by
  rw [frameBody, Fft.length_dft, fftshift_length, place_length]

/-- A whole frame. -/
def frameL (n p : ℕ) (d : List (Cx F)) : List (Cx F) :=
  ((frameBody n p d).drop (n - n / 4) ++ frameBody n p d).map (fun z => Cx.divR z (Flt.ofNat n))

theorem frameL_length (n p : ℕ) (d : List (Cx F)) : (frameL n p d).length = n + n / 4 := by
  rw [frameL, List.length_map, List.length_append, List.length_drop, frameBody_length]; omega

theorem frameL_drop (n p : ℕ) (d : List (Cx F)) :
    (frameL n p d).drop (n / 4) = (frameBody n p d).map (fun z => Cx.divR z (Flt.ofNat n)) := by
  rw [frameL, List.map_append, List.drop_left']
  rw [List.length_map, List.length_drop, frameBody_length]; omega

theorem ofdmFrame_ok {n p : ℕ} (h1 : 1 ≤ p) (h2 : p ≤ n) (d : List (Cx F)) :
    ofdmFrame n (n / 4) (carriers n p) d = pure (frameL n p d) := by
  unfold ofdmFrame
  rw [insertData_ok (carriers_lt h1 h2), pure_bind,
    fftProcess_one true (by rw [fftshift_length, place_length]), pure_bind, usub_le (by omega), pure_bind]
  rw [show Fft.dft true (fftshift (place n (carriers n p) d)) = frameBody n p d from rfl]
  rw [slice_ok (by omega) (by rw [frameBody_length]), pure_bind,
    List.take_of_length_le (by rw [List.length_drop, frameBody_length])]
  rfl

theorem txBasebandOfdm_ok [RIter ι (Cx F)] {s : ι} {l : List (Cx F)} (h : Yields s l) {n p : ℕ} (h1 : 1 ≤ p)
    (h2 : p ≤ n) :
    ∃ it, txBasebandOfdm (F := F) s n p = pure it ∧ Yields it ((blocks (n - p) l).flatMap (frameL n p)) := by
  unfold txBasebandOfdm
  rw [usub_le h2, pure_bind]
  simp only []
  rw [getDataSubcarriers_ok h1 h2, pure_bind]
  refine ⟨_, rfl, ?_⟩
  refine (h.chunks (n - p)).rflatMap (fun d => ⟨ofList (frameL n p d), ?_, yields_ofList _⟩)
  rw [ofdmFrame_ok h1 h2, pure_bind]

/-- What the receiver does with one block of `n + n/4` samples. -/
def deframeL (n p : ℕ) (c : List (Cx F)) : List (Cx F) :=
  (carriers n p).map (fun k => (fftshift (Fft.dft false (c.drop (n / 4)))).getD k 0)

theorem deframeL_length {n p : ℕ} (h1 : 1 ≤ p) (h2 : p ≤ n) (c : List (Cx F)) : (deframeL n p c).length = n - p := by
  rw [deframeL, List.length_map, carriers_length h1 h2]

theorem mapM_index {T : Type} [Zero T] (v : List T) (cs : List ℕ) (h : ∀ c ∈ cs, c < v.length) :
    cs.mapM (fun c => index v c) = (pure (cs.map (fun c => v.getD c 0)) : RM (List T)) := by
  induction cs with
  | nil => rfl
  | cons a cs ih =>
    rw [List.mapM_cons, index_lt (h a (by simp)), pure_bind, ih (fun c hc => h c (by simp [hc])), pure_bind]
    simp [List.getD, h a (by simp)]

theorem ofdmDeframe_ok {n p : ℕ} (h1 : 1 ≤ p) (h2 : p ≤ n) {c : List (Cx F)} (hc : c.length = n + n / 4) :
    ofdmDeframe n (n / 4) (carriers n p) c = pure (deframeL n p c) := by
  unfold ofdmDeframe
  have hl : (c.drop (n / 4)).length = n := by rw [List.length_drop]; omega
  rw [sliceFrom_ok (by omega), pure_bind, fftProcess_one false hl, pure_bind]
  simp only []
  rw [mapM_index _ _ (fun k hk => by rw [fftshift_length, Fft.length_dft, hl]; exact carriers_lt h1 h2 k hk)]
  rfl

/-- A block of the wrong length is a panic. -/
theorem ofdmDeframe_short {n p : ℕ} {c : List (Cx F)} (hn : 0 < n)
    (hc : c.length < n + n / 4) : (ofdmDeframe n (n / 4) (carriers n p) c).Panics := by
  unfold ofdmDeframe
  by_cases h : n / 4 ≤ c.length
  · rw [sliceFrom_ok h, pure_bind, fftProcess, if_neg hn.ne', if_pos (.inl (by rw [List.length_drop]; omega))]
    exact ⟨_, rfl⟩
  · rw [sliceFrom, slice, if_pos (by omega)]
    exact ⟨_, rfl⟩

theorem rxBasebandOfdm_ok [RIter ι (Cx F)] {s : ι} {l : List (Cx F)} (h : Yields s l) {n p : ℕ} (h1 : 1 ≤ p)
    (h2 : p ≤ n) (hd : n + n / 4 ∣ l.length) :
    ∃ it, rxBasebandOfdm (F := F) s n p = pure it ∧
      Yields it ((blocks (n + n / 4) l).flatMap (deframeL n p)) := by
  unfold rxBasebandOfdm
  rw [usub_le h2, pure_bind]
  simp only []
  rw [getDataSubcarriers_ok h1 h2, pure_bind]
  refine ⟨_, rfl, ?_⟩
  refine (h.chunks (n + n / 4)).rflatMap_mem (fun d hmem => ⟨ofList (deframeL n p d), ?_, yields_ofList _⟩)
  rw [ofdmDeframe_ok h1 h2 (mem_blocks_full (by omega) l hd d hmem), pure_bind]

end anyF

/-! ### Exact arithmetic -/

/-- What the receiver makes of a frame: the carriers after two shifts. -/
theorem deframe_frame {n p : ℕ} (d : List (Cx ℝ)) :
    deframeL n p (frameL n p d)
      = (carriers n p).map (fun k => (fftshift (fftshift (place n (carriers n p) d))).getD k 0) := by
  have hl : (fftshift (place n (carriers n p) d)).length = n := by rw [fftshift_length, place_length]
  have := fft_roundtrip (fftshift (place n (carriers n p) d))
  rw [hl] at this
  rw [deframeL, frameL_drop, frameBody]
  simp only [Flt.ofNat_real]
  rw [this]

theorem deframe_frame_even {n p : ℕ} (h1 : 1 ≤ p) (h2 : p ≤ n) (he : n % 2 = 0) (d : List (Cx ℝ))
    (hd : d.length ≤ n - p) :
    deframeL n p (frameL n p d) = d ++ List.replicate (n - p - d.length) 0 := by
  rw [deframe_frame, fftshift_even _ (by rw [place_length]; exact he)]
  apply List.ext_getElem?
  intro i
  rw [List.getElem?_map]
  by_cases hi : i < n - p
  · have hi' : i < (carriers n p).length := by rw [carriers_length h1 h2]; exact hi
    have hc : (carriers n p)[i]? = some (carriers n p)[i] := List.getElem?_eq_getElem hi'
    rw [hc, Option.map_some, List.getD, place_carrier (carriers_nodup n p) (carriers_lt h1 h2) d hc]
    by_cases hid : i < d.length
    · rw [List.getElem?_append_left hid]; simp [List.getD, hid]
    · rw [List.getElem?_append_right (by omega), List.getElem?_replicate, if_pos (by omega)]
      simp [List.getD, hid]
  · rw [List.getElem?_eq_none (by rw [carriers_length h1 h2]; omega),
      List.getElem?_eq_none (by rw [List.length_append, List.length_replicate]; omega)]
    rfl

end Verif
