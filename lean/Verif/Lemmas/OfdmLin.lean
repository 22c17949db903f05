import Verif.Lemmas.Multipath
import Verif.Lemmas.Crash
import Verif.Spec.Energy

/-! The baseband OFDM receiver on arbitrary signals. -/
namespace Verif
open Spec

/-- Everything the receiver makes of whole frames. -/
def deframeAll {F : Type} [Add F] [Sub F] [Mul F] [Div F] [Neg F] [Zero F] [One F] [Flt F] [Fft F] (n p : ℕ)
    (l : List (Cx F)) : List (Cx F) := (blocks (n + n / 4) l).flatMap (deframeL n p)

theorem deframeAll_length {F : Type} [Add F] [Sub F] [Mul F] [Div F] [Neg F] [Zero F] [One F] [Flt F] [Fft F] {n p : ℕ}
    (h1 : 1 ≤ p) (h2 : p ≤ n) (l : List (Cx F)) (hd : n + n / 4 ∣ l.length) :
    (deframeAll n p l).length = (n - p) * (l.length / (n + n / 4)) := by
  have hL : 0 < n + n / 4 := by omega
  rw [deframeAll, length_flatMap_const (k := n - p) _ _ (fun b _ => deframeL_length h1 h2 b), blocks_length _ hL,
    Nat.mul_comm]
  obtain ⟨c, hc⟩ := hd
  rw [hc, Nat.add_sub_assoc hL, Nat.mul_add_div hL, Nat.div_eq_of_lt (by omega), Nat.add_zero, Nat.mul_div_cancel_left _ hL]

theorem deframeAll_getElem? {F : Type} [Add F] [Sub F] [Mul F] [Div F] [Neg F] [Zero F] [One F] [Flt F] [Fft F] {n p i : ℕ}
    (h1 : 1 ≤ p) (h2 : p ≤ n) (l : List (Cx F)) (hd : n + n / 4 ∣ l.length)
    (hi : i < (n - p) * (l.length / (n + n / 4))) :
    i / (n - p) * (n + n / 4) + (n + n / 4) ≤ l.length ∧
    (deframeAll n p l)[i]? = (deframeL n p ((l.drop (i / (n - p) * (n + n / 4))).take (n + n / 4)))[i % (n - p)]? := by
  have hL : 0 < n + n / 4 := by omega
  have hK : 0 < n - p := Nat.pos_of_ne_zero (by rintro h; rw [h, Nat.zero_mul] at hi; omega)
  have h3 : i / (n - p) < l.length / (n + n / 4) := Nat.div_lt_of_lt_mul hi
  have h4 := (Nat.le_div_iff_mul_le hL).mp (Nat.succ_le_of_lt h3)
  rw [Nat.succ_mul] at h4
  refine ⟨h4, ?_⟩
  rw [deframeAll, getElem?_flatMap_const hK _ _ (fun b _ => deframeL_length h1 h2 b), blocks_getElem?' hL, if_pos (by omega)]
  rfl

/-- Every received symbol as a sum over the samples of its frame. -/
theorem deframeAll_getD {n p i : ℕ} (h1 : 1 ≤ p) (h2 : p ≤ n) (l : List (Cx ℝ)) (hd : n + n / 4 ∣ l.length)
    (hi : i < (n - p) * (l.length / (n + n / 4))) :
    ((deframeAll n p l).getD i 0).toC
      = ∑ j ∈ Finset.range n, (l.getD (i / (n - p) * (n + n / 4) + (n / 4 + j)) 0).toC
          * unit n (-(j * (((carriers n p).getD (i % (n - p)) 0 + (n + 1) / 2 : ℕ) : ℤ))) := by
  have hK : 0 < n - p := Nat.pos_of_ne_zero (by rintro h; rw [h, Nat.zero_mul] at hi; omega)
  obtain ⟨h3, h4⟩ := deframeAll_getElem? h1 h2 l hd hi
  rw [List.getD, h4, ← List.getD, deframe_getD h1 h2 _ (by rw [List.length_take, List.length_drop]; omega) (Nat.mod_lt _ hK)]
  refine Finset.sum_congr rfl fun j hj => ?_
  have hj := Finset.mem_range.mp hj
  congr 2
  rw [List.getD, List.getElem?_take_of_lt (by omega), List.getElem?_drop, List.getD]

theorem toC_add (a b : Cx ℝ) : (a + b).toC = a.toC + b.toC := rfl

theorem toC_zero : (0 : Cx ℝ).toC = 0 := rfl

/-- A complex combination of two signals. -/
def mix2 (a b : Cx ℝ) (x y : List (Cx ℝ)) : List (Cx ℝ) := List.zipWith (fun u v => a * u + b * v) x y

theorem mix2_getD (a b : Cx ℝ) {x y : List (Cx ℝ)} (h : x.length = y.length) (i : ℕ) :
    ((mix2 a b x y).getD i 0).toC = a.toC * (x.getD i 0).toC + b.toC * (y.getD i 0).toC := by
  by_cases hi : i < x.length
  · have hi' : i < y.length := by omega
    simp [mix2, List.getD, List.getElem?_zipWith, hi, hi', toC_add]
  · have hi' : ¬ i < y.length := by omega
    have e : (mix2 a b x y)[i]? = none := List.getElem?_eq_none (by simp [mix2]; omega)
    rw [List.getD, e, List.getD, List.getD, List.getElem?_eq_none (by omega), List.getElem?_eq_none (by omega)]
    simp [toC_zero]

theorem mix2_length (a b : Cx ℝ) {x y : List (Cx ℝ)} (h : x.length = y.length) : (mix2 a b x y).length = x.length := by
  simp [mix2, h]

theorem deframeAll_mix {n p : ℕ} (h1 : 1 ≤ p) (h2 : p ≤ n) (a b : Cx ℝ) {x y : List (Cx ℝ)} (h : x.length = y.length)
    (hd : n + n / 4 ∣ x.length) :
    deframeAll n p (mix2 a b x y) = mix2 a b (deframeAll n p x) (deframeAll n p y) := by
  have hl : (deframeAll n p x).length = (deframeAll n p y).length := by
    rw [deframeAll_length h1 h2 _ hd, deframeAll_length h1 h2 _ (h ▸ hd), h]
  have hlm : (deframeAll n p (mix2 a b x y)).length = (deframeAll n p x).length := by
    rw [deframeAll_length h1 h2 _ hd, deframeAll_length h1 h2 _ (by rw [mix2_length _ _ h]; exact hd), mix2_length _ _ h]
  apply List.ext_getElem
  · rw [mix2_length _ _ hl, hlm]
  intro i hi hi'
  have e : ∀ (l : List (Cx ℝ)) (h : i < l.length), l[i] = l.getD i 0 := by
    intro l h; simp [List.getD, h]
  rw [e, e]
  apply Cx.toC_inj
  have hi2 := hi
  rw [hlm, deframeAll_length h1 h2 _ hd] at hi2
  rw [mix2_getD _ _ hl, deframeAll_getD h1 h2 x hd hi2, deframeAll_getD h1 h2 y (h ▸ hd) (h ▸ hi2),
    deframeAll_getD h1 h2 _ (by rw [mix2_length _ _ h]; exact hd) (by rw [mix2_length _ _ h]; exact hi2),
    Finset.mul_sum, Finset.mul_sum, ← Finset.sum_add_distrib]
  refine Finset.sum_congr rfl fun j _ => ?_
  rw [mix2_getD _ _ h]
  ring

/-- Parseval. -/
theorem parseval (x : List ℂ) :
    ∑ k ∈ Finset.range x.length, Complex.normSq (dftAt (-1) x k)
      = x.length * ∑ j ∈ Finset.range x.length, Complex.normSq (x.getD j 0) := by
  have h := dft_dft (-1) (.inr rfl) x
  have hj : ∀ j < x.length, ∑ k ∈ Finset.range x.length, dftAt (-1) x k * unit x.length (j * k) = x.length * x.getD j 0 := by
    intro j hj
    have := congrArg (fun l => l.getD j 0) h
    simp only [neg_neg] at this
    rw [dft_getD _ _ (by rw [dft_length]; exact hj), dftAt_unit, dft_length] at this
    rw [show (x.map (fun z : ℂ => (x.length : ℂ) * z)).getD j 0 = x.length * x.getD j 0 by simp [List.getD, hj]] at this
    rw [← this]
    refine Finset.sum_congr rfl fun k hk => ?_
    rw [dft_getD _ _ (Finset.mem_range.mp hk), one_mul]
    congr 2; ring
  have key : ∑ k ∈ Finset.range x.length, (Complex.normSq (dftAt (-1) x k) : ℂ)
      = x.length * ∑ j ∈ Finset.range x.length, (Complex.normSq (x.getD j 0) : ℂ) := by
    have e1 : ∀ k ∈ Finset.range x.length, (Complex.normSq (dftAt (-1) x k) : ℂ)
        = ∑ j ∈ Finset.range x.length, (starRingEnd ℂ) (x.getD j 0) * (dftAt (-1) x k * unit x.length (j * k)) := by
      intro k _
      rw [← Complex.mul_conj, dftAt_unit, map_sum, Finset.mul_sum]
      refine Finset.sum_congr rfl fun j _ => ?_
      rw [map_mul, conj_unit, show -(-1 * ((j : ℤ) * k)) = j * k by ring]
      ring
    rw [Finset.sum_congr rfl e1, Finset.sum_comm, Finset.mul_sum]
    refine Finset.sum_congr rfl fun j hj' => ?_
    rw [← Finset.mul_sum, hj j (Finset.mem_range.mp hj'), ← Complex.mul_conj]
    ring
  exact_mod_cast key

theorem cxEnergy_eq (l : List (Cx ℝ)) : cxEnergy l = (l.map Cx.normSq).sum := rfl

theorem cxEnergy_nonneg (l : List (Cx ℝ)) : 0 ≤ cxEnergy l := by
  apply List.sum_nonneg
  intro x hx
  obtain ⟨z, _, rfl⟩ := List.mem_map.mp hx
  exact add_nonneg (mul_self_nonneg _) (mul_self_nonneg _)

theorem cxEnergy_append (a b : List (Cx ℝ)) : cxEnergy (a ++ b) = cxEnergy a + cxEnergy b := by simp [cxEnergy_eq]

theorem cxEnergy_drop_le (a : List (Cx ℝ)) (k : ℕ) : cxEnergy (a.drop k) ≤ cxEnergy a := by
  conv_rhs => rw [← List.take_append_drop k a, cxEnergy_append]
  linarith [cxEnergy_nonneg (a.take k)]

theorem cxEnergy_take_le (a : List (Cx ℝ)) (k : ℕ) : cxEnergy (a.take k) ≤ cxEnergy a := by
  conv_rhs => rw [← List.take_append_drop k a, cxEnergy_append]
  linarith [cxEnergy_nonneg (a.drop k)]

theorem normSq_toC (z : Cx ℝ) : Complex.normSq z.toC = z.normSq := rfl

theorem list_sum_range {l : List ℝ} : l.sum = ∑ i ∈ Finset.range l.length, l.getD i 0 := by
  have := sum_take_drop l 0 l.length
  simpa using this

theorem cxEnergy_dft (inv : Bool) (l : List (Cx ℝ)) (hinv : inv = false) : cxEnergy (Fft.dft inv l) = l.length * cxEnergy l := by
  subst hinv
  have hp := parseval (l.map Cx.toC)
  rw [List.length_map] at hp
  have e1 : cxEnergy l = ∑ j ∈ Finset.range l.length, Complex.normSq ((l.map Cx.toC).getD j 0) := by
    rw [cxEnergy_eq, list_sum_range, List.length_map]
    refine Finset.sum_congr rfl fun j hj => ?_
    simp [List.getD, Finset.mem_range.mp hj, normSq_toC]
  have e2 : cxEnergy (Fft.dft false l) = ∑ k ∈ Finset.range l.length, Complex.normSq (dftAt (-1) (l.map Cx.toC) k) := by
    rw [cxEnergy_eq, list_sum_range, List.length_map, Fft.length_dft]
    refine Finset.sum_congr rfl fun k hk => ?_
    have hk := Finset.mem_range.mp hk
    have := congrArg (fun l => l.getD k 0) (fft_map_toC false l)
    simp only [Bool.false_eq_true, if_false] at this
    rw [dft_getD _ _ (by rw [List.length_map]; exact hk)] at this
    rw [← this]
    simp [List.getD, hk, Fft.length_dft, normSq_toC]
  rw [e1, e2, hp]

theorem cxEnergy_fftshift (l : List (Cx ℝ)) : cxEnergy (fftshift l) = cxEnergy l := by
  rw [fftshift_eq_rotate]
  exact List.Perm.sum_eq ((List.rotate_perm l _).map _)

/-- What is on the data carriers is part of what is in the frame. -/
theorem cxEnergy_deframe {n p : ℕ} (h1 : 1 ≤ p) (h2 : p ≤ n) (b : List (Cx ℝ)) (hb : b.length = n + n / 4) :
    cxEnergy (deframeL n p b) ≤ n * cxEnergy (b.drop (n / 4)) := by
  have hbl : (b.drop (n / 4)).length = n := by rw [List.length_drop, hb]; omega
  set D := fftshift (Fft.dft false (b.drop (n / 4))) with hD
  have hDl : D.length = n := by rw [hD, fftshift_length, Fft.length_dft, hbl]
  have e1 : cxEnergy D = n * cxEnergy (b.drop (n / 4)) := by
    rw [hD, cxEnergy_fftshift, cxEnergy_dft false _ rfl, hbl]
  rw [← e1, deframeL, cxEnergy_eq, List.map_map, ← List.sum_toFinset _ (carriers_nodup n p), cxEnergy_eq, list_sum_range,
    List.length_map, hDl]
  have hsub : (carriers n p).toFinset ⊆ Finset.range n := by
    intro c hc
    exact Finset.mem_range.mpr (carriers_lt h1 h2 c (List.mem_toFinset.mp hc))
  have e2 : ∀ k ∈ Finset.range n, (D.map Cx.normSq).getD k 0 = (Cx.normSq ∘ fun k => D.getD k 0) k := by
    intro k hk
    have := Finset.mem_range.mp hk
    simp [List.getD, hDl, this]
  rw [Finset.sum_congr rfl e2]
  exact Finset.sum_le_sum_of_subset_of_nonneg hsub
    (fun k _ _ => add_nonneg (mul_self_nonneg _) (mul_self_nonneg _))

theorem cxEnergy_deframeAll {n p : ℕ} (h1 : 1 ≤ p) (h2 : p ≤ n) (l : List (Cx ℝ)) (hd : n + n / 4 ∣ l.length) :
    cxEnergy (deframeAll n p l) ≤ n * cxEnergy l := by
  have hL : 0 < n + n / 4 := by omega
  have hfull := mem_blocks_full hL l hd
  conv_rhs => rw [← blocks_flatten _ hL l]
  rw [deframeAll]
  generalize blocks (n + n / 4) l = bs at hfull
  induction bs with
  | nil => simp [cxEnergy]
  | cons b bs ih =>
    rw [List.flatMap_cons, List.flatten_cons, cxEnergy_append, cxEnergy_append, mul_add]
    have h3 := ih (fun b hb => hfull b (by simp [hb]))
    have h4 := cxEnergy_deframe h1 h2 b (hfull b (by simp))
    have h5 := mul_le_mul_of_nonneg_left (cxEnergy_drop_le b (n / 4)) (Nat.cast_nonneg n : (0 : ℝ) ≤ n)
    linarith

/-- The energy of a frame body. -/
theorem cxEnergy_frame {n p : ℕ} (h1 : 1 ≤ p) (h2 : p ≤ n) (he : n % 2 = 0) (d : List (Cx ℝ)) (hd : d.length ≤ n - p) :
    n * cxEnergy ((frameL n p d).drop (n / 4)) = cxEnergy d := by
  have hbl : ((frameL n p d).drop (n / 4)).length = n := by rw [List.length_drop, frameL_length]; omega
  have hl : (fftshift (place n (carriers n p) d)).length = n := by rw [fftshift_length, place_length]
  have hpl := place_length n (carriers n p) d
  have e1 := cxEnergy_dft false ((frameL n p d).drop (n / 4)) rfl
  have e2 : Fft.dft false ((frameL n p d).drop (n / 4)) = fftshift (place n (carriers n p) d) := by
    have := fft_roundtrip (fftshift (place n (carriers n p) d))
    rw [hl] at this
    rw [frameL_drop, frameBody]
    simp only [Flt.ofNat_real]
    exact this
  rw [hbl, e2, cxEnergy_fftshift] at e1
  rw [← e1]
  have e3 : cxEnergy (d ++ List.replicate (n - p - d.length) 0) = cxEnergy d := by
    rw [cxEnergy_append]
    simp [cxEnergy]
  rw [← e3, ← deframe_frame_even h1 h2 he d hd, deframe_frame, fftshift_even _ (by rw [place_length]; exact he), cxEnergy_eq,
    list_sum_range, List.length_map, hpl, cxEnergy_eq, List.map_map, ← List.sum_toFinset _ (carriers_nodup n p)]
  have hsub : (carriers n p).toFinset ⊆ Finset.range n := by
    intro c hc
    exact Finset.mem_range.mpr (carriers_lt h1 h2 c (List.mem_toFinset.mp hc))
  have e4 : ∀ k ∈ Finset.range n, ((place n (carriers n p) d).map Cx.normSq).getD k 0
      = (Cx.normSq ∘ fun k => (place n (carriers n p) d).getD k 0) k := by
    intro k hk
    have := Finset.mem_range.mp hk
    simp [List.getD, hpl, this]
  rw [Finset.sum_congr rfl e4]
  symm
  refine Finset.sum_subset hsub fun k hk hk' => ?_
  rw [List.mem_toFinset] at hk'
  have := place_empty (carriers_nodup n p) (carriers_lt h1 h2) d (Finset.mem_range.mp hk) hk'
  simp only [Function.comp, List.getD, this]
  simp [Cx.normSq]

theorem wrong_decide (ps : List (Bool × Bool)) (E : List (Cx ℝ)) :
    2 * (wrong (ps.flatMap (fun b => [b.1, b.2]))
        ((List.zipWith (· + ·) (ps.map (fun b => (qpskPoint b : Cx ℝ))) E).flatMap
          (fun z => [Flt.le 0 z.re, Flt.le 0 z.im])) : ℝ) ≤ cxEnergy E := by
  induction ps generalizing E with
  | nil => simpa [wrong] using cxEnergy_nonneg E
  | cons b ps ih =>
    cases E with
    | nil => simp [wrong, cxEnergy]
    | cons e E =>
      have ih := ih E
      have he : cxEnergy (e :: E) = Cx.normSq e + cxEnergy E := by simp [cxEnergy_eq]
      rw [he, List.map_cons, List.zipWith_cons_cons, List.flatMap_cons, List.flatMap_cons]
      unfold wrong at ih ⊢
      simp only [List.cons_append, List.nil_append, List.zip_cons_cons, List.countP_cons]
      push_cast
      have h2 : Real.sqrt 2 * Real.sqrt 2 = 2 := Real.mul_self_sqrt (by norm_num)
      have h0 : 0 ≤ Real.sqrt 2 := Real.sqrt_nonneg 2
      have one : ∀ (c : Bool) (x : ℝ), 2 * (((if (c != Flt.le 0 ((if c then Real.sqrt 2 else -Real.sqrt 2) + x)) = true then 1 else 0) : ℕ) : ℝ)
          ≤ x * x := by
        intro c x
        cases c
        · by_cases h : 0 ≤ -Real.sqrt 2 + x
          · simp [h]; nlinarith
          · simp [h]; exact mul_self_nonneg x
        · by_cases h : 0 ≤ Real.sqrt 2 + x
          · simp [h]; exact mul_self_nonneg x
          · simp [h]; nlinarith
      have g1 := one b.1 e.re
      have g2 := one b.2 e.im
      have q1 : ((qpskPoint b : Cx ℝ) + e).re = (if b.1 then Real.sqrt 2 else -Real.sqrt 2) + e.re := by
        rcases b with ⟨_ | _, _ | _⟩ <;> simp [qpskPoint]
      have q2 : ((qpskPoint b : Cx ℝ) + e).im = (if b.2 then Real.sqrt 2 else -Real.sqrt 2) + e.im := by
        rcases b with ⟨_ | _, _ | _⟩ <;> simp [qpskPoint]
      rw [q1, q2]
      have : Cx.normSq e = e.re * e.re + e.im * e.im := rfl
      push_cast at g1 g2
      linarith

end Verif
