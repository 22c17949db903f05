import Verif.F64.Dft
import Verif.F64.Sign
import Verif.Lemmas.OfdmPass

/-! OFDM frames in IEEE arithmetic. -/
namespace Verif
open Spec F64

theorem flatMap_blocks_get {A B : Type} {k : ℕ} (hk : 0 < k) (f : List A → List B) (l : List A)
    (hf : ∀ d ∈ blocks k l, (f d).length = k) {i : ℕ} {a : A} (hi : l[i]? = some a) :
    ∃ d ∈ blocks k l, ∃ j < k, d[j]? = some a ∧ ((blocks k l).flatMap f)[i]? = (f d)[j]? := by
  induction hn : l.length using Nat.strongRecOn generalizing l i with
  | _ n ih =>
    subst hn
    have hl : l ≠ [] := by rintro rfl; simp at hi
    have hpos : 0 < l.length := List.length_pos_iff.mpr hl
    rw [blocks_cons hk hl] at hf ⊢
    rw [List.flatMap_cons]
    have hlen : (f (l.take k)).length = k := hf _ (by simp)
    by_cases hik : i < k
    · refine ⟨l.take k, by simp, i, hik, by rw [List.getElem?_take, if_pos hik]; exact hi, ?_⟩
      rw [List.getElem?_append_left (by omega)]
    · have h2 : (l.drop k)[i - k]? = some a := by rw [List.getElem?_drop, show k + (i - k) = i by omega]; exact hi
      obtain ⟨d, h3, j, h4, h5, h6⟩ := ih (l.drop k).length (by rw [List.length_drop]; omega) (l.drop k)
        (fun d hd => hf d (by simp [hd])) h2 rfl
      refine ⟨d, by simp [h3], j, h4, h5, ?_⟩
      rw [List.getElem?_append_right (by omega), hlen]
      exact h6

theorem mem_of_mem_blocks {A : Type} {k : ℕ} {l d : List A} {a : A} (hd : d ∈ blocks k l) (ha : a ∈ d) : a ∈ l := by
  rcases Nat.eq_zero_or_pos k with rfl | hk
  · rw [blocks_zero] at hd; simp at hd
  induction hn : l.length using Nat.strongRecOn generalizing l with
  | _ n ih =>
    subst hn
    by_cases hl : l = []
    · subst hl; rw [blocks_nil] at hd; simp at hd
    have hpos : 0 < l.length := List.length_pos_iff.mpr hl
    rw [blocks_cons hk hl, List.mem_cons] at hd
    rcases hd with rfl | hd
    · exact List.mem_of_mem_take ha
    · exact List.mem_of_mem_drop (ih (l.drop k).length (by rw [List.length_drop]; omega) hd rfl)

theorem place_mem {F : Type} [Add F] [Sub F] [Mul F] [Div F] [Neg F] [Zero F] [One F] [Flt F] {n : ℕ} {cs : List ℕ}
    (hnd : cs.Nodup) (hlt : ∀ c ∈ cs, c < n) (d : List (Cx F)) {z : Cx F} (hz : z ∈ place n cs d) : z ∈ d ∨ z = 0 := by
  obtain ⟨c, hc⟩ := List.mem_iff_getElem?.mp hz
  have hcn : c < n := by
    by_contra h
    rw [List.getElem?_eq_none (by rw [place_length]; omega)] at hc
    simp at hc
  by_cases hmem : c ∈ cs
  · obtain ⟨i, hi⟩ := List.mem_iff_getElem?.mp hmem
    rw [place_carrier hnd hlt d hi, Option.some.injEq, List.getD] at hc
    cases h : d[i]? with
    | none => rw [h] at hc; exact .inr hc.symm
    | some w => rw [h] at hc; subst hc; exact .inl (List.mem_of_getElem? h)
  · rw [place_empty hnd hlt d hcn hmem, Option.some.injEq] at hc
    exact .inr hc.symm

theorem deframe_ieee {L : Libm} [Fft (FloatL L)] {δ : ℝ} (hD : AccurateDft (Fft.dft (F := FloatL L)) δ) (hδ0 : 0 ≤ δ)
    (hδ : δ ≤ 1 / 2) {n p : ℕ} (h1 : 1 ≤ p) (h2 : p < n) (he : n % 2 = 0) (hn : n ≤ 2 ^ 40) {B : ℝ}
    (hB0 : 1 / 2 ^ 90 ≤ B) (hB1 : B ≤ 2 ^ 90) {d : List (Cx (FloatL L))} (hd : ∀ z ∈ d, CB z B) {i : ℕ} (hi : i < n - p) :
    ∃ z, (deframeL n p (frameL n p d))[i]? = some z ∧ CAp z (valC (d.getD i 0)) (n * B * (5 * δ + 10 * uu)) := by
  have hBp : 0 < B := lt_of_lt_of_le (by norm_num) hB0
  have hi' : i < (carriers n p).length := by rw [carriers_length h1 h2.le]; exact hi
  have hc : (carriers n p)[i]? = some (carriers n p)[i] := List.getElem?_eq_getElem hi'
  set c := (carriers n p)[i] with hcdef
  have hcn : c < n := carriers_lt h1 h2.le c (List.mem_of_getElem? hc)
  set x : List (Cx (FloatL L)) := fftshift (place n (carriers n p) d) with hx
  have hxl : x.length = n := by rw [hx, fftshift_length, place_length]
  have hxB : ∀ z ∈ x, CB z B := by
    intro z hz
    rw [hx, fftshift_eq_rotate, List.mem_rotate] at hz
    rcases place_mem (carriers_nodup n p) (carriers_lt h1 h2.le) d hz with h | h
    · exact hd z h
    · subst h
      have h0 : Fin (0 : Float) ∧ |val (0 : Float)| ≤ B := ⟨fin_zero, by rw [val_zero, abs_zero]; exact hBp.le⟩
      exact ⟨h0, h0⟩
  have hW : (frameL n p d).drop (n / 4) = (Fft.dft true x).map (fun z => Cx.divR z (Flt.ofNat n)) := by
    rw [frameL_drop, frameBody]
  have hWlen : (Fft.dft false ((frameL n p d).drop (n / 4))).length = n := by
    rw [Fft.length_dft, hW, List.length_map, Fft.length_dft, hxl]
  set j := (c + (n + 1) / 2) % n with hj
  have hjn : j < n := Nat.mod_lt _ (by omega)
  have hz : (Fft.dft false ((frameL n p d).drop (n / 4)))[j]? = some ((Fft.dft false ((frameL n p d).drop (n / 4)))[j]'(by omega)) :=
    List.getElem?_eq_getElem _
  generalize (Fft.dft false ((frameL n p d).drop (n / 4)))[j]'(by omega) = z at hz
  have ha : x[j]? = some (d.getD i 0) := by
    rw [hx, fftshift_eq_rotate, List.getElem?_rotate (by rw [place_length]; exact hjn), place_length,
      ← place_carrier (carriers_nodup n p) (carriers_lt h1 h2.le) d hc, hj]
    congr 1
    rw [Nat.mod_add_mod, show c + (n + 1) / 2 + (n + 1) / 2 = c + n by omega, Nat.add_mod_right, Nat.mod_eq_of_lt hcn]
  refine ⟨z, ?_, ?_⟩
  · rw [deframeL, List.getElem?_map, hc, Option.map_some, List.getD, fftshift_eq_rotate,
      List.getElem?_rotate (by rw [hWlen]; exact hcn), hWlen, hz]
    rfl
  · rw [hW] at hz
    exact dft_roundtrip_near' hD (fun inv y => Fft.length_dft (F := FloatL L) inv y) (x := x) (B := B) hxl (by omega)
      hn hB0 hB1 hxB hδ0 hδ (k := j) (z := z) (a := d.getD i 0) hz ha

/-- The computed `2.sqrt()`. -/
theorem val_sqrt2 : Fin (Float.sqrt (F64.ofNat 2)) ∧ 1.4 ≤ val (Float.sqrt (F64.ofNat 2)) ∧
    val (Float.sqrt (F64.ofNat 2)) ≤ 1.5 := by
  obtain ⟨f2, v2⟩ := ofNat_exact (n := 2) (by norm_num)
  obtain ⟨f, v⟩ := sqrt_val f2 (by rw [v2]; norm_num)
  refine ⟨f, ?_⟩
  rw [v, v2]
  push_cast
  have h1 : (1.41 : ℝ) ≤ Real.sqrt 2 := Real.le_sqrt_of_sq_le (by norm_num)
  have h2 : Real.sqrt 2 ≤ 1.42 := Real.sqrt_le_iff.mpr (by norm_num)
  have h3 := abs_rnd_sub_le_abs (Real.sqrt 2)
  have h4 : max (|Real.sqrt 2| * 2 ^ (-53 : ℤ)) (2 ^ (-1075 : ℤ)) ≤ 0.01 := by
    refine max_le ?_ ((tiny_le (k := 10) (by norm_num)).trans (by norm_num))
    rw [abs_of_nonneg (by linarith), show (2 : ℝ) ^ (-53 : ℤ) = 1 / 2 ^ 53 from uu_eq]
    norm_num at *
    linarith
  have := abs_le.mp (h3.trans h4)
  constructor <;> norm_num at * <;> linarith

theorem qpskPoint_ieee (L : Libm) (b : Bool × Bool) :
    CB (qpskPoint b : Cx (FloatL L)) 1.5 ∧
    (∀ (z : Cx (FloatL L)) (e : ℝ), e < 1.4 → CAp z (valC (qpskPoint b : Cx (FloatL L))) e →
      [Flt.le 0 z.re, Flt.le 0 z.im] = [b.1, b.2]) := by
  obtain ⟨f, lo, hi⟩ := val_sqrt2
  have c : ∀ b : Bool, ∀ x : Float, x = (if b then Float.sqrt (F64.ofNat 2) else -Float.sqrt (F64.ofNat 2)) →
      (Fin x ∧ |val x| ≤ 1.5) ∧ ∀ (y : Float) (e : ℝ), e < 1.4 → Ap y (val x) e → Float.le 0 y = b := by
    intro b x hx
    cases b
    · simp only [Bool.false_eq_true, if_false] at hx
      subst hx
      refine ⟨⟨neg_fin.mpr f, by rw [neg_val, abs_neg, abs_of_nonneg (by linarith)]; exact hi⟩, fun y e he hy => ?_⟩
      exact hy.neg_dec (by rw [neg_val]; linarith)
    · simp only [if_true] at hx
      subst hx
      refine ⟨⟨f, by rw [abs_of_nonneg (by linarith)]; exact hi⟩, fun y e he hy => ?_⟩
      exact hy.nonneg_dec (by linarith)
  obtain ⟨b1, b2⟩ := b
  have hre : (qpskPoint (b1, b2) : Cx (FloatL L)).re = (if b1 then Float.sqrt (F64.ofNat 2) else -Float.sqrt (F64.ofNat 2)) := rfl
  have him : (qpskPoint (b1, b2) : Cx (FloatL L)).im = (if b2 then Float.sqrt (F64.ofNat 2) else -Float.sqrt (F64.ofNat 2)) := rfl
  refine ⟨⟨(c b1 _ hre).1, (c b2 _ him).1⟩, fun z e he hz => ?_⟩
  have e1 : Flt.le 0 z.re = b1 := (c b1 _ hre).2 z.re e he hz.1
  have e2 : Flt.le 0 z.im = b2 := (c b2 _ him).2 z.im e he hz.2
  rw [e1, e2]

end Verif
