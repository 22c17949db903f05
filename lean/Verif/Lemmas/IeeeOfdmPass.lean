import Verif.Lemmas.IeeeOfdm
import Verif.Lemmas.OfdmRx
import Verif.F64.Carrier
import Verif.Lemmas.Symbols

/-! Passband OFDM in IEEE arithmetic: how far each stage is from the same stage in exact arithmetic. -/
namespace Verif
open Spec F64

/-- Two lists of complex samples, item by item within `e`. -/
def CNear (L : Libm) (e : ℝ) : List (Cx (FloatL L)) → List (Cx ℝ) → Prop :=
  List.Forall₂ (fun a b => CAp a b.toC e)

theorem forall₂_of_get? {A B : Type} {R : A → B → Prop} {l : List A} {m : List B} (hl : l.length = m.length)
    (h : ∀ (i : ℕ) (a : A) (b : B), l[i]? = some a → m[i]? = some b → R a b) : List.Forall₂ R l m := by
  refine List.forall₂_iff_get.mpr ⟨hl, fun i h1 h2 => ?_⟩
  exact h i _ _ (by simp [h1]) (by simp [h2])

theorem forall₂_get? {A B : Type} {R : A → B → Prop} {l : List A} {m : List B} (h : List.Forall₂ R l m) {i : ℕ} {a : A} {b : B}
    (ha : l[i]? = some a) (hb : m[i]? = some b) : R a b := by
  obtain ⟨h1, e1⟩ := List.getElem?_eq_some_iff.mp ha
  obtain ⟨h2, e2⟩ := List.getElem?_eq_some_iff.mp hb
  have := (List.forall₂_iff_get.mp h).2 i h1 h2
  simp only [List.get_eq_getElem, e1, e2] at this
  exact this

theorem forall₂_blocks {A B : Type} {R : A → B → Prop} {k : ℕ} (hk : 0 < k) {l : List A} {m : List B}
    (h : List.Forall₂ R l m) : List.Forall₂ (List.Forall₂ R) (blocks k l) (blocks k m) := by
  induction hn : l.length using Nat.strongRecOn generalizing l m with
  | _ n ih =>
    subst hn
    by_cases hl : l = []
    · subst hl
      have hm : m = [] := List.length_eq_zero_iff.mp h.length_eq.symm
      subst hm
      rw [blocks_nil, blocks_nil]
      exact .nil
    · have hm : m ≠ [] := by
        rintro rfl
        exact hl (List.length_eq_zero_iff.mp h.length_eq)
      have hpos : 0 < l.length := List.length_pos_iff.mpr hl
      rw [blocks_cons hk hl, blocks_cons hk hm]
      exact .cons (List.forall₂_take k h) (ih (l.drop k).length (by rw [List.length_drop]; omega) (List.forall₂_drop k h) rfl)

theorem forall₂_fftshift {A B : Type} {R : A → B → Prop} {l : List A} {m : List B}
    (h : List.Forall₂ R l m) : List.Forall₂ R (fftshift l) (fftshift m) := by
  rw [fftshift_eq_rotate, fftshift_eq_rotate, List.rotate_eq_drop_append_take (by omega),
    List.rotate_eq_drop_append_take (by omega), h.length_eq]
  exact List.rel_append (List.forall₂_drop _ h) (List.forall₂_take _ h)

theorem dft_toC (inv : Bool) (x : List (Cx ℝ)) {j : ℕ} {z : Cx ℝ} (hz : (Fft.dft inv x)[j]? = some z) :
    z.toC = dftAt (if inv then 1 else -1) (x.map Cx.toC) j := by
  have hj : j < x.length := by
    have := (List.getElem?_eq_some_iff.mp hz).1
    rwa [Fft.length_dft] at this
  have h := congrArg (fun l => l.getD j 0) (fft_map_toC inv x)
  rw [dft_getD _ _ (by rw [List.length_map]; exact hj)] at h
  rw [← h]
  simp [List.getD, hz]

variable {L : Libm}

/-- A transform of nearly the same samples. -/
theorem dft_near_float {D : Bool → List (Cx Float) → List (Cx Float)} {δ : ℝ} (hD : AccurateDft D δ)
    (hDl : ∀ inv x, (D inv x).length = x.length) {x : List (Cx Float)}
    {y : List (Cx ℝ)} {e R : ℝ} (h : List.Forall₂ (fun a b => CAp a b.toC e) x y) (hy : ∀ z ∈ y, |z.re| ≤ R ∧ |z.im| ≤ R)
    (hn : y.length ≤ 2 ^ 40) (h0 : 1 / 2 ^ 100 ≤ R + e) (h1 : R + e ≤ 2 ^ 100) (inv : Bool) :
    List.Forall₂ (fun a b => CAp a b.toC (δ * y.length * (R + e) + y.length * (2 * e))) (D inv x) (Fft.dft inv y) := by
  have hl : x.length = y.length := h.length_eq
  have hB : ∀ z ∈ x, CB z (R + e) := by
    intro z hz
    obtain ⟨i, hi⟩ := List.mem_iff_getElem?.mp hz
    have hi' : i < y.length := by rw [← hl]; exact (List.getElem?_eq_some_iff.mp hi).1
    have hyi : y[i]? = some y[i] := List.getElem?_eq_getElem hi'
    have hc : CAp z (y[i]).toC e := forall₂_get? h hi hyi
    obtain ⟨b1, b2⟩ := hy _ (List.getElem_mem hi')
    exact hc.cb b1 b2
  refine forall₂_of_get? (by rw [hDl, Fft.length_dft, hl]) fun j a b ha hb => ?_
  have h2 := hD inv x (R + e) (by rw [hl]; exact hn) h0 h1 hB j a ha
  rw [dft_toC inv y hb]
  have hd : ‖dftAt (if inv then 1 else -1) (x.map valC) j - dftAt (if inv then 1 else -1) (y.map Cx.toC) j‖
      ≤ (x.map valC).length * (2 * e) := by
    refine dftAt_sub_norm_le _ (by rw [List.length_map, List.length_map, hl]) (fun i hi => ?_) j
    rw [List.length_map] at hi
    have hi' : i < y.length := by rw [← hl]; exact hi
    have hc : CAp x[i] (y[i]).toC e := forall₂_get? h (List.getElem?_eq_getElem hi) (List.getElem?_eq_getElem hi')
    have := hc.norm
    simpa [List.getD, hi, hi'] using this
  rw [List.length_map, hl] at hd
  have h3 := CAp.shift h2 hd
  rwa [hl] at h3

theorem dft_near [Fft (FloatL L)] {δ : ℝ} (hD : AccurateDft (Fft.dft (F := FloatL L)) δ) {x : List (Cx (FloatL L))}
    {y : List (Cx ℝ)} {e R : ℝ} (h : CNear L e x y) (hy : ∀ z ∈ y, |z.re| ≤ R ∧ |z.im| ≤ R) (hn : y.length ≤ 2 ^ 40)
    (h0 : 1 / 2 ^ 100 ≤ R + e) (h1 : R + e ≤ 2 ^ 100) (inv : Bool) :
    CNear L (δ * y.length * (R + e) + y.length * (2 * e)) (Fft.dft inv x) (Fft.dft inv y) :=
  dft_near_float hD (fun inv y => Fft.length_dft (F := FloatL L) inv y) h hy hn h0 h1 inv

theorem sqrt2_near : Ap (Float.sqrt (F64.ofNat 2)) (Real.sqrt 2) (1 / 2 ^ 52) := by
  obtain ⟨f2, v2⟩ := ofNat_exact (n := 2) (by norm_num)
  obtain ⟨f, v⟩ := sqrt_val f2 (by rw [v2]; norm_num)
  refine ⟨f, ?_⟩
  rw [v, v2]
  push_cast
  refine (abs_rnd_sub_le_abs (Real.sqrt 2)).trans (max_le ?_ ((tiny_le (k := 52) (by norm_num))))
  have h2 : Real.sqrt 2 ≤ 1.42 := Real.sqrt_le_iff.mpr (by norm_num)
  rw [abs_of_nonneg (Real.sqrt_nonneg _), show (2 : ℝ) ^ (-53 : ℤ) = 1 / 2 ^ 53 from uu_eq]
  have : Real.sqrt 2 * (1 / 2 ^ 53) ≤ 1.42 * (1 / 2 ^ 53) := mul_le_mul_of_nonneg_right h2 (by norm_num)
  exact this.trans (by norm_num)

theorem qpskPoint_near (q : Bool × Bool) : CAp (qpskPoint q : Cx (FloatL L)) (qpskPoint q : Cx ℝ).toC (1 / 2 ^ 52) := by
  have h := sqrt2_near
  have c : ∀ b : Bool, Ap (if b then Float.sqrt (F64.ofNat 2) else -Float.sqrt (F64.ofNat 2))
      (if b then Real.sqrt 2 else -Real.sqrt 2) (1 / 2 ^ 52) := by
    intro b
    cases b
    · exact h.neg
    · exact h
  have e : ∀ b : Bool, (if b then Flt.sqrt (Flt.ofNat 2) else -(Flt.sqrt (Flt.ofNat 2)) : ℝ)
      = if b then Real.sqrt 2 else -Real.sqrt 2 := by
    intro b
    simp only [Flt.sqrt_real, Flt.ofNat_real, Nat.cast_ofNat]
  refine ⟨?_, ?_⟩
  · show Ap _ (if q.1 then Flt.sqrt (Flt.ofNat 2) else -(Flt.sqrt (Flt.ofNat 2)) : ℝ) _
    rw [e]; exact c q.1
  · show Ap _ (if q.2 then Flt.sqrt (Flt.ofNat 2) else -(Flt.sqrt (Flt.ofNat 2)) : ℝ) _
    rw [e]; exact c q.2

theorem cap_zero {e : ℝ} (he : 0 ≤ e) : CAp (0 : Cx (FloatL L)) (0 : Cx ℝ).toC e := by
  have h : Ap (0 : Float) 0 e := ⟨fin_zero, by rw [val_zero, sub_zero, abs_zero]; exact he⟩
  exact ⟨h, h⟩

theorem place_near {n : ℕ} {cs : List ℕ} (hnd : cs.Nodup) (hlt : ∀ c ∈ cs, c < n) {e : ℝ} (he : 0 ≤ e)
    {d : List (Cx (FloatL L))} {d' : List (Cx ℝ)} (h : CNear L e d d') : CNear L e (place n cs d) (place n cs d') := by
  refine forall₂_of_get? (by rw [place_length, place_length]) fun c a b ha hb => ?_
  have hcn : c < n := by
    have := (List.getElem?_eq_some_iff.mp ha).1
    rwa [place_length] at this
  by_cases hmem : c ∈ cs
  · obtain ⟨i, hi⟩ := List.mem_iff_getElem?.mp hmem
    rw [place_carrier hnd hlt d hi, Option.some.injEq] at ha
    rw [place_carrier hnd hlt d' hi, Option.some.injEq] at hb
    subst ha hb
    by_cases hid : i < d.length
    · have hid' : i < d'.length := by rw [← h.length_eq]; exact hid
      have := forall₂_get? h (List.getElem?_eq_getElem hid) (List.getElem?_eq_getElem hid')
      rw [List.getD, List.getElem?_eq_getElem hid, List.getD, List.getElem?_eq_getElem hid']
      exact this
    · have hid' : ¬ i < d'.length := by rw [← h.length_eq]; exact hid
      rw [List.getD, List.getElem?_eq_none (by omega), List.getD, List.getElem?_eq_none (by omega)]
      exact cap_zero he
  · rw [place_empty hnd hlt d hcn hmem, Option.some.injEq] at ha
    rw [place_empty hnd hlt d' hcn hmem, Option.some.injEq] at hb
    subst ha hb
    exact cap_zero he

theorem abs_of_norm {z : Cx ℝ} {M : ℝ} (h : ‖z.toC‖ ≤ M) : |z.re| ≤ M ∧ |z.im| ≤ M :=
  ⟨(Complex.abs_re_le_norm z.toC).trans h, (Complex.abs_im_le_norm z.toC).trans h⟩

/-- One transmitted frame. -/
theorem frame_near [Fft (FloatL L)] {δ : ℝ} (hD : AccurateDft (Fft.dft (F := FloatL L)) δ) (hδ0 : 0 ≤ δ) (hδ : δ ≤ 1 / 16)
    {n p : ℕ} (h1 : 1 ≤ p) (h2 : p < n) (hn : n ≤ 2 ^ 40) (b : List (Bool × Bool)) :
    CNear L (3 * δ + 1 / 2 ^ 45) (frameL n p (b.map qpskPoint)) (frameL n p (b.map qpskPoint)) := by
  have hnR : (0 : ℝ) < n := by exact_mod_cast (show 0 < n by omega)
  have hq : CNear L (1 / 2 ^ 52) (b.map qpskPoint) (b.map qpskPoint) :=
    forall₂_of_get? (by simp) fun i x y hx hy => by
      rw [List.getElem?_map] at hx hy
      cases hb : b[i]? with
      | none => rw [hb] at hx; simp at hx
      | some q =>
        rw [hb, Option.map_some, Option.some.injEq] at hx hy
        subst hx hy
        exact qpskPoint_near q
  have hp := forall₂_fftshift (place_near (carriers_nodup n p) (carriers_lt h1 h2.le) (by norm_num) hq)
  have hM : ∀ z ∈ fftshift (place n (carriers n p) (b.map (qpskPoint (F := ℝ)))), ‖z.toC‖ ≤ 2 := fun z hz =>
    norm_place_le _ (by norm_num) (fun y hy => by
      obtain ⟨q, _, rfl⟩ := List.mem_map.mp hy
      exact norm_qpskPoint q) z ((mem_fftshift _ _).mp hz)
  have hlen : (fftshift (place n (carriers n p) (b.map (qpskPoint (F := ℝ))))).length = n := by
    rw [fftshift_length, place_length]
  have hd := dft_near hD hp (R := 2) (fun z hz => abs_of_norm (hM z hz)) (by rw [hlen]; exact hn) (by norm_num) (by norm_num) true
  rw [hlen] at hd
  set E : ℝ := δ * n * (2 + 1 / 2 ^ 52) + n * (2 * (1 / 2 ^ 52)) with hE
  have hEn : E / n = δ * (2 + 1 / 2 ^ 52) + 2 * (1 / 2 ^ 52) := by rw [hE]; field_simp
  have hbound : ∀ z ∈ frameBody n p (b.map (qpskPoint (F := ℝ))), ‖z.toC‖ ≤ 2 * n := by
    intro z hz
    obtain ⟨j, hj⟩ := List.mem_iff_getElem?.mp hz
    rw [dft_toC true _ hj]
    have := dftAt_norm_le (if true then 1 else -1) (x := (fftshift (place n (carriers n p)
      (b.map (qpskPoint (F := ℝ))))).map Cx.toC) (M := 2) (fun w hw => by
        obtain ⟨z, hz, rfl⟩ := List.mem_map.mp hw
        exact hM z hz) j
    rw [List.length_map, hlen] at this
    linarith
  have hbody : CNear L (3 * δ + 1 / 2 ^ 45) ((frameBody n p (b.map (qpskPoint (F := FloatL L)))).map (fun z => Cx.divR z (Flt.ofNat n)))
      ((frameBody n p (b.map (qpskPoint (F := ℝ)))).map (fun z => Cx.divR z (Flt.ofNat n))) := by
    refine forall₂_of_get? (by rw [List.length_map, List.length_map, frameBody_length, frameBody_length]) fun j x y hx hy => ?_
    rw [List.getElem?_map, Option.map_eq_some_iff] at hx hy
    obtain ⟨x, hx, rfl⟩ := hx
    obtain ⟨y, hy, rfl⟩ := hy
    have hc : CAp x y.toC E := forall₂_get? hd hx hy
    obtain ⟨r1, r2⟩ := abs_of_norm (hbound y (List.mem_of_getElem? hy))
    have hMx : (2 : ℝ) + E / n ≤ 2 ^ (1023 : ℤ) := by
      rw [hEn]
      refine le_big (k := 2) (by norm_num) ?_
      norm_num at *
      linarith
    have herr : E / n + (2 + E / n) * uu + tiny ≤ 3 * δ + 1 / 2 ^ 45 := by
      rw [hEn, uu_eq]
      have := tiny_le (k := 53) (by norm_num)
      norm_num at *
      linarith
    refine ⟨?_, ?_⟩
    · exact (ap_div_nat hc.1 (by omega) (hn.trans (by norm_num)) r1 hMx).mono herr
    · exact (ap_div_nat hc.2 (by omega) (hn.trans (by norm_num)) r2 hMx).mono herr
  unfold frameL
  rw [List.map_append, List.map_append, List.map_drop, List.map_drop]
  exact List.rel_append (List.forall₂_drop _ hbody) hbody

theorem samples_near [Fft (FloatL L)] {δ : ℝ} (hD : AccurateDft (Fft.dft (F := FloatL L)) δ) (hδ0 : 0 ≤ δ) (hδ : δ ≤ 1 / 16)
    {n p : ℕ} (h1 : 1 ≤ p) (h2 : p < n) (hn : n ≤ 2 ^ 40) (msg : List Bool) :
    CNear L (3 * δ + 1 / 2 ^ 45) (ofdmSamples n p msg) (ofdmSamples n p msg) := by
  unfold ofdmSamples
  rw [blocks_map, blocks_map, List.flatMap_map, List.flatMap_map]
  induction blocks (n - p) (pairs msg) with
  | nil => exact .nil
  | cons b bs ih =>
    rw [List.flatMap_cons, List.flatMap_cons]
    exact List.rel_append (frame_near hD hδ0 hδ h1 h2 hn b) ih

theorem samples_norm {n p : ℕ} (msg : List Bool) : ∀ z ∈ ofdmSamples (F := ℝ) n p msg, ‖z.toC‖ ≤ 2 := by
  intro z hz
  unfold ofdmSamples at hz
  obtain ⟨b, hb, hz⟩ := List.mem_flatMap.mp hz
  rw [blocks_map] at hb
  obtain ⟨c, _, rfl⟩ := List.mem_map.mp hb
  refine norm_frame_le _ (by norm_num) (fun y hy => ?_) z hz
  obtain ⟨q, _, rfl⟩ := List.mem_map.mp hy
  exact norm_qpskPoint q

/-- A received frame. -/
theorem deframe_cnear [Fft (FloatL L)] {δ : ℝ} (hD : AccurateDft (Fft.dft (F := FloatL L)) δ) {n p : ℕ} (h1 : 1 ≤ p) (h2 : p < n)
    (hn : n ≤ 2 ^ 40) {x : List (Cx (FloatL L))} {y : List (Cx ℝ)} {e R : ℝ} (h : CNear L e x y) (hy : ∀ z ∈ y, |z.re| ≤ R ∧ |z.im| ≤ R)
    (hl : y.length = n + n / 4) (h0 : 1 / 2 ^ 100 ≤ R + e) (h3 : R + e ≤ 2 ^ 100) :
    CNear L (δ * n * (R + e) + n * (2 * e)) (deframeL n p x) (deframeL n p y) := by
  have hyl : (y.drop (n / 4)).length = n := by rw [List.length_drop, hl]; omega
  have hd := dft_near hD (List.forall₂_drop (n / 4) h) (fun z hz => hy z (List.mem_of_mem_drop hz)) (by rw [hyl]; exact hn) h0 h3 false
  rw [hyl] at hd
  have hf := forall₂_fftshift hd
  have hfl : (fftshift (Fft.dft false (y.drop (n / 4)))).length = n := by rw [fftshift_length, Fft.length_dft, hyl]
  have hfl' : (fftshift (Fft.dft false (x.drop (n / 4)))).length = n := by rw [hf.length_eq, hfl]
  unfold deframeL
  refine forall₂_of_get? (by simp) fun i a b ha hb => ?_
  rw [List.getElem?_map, Option.map_eq_some_iff] at ha hb
  obtain ⟨c, hc, rfl⟩ := ha
  obtain ⟨c', hc', rfl⟩ := hb
  obtain rfl : c = c' := by rw [hc] at hc'; exact Option.some.inj hc'
  have hcn := carriers_lt h1 h2.le c (List.mem_of_getElem? hc)
  have l1 : c < (fftshift (Fft.dft false (x.drop (n / 4)))).length := by rw [hfl']; exact hcn
  have l2 : c < (fftshift (Fft.dft false (y.drop (n / 4)))).length := by rw [hfl]; exact hcn
  have := forall₂_get? hf (List.getElem?_eq_getElem l1) (List.getElem?_eq_getElem l2)
  rw [List.getD, List.getElem?_eq_getElem l1, List.getD, List.getElem?_eq_getElem l2]
  exact this

/-! ### On the carrier -/

theorem pass_sample {a b c s : Float} {ra rb rc rs e η : ℝ} (ha : Ap a ra e) (hb : Ap b rb e) (hc : Ap c rc η) (hs : Ap s rs η)
    (h1 : |ra| ≤ 2) (h2 : |rb| ≤ 2) (h3 : |rc| ≤ 1) (h4 : |rs| ≤ 1) (h5 : |ra * rc - rb * rs| ≤ 2) (he : e ≤ 1 / 8)
    (hη : η ≤ 1 / 8) (hη0 : 1 / 2 ^ 15 ≤ η) :
    Ap (a * (1 * c) - b * (1 * s)) (ra * rc - rb * rs) (2 * e + 4.5 * η) := by
  have he0 := ha.nonneg
  have ht := tiny_le (k := 53) (by norm_num)
  have hm : e * η ≤ 1 / 8 * η := mul_le_mul_of_nonneg_right he (by linarith [show (0 : ℝ) < 1 / 2 ^ 15 by norm_num])
  have hm0 : 0 ≤ e * η := mul_nonneg he0 (by linarith [show (0 : ℝ) < 1 / 2 ^ 15 by norm_num])
  have hM : (2 : ℝ) * 1 + (2 * η + 1 * e + e * η) ≤ 2 ^ (1023 : ℤ) := le_big (k := 2) (by norm_num) (by linarith)
  have herr : 2 * η + 1 * e + e * η + (2 * 1 + (2 * η + 1 * e + e * η)) * uu + tiny ≤ e + 2.2 * η := by
    rw [uu_eq]
    norm_num at *
    linarith
  have p1 := (ha.mul hc.one_mul h1 h3 hM).mono herr
  have p2 := (hb.mul hs.one_mul h2 h4 hM).mono herr
  refine (p1.sub p2 h5 (le_big (k := 3) (by norm_num) (by norm_num; linarith))).mono ?_
  rw [uu_eq]
  norm_num at *
  linarith

theorem mix_sample {x c : Float} {r rc e η : ℝ} (hx : Ap x r e) (hc : Ap c rc η) (h1 : |r| ≤ 2) (h2 : |rc| ≤ 1) (he : e ≤ 1 / 8)
    (hη : η ≤ 1 / 8) (hη0 : 1 / 2 ^ 15 ≤ η) : Ap (x * c) (r * rc) (e + 2.2 * η) := by
  have he0 := hx.nonneg
  have ht := tiny_le (k := 53) (by norm_num)
  have hm : e * η ≤ 1 / 8 * η := mul_le_mul_of_nonneg_right he (by linarith [show (0 : ℝ) < 1 / 2 ^ 15 by norm_num])
  have hM : (2 : ℝ) * 1 + (2 * η + 1 * e + e * η) ≤ 2 ^ (1023 : ℤ) := le_big (k := 2) (by norm_num) (by linarith)
  refine (hx.mul hc h1 h2 hM).mono ?_
  rw [uu_eq]
  norm_num at *
  linarith

theorem ap_mul_one {a : Float} {r e : ℝ} (ha : Ap a r e) : Ap (a * 1) r e := by
  have h : |rnd (val a * val 1)| < huge := by rw [val_one, mul_one, rnd_val]; exact abs_val_lt a
  obtain ⟨h1, h2⟩ := mul_val ha.1 fin_one h
  rw [val_one, mul_one, rnd_val] at h2
  exact ⟨h1, h2 ▸ ha.2⟩

/-- The moving sum of the receiver. -/
theorem sum_near {k : ℕ} (hk : k ≤ 2 ^ 32) {l : List Float} {m : List ℝ} {e : ℝ} (h : List.Forall₂ (fun a b => Ap a b e) l m)
    (hm : ∀ b ∈ m, |b| ≤ 2) (hl : l.length ≤ k) (he : e ≤ 1) (he0 : 0 ≤ e) :
    Ap (convDot (List.replicate k 1) l) (convDot (List.replicate k 1) m) (k * (e + 1 / 2 ^ 18)) := by
  have hl' : m.length = l.length := h.length_eq.symm
  rw [convDot_ones k m (by omega)]
  have e1 : convDot (List.replicate k 1) l = rsum ((List.range l.length).map (fun j => l.getD j 0 * 1)) := by
    unfold convDot
    congr 1
    apply List.ext_getElem
    · simp [hl]
    · intro i h1 h2
      have hi : i < l.length := by simpa using h2
      simp [List.getD, hi]
  have e2 : m.sum = ∑ j ∈ Finset.range l.length, m.getD j 0 := by
    have := sum_take_drop m 0 l.length
    rw [List.drop_zero, List.take_of_length_le (by omega)] at this
    simpa using this
  rw [e1, e2]
  have hlR : (l.length : ℝ) ≤ k := by exact_mod_cast hl
  have hl32 : (l.length : ℝ) ≤ 2 ^ 32 := by exact_mod_cast hl.trans hk
  have hb : (l.length : ℝ) * (2 + (e + 1 / 2 ^ 18)) ≤ 2 ^ 32 * 4 := by
    refine mul_le_mul hl32 ?_ ?_ (by norm_num)
    · norm_num; linarith
    · positivity
  have hmain := Ap.rsum (a := fun j => l.getD j 0 * 1) (r := fun j => m.getD j 0) (n := l.length) (B := 2) (e := e)
    (t := 1 / 2 ^ 18) (fun j hj => ?_) (fun j hj => ?_) (by norm_num) (le_big (k := 34) (by norm_num) (hb.trans (by norm_num))) ?_
  · exact hmain.mono (mul_le_mul_of_nonneg_right hlR (by positivity))
  · have hj' : j < m.length := by omega
    have := forall₂_get? h (List.getElem?_eq_getElem hj) (List.getElem?_eq_getElem hj')
    have e3 : l.getD j 0 = l[j] := by simp [List.getD, hj]
    have e4 : m.getD j 0 = m[j] := by simp [List.getD, hj']
    rw [e3, e4]
    exact ap_mul_one this
  · have hj' : j < m.length := by omega
    have e4 : m.getD j 0 = m[j] := by simp [List.getD, hj']
    rw [e4]
    exact hm _ (List.getElem_mem hj')
  · have ht := tiny_le (k := 53) (by norm_num)
    rw [uu_eq]
    have := mul_le_mul_of_nonneg_right hb (show (0 : ℝ) ≤ 1 / 2 ^ 53 by norm_num)
    refine (add_le_add this ht).trans ?_
    norm_num

/-- The sample on the carrier. -/
noncomputable def passR (fs : ℕ) (fc : ℝ) (k : ℕ) : ℕ → Cx ℝ → ℕ → ℝ :=
  fun i z j => (z * Cx.exp ⟨0, phase fs fc (i * k + j)⟩).re

theorem passR_eq (fs : ℕ) (fc : ℝ) (z : Cx ℝ) (t : ℕ) : (z * Cx.exp ⟨0, phase fs fc t⟩).re
    = z.re * Real.cos (t * dphi fs fc) - z.im * Real.sin (t * dphi fs fc) := by
  show z.re * (Real.exp 0 * Real.cos (phase fs fc t)) - z.im * (Real.exp 0 * Real.sin (phase fs fc t)) = _
  rw [phase_real, Real.exp_zero]; ring

theorem passR_abs {z : Cx ℝ} {M : ℝ} (hz : ‖z.toC‖ ≤ M) (x : ℝ) : |z.re * Real.cos x - z.im * Real.sin x| ≤ M := by
  have h1 : z.re * Real.cos x - z.im * Real.sin x = (z.toC * Complex.exp (x * Complex.I)).re := by
    rw [Complex.exp_mul_I, Complex.mul_re]
    simp [Cx.toC, Complex.cos_ofReal_re, Complex.sin_ofReal_re]
  rw [h1]
  refine (Complex.abs_re_le_norm _).trans ?_
  rw [norm_mul, Complex.norm_exp_ofReal_mul_I, mul_one]
  exact hz

/-- The waveform. -/
theorem pass_near {ε : ℝ} (hL : Accurate L ε (2 ^ 40)) (hE : L.exp 0 = 1) {fs k : ℕ} {fc : FloatL L} (hfs : 0 < fs)
    (hfs' : fs < 2 ^ 53) (hf : Fin fc) (hlo : 1 / 2 ^ 100 ≤ val fc) (hhi : val fc ≤ fs / 2) (hk : 0 < k)
    {x : List (Cx (FloatL L))} {y : List (Cx ℝ)} {e : ℝ} (h : CNear L e x y) (hy : ∀ z ∈ y, ‖z.toC‖ ≤ 2)
    (hlen : y.length * k ≤ 2 ^ 32) (he : e ≤ 1 / 8) (hη : ε + 1 / 2 ^ 15 ≤ 1 / 8) (hε : 0 ≤ ε) :
    List.Forall₂ (fun (a : FloatL L) b => Ap a b (2 * e + 4.5 * (ε + 1 / 2 ^ 15)))
      (wave k (fun i (z : Cx (FloatL L)) j => (z * Cx.exp ⟨0, phase fs fc (i * k + j)⟩).re) x)
      (wave k (fun i (z : Cx ℝ) j => (z * Cx.exp ⟨0, phase fs (val fc) (i * k + j)⟩).re) y) := by
  refine forall₂_of_get? (by rw [wave_length, wave_length, h.length_eq]) fun t a b ha hb => ?_
  rw [wave_getElem? hk, Option.map_eq_some_iff] at ha hb
  obtain ⟨z, hz, rfl⟩ := ha
  obtain ⟨z', hz', rfl⟩ := hb
  have hc : CAp z z'.toC e := forall₂_get? h hz hz'
  have hn := hy z' (List.mem_of_getElem? hz')
  obtain ⟨b1, b2⟩ := abs_of_norm hn
  have hti : t / k < y.length := (List.getElem?_eq_some_iff.mp hz').1
  have htk : t / k * k + t % k ≤ 2 ^ 32 := by
    rw [Nat.div_add_mod']
    have : t < y.length * k := (Nat.div_lt_iff_lt_mul hk).mp hti
    omega
  obtain ⟨c, s⟩ := carrier_near hL hfs hfs' htk hf hlo hhi
  rw [passR_eq]
  have := pass_sample hc.1 hc.2 c s b1 b2 (Real.abs_cos_le_one _) (Real.abs_sin_le_one _) (passR_abs hn _) he hη (by linarith)
  rw [← hE] at this
  exact this

/-- The received samples. -/
theorem rx_near {ε : ℝ} (hL : Accurate L ε (2 ^ 40)) {fs k : ℕ} {fc : FloatL L} (hfs : 0 < fs)
    (hfs' : fs < 2 ^ 53) (hf : Fin fc) (hlo : 1 / 2 ^ 100 ≤ val fc) (hhi : val fc ≤ fs / 2) (hk : 2 ≤ k) {S : ℕ}
    {x : List (FloatL L)} {y : List ℝ} {e : ℝ} (h : List.Forall₂ (fun (a : FloatL L) b => Ap a b e) x y)
    (hy : ∀ z ∈ y, |z| ≤ 2) (hl : y.length = S * k) (hlen : S * k ≤ 2 ^ 32) (he : e ≤ 1 / 8) (he0 : 0 ≤ e)
    (hη : ε + 1 / 2 ^ 15 ≤ 1 / 8) (hε : 0 ≤ ε) :
    CNear L (k * (e + 2.2 * (ε + 1 / 2 ^ 15) + 1 / 2 ^ 18)) (ofdmRxSamples fs k fc S x) (ofdmRxSamples fs k (val fc) S y) := by
  have hmix : ∀ (j : ℕ) (hj : j < 2), List.Forall₂ (fun (a : FloatL L) b => Ap a b (e + 2.2 * (ε + 1 / 2 ^ 15)) ∧ |b| ≤ 2)
      ((ofdmMix fs fc x).map (fun v => v[j])) ((ofdmMix fs (val fc) y).map (fun v => v[j])) := by
    intro j hj
    refine forall₂_of_get? (by simp [ofdmMix, h.length_eq]) fun t a b ha hb => ?_
    rw [List.getElem?_map, ofdmMix, List.getElem?_mapIdx, Option.map_map, Option.map_eq_some_iff] at ha hb
    obtain ⟨u, hu, rfl⟩ := ha
    obtain ⟨w, hw, rfl⟩ := hb
    have hc : Ap u w e := forall₂_get? h hu hw
    have hb := hy w (List.mem_of_getElem? hw)
    have htl : t < S * k := hl ▸ (List.getElem?_eq_some_iff.mp hw).1
    obtain ⟨c, s⟩ := carrier_near hL hfs hfs' (show t ≤ 2 ^ 32 by omega) hf hlo hhi
    have m1 := mix_sample hc c hb (Real.abs_cos_le_one _) he hη (by linarith)
    have m2 := mix_sample hc s.neg hb (by rw [abs_neg]; exact Real.abs_sin_le_one _) he hη (by linarith)
    have hw0 : 0 ≤ |w| := abs_nonneg w
    rcases (by omega : j = 0 ∨ j = 1) with rfl | rfl
    · refine ⟨?_, ?_⟩
      · show Ap _ (w * Real.cos (phase fs (val fc) t)) _
        rw [phase_real]; exact m1
      · show |w * Real.cos (phase fs (val fc) t)| ≤ 2
        rw [abs_mul]
        have := Real.abs_cos_le_one (phase fs (val fc) t)
        nlinarith
    · refine ⟨?_, ?_⟩
      · show Ap _ (w * -Real.sin (phase fs (val fc) t)) _
        rw [phase_real]; exact m2
      · show |w * -Real.sin (phase fs (val fc) t)| ≤ 2
        rw [abs_mul, abs_neg]
        have := Real.abs_sin_le_one (phase fs (val fc) t)
        nlinarith
  have hlane : ∀ (j : ℕ) (hj : j < 2) (i : ℕ), i < S →
      Ap ((nonvDot (List.replicate k (1 : FloatL L)) ((((ofdmMix fs fc x).drop (i * k + 1)).take k).reverse))[j])
        ((nonvDot (List.replicate k (1 : ℝ)) ((((ofdmMix fs (val fc) y).drop (i * k + 1)).take k).reverse))[j])
        (k * (e + 2.2 * (ε + 1 / 2 ^ 15) + 1 / 2 ^ 18)) := by
    intro j hj i hi
    rw [nonvDot_lane, nonvDot_lane, List.map_reverse, List.map_reverse, List.map_take, List.map_take, List.map_drop, List.map_drop]
    have hw := List.forall₂_reverse_iff.mpr (List.forall₂_take k (List.forall₂_drop (i * k + 1) (hmix j hj)))
    have hkS : k ≤ S * k := Nat.le_mul_of_pos_left k (by omega)
    refine sum_near (hkS.trans hlen) (hw.imp (fun a b hab => hab.1)) (fun b hb => ?_) ?_ (by norm_num at *; linarith) (by positivity)
    · obtain ⟨q, hq⟩ := List.mem_iff_getElem?.mp hb
      have hql := (List.getElem?_eq_some_iff.mp hq).1
      rw [← hw.length_eq] at hql
      exact (forall₂_get? hw (List.getElem?_eq_getElem hql) hq).2
    · have hr : ∀ {A : Type} (l : List A), (l.take k).reverse.length ≤ k := fun l => by
        rw [List.length_reverse, List.length_take]; omega
      exact hr _
  unfold ofdmRxSamples
  rw [if_neg (by omega)]
  refine forall₂_of_get? (by simp) fun i a b ha hb => ?_
  rw [List.getElem?_map, Option.map_eq_some_iff] at ha hb
  obtain ⟨i1, h1, rfl⟩ := ha
  obtain ⟨i2, h2, rfl⟩ := hb
  obtain rfl : i1 = i2 := by rw [h1] at h2; exact Option.some.inj h2
  have hi : i1 < S := List.mem_range.mp (List.mem_of_getElem? h1)
  exact ⟨hlane 0 (by omega) i1 hi, hlane 1 (by omega) i1 hi⟩

/-! ### The exact values behind the decisions -/

/-- Frame `f` of the received samples. -/
theorem ofdm_frame {n p k : ℕ} (h2 : p < n) (msg : List Bool) {f : ℕ} {b : List (Bool × Bool)}
    (hb : (blocks (n - p) (pairs msg))[f]? = some b) :
    ∃ nxt : Cx ℝ, ‖nxt.toC‖ ≤ 2 ∧ (blocks (n + n / 4) ((List.range (ofdmSamples (F := ℝ) n p msg).length).map (fun i =>
        gainStep k ((ofdmSamples n p msg).getD i 0) ((ofdmSamples n p msg).getD (i + 1) 0))))[f]? =
      some ((List.range (n + n / 4)).map (fun j => gainStep k ((frameL n p (b.map qpskPoint)).getD j 0)
        (if j + 1 < n + n / 4 then (frameL n p (b.map qpskPoint)).getD (j + 1) 0 else nxt))) := by
  have hL0 : 0 < n + n / 4 := by omega
  have hsn := samples_norm (n := n) (p := p) msg
  have hs' : ofdmSamples (F := ℝ) n p msg = (blocks (n - p) (pairs msg)).flatMap (fun b => frameL n p (b.map qpskPoint)) := by
    rw [ofdmSamples, blocks_map, List.flatMap_map]
  have hslen := ofdmSamples_length (F := ℝ) n p msg
  have hfl : ∀ b : List (Bool × Bool), (frameL (F := ℝ) n p (b.map qpskPoint)).length = n + n / 4 := fun b => frameL_length n p _
  generalize ofdmSamples (F := ℝ) n p msg = s at hsn hs' hslen ⊢
  generalize n + n / 4 = L at hL0 hslen hfl ⊢
  have hsget : ∀ i, s[i]? = (blocks (n - p) (pairs msg))[i / L]?.bind (fun b => (frameL n p (b.map qpskPoint))[i % L]?) := by
    intro i
    rw [hs', getElem?_flatMap_const hL0 _ _ (fun b _ => hfl b)]
  have hsnorm : ‖(s.getD ((f + 1) * L) 0).toC‖ ≤ 2 := by
    by_cases hi : (f + 1) * L < s.length
    · exact hsn _ (by simp [List.getD, hi])
    · have : s.getD ((f + 1) * L) 0 = 0 := by simp [List.getD, hi]
      rw [this, show (0 : Cx ℝ).toC = 0 from rfl]; simp
  have hin : ∀ j, j < L → s.getD (f * L + j) 0 = (frameL n p (b.map qpskPoint)).getD j 0 := by
    intro j hj
    rw [List.getD, hsget, Nat.mul_comm, Nat.mul_add_div hL0, Nat.div_eq_of_lt hj, Nat.mul_add_mod,
      Nat.mod_eq_of_lt hj, Nat.add_zero, hb, List.getD]; rfl
  have hfb : f < (blocks (n - p) (pairs msg)).length := (List.getElem?_eq_some_iff.mp hb).1
  have hle : (f + 1) * L ≤ s.length := by rw [hslen]; exact Nat.mul_le_mul_right L hfb
  refine ⟨s.getD ((f + 1) * L) 0, hsnorm, ?_⟩
  rw [blocks_getElem?' hL0, List.length_map, List.length_range, if_pos (by rw [Nat.add_mul] at hle; omega)]
  congr 1
  apply List.ext_getElem?
  intro j
  by_cases hj : j < L
  · rw [List.getElem?_take, if_pos hj, List.getElem?_drop, List.getElem?_map, List.getElem?_map,
      List.getElem?_range (show f * L + j < s.length by rw [Nat.add_mul] at hle; omega), List.getElem?_range hj, Option.map_some,
      Option.map_some, hin j hj]
    congr 2
    split
    · next hlt => rw [Nat.add_assoc, hin _ hlt]
    · next hlt => rw [show f * L + j + 1 = (f + 1) * L by rw [Nat.add_mul]; omega]
  · rw [List.getElem?_take, if_neg hj, List.getElem?_eq_none (by simpa using hj)]

/-- Every transmitted symbol, as the exact receiver sees it. -/
theorem ofdm_values {n p k : ℕ} (h1 : 1 ≤ p) (h2 : p < n) (he : n % 2 = 0) (msg : List Bool) {i : ℕ} {q : Bool × Bool}
    (hq : (pairs msg)[i]? = some q) :
    ∃ z, ((blocks (n + n / 4) ((List.range (ofdmSamples (F := ℝ) n p msg).length).map (fun i =>
        gainStep k ((ofdmSamples n p msg).getD i 0) ((ofdmSamples n p msg).getD (i + 1) 0)))).flatMap (deframeL n p))[i]? = some z ∧
      ‖z.toC - ((k / 2 : ℝ) : ℂ) * (qpskPoint q : Cx ℝ).toC‖ ≤ 8 := by
  have hm0 : 0 < n - p := by omega
  have hil : i < (pairs msg).length := (List.getElem?_eq_some_iff.mp hq).1
  have hmod : i % (n - p) < n - p := Nat.mod_lt _ hm0
  have hb := blocks_getElem?' hm0 (pairs msg) (i / (n - p))
  rw [if_pos (lt_of_le_of_lt (Nat.div_mul_le_self _ _) hil)] at hb
  have hbq : (((pairs msg).drop (i / (n - p) * (n - p))).take (n - p))[i % (n - p)]? = some q := by
    rw [List.getElem?_take, if_pos hmod, List.getElem?_drop, Nat.div_add_mod', hq]
  generalize ((pairs msg).drop (i / (n - p) * (n - p))).take (n - p) = b at hb hbq
  obtain ⟨nxt, hn, hfr⟩ := ofdm_frame (k := k) h2 msg hb
  rw [getElem?_flatMap_const hm0 _ _ (fun b _ => deframeL_length h1 h2.le b), hfr, Option.bind_some]
  have hnear := deframe_near (k := k) h1 h2.le he (b.map qpskPoint) (M := 2) (by norm_num) (fun z hz => by
    obtain ⟨y, _, rfl⟩ := List.mem_map.mp hz
    exact norm_qpskPoint y) nxt hn (i := i % (n - p)) hmod
  have hdl := deframeL_length h1 h2.le ((List.range (n + n / 4)).map (fun j => gainStep k ((frameL n p (b.map qpskPoint)).getD j 0)
        (if j + 1 < n + n / 4 then (frameL n p (b.map qpskPoint)).getD (j + 1) 0 else nxt)))
  generalize deframeL n p ((List.range (n + n / 4)).map (fun j => gainStep k ((frameL n p (b.map qpskPoint)).getD j 0)
        (if j + 1 < n + n / 4 then (frameL n p (b.map qpskPoint)).getD (j + 1) 0 else nxt))) = out at hdl hnear ⊢
  refine ⟨_, List.getElem?_eq_getElem (by rw [hdl]; exact hmod), ?_⟩
  rw [List.getD, List.getElem?_eq_getElem (by rw [hdl]; exact hmod), Option.getD_some, List.getD, List.getElem?_map, hbq] at hnear
  exact hnear.trans (by norm_num)

/-- The bound on the received samples. -/
theorem gainStep_abs {k : ℕ} (hk : 16 ≤ k) {z z' : Cx ℝ} (hz : ‖z.toC‖ ≤ 2) (hz' : ‖z'.toC‖ ≤ 2) :
    |(gainStep k z z').re| ≤ 1.25 * k ∧ |(gainStep k z z').im| ≤ 1.25 * k := by
  have hkR : (16 : ℝ) ≤ k := by exact_mod_cast hk
  obtain ⟨a1, a2⟩ := abs_of_norm hz
  obtain ⟨b1, b2⟩ := abs_of_norm hz'
  rw [abs_le] at a1 a2 b1 b2
  unfold gainStep
  constructor
  · rw [abs_le]; constructor <;> norm_num <;> nlinarith
  · rw [abs_le]; constructor <;> norm_num <;> nlinarith

theorem decide_cnear {k : ℕ} (hk : 16 ≤ k) {z : Cx (FloatL L)} {w : Cx ℝ} {q : Bool × Bool} {E : ℝ} (hz : CAp z w.toC E)
    (hw : ‖w.toC - ((k / 2 : ℝ) : ℂ) * (qpskPoint q : Cx ℝ).toC‖ ≤ 8) (hE : E ≤ 0.195 * k) :
    [Flt.le 0 z.re, Flt.le 0 z.im] = [q.1, q.2] := by
  have hkR : (16 : ℝ) ≤ k := by exact_mod_cast hk
  have h2 : (1.41 : ℝ) ≤ Real.sqrt 2 := Real.le_sqrt_of_sq_le (by norm_num)
  have hc := hz.shift hw
  have hre : (((k / 2 : ℝ) : ℂ) * (qpskPoint q : Cx ℝ).toC).re = k / 2 * (if q.1 then Real.sqrt 2 else -Real.sqrt 2) := by
    simp [Cx.toC, qpskPoint]
  have him : (((k / 2 : ℝ) : ℂ) * (qpskPoint q : Cx ℝ).toC).im = k / 2 * (if q.2 then Real.sqrt 2 else -Real.sqrt 2) := by
    simp [Cx.toC, qpskPoint]
  have hend : E + 8 < k / 2 * Real.sqrt 2 := by
    have h3 : (k : ℝ) / 2 * 1.41 ≤ k / 2 * Real.sqrt 2 := mul_le_mul_of_nonneg_left h2 (by positivity)
    refine lt_of_lt_of_le ?_ h3
    refine lt_of_le_of_lt (add_le_add_left hE 8) ?_
    have h4 : (0.195 : ℝ) * k + 8 = k / 2 * 1.41 - (0.51 * k - 8) := by ring
    have h5 : (0.51 : ℝ) * 16 ≤ 0.51 * k := mul_le_mul_of_nonneg_left hkR (by norm_num)
    rw [h4]
    linarith [show (8 : ℝ) < 0.51 * 16 by norm_num]
  have key : ∀ (b : Bool) (x : Float), Ap x (k / 2 * (if b then Real.sqrt 2 else -Real.sqrt 2)) (E + 8) → Float.le 0 x = b := by
    intro b x hx
    cases b
    · refine hx.neg_dec ?_
      simp only [Bool.false_eq_true, if_false]
      linarith
    · refine hx.nonneg_dec ?_
      simp only [if_true]
      linarith
  obtain ⟨c1, c2⟩ := hc
  rw [hre] at c1
  rw [him] at c2
  have e1 : Flt.le 0 z.re = q.1 := key _ _ c1
  have e2 : Flt.le 0 z.im = q.2 := key _ _ c2
  rw [e1, e2]

/-- The bits that the receiver reads off samples within `e` of the exact received samples. -/
theorem ofdm_bits_near [Fft (FloatL L)] {δ : ℝ} (hD : AccurateDft (Fft.dft (F := FloatL L)) δ) {n p k : ℕ} (h1 : 1 ≤ p) (h2 : p < n)
    (he : n % 2 = 0) (hn : n ≤ 2 ^ 40) (hk : 16 ≤ k) (hk' : k ≤ 2 ^ 53) (msg : List Bool) {x : List (Cx (FloatL L))} {e : ℝ} (he0 : 0 ≤ e)
    (hek : e ≤ k)
    (hx : CNear L e x ((List.range (ofdmSamples (F := ℝ) n p msg).length).map (fun i =>
        gainStep k ((ofdmSamples n p msg).getD i 0) ((ofdmSamples n p msg).getD (i + 1) 0))))
    (hE : δ * n * (1.25 * k + e) + n * (2 * e) ≤ 0.195 * k) :
    ((((blocks (n + n / 4) x).flatMap (deframeL n p)).flatMap (fun z => [Flt.le 0 z.re, Flt.le 0 z.im])).take
      (2 * (msg.length / 2))) = msg.take (2 * (msg.length / 2)) := by
  have hkR : (16 : ℝ) ≤ k := by exact_mod_cast hk
  have hkR' : (k : ℝ) ≤ 2 ^ 53 := by exact_mod_cast hk'
  have hsn := samples_norm (n := n) (p := p) msg
  have hsnorm : ∀ i, ‖((ofdmSamples (F := ℝ) n p msg).getD i 0).toC‖ ≤ 2 := by
    intro i
    by_cases hi : i < (ofdmSamples (F := ℝ) n p msg).length
    · exact hsn _ (by simp [List.getD, hi])
    · have : (ofdmSamples (F := ℝ) n p msg).getD i 0 = 0 := by simp [List.getD, hi]
      rw [this, show (0 : Cx ℝ).toC = 0 from rfl]; simp
  have hvals := fun (i : ℕ) (q : Bool × Bool) => ofdm_values (k := k) (i := i) (q := q) h1 h2 he msg
  have hdvd : n + n / 4 ∣ ((List.range (ofdmSamples (F := ℝ) n p msg).length).map (fun i =>
        gainStep k ((ofdmSamples n p msg).getD i 0) ((ofdmSamples n p msg).getD (i + 1) 0))).length := by
    rw [List.length_map, List.length_range, ofdmSamples_length]
    exact ⟨_, Nat.mul_comm _ _⟩
  have hB : ∀ z ∈ (List.range (ofdmSamples (F := ℝ) n p msg).length).map (fun i =>
        gainStep k ((ofdmSamples n p msg).getD i 0) ((ofdmSamples n p msg).getD (i + 1) 0)),
        |z.re| ≤ 1.25 * k ∧ |z.im| ≤ 1.25 * k := by
    intro z hz
    obtain ⟨i, _, rfl⟩ := List.mem_map.mp hz
    exact gainStep_abs hk (hsnorm _) (hsnorm _)
  generalize (List.range (ofdmSamples (F := ℝ) n p msg).length).map (fun i =>
        gainStep k ((ofdmSamples n p msg).getD i 0) ((ofdmSamples n p msg).getD (i + 1) 0)) = y at hx hvals hB hdvd
  have hlo : 1 / 2 ^ 100 ≤ 1.25 * (k : ℝ) + e := by
    have : (1 : ℝ) / 2 ^ 100 ≤ 1 := by norm_num
    linarith
  have hhi : 1.25 * (k : ℝ) + e ≤ 2 ^ 100 := by
    have : (1.25 : ℝ) * 2 ^ 53 + 2 ^ 53 ≤ 2 ^ 100 := by norm_num
    linarith
  have hV : CNear L (δ * n * (1.25 * k + e) + n * (2 * e)) ((blocks (n + n / 4) x).flatMap (deframeL n p))
      ((blocks (n + n / 4) y).flatMap (deframeL n p)) := by
    have hb := forall₂_blocks (show 0 < n + n / 4 by omega) hx
    have hfull := mem_blocks_full (show 0 < n + n / 4 by omega) y hdvd
    have hin : ∀ d ∈ blocks (n + n / 4) y, ∀ z ∈ d, |z.re| ≤ 1.25 * k ∧ |z.im| ≤ 1.25 * k :=
      fun d hd z hz => hB z (mem_of_mem_blocks hd hz)
    generalize blocks (n + n / 4) x = bx at hb ⊢
    generalize blocks (n + n / 4) y = bY at hb hfull hin ⊢
    induction hb with
    | nil => exact .nil
    | cons hab _ ih =>
      rw [List.flatMap_cons, List.flatMap_cons]
      refine List.rel_append (deframe_cnear hD h1 h2 hn hab (hin _ (by simp)) (hfull _ (by simp)) ?_ ?_)
        (ih (fun d hd => hfull d (by simp [hd])) (fun d hd => hin d (by simp [hd])))
      · exact hlo
      · exact hhi
  generalize (blocks (n + n / 4) x).flatMap (deframeL n p) = out at hV ⊢
  generalize (blocks (n + n / 4) y).flatMap (deframeL n p) = outR at hV hvals
  rw [take_flatMap_two _ (fun _ => rfl), ← pairs_flat, ← pairs_length, List.flatMap_def, List.flatMap_def]
  congr 1
  apply List.ext_getElem?
  intro i
  rw [List.getElem?_map, List.getElem?_map]
  by_cases hi : i < (pairs msg).length
  · rw [List.getElem?_take, if_pos hi, List.getElem?_eq_getElem hi]
    obtain ⟨w, hw1, hw2⟩ := hvals i _ (List.getElem?_eq_getElem hi)
    have hio : i < out.length := by rw [hV.length_eq]; exact (List.getElem?_eq_some_iff.mp hw1).1
    have hc : CAp out[i] w.toC _ := forall₂_get? hV (List.getElem?_eq_getElem hio) hw1
    rw [List.getElem?_eq_getElem hio, Option.map_some, Option.map_some, decide_cnear hk hc hw2 hE]
  · rw [List.getElem?_take, if_neg hi, List.getElem?_eq_none (by omega)]; rfl

end Verif
