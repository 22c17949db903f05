import Verif.Lemmas.IeeeOfdmNoise
import Verif.Lemmas.PassNoise

/-! Passband OFDM in IEEE arithmetic with noise of any strength: how far the receiver is from exact arithmetic on recordings bounded by `A`. -/
namespace Verif
open Spec F64
variable {L : Libm}

theorem mix_sample_of {x c : Float} {A r rc e η : ℝ} (hA : 1 ≤ A) (hA2 : A ≤ 2 ^ 40) (hx : Ap x r e) (hc : Ap c rc η) (h1 : |r| ≤ A) (h2 : |rc| ≤ 1) (he : e ≤ A)
    (hη : η ≤ 1 / 8) (hη0 : 1 / 2 ^ 15 ≤ η) : Ap (x * c) (r * rc) (e + 2.2 * A * η) := by
  have he0 := hx.nonneg
  have ht := tiny_le (k := 53) (by norm_num)
  have hm : e * η ≤ A * η := mul_le_mul_of_nonneg_right he (by linarith [show (0 : ℝ) < 1 / 2 ^ 15 by norm_num])
  have hm2 : A * η ≤ A * (1 / 8) := mul_le_mul_of_nonneg_left hη (by linarith)
  have hm3 : A * (1 / 2 ^ 15) ≤ A * η := mul_le_mul_of_nonneg_left hη0 (by linarith)
  have hM : A * 1 + (A * η + 1 * e + e * η) ≤ 2 ^ (1023 : ℤ) := le_big (k := 43) (by norm_num) (by norm_num at hA2 ⊢; linarith)
  refine (hx.mul hc h1 h2 hM).mono ?_
  rw [uu_eq]
  norm_num at *
  linarith

/-- The moving sum of the receiver. -/
theorem sum_near_of {k : ℕ} (hk : k ≤ 2 ^ 32) {A : ℝ} (hA : 1 ≤ A) (hA2 : A ≤ 2 ^ 40) {l : List Float} {m : List ℝ} {e : ℝ} (h : List.Forall₂ (fun a b => Ap a b e) l m)
    (hm : ∀ b ∈ m, |b| ≤ A) (hl : l.length ≤ k) (he : e ≤ 5 * A) (he0 : 0 ≤ e) :
    Ap (convDot (List.replicate k 1) l) (convDot (List.replicate k 1) m) (k * (e + A / 2 ^ 18)) := by
  have hl' : m.length = l.length := h.length_eq.symm
  rw [convDot_ones k m (by omega)]
  have e1 : convDot (List.replicate k 1) l = rsum ((List.range l.length).map (fun j => l.getD j 0 * 1)) := by
    unfold convDot
    congr 1
    apply List.ext_getElem
    · simp [hl]
    · intro i h1 h2
      have hi : i < l.length := by simpa using h2
      simp [List.getD, hi]
  have e2 : m.sum = ∑ j ∈ Finset.range l.length, m.getD j 0 := by
    have := sum_take_drop m 0 l.length
    rw [List.drop_zero, List.take_of_length_le (by omega)] at this
    simpa using this
  rw [e1, e2]
  have hlR : (l.length : ℝ) ≤ k := by exact_mod_cast hl
  have hl32 : (l.length : ℝ) ≤ 2 ^ 32 := by exact_mod_cast hl.trans hk
  have hb : (l.length : ℝ) * (A + (e + A / 2 ^ 18)) ≤ 2 ^ 32 * (7 * A) := by
    refine mul_le_mul hl32 ?_ ?_ (by norm_num)
    · norm_num; linarith
    · positivity
  have hmain := Ap.rsum (a := fun j => l.getD j 0 * 1) (r := fun j => m.getD j 0) (n := l.length) (B := A) (e := e)
    (t := A / 2 ^ 18) (fun j hj => ?_) (fun j hj => ?_) (by positivity) (le_big (k := 75) (by norm_num) (hb.trans (by norm_num at hA2 ⊢; linarith))) ?_
  · exact hmain.mono (mul_le_mul_of_nonneg_right hlR (by positivity))
  · have hj' : j < m.length := by omega
    have := forall₂_get? h (List.getElem?_eq_getElem hj) (List.getElem?_eq_getElem hj')
    have e3 : l.getD j 0 = l[j] := by simp [List.getD, hj]
    have e4 : m.getD j 0 = m[j] := by simp [List.getD, hj']
    rw [e3, e4]
    exact ap_mul_one this
  · have hj' : j < m.length := by omega
    have e4 : m.getD j 0 = m[j] := by simp [List.getD, hj']
    rw [e4]
    exact hm _ (List.getElem_mem hj')
  · have ht := tiny_le (k := 53) (by norm_num)
    rw [uu_eq]
    have := mul_le_mul_of_nonneg_right hb (show (0 : ℝ) ≤ 1 / 2 ^ 53 by norm_num)
    refine (add_le_add this ht).trans ?_
    norm_num
    linarith

/-- The received samples. -/
theorem rx_near_of {A : ℝ} (hA : 1 ≤ A) (hA2 : A ≤ 2 ^ 40) {ε : ℝ} (hL : Accurate L ε (2 ^ 40)) {fs k : ℕ} {fc : FloatL L} (hfs : 0 < fs)
    (hfs' : fs < 2 ^ 53) (hf : Fin fc) (hlo : 1 / 2 ^ 100 ≤ val fc) (hhi : val fc ≤ fs / 2) (hk : 2 ≤ k) {S : ℕ}
    {x : List (FloatL L)} {y : List ℝ} {e : ℝ} (h : List.Forall₂ (fun (a : FloatL L) b => Ap a b e) x y)
    (hy : ∀ z ∈ y, |z| ≤ A) (hl : y.length = S * k) (hlen : S * k ≤ 2 ^ 32) (he : e ≤ A) (he0 : 0 ≤ e)
    (hη : ε + 1 / 2 ^ 15 ≤ 1 / 8) (hε : 0 ≤ ε) :
    CNear L (k * (e + 2.2 * A * (ε + 1 / 2 ^ 15) + A / 2 ^ 18)) (ofdmRxSamples fs k fc S x) (ofdmRxSamples fs k (val fc) S y) := by
  have hmix : ∀ (j : ℕ) (hj : j < 2), List.Forall₂ (fun (a : FloatL L) b => Ap a b (e + 2.2 * A * (ε + 1 / 2 ^ 15)) ∧ |b| ≤ A)
      ((ofdmMix fs fc x).map (fun v => v[j])) ((ofdmMix fs (val fc) y).map (fun v => v[j])) := by
    intro j hj
    refine forall₂_of_get? (by simp [ofdmMix, h.length_eq]) fun t a b ha hb => ?_
    rw [List.getElem?_map, ofdmMix, List.getElem?_mapIdx, Option.map_map, Option.map_eq_some_iff] at ha hb
    obtain ⟨u, hu, rfl⟩ := ha
    obtain ⟨w, hw, rfl⟩ := hb
    have hc : Ap u w e := forall₂_get? h hu hw
    have hb := hy w (List.mem_of_getElem? hw)
    have htl : t < S * k := hl ▸ (List.getElem?_eq_some_iff.mp hw).1
    obtain ⟨c, s⟩ := carrier_near hL hfs hfs' (show t ≤ 2 ^ 32 by omega) hf hlo hhi
    have m1 := mix_sample_of hA hA2 hc c hb (Real.abs_cos_le_one _) he hη (by linarith)
    have m2 := mix_sample_of hA hA2 hc s.neg hb (by rw [abs_neg]; exact Real.abs_sin_le_one _) he hη (by linarith)
    have hw0 : 0 ≤ |w| := abs_nonneg w
    rcases (by omega : j = 0 ∨ j = 1) with rfl | rfl
    · refine ⟨?_, ?_⟩
      · show Ap _ (w * Real.cos (phase fs (val fc) t)) _
        rw [phase_real]; exact m1
      · show |w * Real.cos (phase fs (val fc) t)| ≤ A
        rw [abs_mul]
        have := Real.abs_cos_le_one (phase fs (val fc) t)
        nlinarith
    · refine ⟨?_, ?_⟩
      · show Ap _ (w * -Real.sin (phase fs (val fc) t)) _
        rw [phase_real]; exact m2
      · show |w * -Real.sin (phase fs (val fc) t)| ≤ A
        rw [abs_mul, abs_neg]
        have := Real.abs_sin_le_one (phase fs (val fc) t)
        nlinarith
  have hlane : ∀ (j : ℕ) (hj : j < 2) (i : ℕ), i < S →
      Ap ((nonvDot (List.replicate k (1 : FloatL L)) ((((ofdmMix fs fc x).drop (i * k + 1)).take k).reverse))[j])
        ((nonvDot (List.replicate k (1 : ℝ)) ((((ofdmMix fs (val fc) y).drop (i * k + 1)).take k).reverse))[j])
        (k * (e + 2.2 * A * (ε + 1 / 2 ^ 15) + A / 2 ^ 18)) := by
    intro j hj i hi
    rw [nonvDot_lane, nonvDot_lane, List.map_reverse, List.map_reverse, List.map_take, List.map_take, List.map_drop, List.map_drop]
    have hw := List.forall₂_reverse_iff.mpr (List.forall₂_take k (List.forall₂_drop (i * k + 1) (hmix j hj)))
    have hkS : k ≤ S * k := Nat.le_mul_of_pos_left k (by omega)
    refine sum_near_of (hkS.trans hlen) hA hA2 (hw.imp (fun a b hab => hab.1)) (fun b hb => ?_) ?_ (by
      have : A * (ε + 1 / 2 ^ 15) ≤ A * (1 / 8) := mul_le_mul_of_nonneg_left hη (by linarith)
      linarith) (by positivity)
    · obtain ⟨q, hq⟩ := List.mem_iff_getElem?.mp hb
      have hql := (List.getElem?_eq_some_iff.mp hq).1
      rw [← hw.length_eq] at hql
      exact (forall₂_get? hw (List.getElem?_eq_getElem hql) hq).2
    · have hr : ∀ {A : Type} (l : List A), (l.take k).reverse.length ≤ k := fun l => by
        rw [List.length_reverse, List.length_take]; omega
      exact hr _
  unfold ofdmRxSamples
  rw [if_neg (by omega)]
  refine forall₂_of_get? (by simp) fun i a b ha hb => ?_
  rw [List.getElem?_map, Option.map_eq_some_iff] at ha hb
  obtain ⟨i1, h1, rfl⟩ := ha
  obtain ⟨i2, h2, rfl⟩ := hb
  obtain rfl : i1 = i2 := by rw [h1] at h2; exact Option.some.inj h2
  have hi : i1 < S := List.mem_range.mp (List.mem_of_getElem? h1)
  exact ⟨hlane 0 (by omega) i1 hi, hlane 1 (by omega) i1 hi⟩


/-- The exact samples are bounded by `k·A`. -/
theorem rx_bound {A : ℝ} {fs k S : ℕ} {fc : ℝ} (hA : 0 ≤ A) {y : List ℝ} (hy : ∀ z ∈ y, |z| ≤ A) :
    ∀ z ∈ ofdmRxSamples fs k fc S y, |z.re| ≤ k * A ∧ |z.im| ≤ k * A := by
  intro z hz
  obtain ⟨i, -, rfl⟩ := List.mem_map.mp hz
  have hmix : ∀ (j : ℕ) (hj : j < 2), ∀ b ∈ (ofdmMix fs fc y).map (fun v => v[j]), |b| ≤ A := by
    intro j hj b hb
    obtain ⟨v, hv, rfl⟩ := List.mem_map.mp hb
    obtain ⟨t, ht⟩ := List.mem_iff_getElem?.mp hv
    rw [ofdmMix, List.getElem?_mapIdx, Option.map_eq_some_iff] at ht
    obtain ⟨w, hw, rfl⟩ := ht
    have h := hy w (List.mem_of_getElem? hw)
    have hw0 : 0 ≤ |w| := abs_nonneg w
    rcases (by omega : j = 0 ∨ j = 1) with rfl | rfl
    · show |w * Real.cos (phase fs fc t)| ≤ A
      rw [abs_mul]
      have := Real.abs_cos_le_one (phase fs fc t)
      nlinarith
    · show |w * -Real.sin (phase fs fc t)| ≤ A
      rw [abs_mul, abs_neg]
      have := Real.abs_sin_le_one (phase fs fc t)
      nlinarith
  have hlane : ∀ (j : ℕ) (hj : j < 2), |(nonvDot (List.replicate k (1 : ℝ)) ((((ofdmMix fs fc y).drop (i * k + 1)).take k).reverse))[j]| ≤ k * A := by
    intro j hj
    rw [nonvDot_lane, List.map_reverse, List.map_take, List.map_drop]
    set m := ((((ofdmMix fs fc y).map (fun v => v[j])).drop (i * k + 1)).take k).reverse with hm
    have hml : m.length ≤ k := by rw [hm, List.length_reverse, List.length_take]; omega
    rw [convDot_ones k m hml]
    have hb : ∀ b ∈ m, |b| ≤ A := fun b hb => hmix j hj b (List.mem_of_mem_drop (List.mem_of_mem_take (List.mem_reverse.mp hb)))
    have : ∀ l : List ℝ, (∀ b ∈ l, |b| ≤ A) → |l.sum| ≤ l.length * A := by
      intro l
      induction l with
      | nil => simp
      | cons a l ih =>
        intro h
        rw [List.sum_cons, List.length_cons]
        push_cast
        have h1 := h a List.mem_cons_self
        have h2 := ih fun b hb => h b (List.mem_cons_of_mem _ hb)
        have := abs_add_le a l.sum
        linarith
    refine (this m hb).trans (mul_le_mul_of_nonneg_right (by exact_mod_cast hml) hA)
  exact ⟨hlane 0 (by omega), hlane 1 (by omega)⟩

/-- All frames. -/
theorem deframeAll_cnear [Fft (FloatL L)] {δ : ℝ} (hD : AccurateDft (Fft.dft (F := FloatL L)) δ) {n p : ℕ} (h1 : 1 ≤ p) (h2 : p < n)
    (hn : n ≤ 2 ^ 40) {x : List (Cx (FloatL L))} {y : List (Cx ℝ)} {e R : ℝ} (h : CNear L e x y) (hy : ∀ z ∈ y, |z.re| ≤ R ∧ |z.im| ≤ R)
    (hl : n + n / 4 ∣ y.length) (h0 : 1 / 2 ^ 100 ≤ R + e) (h3 : R + e ≤ 2 ^ 100) :
    CNear L (δ * n * (R + e) + n * (2 * e)) (deframeAll n p x) (deframeAll n p y) := by
  unfold deframeAll
  refine rel_flatMap (forall₂_blocks (by omega) h) fun x _ y hy' h => ?_
  exact deframe_cnear hD h1 h2 hn h (fun z hz => hy z (mem_of_mem_blocks hy' hz)) (mem_blocks_full (by omega) _ hl y hy') h0 h3

/-- The values the exact receiver decides on. -/
theorem pass_values {n p fs k : ℕ} {fc : ℝ} (h1 : 1 ≤ p) (h2 : p < n) (he : n % 2 = 0) (hk : 2 ≤ k) {c : ℤ}
    (hper : k * dphi fs fc = c * (2 * Real.pi)) (hs : Real.sin (dphi fs fc) ≠ 0) (msg : List Bool) :
    ∃ D : ℕ → ℝ, (∀ b < 2 * (msg.length / 2), |D b - k / 2 * √2| ≤ 8) ∧
      ∀ (v : ℕ → ℝ) (b : ℕ) (hb : b < msg.length), b < 2 * (msg.length / 2) →
        bodyAt n p (b / 2) + n ≤ (ofdmSamples (F := ℝ) n p msg).length ∧
        b / 2 < (deframeAll n p (ofdmRxSamples fs k fc (ofdmSamples (F := ℝ) n p msg).length
          ((wave k (fun i (z : Cx ℝ) j => (z * Cx.exp ⟨0, phase fs fc (i * k + j)⟩).re) (ofdmSamples n p msg)).mapIdx (fun i x => x + v i)))).length ∧
        ∀ z, (deframeAll n p (ofdmRxSamples fs k fc (ofdmSamples (F := ℝ) n p msg).length
          ((wave k (fun i (z : Cx ℝ) j => (z * Cx.exp ⟨0, phase fs fc (i * k + j)⟩).re) (ofdmSamples n p msg)).mapIdx (fun i x => x + v i))))[b / 2]?
            = some z →
          (if b % 2 = 1 then z.im else z.re) = (if msg[b] then 1 else -1) * D b
            + ∑ m ∈ Finset.range ((ofdmSamples (F := ℝ) n p msg).length * k), brow (dphi fs fc) k n p b m * v m := by
  set S := (ofdmSamples (F := ℝ) n p msg).length with hSdef
  have hK : 0 < n - p := by omega
  have hL : 0 < n + n / 4 := by omega
  have hS : S = (msg.length / 2 + (n - p) - 1) / (n - p) * (n + n / 4) := by
    rw [hSdef, ofdmSamples_length, blocks_length _ (by omega), pairs_length]
  have hSd : n + n / 4 ∣ S := ⟨_, by rw [hS, Nat.mul_comm]⟩
  set y := wave k (fun i (z : Cx ℝ) j => (z * Cx.exp ⟨0, phase fs fc (i * k + j)⟩).re) (ofdmSamples n p msg) with hy
  have hyl : y.length = S * k := wave_length _ _ _
  set cl : ℕ → Cx ℝ := fun i => (deframeAll n p (ofdmRxSamples fs k fc S y)).getD i 0 with hcl
  have hclean : ∀ i (hi : i < (pairs msg).length), ‖(cl i).toC - ((k / 2 : ℝ) : ℂ) * (qpskPoint (pairs msg)[i] : Cx ℝ).toC‖ ≤ 8 := by
    intro i hi
    rw [hcl, hy, hSdef]
    simp only []
    rw [ofdmRxSamples_real hk hper hs]
    exact pass_clean h1 h2 he msg hi
  refine ⟨fun b => (if msg.getD b false then 1 else -1) * (if b % 2 = 1 then (cl (b / 2)).im else (cl (b / 2)).re), ?_, ?_⟩
  · intro b hb
    obtain ⟨q, e1, e2⟩ := pairs_at msg b hb
    obtain ⟨hi, e1⟩ := List.getElem?_eq_some_iff.mp e1
    have hc := hclean _ hi
    rw [e1] at hc
    have hre := (Complex.abs_re_le_norm _).trans hc
    have him := (Complex.abs_im_le_norm _).trans hc
    simp only [Cx.toC, Complex.sub_re, Complex.sub_im, Complex.mul_re, Complex.mul_im, Complex.ofReal_re, Complex.ofReal_im,
      zero_mul, sub_zero, add_zero, qpskPoint, Flt.sqrt_real, Flt.ofNat_real, Nat.cast_ofNat] at hre him
    beta_reduce
    rw [List.getD_eq_getElem?_getD, e2, Option.getD_some]
    by_cases hb1 : b % 2 = 1
    · simp only [hb1, if_true]
      revert him
      cases q.2 <;> intro him <;> simp only [if_true, if_false, Bool.false_eq_true, mul_neg, sub_neg_eq_add, one_mul, neg_mul] at him ⊢
      · rw [abs_sub_comm, sub_neg_eq_add, add_comm]; exact him
      · exact him
    · simp only [hb1, if_false]
      revert hre
      cases q.1 <;> intro hre <;> simp only [if_true, if_false, Bool.false_eq_true, mul_neg, sub_neg_eq_add, one_mul, neg_mul] at hre ⊢
      · rw [abs_sub_comm, sub_neg_eq_add, add_comm]; exact hre
      · exact hre
  · intro v b hb hb2
    have hi : b / 2 < (n - p) * (S / (n + n / 4)) := by
      rw [hS, Nat.mul_div_cancel _ hL]
      have := Nat.div_add_mod (msg.length / 2 + (n - p) - 1) (n - p)
      have := Nat.mod_lt (msg.length / 2 + (n - p) - 1) hK
      omega
    obtain ⟨hbody, hval⟩ := pass_noise (fs := fs) (fc := fc) h1 h2 hk hSd hi y hyl v
    have hlen : b / 2 < (deframeAll n p (ofdmRxSamples fs k fc S (y.mapIdx (fun i x => x + v i)))).length := by
      rw [deframeAll_length h1 h2.le _ (by rw [ofdmRxSamples_length, if_neg (by omega)]; exact hSd), ofdmRxSamples_length, if_neg (by omega)]
      exact hi
    refine ⟨hbody, hlen, fun z hz => ?_⟩
    rw [List.getD, hz, Option.getD_some] at hval
    have hre := congrArg Complex.re hval
    have him := congrArg Complex.im hval
    rw [Complex.add_re] at hre
    rw [Complex.add_im] at him
    have hre : z.re = (cl (b / 2)).re + _ := hre
    have him : z.im = (cl (b / 2)).im + _ := him
    have hsgn : ∀ x : ℝ, (if msg[b] then (1 : ℝ) else -1) * ((if msg.getD b false then 1 else -1) * x) = x := by
      intro x
      rw [List.getD, List.getElem?_eq_getElem hb, Option.getD_some]
      cases msg[b] <;> simp
    rw [hsgn]
    unfold brow
    rcases Nat.mod_two_eq_zero_or_one b with h0 | h0
    · simp only [h0]
      simpa using hre
    · simp only [h0]
      simpa using him

end Verif
