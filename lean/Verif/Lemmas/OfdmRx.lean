import Verif.Lemmas.OfdmPass
import Verif.Lemmas.DftLeak

/-! The passband OFDM receiver in exact arithmetic, whole carrier periods per symbol. -/
namespace Verif
open Spec

theorem sum_take_drop (l : List ℝ) (a k : ℕ) : ((l.drop a).take k).sum = ∑ t ∈ Finset.range k, l.getD (a + t) 0 := by
  induction k with
  | zero => simp
  | succ k ih =>
    rw [Finset.sum_range_succ, ← ih, List.take_add_one, List.sum_append, List.getElem?_drop, List.getD]
    cases l[a + k]? <;> simp

theorem convDot_ones (k : ℕ) (buf : List ℝ) (h : buf.length ≤ k) : convDot (List.replicate k 1) buf = buf.sum := by
  unfold convDot
  rw [rsum_eq_sum]
  congr 1
  rw [List.reverse_replicate]
  induction buf generalizing k with
  | nil => simp
  | cons a buf ih =>
    obtain ⟨k, rfl⟩ : ∃ k', k = k' + 1 := ⟨k - 1, by simp at h; omega⟩
    rw [List.replicate_succ, List.zip_cons_cons, List.map_cons, ih k (by simpa using h)]
    simp

/-- What one recovered sample is made of. -/
noncomputable def gainStep (k : ℕ) (z z' : Cx ℝ) : Cx ℝ := ⟨k / 2 * z.re + (z'.re - z.re), k / 2 * z.im⟩

theorem wave_getD_real {A : Type} {k : ℕ} (hk : 0 < k) (w : ℕ → A → ℕ → ℝ) (msg : List A) (d : A) (hd : ∀ i j, w i d j = 0)
    (i : ℕ) : (wave k w msg).getD i 0 = w (i / k) (msg.getD (i / k) d) (i % k) := by
  rw [List.getD, wave_getElem? hk, List.getD]
  cases msg[i / k]? <;> simp [hd]

theorem window_sum {A : Type} {k : ℕ} (hk : 0 < k) (w : ℕ → A → ℕ → ℝ) (msg : List A) (d : A) (hd : ∀ i j, w i d j = 0)
    (i : ℕ) :
    (((wave k w msg).drop (i * k + 1)).take k).sum
      = ∑ j ∈ Finset.range k, w i (msg.getD i d) j - w i (msg.getD i d) 0 + w (i + 1) (msg.getD (i + 1) d) 0 := by
  obtain ⟨k, rfl⟩ : ∃ k', k = k' + 1 := ⟨k - 1, by omega⟩
  rw [sum_take_drop, Finset.sum_range_succ, Finset.sum_range_succ' (fun j => w i (msg.getD i d) j)]
  have h1 : ∀ t ∈ Finset.range k, (wave (k + 1) w msg).getD (i * (k + 1) + 1 + t) 0 = w i (msg.getD i d) (t + 1) := by
    intro t ht
    have ht := Finset.mem_range.mp ht
    rw [wave_getD_real hk w msg d hd]
    have e : i * (k + 1) + 1 + t = (t + 1) + (k + 1) * i := by ring
    rw [e, Nat.add_mul_div_left _ _ hk, Nat.add_mul_mod_self_left, Nat.div_eq_of_lt (by omega), Nat.mod_eq_of_lt (by omega),
      Nat.zero_add]
  rw [Finset.sum_congr rfl h1, wave_getD_real hk w msg d hd]
  have e : i * (k + 1) + 1 + k = (k + 1) * (i + 1) := by ring
  rw [e, Nat.mul_div_cancel_left _ hk, Nat.mul_mod_right]
  ring

/-- The samples that the receiver recovers from an unaltered transmission. -/
theorem ofdmRxSamples_real {fs k : ℕ} {fc : ℝ} (hk : 2 ≤ k) {q : ℤ} (hq : k * dphi fs fc = q * (2 * Real.pi))
    (hs : Real.sin (dphi fs fc) ≠ 0) (s : List (Cx ℝ)) :
    ofdmRxSamples fs k fc s.length
        (wave k (fun i (z : Cx ℝ) j => (z * Cx.exp ⟨0, phase fs fc (i * k + j)⟩).re) s)
      = (List.range s.length).map (fun i => gainStep k (s.getD i 0) (s.getD (i + 1) 0)) := by
  unfold ofdmRxSamples
  rw [if_neg (by omega)]
  refine List.map_congr_left fun i _ => ?_
  simp only []
  have hq' : k * dphi fs fc = ((2 * q : ℤ) : ℝ) * Real.pi := by rw [hq]; push_cast; ring
  have hmix : ofdmMix fs fc (wave k (fun i (z : Cx ℝ) j => (z * Cx.exp ⟨0, phase fs fc (i * k + j)⟩).re) s)
      = wave k (fun i (z : Cx ℝ) j =>
        (#v[(z * Cx.exp ⟨0, phase fs fc (i * k + j)⟩).re * Flt.cos (phase fs fc (i * k + j)),
          (z * Cx.exp ⟨0, phase fs fc (i * k + j)⟩).re * -(Flt.sin (phase fs fc (i * k + j)))] : Vector ℝ 2)) s := by
    unfold ofdmMix; rw [mapIdx_wave]
  have hx : ∀ (z : Cx ℝ) (t : ℕ), (z * Cx.exp ⟨0, phase fs fc t⟩).re
      = z.re * Real.cos (t * dphi fs fc) - z.im * Real.sin (t * dphi fs fc) := by
    intro z t
    show z.re * (Real.exp 0 * Real.cos (phase fs fc t)) - z.im * (Real.exp 0 * Real.sin (phase fs fc t)) = _
    rw [phase_real, Real.exp_zero]; ring
  have hper : ∀ m : ℕ, Real.cos ((m * k + 0 : ℕ) * dphi fs fc) = 1 ∧ Real.sin ((m * k + 0 : ℕ) * dphi fs fc) = 0 := by
    intro m
    have : ((m * k + 0 : ℕ) : ℝ) * dphi fs fc = ((m * q : ℤ) : ℝ) * (2 * Real.pi) := by
      push_cast; rw [add_zero, mul_assoc, hq]; ring
    rw [this]
    refine ⟨Real.cos_int_mul_two_pi _, ?_⟩
    rw [show ((m * q : ℤ) : ℝ) * (2 * Real.pi) = ((2 * (m * q) : ℤ) : ℝ) * Real.pi by push_cast; ring]
    exact Real.sin_int_mul_pi _
  have hlane : ∀ (j : ℕ) (hj : j < 2), (nonvDot (List.replicate k (1 : ℝ)) ((((ofdmMix fs fc (wave k (fun i (z : Cx ℝ) j =>
      (z * Cx.exp ⟨0, phase fs fc (i * k + j)⟩).re) s)).drop (i * k + 1)).take k).reverse))[j]
      = ((((ofdmMix fs fc (wave k (fun i (z : Cx ℝ) j =>
      (z * Cx.exp ⟨0, phase fs fc (i * k + j)⟩).re) s)).map (·[j])).drop (i * k + 1)).take k).sum := by
    intro j hj
    rw [nonvDot_lane, convDot_ones _ _ (by rw [List.length_map, List.length_reverse, List.length_take]; omega),
      List.map_reverse, List.sum_reverse, List.map_take, List.map_drop]
  have hCC := sum_cos_sq_half hq' hs (i * k)
  have hSS := sum_sin_sq_half hq' hs (i * k)
  have hCS := sum_cos_sin_half hq' hs (i * k)
  rw [hlane 0 (by omega), hlane 1 (by omega), hmix, map_wave, map_wave]
  rw [window_sum (by omega) _ s 0 (by intro a b; simp [hx]), window_sum (by omega) _ s 0 (by intro a b; simp [hx])]
  simp only [hx]
  simp only [Flt.cos_real, Flt.sin_real, phase_real, Vector.getElem_mk, List.getElem_toArray, List.getElem_cons_zero,
    List.getElem_cons_succ, (hper _).1, (hper _).2]
  unfold gainStep
  set z := s.getD i 0
  have e1 : ∑ j ∈ Finset.range k, (z.re * Real.cos ((i * k + j : ℕ) * dphi fs fc)
      - z.im * Real.sin ((i * k + j : ℕ) * dphi fs fc)) * Real.cos ((i * k + j : ℕ) * dphi fs fc) = k / 2 * z.re := by
    have : ∀ j : ℕ, (z.re * Real.cos ((i * k + j : ℕ) * dphi fs fc)
      - z.im * Real.sin ((i * k + j : ℕ) * dphi fs fc)) * Real.cos ((i * k + j : ℕ) * dphi fs fc)
      = z.re * Real.cos ((i * k + j : ℕ) * dphi fs fc) ^ 2 -
        z.im * (Real.cos ((i * k + j : ℕ) * dphi fs fc) * Real.sin ((i * k + j : ℕ) * dphi fs fc)) := by intro j; ring
    simp only [this]
    rw [Finset.sum_sub_distrib, ← Finset.mul_sum, ← Finset.mul_sum, hCC, hCS]; ring
  have e2 : ∑ j ∈ Finset.range k, (z.re * Real.cos ((i * k + j : ℕ) * dphi fs fc)
      - z.im * Real.sin ((i * k + j : ℕ) * dphi fs fc)) * -Real.sin ((i * k + j : ℕ) * dphi fs fc) = k / 2 * z.im := by
    have : ∀ j : ℕ, (z.re * Real.cos ((i * k + j : ℕ) * dphi fs fc)
      - z.im * Real.sin ((i * k + j : ℕ) * dphi fs fc)) * -Real.sin ((i * k + j : ℕ) * dphi fs fc)
      = z.im * Real.sin ((i * k + j : ℕ) * dphi fs fc) ^ 2 -
        z.re * (Real.cos ((i * k + j : ℕ) * dphi fs fc) * Real.sin ((i * k + j : ℕ) * dphi fs fc)) := by intro j; ring
    simp only [this]
    rw [Finset.sum_sub_distrib, ← Finset.mul_sum, ← Finset.mul_sum, hSS, hCS]; ring
  rw [e1, e2]
  congr 1 <;> ring

/-! ### One frame -/

theorem fftshift_getElem_fst {T : Type} [Zero T] {x y : List T} (hl : x.length = y.length) {c : ℕ} (hc : c < x.length) :
    ∃ c' < x.length, (fftshift x).getD c 0 = x.getD c' 0 ∧ (fftshift y).getD c 0 = y.getD c' 0 := by
  refine ⟨(c + (x.length + 1) / 2) % x.length, Nat.mod_lt _ (by omega), ?_, ?_⟩
  · rw [List.getD, fftshift_eq_rotate, List.getElem?_rotate hc, List.getD]
  · rw [List.getD, fftshift_eq_rotate, List.getElem?_rotate (by omega), List.getD, ← hl]

theorem norm_place_le {n : ℕ} {cs : List ℕ} (d : List (Cx ℝ)) {M : ℝ} (hM : 0 ≤ M) (hd : ∀ z ∈ d, ‖z.toC‖ ≤ M) :
    ∀ z ∈ place n cs d, ‖z.toC‖ ≤ M := by
  unfold place
  have key : ∀ (l : List (ℕ × Cx ℝ)) (v : List (Cx ℝ)), (∀ q ∈ l, ‖q.2.toC‖ ≤ M) → (∀ z ∈ v, ‖z.toC‖ ≤ M) →
      ∀ z ∈ l.foldl (fun v p => v.set p.1 p.2) v, ‖z.toC‖ ≤ M := by
    intro l
    induction l with
    | nil => intro v _ hv; exact hv
    | cons a l ih =>
      intro v hl hv
      refine ih _ (fun q hq => hl q (by simp [hq])) (fun z hz => ?_)
      rcases List.mem_or_eq_of_mem_set hz with h | h
      · exact hv z h
      · rw [h]; exact hl a (by simp)
  refine key _ _ (fun q hq => hd _ (List.of_mem_zip hq).2) (fun z hz => ?_)
  rw [List.eq_of_mem_replicate hz]
  have : (0 : Cx ℝ).toC = 0 := rfl
  rw [this]; simpa using hM

theorem mem_fftshift {T : Type} (x : List T) (z : T) : z ∈ fftshift x ↔ z ∈ x := by
  rw [fftshift_eq_rotate, List.mem_rotate]

/-- The samples of the frame body, normalised. -/
theorem frame_idft (n p : ℕ) (d : List (Cx ℝ)) {j : ℕ} (hj : j < n) :
    ((frameL n p d).getD (n / 4 + j) 0).toC
      = idft ((fftshift (place n (carriers n p) d)).map Cx.toC) j := by
  have h1 := congrArg (fun l => l.getD j 0) (frameL_drop n p d)
  have h2 : ((frameL n p d).drop (n / 4)).getD j 0 = (frameL n p d).getD (n / 4 + j) 0 := by
    simp [List.getD, List.getElem?_drop]
  rw [h2] at h1
  rw [h1]
  have hl : ((fftshift (place n (carriers n p) d)).map Cx.toC).length = n := by
    rw [List.length_map, fftshift_length, place_length]
  have hb := frameBody_length n p d
  have h3 : ((frameBody n p d).map (fun z => Cx.divR z (Flt.ofNat n))).getD j 0
      = Cx.divR ((frameBody n p d).getD j 0) (n : ℝ) := by
    simp [List.getD, hb, hj]
  rw [h3, toC_divR, idft, hl]
  congr 1
  have h4 := congrArg (fun l => l.getD j 0) (fft_map_toC true (fftshift (place n (carriers n p) d)))
  simp only [if_true] at h4
  rw [dft_getD _ _ (by rw [hl]; exact hj)] at h4
  rw [← h4]
  unfold frameBody
  have : (Fft.dft true (fftshift (place n (carriers n p) d))).length = n := hb
  simp [List.getD, this, hj]

/-- One received frame: every data carrier is recovered up to an error of `4·M`, whatever follows the frame. -/
theorem deframe_near {n p k : ℕ} (h1 : 1 ≤ p) (h2 : p ≤ n) (he : n % 2 = 0) (d : List (Cx ℝ)) {M : ℝ} (hM : 0 ≤ M)
    (hd : ∀ z ∈ d, ‖z.toC‖ ≤ M) (nxt : Cx ℝ) (hn : ‖nxt.toC‖ ≤ M) {i : ℕ} (hi : i < n - p) :
    ‖((deframeL n p ((List.range (n + n / 4)).map (fun j => gainStep k ((frameL n p d).getD j 0)
        (if j + 1 < n + n / 4 then (frameL n p d).getD (j + 1) 0 else nxt)))).getD i 0).toC
      - ((k / 2 : ℝ) : ℂ) * (d.getD i 0).toC‖ ≤ 4 * M := by
  set x := (fftshift (place n (carriers n p) d)).map Cx.toC with hx
  have hxl : x.length = n := by rw [hx, List.length_map, fftshift_length, place_length]
  have hxM : ∀ z ∈ x, ‖z‖ ≤ M := by
    intro z hz
    obtain ⟨y, hy, rfl⟩ := List.mem_map.mp hz
    exact norm_place_le d hM hd y ((mem_fftshift _ _).mp hy)
  have hw : |nxt.re| ≤ M := (Complex.abs_re_le_norm nxt.toC).trans hn
  -- the block without prefix
  set body := (List.range n).map (fun j => Cx.ofC (leaky (k / 2) x nxt.re j)) with hbody
  have hbl : body.length = n := by simp [hbody]
  have hdrop : ((List.range (n + n / 4)).map (fun j => gainStep k ((frameL n p d).getD j 0)
        (if j + 1 < n + n / 4 then (frameL n p d).getD (j + 1) 0 else nxt))).drop (n / 4) = body := by
    apply List.ext_getElem
    · simp [hbody]
    intro j hj1 hj2
    have hj : j < n := by simpa [hbody] using hj2
    simp only [List.getElem_drop, List.getElem_map, List.getElem_range, hbody]
    apply Cx.toC_inj
    rw [Cx.toC_ofC]
    have e1 := frame_idft n p d hj
    rw [← hx] at e1
    have g : ∀ a b : Cx ℝ, (gainStep k a b).toC = ((k / 2 : ℝ) : ℂ) * a.toC + ((b.re - a.re : ℝ) : ℂ) := by
      intro a b
      apply Complex.ext <;> simp [gainStep, Cx.toC]
    rw [g, leaky, e1, hxl]
    have hre : ∀ a : Cx ℝ, a.re = a.toC.re := fun _ => rfl
    rw [hre ((frameL n p d).getD (n / 4 + j) 0), e1]
    congr 3
    by_cases hlt : j + 1 < n
    · rw [if_pos (by omega), if_pos hlt, hre]
      have e2 := frame_idft n p d hlt
      rw [← hx] at e2
      rw [← e2, Nat.add_assoc]
    · rw [if_neg (by omega), if_neg hlt]
  -- the carrier
  have hi' : i < (carriers n p).length := by rw [carriers_length h1 h2]; exact hi
  have hc : (carriers n p)[i]? = some (carriers n p)[i] := List.getElem?_eq_getElem hi'
  have hclt : (carriers n p)[i] < n := carriers_lt h1 h2 _ (List.getElem_mem hi')
  set c := (carriers n p)[i] with hcdef
  have hdf : (deframeL n p ((List.range (n + n / 4)).map (fun j => gainStep k ((frameL n p d).getD j 0)
        (if j + 1 < n + n / 4 then (frameL n p d).getD (j + 1) 0 else nxt)))).getD i 0
      = (fftshift (Fft.dft false body)).getD c 0 := by
    rw [deframeL, hdrop, List.getD, List.getElem?_map, hc]; rfl
  rw [hdf]
  have hpl := place_carrier (carriers_nodup n p) (carriers_lt h1 h2) d hc
  have hsh : (fftshift (fftshift (place n (carriers n p) d))).getD c 0 = d.getD i 0 := by
    rw [fftshift_even _ (by rw [place_length]; exact he), List.getD, hpl]; rfl
  obtain ⟨c', hc'lt, hc1, hc2⟩ := fftshift_getElem_fst (x := Fft.dft false body)
    (y := fftshift (place n (carriers n p) d)) (c := c)
    (by rw [Fft.length_dft, hbl, fftshift_length, place_length]) (by rw [Fft.length_dft, hbl]; exact hclt)
  rw [Fft.length_dft, hbl] at hc'lt
  rw [← hsh, hc1, hc2]
  have hY : ((Fft.dft false body).getD c' 0).toC
      = ∑ j ∈ Finset.range n, leaky (k / 2) x nxt.re j * unit n (-(j * c')) := by
    have h4 := congrArg (fun l => l.getD c' 0) (fft_map_toC false body)
    simp only [Bool.false_eq_true, if_false] at h4
    rw [dft_getD _ _ (by rw [List.length_map, hbl]; exact hc'lt), dftAt_unit, List.length_map, hbl] at h4
    have h5 : ((Fft.dft false body).map Cx.toC).getD c' 0 = ((Fft.dft false body).getD c' 0).toC := by
      have : (Fft.dft false body).length = n := by rw [Fft.length_dft, hbl]
      simp [List.getD, this, hc'lt]
    rw [← h5, h4]
    refine Finset.sum_congr rfl fun j hj => ?_
    have hj := Finset.mem_range.mp hj
    rw [neg_one_mul]
    congr 1
    simp [List.getD, hbody, hj]
  have hX : ((fftshift (place n (carriers n p) d)).getD c' 0).toC = x.getD c' 0 := by
    have : (fftshift (place n (carriers n p) d)).length = n := by rw [fftshift_length, place_length]
    simp [hx, List.getD, this, hc'lt]
  have := leaky_bin (k / 2) x nxt.re hxM hw (c := c') (by rw [hxl]; exact hc'lt)
  rw [hxl] at this
  rw [hY, hX]
  exact this

/-! ### The whole transmission -/

theorem norm_frame_le {n p : ℕ} (d : List (Cx ℝ)) {M : ℝ} (hM : 0 ≤ M) (hd : ∀ z ∈ d, ‖z.toC‖ ≤ M) :
    ∀ z ∈ frameL n p d, ‖z.toC‖ ≤ M := by
  intro z hz
  have h1 : z ∈ (frameL n p d).drop (n / 4) := by
    rw [frameL_drop]
    rw [frameL, List.map_append, List.mem_append] at hz
    rcases hz with h | h
    · rw [List.map_drop] at h; exact List.mem_of_mem_drop h
    · exact h
  obtain ⟨j, hj, e⟩ := List.mem_iff_getElem.mp h1
  have hjn : j < n := by rw [List.length_drop, frameL_length] at hj; omega
  have h2 := frame_idft n p d hjn
  rw [List.getElem_drop] at e
  have h3 : (frameL n p d).getD (n / 4 + j) 0 = z := by
    rw [← e]; simp [List.getD, frameL_length, show n / 4 + j < n + n / 4 by omega]
  rw [h3] at h2
  rw [h2]
  refine norm_idft_le _ hM (fun y hy => ?_) j
  obtain ⟨y', hy', rfl⟩ := List.mem_map.mp hy
  exact norm_place_le d hM hd y' ((mem_fftshift _ _).mp hy')

theorem take_blocks {T : Type} {m : ℕ} (hm : 0 < m) (l : List T) (G : ℕ → List T → List T)
    (hlen : ∀ f b, (blocks m l)[f]? = some b → (G f b).length = m)
    (hG : ∀ f b, (blocks m l)[f]? = some b → (G f b).take b.length = b) :
    ((blocks m l).mapIdx G).flatten.take l.length = l := by
  induction hn : l.length using Nat.strongRecOn generalizing l G with
  | _ n ih =>
    subst hn
    by_cases hl : l = []
    · subst hl; simp
    have hpos : 0 < l.length := List.length_pos_iff.mpr hl
    rw [blocks_cons hm hl] at hlen hG ⊢
    rw [List.mapIdx_cons, List.flatten_cons]
    have h0 := hlen 0 _ rfl
    have h1 := hG 0 _ rfl
    by_cases hle : l.length ≤ m
    · rw [List.take_of_length_le hle] at h0 h1 ⊢
      rw [List.take_append_of_le_length (by omega), h1]
    · rw [List.length_take, Nat.min_eq_left (by omega), List.take_of_length_le (by omega)] at h1
      have h2 := ih (l.drop m).length (by rw [List.length_drop]; omega) (l.drop m) (fun f => G (f + 1))
        (fun f b hb => hlen (f + 1) b (by simpa using hb)) (fun f b hb => hG (f + 1) b (by simpa using hb)) rfl
      rw [h1, List.take_append, List.take_of_length_le (by rw [List.length_take]; omega), List.length_take,
        Nat.min_eq_left (by omega), ← List.length_drop, h2, List.take_append_drop]

theorem take_flatMap_two {A B : Type} (f : A → List B) (hf : ∀ a, (f a).length = 2) (l : List A) (n : ℕ) :
    (l.flatMap f).take (2 * n) = (l.take n).flatMap f := by
  induction l generalizing n with
  | nil => simp
  | cons a l ih =>
    cases n with
    | zero => simp
    | succ n =>
      rw [List.flatMap_cons, List.take_succ_cons, List.flatMap_cons, ← ih, List.take_append,
        List.take_of_length_le (by rw [hf]; omega), hf]
      congr 2

theorem norm_qpskPoint (b : Bool × Bool) : ‖(qpskPoint b : Cx ℝ).toC‖ ≤ 2 := by
  have h2 : Real.sqrt 2 * Real.sqrt 2 = 2 := Real.mul_self_sqrt (by norm_num)
  have : Complex.normSq (qpskPoint b : Cx ℝ).toC = 2 ^ 2 := by
    rcases b with ⟨_ | _, _ | _⟩ <;>
      simp only [qpskPoint, Cx.toC, Complex.normSq_mk, Flt.sqrt_real, Flt.ofNat_real, Nat.cast_ofNat, if_true,
        Bool.false_eq_true, if_false, neg_mul_neg, h2] <;> norm_num
  rw [Complex.norm_def, this, Real.sqrt_sq (by norm_num)]

/-- A symbol recovered with an error of at most 8 at a gain of at least 6 is decided correctly. -/
theorem decide_near {k : ℕ} (hk : 12 ≤ k) {z : Cx ℝ} {b : Bool × Bool}
    (h : ‖z.toC - ((k / 2 : ℝ) : ℂ) * (qpskPoint b : Cx ℝ).toC‖ ≤ 8) :
    (Flt.le 0 z.re, Flt.le 0 z.im) = b := by
  have hk' : (12 : ℝ) ≤ k := by exact_mod_cast hk
  have h2 : (1.4 : ℝ) ≤ Real.sqrt 2 := Real.le_sqrt_of_sq_le (by norm_num)
  have hre := (Complex.abs_re_le_norm _).trans h
  have him := (Complex.abs_im_le_norm _).trans h
  have hmul : 8.4 ≤ (k : ℝ) / 2 * Real.sqrt 2 := by nlinarith
  simp only [Cx.toC, Complex.sub_re, Complex.sub_im, Complex.mul_re, Complex.mul_im, Complex.ofReal_re, Complex.ofReal_im,
    zero_mul, sub_zero, add_zero, qpskPoint, Flt.sqrt_real, Flt.ofNat_real, Nat.cast_ofNat] at hre him
  rw [abs_le] at hre him
  rcases b with ⟨a, b⟩
  simp only [Flt.le_real, Prod.mk.injEq]
  constructor
  · cases a <;> simp at hre ⊢ <;> nlinarith
  · cases b <;> simp at him ⊢ <;> nlinarith

/-- All the bits that the receiver recovers. -/
theorem ofdm_bits {n p k : ℕ} (h1 : 1 ≤ p) (h2 : p < n) (he : n % 2 = 0) (hk : 12 ≤ k) (msg : List Bool) :
    ((((blocks (n + n / 4) ((List.range (ofdmSamples (F := ℝ) n p msg).length).map (fun i =>
        gainStep k ((ofdmSamples n p msg).getD i 0) ((ofdmSamples n p msg).getD (i + 1) 0)))).flatMap
          (deframeL n p)).flatMap (fun z => [Flt.le 0 z.re, Flt.le 0 z.im])).take (2 * (msg.length / 2)))
      = msg.take (2 * (msg.length / 2)) := by
  set L := n + n / 4 with hL
  have hL0 : 0 < L := by omega
  set s := ofdmSamples (F := ℝ) n p msg with hs
  set bs := blocks (n - p) (pairs msg) with hbs
  have hs' : s = bs.flatMap (fun b => frameL n p (b.map qpskPoint)) := by
    rw [hs, ofdmSamples, blocks_map, ← hbs, List.flatMap_map]
  have hslen : s.length = bs.length * L := by rw [hs, ofdmSamples_length]
  have hsget : ∀ i, s[i]? = bs[i / L]?.bind (fun b => (frameL n p (b.map qpskPoint))[i % L]?) := by
    intro i
    rw [hs', getElem?_flatMap_const hL0 _ _ (fun b _ => frameL_length n p _)]
  have hnorm : ∀ b : List (Bool × Bool), ∀ z ∈ b.map (qpskPoint (F := ℝ)), ‖z.toC‖ ≤ 2 := by
    intro b z hz
    obtain ⟨y, _, rfl⟩ := List.mem_map.mp hz
    exact norm_qpskPoint y
  -- every sample is bounded
  have hsnorm : ∀ i, ‖(s.getD i 0).toC‖ ≤ 2 := by
    intro i
    by_cases hi : i < s.length
    · have hmem : s.getD i 0 ∈ s := by simp [List.getD, hi]
      rw [hs', List.mem_flatMap] at hmem
      obtain ⟨b, _, hb⟩ := hmem
      rw [← hs'] at hb
      exact norm_frame_le _ (by norm_num) (hnorm b) _ hb
    · have : s.getD i 0 = 0 := by simp [List.getD, hi]
      rw [this, show (0 : Cx ℝ).toC = 0 from rfl]; simp
  -- the received samples, frame by frame
  have hw : (List.range s.length).map (fun i => gainStep k (s.getD i 0) (s.getD (i + 1) 0))
      = wave L (fun f (_ : List (Bool × Bool)) j => gainStep k (s.getD (f * L + j) 0) (s.getD (f * L + j + 1) 0)) bs := by
    apply List.ext_getElem?
    intro i
    rw [wave_getElem? hL0, List.getElem?_map]
    by_cases hi : i < s.length
    · have hib : i / L < bs.length := by rw [Nat.div_lt_iff_lt_mul hL0, ← hslen]; exact hi
      rw [List.getElem?_range hi, List.getElem?_eq_getElem hib, Option.map_some, Option.map_some, Nat.div_add_mod']
    · have hib : bs.length ≤ i / L := by rw [Nat.le_div_iff_mul_le hL0, ← hslen]; omega
      rw [List.getElem?_eq_none (by simpa using hi), List.getElem?_eq_none hib]; rfl
  rw [hw, blocks_wave hL0]
  -- the decision on a frame
  set G : ℕ → List (Bool × Bool) → List (Bool × Bool) := fun f _ =>
    (deframeL n p ((List.range L).map (fun j => gainStep k (s.getD (f * L + j) 0) (s.getD (f * L + j + 1) 0)))).map
      (fun z => (Flt.le 0 z.re, Flt.le 0 z.im)) with hGdef
  have hout : ((bs.mapIdx (fun f (_ : List (Bool × Bool)) => (List.range L).map (fun j =>
        gainStep k (s.getD (f * L + j) 0) (s.getD (f * L + j + 1) 0)))).flatMap (deframeL n p)).flatMap
          (fun z => [Flt.le 0 z.re, Flt.le 0 z.im])
      = ((bs.mapIdx G).flatten).flatMap (fun q => [q.1, q.2]) := by
    have : bs.mapIdx G = (bs.mapIdx (fun f (_ : List (Bool × Bool)) => (List.range L).map (fun j =>
        gainStep k (s.getD (f * L + j) 0) (s.getD (f * L + j + 1) 0)))).map (fun c => (deframeL n p c).map
          (fun z => (Flt.le 0 z.re, Flt.le 0 z.im))) := by
      rw [map_mapIdx']
    rw [this, ← List.flatMap_def, ← List.map_flatMap, List.flatMap_map]
  rw [hout, take_flatMap_two _ (fun _ => rfl), ← pairs_flat, ← pairs_length]
  congr 1
  rw [hbs]
  apply take_blocks (by omega)
  · intro f b _
    rw [hGdef]
    simp only [List.length_map]
    exact deframeL_length h1 h2.le _
  · intro f b hb
    have hble : b.length ≤ n - p := mem_blocks_length (List.mem_of_getElem? hb)
    have hblock : (List.range L).map (fun j => gainStep k (s.getD (f * L + j) 0) (s.getD (f * L + j + 1) 0))
        = (List.range L).map (fun j => gainStep k ((frameL n p (b.map qpskPoint)).getD j 0)
          (if j + 1 < L then (frameL n p (b.map qpskPoint)).getD (j + 1) 0 else s.getD ((f + 1) * L) 0)) := by
      have hin : ∀ j, j < L → s.getD (f * L + j) 0 = (frameL n p (b.map qpskPoint)).getD j 0 := by
        intro j hj
        rw [List.getD, hsget, Nat.mul_comm, Nat.mul_add_div hL0, Nat.div_eq_of_lt hj, Nat.mul_add_mod,
          Nat.mod_eq_of_lt hj, Nat.add_zero, hbs, hb, List.getD]; rfl
      refine List.map_congr_left fun j hj => ?_
      have hj := List.mem_range.mp hj
      rw [hin j hj]
      split
      · next hlt => rw [Nat.add_assoc, hin _ hlt]
      · next hlt => rw [show f * L + j + 1 = (f + 1) * L by rw [Nat.add_mul]; omega]
    rw [hGdef]
    simp only [hblock]
    apply List.ext_getElem?
    intro i
    by_cases hi : i < b.length
    · rw [List.getElem?_take, if_pos hi, List.getElem?_map]
      have hil : i < (deframeL (F := ℝ) n p ((List.range L).map (fun j => gainStep k
          ((frameL n p (b.map qpskPoint)).getD j 0) (if j + 1 < L then (frameL n p (b.map qpskPoint)).getD (j + 1) 0
            else s.getD ((f + 1) * L) 0)))).length := by rw [deframeL_length h1 h2.le]; omega
      have hnear := deframe_near (k := k) h1 h2.le he (b.map qpskPoint) (M := 2) (by norm_num) (hnorm b)
        (s.getD ((f + 1) * L) 0) (hsnorm _) (i := i) (by omega)
      rw [List.getElem?_eq_getElem hil, List.getElem?_eq_getElem hi, Option.map_some]
      congr 1
      apply decide_near hk
      rw [← hL, List.getD, List.getElem?_eq_getElem hil, Option.getD_some] at hnear
      have hq : (b.map (qpskPoint (F := ℝ))).getD i 0 = qpskPoint b[i] := by simp [List.getD, hi]
      rw [hq] at hnear
      refine hnear.trans (by norm_num)
    · rw [List.getElem?_take, if_neg hi, List.getElem?_eq_none (by omega)]

end Verif
