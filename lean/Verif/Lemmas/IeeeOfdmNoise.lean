import Verif.Props.IeeeBaseband
import Verif.Lemmas.OfdmNoise
/-! Baseband OFDM in double precision and white noise. -/
namespace Verif
open Spec F64 MeasureTheory ProbabilityTheory
variable {L : Libm}

/-- A frame of any symbols. -/
theorem frame_near_of [Fft (FloatL L)] {δ : ℝ} (hD : AccurateDft (Fft.dft (F := FloatL L)) δ) (hδ0 : 0 ≤ δ) (hδ : δ ≤ 1 / 16)
    {n p : ℕ} (h1 : 1 ≤ p) (h2 : p < n) (hn : n ≤ 2 ^ 40) {b : List (Cx (FloatL L))} {b' : List (Cx ℝ)} (hq : CNear L (1 / 2 ^ 52) b b')
    (hb : ∀ z ∈ b', ‖z.toC‖ ≤ 2) :
    CNear L (3 * δ + 1 / 2 ^ 45) (frameL n p b) (frameL n p b') := by
  have hnR : (0 : ℝ) < n := by exact_mod_cast (show 0 < n by omega)
  have hp := forall₂_fftshift (place_near (carriers_nodup n p) (carriers_lt h1 h2.le) (by norm_num) hq)
  have hM : ∀ z ∈ fftshift (place n (carriers n p) b'), ‖z.toC‖ ≤ 2 := fun z hz =>
    norm_place_le _ (by norm_num) hb z ((mem_fftshift _ _).mp hz)
  have hlen : (fftshift (place n (carriers n p) b')).length = n := by
    rw [fftshift_length, place_length]
  have hd := dft_near hD hp (R := 2) (fun z hz => abs_of_norm (hM z hz)) (by rw [hlen]; exact hn) (by norm_num) (by norm_num) true
  rw [hlen] at hd
  set E : ℝ := δ * n * (2 + 1 / 2 ^ 52) + n * (2 * (1 / 2 ^ 52)) with hE
  have hEn : E / n = δ * (2 + 1 / 2 ^ 52) + 2 * (1 / 2 ^ 52) := by rw [hE]; field_simp
  have hbound : ∀ z ∈ frameBody n p b', ‖z.toC‖ ≤ 2 * n := by
    intro z hz
    obtain ⟨j, hj⟩ := List.mem_iff_getElem?.mp hz
    rw [dft_toC true _ hj]
    have := dftAt_norm_le (if true then 1 else -1) (x := (fftshift (place n (carriers n p) b')).map Cx.toC) (M := 2) (fun w hw => by
        obtain ⟨z, hz, rfl⟩ := List.mem_map.mp hw
        exact hM z hz) j
    rw [List.length_map, hlen] at this
    linarith
  have hbody : CNear L (3 * δ + 1 / 2 ^ 45) ((frameBody n p b).map (fun z => Cx.divR z (Flt.ofNat n)))
      ((frameBody n p b').map (fun z => Cx.divR z (Flt.ofNat n))) := by
    refine forall₂_of_get? (by rw [List.length_map, List.length_map, frameBody_length, frameBody_length]) fun j x y hx hy => ?_
    rw [List.getElem?_map, Option.map_eq_some_iff] at hx hy
    obtain ⟨x, hx, rfl⟩ := hx
    obtain ⟨y, hy, rfl⟩ := hy
    have hc : CAp x y.toC E := forall₂_get? hd hx hy
    obtain ⟨r1, r2⟩ := abs_of_norm (hbound y (List.mem_of_getElem? hy))
    have hMx : (2 : ℝ) + E / n ≤ 2 ^ (1023 : ℤ) := by
      rw [hEn]
      refine le_big (k := 2) (by norm_num) ?_
      norm_num at *
      linarith
    have herr : E / n + (2 + E / n) * uu + tiny ≤ 3 * δ + 1 / 2 ^ 45 := by
      rw [hEn, uu_eq]
      have := tiny_le (k := 53) (by norm_num)
      norm_num at *
      linarith
    refine ⟨?_, ?_⟩
    · exact (ap_div_nat hc.1 (by omega) (hn.trans (by norm_num)) r1 hMx).mono herr
    · exact (ap_div_nat hc.2 (by omega) (hn.trans (by norm_num)) r2 hMx).mono herr
  unfold frameL
  rw [List.map_append, List.map_append, List.map_drop, List.map_drop]
  exact List.rel_append (List.forall₂_drop _ hbody) hbody

theorem rel_flatMap {A B C D : Type} {R : A → B → Prop} {S : C → D → Prop} {f : A → List C} {g : B → List D} {l : List A} {m : List B}
    (h : List.Forall₂ R l m) (hfg : ∀ a ∈ l, ∀ b ∈ m, R a b → List.Forall₂ S (f a) (g b)) : List.Forall₂ S (l.flatMap f) (m.flatMap g) := by
  induction h with
  | nil => exact .nil
  | cons hab _ ih =>
    rw [List.flatMap_cons, List.flatMap_cons]
    exact List.rel_append (hfg _ List.mem_cons_self _ List.mem_cons_self hab)
      (ih fun a ha b hb => hfg a (List.mem_cons_of_mem _ ha) b (List.mem_cons_of_mem _ hb))

/-- All frames of a message. -/
theorem frames_near [Fft (FloatL L)] {δ : ℝ} (hD : AccurateDft (Fft.dft (F := FloatL L)) δ) (hδ0 : 0 ≤ δ) (hδ : δ ≤ 1 / 16)
    {n p : ℕ} (h1 : 1 ≤ p) (h2 : p < n) (hn : n ≤ 2 ^ 40) {l : List (Cx (FloatL L))} {l' : List (Cx ℝ)} (hq : CNear L (1 / 2 ^ 52) l l')
    (hb : ∀ z ∈ l', ‖z.toC‖ ≤ 2) :
    CNear L (3 * δ + 1 / 2 ^ 45) ((blocks (n - p) l).flatMap (frameL n p)) ((blocks (n - p) l').flatMap (frameL n p)) :=
  rel_flatMap (forall₂_blocks (by omega) hq) fun _ _ b' hb' h =>
    frame_near_of hD hδ0 hδ h1 h2 hn h fun z hz => hb z (mem_of_mem_blocks hb' hz)

/-- One noisy sample. -/
theorem noisy_cap {z : Cx (FloatL L)} {w : Cx ℝ} {e η Z S t : ℝ} {d σ : FloatL L} (h : CAp z w.toC e) (hw : ‖w.toC‖ ≤ 2) (he0 : 0 ≤ e) (he : e ≤ 1)
    (hd : Ap d t η) (ht : |t| ≤ Z) (hη : 0 ≤ η) (hf : Fin σ) (h0 : 0 ≤ val σ) (hS : 3 + val σ * (Z + η) ≤ S) (h1 : 1 ≤ S) (h2 : S ≤ 2 ^ 900) :
    CAp (z.addR (0 + σ * d)) (⟨w.re + val σ * t, w.im⟩ : Cx ℝ).toC (e + val σ * η + S / 2 ^ 48) := by
  obtain ⟨r1, r2⟩ := abs_of_norm hw
  have m1 := mul_le_mul_of_nonneg_left ht h0
  have m2 := mul_nonneg h0 hη
  refine ⟨?_, ?_⟩
  · refine awgn_sample (x := z.re) (σ := σ) (r := w.re) h.1 hd hf h0 hη he0 ?_ h1 h2
    rw [mul_add] at hS ⊢
    linarith
  · exact h.2.mono (by have : 0 ≤ S / 2 ^ 48 := by positivity
                       linarith)

/-- The received symbols of noisy frames. -/
theorem received_near [Fft (FloatL L)] {δ : ℝ} (hD : AccurateDft (Fft.dft (F := FloatL L)) δ) (hδ0 : 0 ≤ δ) (hδ : δ ≤ 1 / 16)
    {n p : ℕ} (h1 : 1 ≤ p) (h2 : p < n) (hn : n ≤ 2 ^ 40) {l : List (Cx (FloatL L))} {l' : List (Cx ℝ)} (hq : CNear L (1 / 2 ^ 52) l l')
    (hb : ∀ z ∈ l', ‖z.toC‖ ≤ 2) {η Z S : ℝ} {d : ℕ → FloatL L} {t : ℕ → ℝ} {σ : FloatL L}
    (hd : ∀ i < ((blocks (n - p) l').flatMap (frameL (F := ℝ) n p)).length, Ap (d i) (t i) η ∧ |t i| ≤ Z) (hη : 0 ≤ η) (hf : Fin σ) (h0 : 0 ≤ val σ)
    (hS : 4 + val σ * (Z + η) ≤ S) (hS2 : S ≤ 2 ^ 40) (hZ : 0 ≤ Z) :
    CNear L (n * (3 * S * δ + 2 * (val σ * η) + S / 2 ^ 44))
      (deframeAll n p (((blocks (n - p) l).flatMap (frameL n p)).mapIdx (fun i c => c.addR (0 + σ * d i))))
      (deframeAll n p (((blocks (n - p) l').flatMap (frameL n p)).mapIdx (fun i c => ⟨c.re + val σ * t i, c.im⟩))) := by
  have hnR : (0 : ℝ) < n := by exact_mod_cast (show 0 < n by omega)
  have hF := frames_near hD hδ0 hδ h1 h2 hn hq hb
  have m2 := mul_nonneg h0 hη
  have m3 := mul_nonneg h0 hZ
  have hS4 : 4 ≤ S := by rw [mul_add] at hS; linarith
  have hN : ∀ z ∈ (blocks (n - p) l').flatMap (frameL (F := ℝ) n p), ‖z.toC‖ ≤ 2 := by
    intro z hz
    obtain ⟨b, hb', hz⟩ := List.mem_flatMap.mp hz
    exact norm_frame_le _ (by norm_num) (fun y hy => hb y (mem_of_mem_blocks hb' hy)) z hz
  set tx := (blocks (n - p) l).flatMap (frameL (F := FloatL L) n p) with htx
  set tx' := (blocks (n - p) l').flatMap (frameL (F := ℝ) n p) with htx'
  have hch : CNear L (3 * δ + 1 / 2 ^ 45 + val σ * η + S / 2 ^ 48) (tx.mapIdx (fun i c => c.addR (0 + σ * d i)))
      (tx'.mapIdx (fun i c => ⟨c.re + val σ * t i, c.im⟩)) := by
    refine forall₂_of_get? (by rw [List.length_mapIdx, List.length_mapIdx, hF.length_eq]) fun i x y hx hy => ?_
    rw [List.getElem?_mapIdx, Option.map_eq_some_iff] at hx hy
    obtain ⟨x, hx, rfl⟩ := hx
    obtain ⟨y, hy, rfl⟩ := hy
    obtain ⟨k1, k2⟩ := hd i (List.getElem?_eq_some_iff.mp hy).1
    exact noisy_cap (forall₂_get? hF hx hy) (hN y (List.mem_of_getElem? hy)) (by positivity) (by norm_num at hδ ⊢; linarith) k1 k2 hη hf h0
      (Z := Z) (by linarith) (by linarith) (hS2.trans (pow_le_pow_right₀ (by norm_num) (by norm_num)))
  have hR : ∀ z ∈ tx'.mapIdx (fun i c => (⟨c.re + val σ * t i, c.im⟩ : Cx ℝ)), |z.re| ≤ 2 + val σ * Z ∧ |z.im| ≤ 2 + val σ * Z := by
    intro z hz
    obtain ⟨i, hi⟩ := List.mem_iff_getElem?.mp hz
    rw [List.getElem?_mapIdx, Option.map_eq_some_iff] at hi
    obtain ⟨y, hy, rfl⟩ := hi
    obtain ⟨r1, r2⟩ := abs_of_norm (hN y (List.mem_of_getElem? hy))
    obtain ⟨-, k2⟩ := hd i (List.getElem?_eq_some_iff.mp hy).1
    have := mul_le_mul_of_nonneg_left k2 h0
    refine ⟨(abs_add_le _ _).trans ?_, by linarith⟩
    rw [abs_mul, abs_of_nonneg h0]; linarith
  have hdv : n + n / 4 ∣ tx'.length := by
    rw [htx', length_flatMap_const (k := n + n / 4) _ _ (fun b _ => frameL_length n p b)]; exact ⟨_, Nat.mul_comm _ _⟩
  unfold deframeAll
  refine rel_flatMap (forall₂_blocks (by omega) hch) fun x _ y hy h => ?_
  have hyl : y.length = n + n / 4 := mem_blocks_full (by omega) _ (by rw [List.length_mapIdx]; exact hdv) y hy
  have hbig : 2 + val σ * Z + (3 * δ + 1 / 2 ^ 45 + val σ * η + S / 2 ^ 48) ≤ S := by
    rw [mul_add] at hS
    norm_num at hδ hS2 ⊢
    linarith
  have := deframe_cnear hD h1 h2 hn h (R := 2 + val σ * Z) (fun z hz => hR z (mem_of_mem_blocks hy hz)) hyl (by norm_num; linarith) (by
    refine hbig.trans (hS2.trans ?_); norm_num)
  refine List.Forall₂.imp (fun a b hab => ?_) this
  have hE : δ * n * (2 + val σ * Z + (3 * δ + 1 / 2 ^ 45 + val σ * η + S / 2 ^ 48)) + n * (2 * (3 * δ + 1 / 2 ^ 45 + val σ * η + S / 2 ^ 48))
      ≤ n * (3 * S * δ + 2 * (val σ * η) + S / 2 ^ 44) := by
    have e1 := mul_le_mul_of_nonneg_left hbig hδ0
    have e2 : 4 * δ ≤ S * δ := mul_le_mul_of_nonneg_right hS4 hδ0
    have : δ * (2 + val σ * Z + (3 * δ + 1 / 2 ^ 45 + val σ * η + S / 2 ^ 48)) + 2 * (3 * δ + 1 / 2 ^ 45 + val σ * η + S / 2 ^ 48)
        ≤ 3 * S * δ + 2 * (val σ * η) + S / 2 ^ 44 := by
      norm_num at *
      linarith
    have := mul_le_mul_of_nonneg_left this hnR.le
    linarith
  exact ⟨hab.1.mono hE, hab.2.mono hE⟩
end Verif
