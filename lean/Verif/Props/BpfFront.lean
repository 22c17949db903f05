import Verif.Lemmas.BpfFront
import Verif.Lemmas.Symbols
import Verif.Lemmas.Fsk
import Verif.Lemmas.Cases
import Verif.Props.Gauss

/-! C136: a band-pass filter in front of a receiver. -/
namespace Verif.Props
open Verif Spec

variable {ι : Type} [RIter ι ℝ]

theorem bpsk_bits {κ : Type} [RIter κ ℝ] {fs sym N : ℕ} {fc : ℝ} (hsps : 0 < fs / sym) {r : List ℝ} (h : r.length = N * (fs / sym))
    (A : ℕ → ℝ) {rcv : κ} (hr : Yields rcv (r.mapIdx (fun i x => x * A i))) :
    (do let rx ← rxBpsk rcv fs sym fc; collect rx) = pure ((List.range N).map (fun n =>
      decide (0 < ∑ j ∈ Finset.range (fs / sym), r.getD (n * (fs / sym) + j) 0 * A (n * (fs / sym) + j)
        * Real.cos (2 * Real.pi * fc * ((n * (fs / sym) + j : ℕ) : ℝ) / fs + 0)))) := by
  rw [rxBpsk_recording (N := N) (s := fun _ i => r.getD i 0 * A i) hsps ⟨by rw [List.length_mapIdx, h], fun i hi => by
    rw [List.getElem?_mapIdx, List.getElem?_eq_getElem (by omega)]; simp [List.getD, h, hi]⟩ hr]
  congr 1
  refine List.map_congr_left fun n _ => ?_
  have e1 : ∀ j : ℕ, Real.cos (2 * Real.pi * fc * ((n * (fs / sym) + j : ℕ) : ℝ) / fs + 0)
      = Real.cos ((n * (fs / sym) + j : ℕ) * dphi fs fc) := by
    intro j; congr 1; unfold dphi; ring
  simp only [e1]

theorem qpsk_bits {κ : Type} [RIter κ ℝ] {fs sym N : ℕ} {fc : ℝ} (hsps : 0 < fs / sym) {r : List ℝ} (h : r.length = N * (fs / sym))
    (A : ℕ → ℝ) {rcv : κ} (hr : Yields rcv (r.mapIdx (fun i x => x * A i))) :
    (do let rx ← rxQpsk rcv fs sym fc; collect rx) = pure ((List.range N).flatMap (fun n =>
      [decide (0 ≤ ∑ j ∈ Finset.range (fs / sym), r.getD (n * (fs / sym) + j) 0 * A (n * (fs / sym) + j)
        * Real.cos (2 * Real.pi * fc * ((n * (fs / sym) + j : ℕ) : ℝ) / fs + 0)),
       decide (0 ≤ ∑ j ∈ Finset.range (fs / sym), r.getD (n * (fs / sym) + j) 0 * A (n * (fs / sym) + j)
        * Real.cos (2 * Real.pi * fc * ((n * (fs / sym) + j : ℕ) : ℝ) / fs + Real.pi / 2))])) := by
  rw [rxQpsk_recording (N := N) (s := fun _ i => r.getD i 0 * A i) hsps ⟨by rw [List.length_mapIdx, h], fun i hi => by
    rw [List.getElem?_mapIdx, List.getElem?_eq_getElem (by omega)]; simp [List.getD, h, hi]⟩ hr]
  congr 1
  refine List.flatMap_congr fun n _ => ?_
  have e1 : ∀ j : ℕ, Real.cos (2 * Real.pi * fc * ((n * (fs / sym) + j : ℕ) : ℝ) / fs + 0)
      = Real.cos ((n * (fs / sym) + j : ℕ) * dphi fs fc) := by
    intro j; congr 1; unfold dphi; ring
  have e2 : ∀ j : ℕ, Real.cos (2 * Real.pi * fc * ((n * (fs / sym) + j : ℕ) : ℝ) / fs + Real.pi / 2)
      = -Real.sin ((n * (fs / sym) + j : ℕ) * dphi fs fc) := by
    intro j; rw [Real.cos_add_pi_div_two]; congr 2; unfold dphi; ring
  simp only [e1, e2]

theorem times_one (r : List ℝ) : r = r.mapIdx (fun i x => x * (fun _ : ℕ => (1 : ℝ)) i) :=
  (mapIdx_eq_self fun _ _ _ => by simp).symm

section core
variable (lo hi : ℝ) {fs sym n : ℕ} {fc : ℝ}

/-- The two receivers behind the filter, on a signal multiplied by a sequence that is constant on the blocks of the filter. -/
theorem filtered_bits (hsps : 0 < fs / sym) (hn : n ∣ fs / sym) (hfc : OnBin fs n fc) {src : ι} {l : List ℝ}
    (h : Yields src l) (hl : fs / sym ∣ l.length) (A : ℕ → ℝ) (hA : ∀ b j, j < n → A (b * n + j) = A (b * n)) :
    ∃ o : List ℝ, Yields (bandpass lo hi src fs n) o ∧ o.length = l.length ∧
      ∀ {κ κ' : Type} [RIter κ ℝ] [RIter κ' ℝ] {rcv : κ} {rcv' : κ'}, Yields rcv (l.mapIdx (fun i x => x * A i)) →
        Yields rcv' (o.mapIdx (fun i x => x * A i)) →
        (lo ≤ fc ∧ fc ≤ hi → (do let rx ← rxBpsk rcv' fs sym fc; collect rx) = (do let rx ← rxBpsk rcv fs sym fc; collect rx) ∧
          (do let rx ← rxQpsk rcv' fs sym fc; collect rx) = (do let rx ← rxQpsk rcv fs sym fc; collect rx)) ∧
        (fc < lo ∨ hi < fc → (do let rx ← rxBpsk rcv' fs sym fc; collect rx) = pure (List.replicate (l.length / (fs / sym)) false) ∧
          (do let rx ← rxQpsk rcv' fs sym fc; collect rx) = pure (List.replicate (2 * (l.length / (fs / sym))) true)) := by
  classical
  obtain ⟨d, hd⟩ := hn
  obtain ⟨N, hN⟩ := hl
  have hn0 : 0 < n := Nat.pos_of_ne_zero (by rintro rfl; omega)
  have hfs : 0 < fs := Nat.pos_of_ne_zero (by rintro rfl; simp at hsps)
  obtain ⟨o, h1, h2⟩ := bandpass_kept lo hi hfs hn0 h (q := N * d) (by rw [hN, hd]; ring)
  have hl' : l.length = N * (fs / sym) := by rw [hN, Nat.mul_comm]
  have ho' : o.length = N * (fs / sym) := by rw [h2.1, hd]; ring
  refine ⟨o, h1, by rw [hl', ho'], fun {κ κ'} _ _ {rcv rcv'} hr hr' => ?_⟩
  have key : ∀ m ∈ List.range N, ∀ φ : ℝ, _ := fun m hm φ => h2.symbol (d := d) (m := m)
    (Nat.mul_le_mul_right d (List.mem_range.mp hm)) hfc φ A hA
  rw [bpsk_bits hsps hl' A hr, bpsk_bits hsps ho' A hr', qpsk_bits hsps hl' A hr, qpsk_bits hsps ho' A hr']
  rw [Nat.mul_comm] at hd
  rw [← hd] at key
  constructor
  · intro hin
    constructor
    · congr 1
      refine List.map_congr_left fun m hm => ?_
      rw [key m hm, if_pos hin]
    · congr 1
      refine List.flatMap_congr fun m hm => ?_
      rw [key m hm, key m hm, if_pos hin, if_pos hin]
  · intro hout
    have hin : ¬ (lo ≤ fc ∧ fc ≤ hi) := by
      rintro ⟨a, b⟩
      rcases hout with c | c <;> linarith
    rw [hl', Nat.mul_div_cancel _ hsps]
    constructor
    · congr 1
      rw [List.map_congr_left (g := fun _ => false) (fun m hm => by rw [key m hm, if_neg hin]; simp)]
      simp
    · congr 1
      rw [List.flatMap_congr (g := fun _ => [true, true]) (fun m hm => by
        rw [key m hm, key m hm, if_neg hin, if_neg hin]; simp)]
      have : ∀ N : ℕ, (List.range N).flatMap (fun _ => [true, true]) = List.replicate (2 * N) true := by
        intro N
        induction N with
        | zero => rfl
        | succ N ih => rw [List.range_succ, List.flatMap_append, ih, Nat.mul_succ, List.replicate_add]; rfl
      exact this N

/-- BPSK.  With a carrier in the band the filter changes no decision, whatever the recording.  With a carrier outside every
decision is 0. -/
theorem C136_bpsk (hsps : 0 < fs / sym) (hn : n ∣ fs / sym) (hfc : OnBin fs n fc)
    {src : ι} {l : List ℝ} (h : Yields src l) (hl : fs / sym ∣ l.length) :
    (lo ≤ fc ∧ fc ≤ hi → (do let rx ← rxBpsk (bandpass lo hi src fs n) fs sym fc; collect rx)
      = (do let rx ← rxBpsk src fs sym fc; collect rx)) ∧
    (fc < lo ∨ hi < fc → (do let rx ← rxBpsk (bandpass lo hi src fs n) fs sym fc; collect rx)
      = pure (List.replicate (l.length / (fs / sym)) false)) := by
  obtain ⟨o, h1, _, h3⟩ := filtered_bits lo hi hsps hn hfc h hl (fun _ => 1) (fun _ _ _ => rfl)
  obtain ⟨a, b⟩ := h3 (h.of_eq (times_one l)) (h1.of_eq (times_one o))
  exact ⟨fun hin => (a hin).1, fun hout => (b hout).1⟩

/-- QPSK; with a carrier outside the band every decision is 1. -/
theorem C136_qpsk (hsps : 0 < fs / sym) (hn : n ∣ fs / sym) (hfc : OnBin fs n fc)
    {src : ι} {l : List ℝ} (h : Yields src l) (hl : fs / sym ∣ l.length) :
    (lo ≤ fc ∧ fc ≤ hi → (do let rx ← rxQpsk (bandpass lo hi src fs n) fs sym fc; collect rx)
      = (do let rx ← rxQpsk src fs sym fc; collect rx)) ∧
    (fc < lo ∨ hi < fc → (do let rx ← rxQpsk (bandpass lo hi src fs n) fs sym fc; collect rx)
      = pure (List.replicate (2 * (l.length / (fs / sym))) true)) := by
  obtain ⟨o, h1, _, h3⟩ := filtered_bits lo hi hsps hn hfc h hl (fun _ => 1) (fun _ _ _ => rfl)
  obtain ⟨a, b⟩ := h3 (h.of_eq (times_one l)) (h1.of_eq (times_one o))
  exact ⟨fun hin => (a hin).2, fun hout => (b hout).2⟩

/-- With a key, in blocks that fit into the chips. -/
theorem C136_cdma {key : List Bool} (hfs : fs < 2 ^ 64) (hsym : 0 < sym) (hL : 0 < key.length) (hdvd : sym * key.length ∣ fs)
    (hnyq : 2 * (sym * key.length) ≤ fs) (hfc' : ⌊fc⌋₊ ≤ fs / 2) (hn : n ∣ fs / sym / key.length) (hfc : OnBin fs n fc)
    {src : ι} {l : List ℝ} (h : Yields src l) (hl : fs / sym ∣ l.length) :
    (lo ≤ fc ∧ fc ≤ hi →
      (do let rx ← rxCdmaBpsk (bandpass lo hi src fs n) fs sym fc key; collect rx) = (do let rx ← rxCdmaBpsk src fs sym fc key; collect rx) ∧
      (do let rx ← rxCdmaQpsk (bandpass lo hi src fs n) fs sym fc key; collect rx) = (do let rx ← rxCdmaQpsk src fs sym fc key; collect rx)) ∧
    (fc < lo ∨ hi < fc →
      (do let rx ← rxCdmaBpsk (bandpass lo hi src fs n) fs sym fc key; collect rx) = pure (List.replicate (l.length / (fs / sym)) false) ∧
      (do let rx ← rxCdmaQpsk (bandpass lo hi src fs n) fs sym fc key; collect rx) = pure (List.replicate (2 * (l.length / (fs / sym))) true)) := by
  have hok := (cdmaOk_real (fc := fc) hfs).mpr ⟨hsym, hL, hdvd, hnyq, hfc'⟩
  have h1 := hok.sps
  have h2 := hok.spc
  obtain ⟨e, he⟩ := hn
  have hn0 : 0 < n := Nat.pos_of_ne_zero (by rintro rfl; omega)
  have hk : fs / sym = fs / sym / key.length * key.length :=
    (Nat.div_mul_cancel (by
      obtain ⟨c, hc⟩ := hdvd
      exact ⟨c, by rw [hc, Nat.mul_assoc, Nat.mul_div_cancel_left _ hsym]⟩)).symm
  obtain ⟨o, g1, _, g3⟩ := filtered_bits lo hi (fs := fs) (sym := sym) (n := n) (by omega)
    (⟨e * key.length, by rw [hk, he]; ring⟩) hfc h hl
    (fun i => bitToNrz (keyBit key (fs / sym / key.length) i)) (fun b j hj => by
      have : (b * n + j) / (fs / sym / key.length) = b * n / (fs / sym / key.length) := by
        rw [he, ← Nat.div_div_eq_div_mul, ← Nat.div_div_eq_div_mul, Nat.mul_comm b n, Nat.mul_add_div hn0, Nat.div_eq_of_lt hj,
          Nat.mul_div_cancel_left _ hn0, Nat.add_zero]
      show bitToNrz (keyBit key _ _) = bitToNrz (keyBit key _ _)
      rw [keyBit, keyBit, this])
  simp only [rxCdmaBpsk, rxCdmaQpsk, hok.guards, pure_bind]
  exact g3 (h.spread hL (by omega)) (g1.spread hL (by omega))

/-- FSK.  With both tones in the band the filter changes no decision.  With the lower tone outside every decision is 1. -/
theorem C136_fsk (hsps : 0 < fs / sym) (hn : n ∣ fs / sym) (hf1 : OnBin fs n (fc * 1.025)) (hf0 : OnBin fs n (fc * 0.975))
    {src : ι} {l : List ℝ} (h : Yields src l) (hl : fs / sym ∣ l.length) :
    ((lo ≤ fc * 0.975 ∧ fc * 0.975 ≤ hi) ∧ (lo ≤ fc * 1.025 ∧ fc * 1.025 ≤ hi) →
      (do let rx ← rxFsk (bandpass lo hi src fs n) fs sym fc; collect rx) = (do let rx ← rxFsk src fs sym fc; collect rx)) ∧
    (fc * 0.975 < lo ∨ hi < fc * 0.975 →
      (do let rx ← rxFsk (bandpass lo hi src fs n) fs sym fc; collect rx) = pure (List.replicate (l.length / (fs / sym)) true)) := by
  classical
  obtain ⟨d, hd⟩ := hn
  obtain ⟨N, hN⟩ := hl
  have hn0 : 0 < n := Nat.pos_of_ne_zero (by rintro rfl; omega)
  have hfs : 0 < fs := Nat.pos_of_ne_zero (by rintro rfl; simp at hsps)
  obtain ⟨o, h1, h2⟩ := bandpass_kept lo hi hfs hn0 h (q := N * d) (by rw [hN, hd]; ring)
  have hl' : l.length = N * (fs / sym) := by rw [hN, Nat.mul_comm]
  have ho' : o.length = N * (fs / sym) := by rw [h2.1, hd]; ring
  have hbits : ∀ {κ : Type} [RIter κ ℝ] {rcv : κ} {r : List ℝ}, r.length = N * (fs / sym) → Yields rcv r →
      (do let rx ← rxFsk rcv fs sym fc; collect rx) = pure ((List.range N).map (fun m =>
        decide (toneEnergy (2 * Real.pi * (fc * 0.975) / fs) (fs / sym) (fun j => r.getD (m * (fs / sym) + j) 0)
          ≤ toneEnergy (2 * Real.pi * (fc * 1.025) / fs) (fs / sym) (fun j => r.getD (m * (fs / sym) + j) 0)))) := by
    intro κ _ rcv r hr hy
    obtain ⟨it, e1, e2⟩ := rxFsk_wave (fc := fc) hsps (hy.of_eq (recording_wave hsps (recording_self hr)))
    rw [e1, pure_bind, collect_of_yields e2, ← mapIdx_range_self]
    congr 1
    apply mapIdx_congr'
    intro m a _
    rw [rxFskChunk_real]
    have hg : ∀ j ∈ Finset.range (fs / sym), ((List.range (fs / sym)).map (fun j => r.getD (m * (fs / sym) + j) 0)).getD j 0
        = r.getD (m * (fs / sym) + j) 0 := by
      intro j hj
      simp [List.getD, Finset.mem_range.mp hj]
    have hs : ∀ (f : ℝ) (c : ℝ → ℝ), ∑ j ∈ Finset.range (fs / sym),
        ((List.range (fs / sym)).map (fun j => r.getD (m * (fs / sym) + j) 0)).getD j 0 * c (2 * Real.pi * f * ((m : ℝ) / fs + (j : ℝ) / fs))
        = ∑ j ∈ Finset.range (fs / sym), r.getD (m * (fs / sym) + j) 0 * c (2 * Real.pi * f * m / fs + 2 * Real.pi * f / fs * j) := by
      intro f c
      refine Finset.sum_congr rfl fun j hj => ?_
      rw [hg j hj]
      congr 2
      ring
    simp only [List.length_map, List.length_range]
    rw [hs _ Real.cos, hs _ Real.sin, hs _ Real.cos, hs _ Real.sin, toneEnergy_shift, toneEnergy_shift,
      show fc - 5 / 100 * fc / 2 = fc * 0.975 by ring, show fc + 5 / 100 * fc / 2 = fc * 1.025 by ring]
  -- the energies behind the filter
  have hE : ∀ f, OnBin fs n f → ∀ m ∈ List.range N,
      toneEnergy (2 * Real.pi * f / fs) (fs / sym) (fun j => o.getD (m * (fs / sym) + j) 0)
        = if lo ≤ f ∧ f ≤ hi then toneEnergy (2 * Real.pi * f / fs) (fs / sym) (fun j => l.getD (m * (fs / sym) + j) 0) else 0 := by
    intro f hf m hm
    have key := fun φ : ℝ => h2.symbol (d := d) (m := m) (Nat.mul_le_mul_right d (List.mem_range.mp hm)) hf φ (fun _ => 1) (fun _ _ _ => rfl)
    rw [show d * n = fs / sym by rw [hd, Nat.mul_comm]] at key
    simp only [mul_one] at key
    have kc := key (-(2 * Real.pi * f * ((m * (fs / sym) : ℕ) : ℝ) / fs))
    have ks := key (-(2 * Real.pi * f * ((m * (fs / sym) : ℕ) : ℝ) / fs) - Real.pi / 2)
    have ec : ∀ j : ℕ, Real.cos (2 * Real.pi * f * ((m * (fs / sym) + j : ℕ) : ℝ) / fs + -(2 * Real.pi * f * ((m * (fs / sym) : ℕ) : ℝ) / fs))
        = Real.cos (2 * Real.pi * f / fs * j) := by
      intro j; congr 1; rw [Nat.cast_add]; ring
    have es : ∀ j : ℕ, Real.cos (2 * Real.pi * f * ((m * (fs / sym) + j : ℕ) : ℝ) / fs
          + (-(2 * Real.pi * f * ((m * (fs / sym) : ℕ) : ℝ) / fs) - Real.pi / 2)) = Real.sin (2 * Real.pi * f / fs * j) := by
      intro j; rw [← Real.cos_sub_pi_div_two]; congr 1; rw [Nat.cast_add]; ring
    simp only [ec] at kc
    simp only [es] at ks
    unfold toneEnergy
    rw [kc, ks]
    by_cases hin : lo ≤ f ∧ f ≤ hi
    · rw [if_pos hin, if_pos hin, if_pos hin]
    · rw [if_neg hin, if_neg hin, if_neg hin]; norm_num
  rw [hbits hl' h, hbits ho' h1]
  constructor
  · rintro ⟨i0, i1⟩
    congr 1
    refine List.map_congr_left fun m hm => ?_
    rw [hE _ hf0 m hm, hE _ hf1 m hm, if_pos i0, if_pos i1]
  · intro hout
    have hin : ¬ (lo ≤ fc * 0.975 ∧ fc * 0.975 ≤ hi) := by
      rintro ⟨a, b⟩
      rcases hout with c | c <;> linarith
    rw [hl', Nat.mul_div_cancel _ hsps]
    congr 1
    rw [List.map_congr_left (g := fun _ => true) (fun m hm => by
      rw [hE _ hf0 m hm, if_neg hin]
      exact decide_eq_true (by unfold toneEnergy; positivity))]
    simp

end core

/-- Frequency hopping: the symbols sent on hops inside the band are decided as without the filter, the others as 0. -/
theorem C136_hopping {ρ : Type} [Rng ρ] (lo hi : ℝ) {low high : ℝ} {nf fs sym n : ℕ} (hfs : fs < 2 ^ 64) (hnf : 2 ≤ nf)
    (hdvd : sym ∣ fs) (hsps : 0 < fs / sym) (hhigh : ⌊high⌋₊ ≤ fs / 2) (hn : n ∣ fs / sym)
    {t : HopTable ρ ℝ} {hop : ℕ → ℝ} (ht : hopTable ρ low high nf 64 = pure t) (hhop : Gives t hop)
    {src : ι} {l : List ℝ} (h : Yields src l) {N : ℕ} (hl : l.length = N * (fs / sym)) (hbin : ∀ m < N, OnBin fs n (hop m)) :
    ∃ x : ℕ → Bool, (do let rx ← rxFhBpsk ρ src low high nf fs sym; collect rx) = pure ((List.range N).map x) ∧
      (do let rx ← rxFhBpsk ρ (bandpass lo hi src fs n) low high nf fs sym; collect rx)
        = pure (open Classical in (List.range N).map (fun m => if lo ≤ hop m ∧ hop m ≤ hi then x m else false)) := by
  classical
  obtain ⟨d, hd⟩ := hn
  have hn0 : 0 < n := Nat.pos_of_ne_zero (by rintro rfl; omega)
  have hfs0 : 0 < fs := Nat.pos_of_ne_zero (by rintro rfl; simp at hsps)
  obtain ⟨o, h1, h2⟩ := bandpass_kept lo hi hfs0 hn0 h (q := N * d) (by rw [hl, hd]; ring)
  have ho' : o.length = N * (fs / sym) := by rw [h2.1, hd]; ring
  have hh : ∀ m, hopOf ρ low high nf m = hop m := by
    intro m
    rw [hopTable_ok, RM.ok_inj] at ht
    subst ht
    exact (congrFun ((hopTable_gives (ρ := ρ) (hopFreqs low high nf) (Rng.seed 64) (by rw [hopFreqs_length]; exact hnf)).unique hhop) m)
  have hbits : ∀ {κ : Type} [RIter κ ℝ] {rcv : κ} {r : List ℝ}, r.length = N * (fs / sym) → Yields rcv r →
      (do let rx ← rxFhBpsk ρ rcv low high nf fs sym; collect rx) = pure ((List.range N).map (fun m =>
        decide (0 < ∑ j ∈ Finset.range (fs / sym), r.getD (m * (fs / sym) + j) 0 * Real.cos (j * dphi fs (hop m))))) := by
    intro κ _ rcv r hr hy
    obtain ⟨it, e1, e2⟩ := rxFhBpsk_sym (ρ := ρ) (low := low) (high := high) (hy.of_eq (recording_wave hsps (recording_self hr))) hnf hsps
      (by rw [Flt.toNat_real]; omega) ((isInt_real hfs (pos_of_sps hsps)).mpr hdvd)
    rw [e1, pure_bind, collect_of_yields e2, fullBlocks_wave hsps, mapIdx_mapIdx', ← mapIdx_range_self]
    congr 1
    apply mapIdx_congr'
    intro m a _
    rw [decFh, mapIdx_range_map, rsum_range, Flt.lt_real, hh]
    simp only [phase_real, Flt.cos_real]
  refine ⟨_, hbits hl h, ?_⟩
  rw [hbits ho' h1]
  congr 1
  refine List.map_congr_left fun m hm => ?_
  have key := h2.symbol (d := d) (m := m) (Nat.mul_le_mul_right d (List.mem_range.mp hm)) (hbin m (List.mem_range.mp hm))
    (-(2 * Real.pi * hop m * ((m * (fs / sym) : ℕ) : ℝ) / fs)) (fun _ => 1) (fun _ _ _ => rfl)
  rw [show d * n = fs / sym by rw [hd, Nat.mul_comm]] at key
  have ec : ∀ j : ℕ, Real.cos (2 * Real.pi * hop m * ((m * (fs / sym) + j : ℕ) : ℝ) / fs
      + -(2 * Real.pi * hop m * ((m * (fs / sym) : ℕ) : ℝ) / fs)) = Real.cos (j * dphi fs (hop m)) := by
    intro j; congr 1; unfold dphi; rw [Nat.cast_add]; ring
  simp only [mul_one, ec] at key
  rw [key]
  by_cases hin : lo ≤ hop m ∧ hop m ≤ hi
  · rw [if_pos hin, if_pos hin]
  · rw [if_neg hin, if_neg hin]; simp

/-- The crate's BPSK numbers (44100 samples and 900 symbols per second, 49 samples per symbol), a carrier of 1800 Hz (two
cycles per symbol), and the band 1000 to 3000 Hz in blocks of one symbol: the message arrives through the filter, together
with any disturbance that does not prevent reception without the filter. -/
example (x : List ℝ) (hx : x.length = 10 * 49) :
    (do let rx ← rxBpsk (bandpass (1000 : ℝ) 3000 (ofList x) 44100 49) 44100 900 1800; collect rx)
      = (do let rx ← rxBpsk (ofList x) 44100 900 1800; collect rx) ∧
    (do let rx ← rxBpsk (bandpass (2000 : ℝ) 3000 (ofList x) 44100 49) 44100 900 1800; collect rx) = pure (List.replicate 10 false) := by
  have hb : OnBin 44100 49 (1800 : ℝ) := ⟨2, by norm_num, by norm_num⟩
  refine ⟨(C136_bpsk 1000 3000 (fs := 44100) (sym := 900) (n := 49) (fc := 1800) (by norm_num) (by norm_num) hb (yields_ofList x)
    (by rw [hx]; exact ⟨10, by norm_num⟩)).1 ⟨by norm_num, by norm_num⟩, ?_⟩
  rw [(C136_bpsk 2000 3000 (fs := 44100) (sym := 900) (n := 49) (fc := 1800) (by norm_num) (by norm_num) hb (yields_ofList x)
    (by rw [hx]; exact ⟨10, by norm_num⟩)).2 (.inl (by norm_num)), hx]

example (x : List ℝ) (hx : x.length = 10 * 49) :
    (do let rx ← rxQpsk (bandpass (1000 : ℝ) 3000 (ofList x) 44100 49) 44100 900 1800; collect rx)
      = (do let rx ← rxQpsk (ofList x) 44100 900 1800; collect rx) :=
  (C136_qpsk 1000 3000 (fs := 44100) (sym := 900) (n := 49) (fc := 1800) (by norm_num) (by norm_num)
    ⟨2, by norm_num, by norm_num⟩ (yields_ofList x) (by rw [hx]; exact ⟨10, by norm_num⟩)).1 ⟨by norm_num, by norm_num⟩

/-- Chips of 10 samples, one cycle of the carrier in each. -/
example (x : List ℝ) (hx : x.length = 10 * 40) (key : List Bool) (hk : key.length = 4) :
    (do let rx ← rxCdmaBpsk (bandpass (500 : ℝ) 1500 (ofList x) 8000 10) 8000 200 800 key; collect rx)
      = (do let rx ← rxCdmaBpsk (ofList x) 8000 200 800 key; collect rx) :=
  ((C136_cdma 500 1500 (fs := 8000) (sym := 200) (n := 10) (fc := 800) (key := key) (by norm_num) (by norm_num) (by omega)
    (by rw [hk]; norm_num) (by rw [hk]; norm_num) (by norm_num) (by rw [hk])
    ⟨1, by norm_num, by norm_num⟩ (yields_ofList x) (by rw [hx]; exact ⟨10, by norm_num⟩)).1 ⟨by norm_num, by norm_num⟩).1

/-- FSK around 2000 Hz: tones of 1950 and 2050 Hz, 39 and 41 cycles in blocks of 160 samples at 8000 Hz. -/
example (x : List ℝ) (hx : x.length = 10 * 160) :
    (do let rx ← rxFsk (bandpass (1900 : ℝ) 2100 (ofList x) 8000 160) 8000 50 2000; collect rx)
      = (do let rx ← rxFsk (ofList x) 8000 50 2000; collect rx) :=
  (C136_fsk 1900 2100 (fs := 8000) (sym := 50) (n := 160) (fc := 2000) (by norm_num) (by norm_num)
    ⟨41, by norm_num, by norm_num⟩ ⟨39, by norm_num, by norm_num⟩ (yields_ofList x)
    (by rw [hx]; exact ⟨10, by norm_num⟩)).1 (by norm_num)

/-- Hops on 1000, 1250, 1500 and 1750 Hz, and a filter that passes 900 to 1600 Hz: the symbols sent on 1750 Hz are lost, the
others are decided as without the filter. -/
example {ρ : Type} [Rng ρ] (x : List ℝ) (hx : x.length = 10 * 32) :
    ∃ (t : HopTable ρ ℝ) (hop : ℕ → ℝ) (b : ℕ → Bool), hopTable ρ 1000 2000 4 64 = pure t ∧ Gives t hop ∧
      (do let rx ← rxFhBpsk ρ (ofList x) 1000 2000 4 8000 250; collect rx) = pure ((List.range 10).map b) ∧
      (do let rx ← rxFhBpsk ρ (bandpass (900 : ℝ) 1600 (ofList x) 8000 32) 1000 2000 4 8000 250; collect rx)
        = pure (open Classical in (List.range 10).map (fun m => if 900 ≤ hop m ∧ hop m ≤ 1600 then b m else false)) := by
  have hg := hopTable_gives (ρ := ρ) (hopFreqs (1000 : ℝ) 2000 4) (Rng.seed 64) (by rw [hopFreqs_length]; norm_num)
  obtain ⟨b, b1, b2⟩ := C136_hopping (ρ := ρ) 900 1600 (low := 1000) (high := 2000) (nf := 4) (fs := 8000) (sym := 250) (n := 32)
    (by norm_num) (by norm_num) (by norm_num) (by norm_num) (by norm_num) (by norm_num) (hopTable_ok 1000 2000 4 64) hg
    (yields_ofList x) (N := 10) (by rw [hx]) (fun m _ => by
      obtain ⟨i, hi, he⟩ := List.mem_map.mp (hopAt_mem (ρ := ρ) (hopFreqs (1000 : ℝ) 2000 4, Rng.seed 64)
        (by simp [hopFreqs_length]) m)
      have hi : i < 4 := by simpa using hi
      refine ⟨4 + i, by omega, ?_⟩
      rw [← he]
      simp only [Flt.ofNat_real]
      push_cast
      ring)
  exact ⟨_, _, b, hopTable_ok 1000 2000 4 64, hg, b1, b2⟩

section noise
open MeasureTheory
variable {Ω : Type} [MeasurableSpace Ω] {P : Measure Ω} {ν : Type} [RIter ν ℝ] {noise : Ω → ν} {z : ℕ → Ω → ℝ} {σ : ℝ}

/-- In white noise the filter neither helps nor harms: behind it BPSK has the error rate it has without the filter. -/
theorem C136_noise {κ : Type} [RIter κ Bool] (hz : White P 1 z) (hσ : 0 < σ) (hg : ∀ ω, Gives (noise ω) (fun i => z i ω)) {m : κ}
    {msg : List Bool} (h : Yields m msg) {fs sym n : ℕ} {fc : ℝ} (hfs : fs < 2 ^ 64) (hdvd : sym ∣ fs) (hsps : 0 < fs / sym)
    (hfc : ⌊fc⌋₊ ≤ fs / 2) (hn : n ∣ fs / sym) (hbin : OnBin fs n fc) {lo hi : ℝ} (hin : lo ≤ fc ∧ fc ≤ hi)
    {tx : List ℝ} (htx : (do let it ← txBpsk m fs sym fc; collect it) = pure tx)
    (hE : ∀ n < msg.length, 0 < ((symbol (fs / sym) n tx).map (· ^ 2)).sum) :
    ∃ bits : Ω → List Bool, (∀ ω, (do
        let s ← txBpsk m fs sym fc
        let ch ← awgn s σ (noise ω)
        let rx ← rxBpsk (bandpass lo hi ch fs n) fs sym fc
        collect rx) = pure (bits ω)) ∧
      Flips P msg bits (fun n => bitError ((symbol (fs / sym) n tx).map (· ^ 2)).sum σ) := by
  obtain ⟨bits, b1, b2⟩ := C101_bpsk hz hσ hg h hfs hdvd hsps hfc htx hE
  refine ⟨bits, fun ω => ?_, b2⟩
  rw [← b1 ω]
  obtain ⟨w, hw, hn'⟩ := hz.driven hg σ
  obtain ⟨it, h1, h2⟩ := txBpsk_ok h (fc := fc) hsps (by rw [Flt.toNat_real]; omega)
    ((isInt_real hfs (pos_of_sps hsps)).mpr hdvd)
  obtain ⟨ch, c1, c2⟩ := awgn_driven h2 (hn' ω)
  rw [h1, pure_bind, pure_bind, c1, pure_bind, pure_bind]
  exact (C136_bpsk lo hi hsps hn hbin c2 (by rw [List.length_mapIdx, wave_length]; exact ⟨_, Nat.mul_comm _ _⟩)).1 hin

/-- Blocks of eight samples, one cycle of the carrier in each. -/
example : ∃ bits : (ℕ → ℝ) → List Bool, (∀ ω, (do
        let s ← txBpsk (ofList [true, false, true]) 16000 1000 (2000 : ℝ)
        let ch ← awgn s (1 : ℝ) (path ω)
        let rx ← rxBpsk (bandpass (1000 : ℝ) 3000 ch 16000 8) 16000 1000 (2000 : ℝ)
        collect rx) = pure (bits ω)) ∧
      (gaussPath 1).real {ω | (bits ω)[1]? ≠ some false} = bitError 8 1 := by
  obtain ⟨a, ha, -⟩ := Cases.bpsk [true, false, true]
  have hE := C78_bpsk (yields_ofList _) (by norm_num) (WholeHalf.of_nat (f := 2000) (p := 4) (by norm_num) (by norm_num)) ha
  obtain ⟨bits, b1, b2⟩ := C136_noise (white_path 1) one_pos path_gives (yields_ofList _) (n := 8) (by norm_num) (by norm_num) (by norm_num)
    (by norm_num) (by norm_num) ⟨1, by norm_num, by norm_num⟩ (lo := 1000) (hi := 3000) (by norm_num) ha
    (fun n hn => by rw [hE.each (by norm_num) n hn]; norm_num)
  refine ⟨bits, b1, ?_⟩
  have hP := (white_path 1).prob
  have := C101_bit b2 (n := 1) (by norm_num)
  rw [hE.each (by norm_num) 1 (by norm_num)] at this
  simp only [List.getElem?_cons_succ, List.getElem?_cons_zero] at this
  rw [this]
  norm_num

end noise

end Verif.Props
