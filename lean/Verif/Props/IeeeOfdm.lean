import Verif.Lemmas.IeeeOfdm
import Verif.Props.Ofdm

/-!
# C33 in IEEE arithmetic

The transform may make errors: `AccurateDft D δ` allows each output component an error of `δ·n·B` for inputs bounded by `B`.
-/
namespace Verif.Props
open Verif Verif.F64 Spec
variable {ι : Type}

/-- The received symbols are within `n·B·(5δ + 10·2⁻⁵³)` of the transmitted ones.
Only for even carrier counts; for odd ones see `C33_refuted`. -/
theorem C33_roundtrip_ieee_partial {L : Libm} [Fft (FloatL L)] {δ : ℝ} (hD : AccurateDft (Fft.dft (F := FloatL L)) δ)
    (hδ0 : 0 ≤ δ) (hδ : δ ≤ 1 / 2) {B : ℝ} (hB0 : 1 / 2 ^ 90 ≤ B) (hB1 : B ≤ 2 ^ 90) [RIter ι (Cx (FloatL L))] {s : ι}
    {l : List (Cx (FloatL L))} (h : Yields s l) (hl : ∀ z ∈ l, CB z B) {n p : ℕ} (h1 : 1 ≤ p) (h2 : p < n)
    (he : n % 2 = 0) (hn : n ≤ 2 ^ 40) :
    ∃ out, (do let tx ← txBasebandOfdm (F := FloatL L) s n p
               let rx ← rxBasebandOfdm (F := FloatL L) tx n p
               collect rx) = pure out ∧
      out.length = (l.length + (n - p) - 1) / (n - p) * (n - p) ∧
      ∀ (i : ℕ) (a : Cx (FloatL L)), l[i]? = some a → ∃ z : Cx (FloatL L), out[i]? = some z ∧ CAp z (valC a) (n * B * (5 * δ + 10 * 2 ^ (-53 : ℤ))) := by
  obtain ⟨it, e, hy⟩ := txBasebandOfdm_ok h h1 (by omega : p ≤ n)
  obtain ⟨it2, e2, hy2⟩ := rxBasebandOfdm_ok hy h1 h2.le (by
    rw [length_flatMap_const (k := n + n / 4) _ _ (fun b _ => frameL_length n p b)]; exact ⟨_, Nat.mul_comm _ _⟩)
  rw [e, pure_bind, e2, pure_bind, collect_of_yields hy2,
    blocks_flatMap (by omega) _ _ (fun b _ => frameL_length n p b), List.flatMap_map]
  refine ⟨_, rfl, ?_, fun i a hi => ?_⟩
  · rw [length_flatMap_const (k := n - p) _ _ (fun b _ => deframeL_length h1 h2.le _), blocks_length _ (by omega)]
  · obtain ⟨d, hd, j, hj, hda, hget⟩ := flatMap_blocks_get (k := n - p) (by omega)
      (fun d => deframeL n p (frameL n p d)) l (fun d _ => deframeL_length h1 h2.le _) hi
    obtain ⟨z, hz1, hz2⟩ := deframe_ieee hD hδ0 hδ h1 h2 he hn hB0 hB1
      (fun z hz => hl z (mem_of_mem_blocks hd hz)) hj (d := d)
    rw [List.getD, hda, Option.getD_some] at hz2
    exact ⟨z, by rw [hget, hz1], hz2⟩

/-- QPSK over OFDM in IEEE arithmetic: every message of even length comes back, followed by the bits of the unused carriers
of the last frame, as long as `δ·n ≤ 1/8`.  Only for even carrier counts; for odd ones see `C33_refuted`. -/
theorem C33_bits_ieee_partial {L : Libm} [Fft (FloatL L)] {δ : ℝ} (hD : AccurateDft (Fft.dft (F := FloatL L)) δ)
    (hδ0 : 0 ≤ δ) {n p : ℕ} (hδ : δ * n ≤ 1 / 8) [RIter ι Bool] {m : ι} {msg : List Bool} (h : Yields m msg)
    (hm : msg.length % 2 = 0) (h1 : 1 ≤ p) (h2 : p < n) (he : n % 2 = 0) (hn : n ≤ 2 ^ 40) :
    ∃ junk, (do let tx ← txBasebandOfdm (F := FloatL L) (txBasebandQpsk (F := FloatL L) m) n p
                let rx ← rxBasebandOfdm (F := FloatL L) tx n p
                collect (rxBasebandQpsk (F := FloatL L) rx)) = pure (msg ++ junk) ∧
      junk.length < 2 * (n - p) := by
  have hs := h.txBasebandQpsk (F := FloatL L)
  have hn2 : (2 : ℝ) ≤ n := by exact_mod_cast (by omega : 2 ≤ n)
  have hn40 : (n : ℝ) ≤ 2 ^ 40 := by exact_mod_cast hn
  obtain ⟨it, e, hy⟩ := txBasebandOfdm_ok hs h1 (by omega : p ≤ n)
  obtain ⟨it2, e2, hy2⟩ := rxBasebandOfdm_ok hy h1 h2.le (by
    rw [length_flatMap_const (k := n + n / 4) _ _ (fun b _ => frameL_length n p b)]; exact ⟨_, Nat.mul_comm _ _⟩)
  obtain ⟨out, o1, o2, o3⟩ := C33_roundtrip_ieee_partial hD hδ0 (by nlinarith) (B := 1.5) (by norm_num) (by norm_num) hs
    (by
      intro z hz
      obtain ⟨b, _, rfl⟩ := List.mem_map.mp hz
      exact (qpskPoint_ieee L b).1) h1 h2 he hn
  rw [e, pure_bind, e2, pure_bind, collect_of_yields hy2, RM.ok_inj] at o1
  rw [e, pure_bind, e2, pure_bind, collect_of_yields hy2.rxBasebandQpsk, o1]
  rw [List.length_map, pairs_length] at o2
  have hfit : msg.length / 2 ≤ out.length := by
    rw [o2]
    have hk : 0 < n - p := by omega
    generalize n - p = k at hk
    have := Nat.div_add_mod (msg.length / 2 + k - 1) k
    have := Nat.mod_lt (msg.length / 2 + k - 1) hk
    rw [Nat.mul_comm]
    omega
  have hsplit : (out.take (msg.length / 2)).flatMap (fun z : Cx (FloatL L) => [Flt.le 0 z.re, Flt.le 0 z.im]) = msg := by
    have e3 : (out.take (msg.length / 2)).map (fun z : Cx (FloatL L) => [Flt.le 0 z.re, Flt.le 0 z.im])
        = (pairs msg).map (fun q => [q.1, q.2]) := by
      apply List.ext_getElem?
      intro i
      rw [List.getElem?_map, List.getElem?_map]
      by_cases hi : i < msg.length / 2
      · rw [List.getElem?_take, if_pos hi]
        have hpi : (pairs msg)[i]? = some ((pairs msg)[i]'(by rw [pairs_length]; exact hi)) := List.getElem?_eq_getElem _
        generalize (pairs msg)[i]'(by rw [pairs_length]; exact hi) = b at hpi
        obtain ⟨z, hz1, hz2⟩ := o3 i (qpskPoint b) (by rw [List.getElem?_map, hpi]; rfl)
        rw [hz1, hpi, Option.map_some, Option.map_some]
        congr 1
        refine (qpskPoint_ieee L b).2 z _ ?_ hz2
        rw [show (2 : ℝ) ^ (-53 : ℤ) = 1 / 2 ^ 53 from uu_eq]
        have e4 : (n : ℝ) * 1.5 * (5 * δ + 10 * (1 / 2 ^ 53)) = 7.5 * (δ * n) + n * (15 / 2 ^ 53) := by ring
        rw [e4]
        have e6 : (n : ℝ) * (15 / 2 ^ 53) ≤ 2 ^ 40 * (15 / 2 ^ 53) := mul_le_mul_of_nonneg_right hn40 (by norm_num)
        have e7 : (2 : ℝ) ^ 40 * (15 / 2 ^ 53) ≤ 0.01 := by norm_num
        linarith
      · rw [List.getElem?_eq_none (by rw [List.length_take]; omega), List.getElem?_eq_none (by rw [pairs_length]; omega)]
        rfl
    rw [List.flatMap_def, e3, ← List.flatMap_def, pairs_flat, List.take_of_length_le (by omega)]
  refine ⟨(out.drop (msg.length / 2)).flatMap (fun z : Cx (FloatL L) => [Flt.le 0 z.re, Flt.le 0 z.im]), ?_, ?_⟩
  · have e5 := congrArg (fun o => o.flatMap (fun z : Cx (FloatL L) => [Flt.le 0 z.re, Flt.le 0 z.im]))
      (List.take_append_drop (msg.length / 2) out)
    simp only [List.flatMap_append, hsplit] at e5
    rw [e5]
  · rw [length_flatMap_const (k := 2) _ _ (fun _ _ => rfl), List.length_drop, o2]
    have hk : 0 < n - p := by omega
    generalize n - p = k at hk ⊢
    have := Nat.div_mul_le_self (msg.length / 2 + k - 1) k
    omega

/-- A library whose transform is the exact one with correctly rounded components meets the hypotheses. -/
@[reducible] noncomputable def fftRounded (L : Libm) : Fft (FloatL L) where
  dft := roundedDft
  length_dft := roundedDft_length

example (L : Libm) (msg : List Bool) (hm : msg.length = 200) :
    letI := fftRounded L
    ∃ junk, (do let tx ← txBasebandOfdm (F := FloatL L) (txBasebandQpsk (F := FloatL L) (ofList msg)) 64 12
                let rx ← rxBasebandOfdm (F := FloatL L) tx 64 12
                collect (rxBasebandQpsk (F := FloatL L) rx)) = pure (msg ++ junk) ∧ junk.length < 104 :=
  letI := fftRounded L
  C33_bits_ieee_partial (δ := 1 / 2 ^ 51) accurate_roundedDft (by norm_num) (by norm_num) (yields_ofList msg) (by omega)
    (by decide) (by decide) (by decide) (by decide)

end Verif.Props
