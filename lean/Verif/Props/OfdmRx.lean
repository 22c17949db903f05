import Verif.Lemmas.OfdmLin
import Verif.Lemmas.Bpf
import Verif.Props.Ofdm

/-! # The baseband OFDM receiver on arbitrary signals: C76 -/
namespace Verif.Props
open Verif Spec
set_option linter.unusedSectionVars false
variable {ι : Type}

section anyF
variable {F : Type} [Add F] [Sub F] [Mul F] [Div F] [Neg F] [Zero F] [One F] [Flt F] [Fft F]

/-- Whole frames give one symbol per data carrier and frame. -/
theorem C76_total {n p : ℕ} (h1 : 1 ≤ p) (h2 : p ≤ n) (l : List (Cx F)) (hd : n + n / 4 ∣ l.length) :
    ∃ out, (do let rx ← rxBasebandOfdm (F := F) (ofList l) n p; collect rx) = pure out ∧
      out.length = (n - p) * (l.length / (n + n / 4)) := by
  obtain ⟨it, e, hy⟩ := rxBasebandOfdm_ok (yields_ofList l) h1 h2 hd
  exact ⟨deframeAll n p l, by rw [e, pure_bind, collect_of_yields hy]; rfl, deframeAll_length h1 h2 l hd⟩

/-- An incomplete last frame is a panic, but only after all symbols of the complete frames have been delivered. -/
theorem C76_incomplete {n p : ℕ} (h1 : 1 ≤ p) (h2 : p ≤ n) (l : List (Cx F)) (hd : ¬ n + n / 4 ∣ l.length) :
    ∃ it out, rxBasebandOfdm (F := F) (ofList l) n p = pure it ∧ Crashes it out ∧
      out.length = (n - p) * (l.length / (n + n / 4)) ∧
      (do let rx ← rxBasebandOfdm (F := F) (ofList (l.take (l.length / (n + n / 4) * (n + n / 4)))) n p; collect rx)
        = pure out := by
  have hL : 0 < n + n / 4 := by omega
  have hlen : (l.take (l.length / (n + n / 4) * (n + n / 4))).length = l.length / (n + n / 4) * (n + n / 4) := by
    rw [List.length_take, Nat.min_eq_left (Nat.div_mul_le_self _ _)]
  set l1 := l.take (l.length / (n + n / 4) * (n + n / 4)) with hl1
  have hdv : n + n / 4 ∣ l1.length := by rw [hlen]; exact ⟨_, Nat.mul_comm _ _⟩
  obtain ⟨it, e, hy⟩ := rxBasebandOfdm_ok (yields_ofList l1) h1 h2 hdv
  set r := l.drop (l.length / (n + n / 4) * (n + n / 4)) with hr
  have hrl : r.length = l.length % (n + n / 4) := by
    rw [hr, List.length_drop, Nat.mul_comm]
    have := Nat.div_add_mod l.length (n + n / 4)
    omega
  have hr0 : 0 < r.length := by
    rw [hrl]; exact Nat.pos_of_ne_zero (fun h => hd (Nat.dvd_of_mod_eq_zero h))
  have hrlt : r.length < n + n / 4 := by rw [hrl]; exact Nat.mod_lt _ hL
  have hb : blocks (n + n / 4) l = blocks (n + n / 4) l1 ++ [r] := by
    conv_lhs => rw [← List.take_append_drop (l.length / (n + n / 4) * (n + n / 4)) l, ← hl1, ← hr]
    rw [blocks_append_dvd hL hdv, blocks_cons hL (List.ne_nil_of_length_pos hr0), List.take_of_length_le hrlt.le,
      List.drop_of_length_le hrlt.le, blocks_nil]
  have hc := (yields_ofList l).chunks (n + n / 4)
  rw [hb] at hc
  refine ⟨rflatMap (chunks (ofList l) (n + n / 4))
    (fun d => do pure (ofList (← ofdmDeframe n (n / 4) (carriers n p) d))), deframeAll n p l1, ?_, ?_, ?_,
    by rw [e, pure_bind, collect_of_yields hy]; rfl⟩
  rotate_left
  · exact hc.rflatMap_crash (out := deframeL n p)
      (f := fun d => do pure (ofList (← ofdmDeframe n (n / 4) (carriers n p) d)))
      (fun d hmem => ⟨ofList (deframeL n p d), by
        rw [ofdmDeframe_ok h1 h2 (mem_blocks_full hL l1 hdv d hmem), pure_bind], yields_ofList _⟩)
      (by obtain ⟨q, hq⟩ := ofdmDeframe_short (F := F) (p := p) (by omega : 0 < n) hrlt
          exact ⟨q, by rw [hq]; rfl⟩)
  · rw [deframeAll_length h1 h2 l1 hdv, hlen, Nat.mul_div_cancel _ hL]
  · unfold rxBasebandOfdm
    rw [usub_le h2, pure_bind]
    simp only []
    rw [getDataSubcarriers_ok h1 h2, pure_bind]

/-- The symbols of a frame depend on the samples of its body only: not on other frames, and not on the prefix. -/
theorem C76_local {n p : ℕ} (h1 : 1 ≤ p) (h2 : p ≤ n) {l l' out out' : List (Cx F)} (hd : n + n / 4 ∣ l.length)
    (hd' : n + n / 4 ∣ l'.length)
    (h : (do let rx ← rxBasebandOfdm (F := F) (ofList l) n p; collect rx) = pure out)
    (h' : (do let rx ← rxBasebandOfdm (F := F) (ofList l') n p; collect rx) = pure out') {k : ℕ}
    (hk : (k + 1) * (n + n / 4) ≤ l.length) (hk' : (k + 1) * (n + n / 4) ≤ l'.length)
    (hbody : (l.drop (k * (n + n / 4) + n / 4)).take n = (l'.drop (k * (n + n / 4) + n / 4)).take n) :
    (out.drop (k * (n - p))).take (n - p) = (out'.drop (k * (n - p))).take (n - p) := by
  have hL : 0 < n + n / 4 := by omega
  obtain ⟨it, e, hy⟩ := rxBasebandOfdm_ok (yields_ofList l) h1 h2 hd
  obtain ⟨it', e', hy'⟩ := rxBasebandOfdm_ok (yields_ofList l') h1 h2 hd'
  rw [e, pure_bind, collect_of_yields hy, RM.ok_inj] at h
  rw [e', pure_bind, collect_of_yields hy', RM.ok_inj] at h'
  subst h h'
  have key : ∀ m : List (Cx F), n + n / 4 ∣ m.length → (k + 1) * (n + n / 4) ≤ m.length →
      ((deframeAll n p m).drop (k * (n - p))).take (n - p)
        = deframeL n p ((m.drop (k * (n + n / 4))).take (n + n / 4)) := by
    intro m hm hkm
    by_cases hK : n - p = 0
    · rw [hK, List.take_zero]
      exact (List.eq_nil_of_length_eq_zero (by rw [deframeL_length h1 h2, hK])).symm
    have hK : 0 < n - p := Nat.pos_of_ne_zero hK
    apply List.ext_getElem?
    intro i
    by_cases hi : i < n - p
    · rw [List.getElem?_take_of_lt hi, List.getElem?_drop]
      have hlt : k * (n - p) + i < (n - p) * (m.length / (n + n / 4)) := by
        have : k + 1 ≤ m.length / (n + n / 4) := (Nat.le_div_iff_mul_le hL).mpr hkm
        calc k * (n - p) + i < (n - p) * (k + 1) := by rw [Nat.mul_add, Nat.mul_comm k]; omega
          _ ≤ _ := Nat.mul_le_mul_left _ this
      rw [(deframeAll_getElem? h1 h2 m hm hlt).2]
      rw [show k * (n - p) + i = i + (n - p) * k by ring, Nat.add_mul_div_left _ _ hK, Nat.add_mul_mod_self_left,
        Nat.div_eq_of_lt hi, Nat.mod_eq_of_lt hi, Nat.zero_add]
    · rw [List.getElem?_eq_none (by rw [List.length_take]; omega),
        List.getElem?_eq_none (by rw [deframeL_length h1 h2]; omega)]
  have e1 := key l hd hk
  have e2 := key l' hd' hk'
  unfold deframeAll at e1 e2
  rw [e1, e2]
  have body : ∀ m : List (Cx F), ((m.drop (k * (n + n / 4))).take (n + n / 4)).drop (n / 4)
      = (m.drop (k * (n + n / 4) + n / 4)).take n := by
    intro m
    rw [List.drop_take, List.drop_drop, Nat.add_sub_cancel]
  unfold deframeL
  rw [body, body, hbody]

end anyF

/-- Three frames of 10 samples, the second one with a damaged prefix and the third one replaced. -/
example {F : Type} [Add F] [Sub F] [Mul F] [Div F] [Neg F] [Zero F] [One F] [Flt F] [Fft F] (a b c c' : List (Cx F)) (x y : Cx F)
    (ha : a.length = 10) (hb : b.length = 8) (hc : c.length = 10) (hc' : c'.length = 10) {out out' : List (Cx F)}
    (h : (do let rx ← rxBasebandOfdm (F := F) (ofList (a ++ x :: x :: b ++ c)) 8 6; collect rx) = pure out)
    (h' : (do let rx ← rxBasebandOfdm (F := F) (ofList (a ++ y :: y :: b ++ c')) 8 6; collect rx) = pure out') :
    (out.drop 2).take 2 = (out'.drop 2).take 2 := by
  refine C76_local (n := 8) (p := 6) (k := 1) (by decide) (by decide) (by simp [ha, hb, hc])
    (by simp [ha, hb, hc']) h h'
    (by simp [ha, hb, hc]) (by simp [ha, hb, hc']) ?_
  rw [show (1 : ℕ) * (8 + 8 / 4) + 8 / 4 = 12 from rfl]
  simp [List.drop_append, ha, hb, List.drop_of_length_le]

/-- 15 samples: one frame of two symbols, then the panic. -/
example {F : Type} [Add F] [Sub F] [Mul F] [Div F] [Neg F] [Zero F] [One F] [Flt F] [Fft F] (z : Cx F) :
    ∃ it out, rxBasebandOfdm (F := F) (ofList (List.replicate 15 z)) 8 6 = pure it ∧ Crashes it out ∧ out.length = 2 := by
  obtain ⟨it, out, h1, h2, h3, _⟩ := C76_incomplete (n := 8) (p := 6) (by decide) (by decide) (List.replicate 15 z) (by simp)
  exact ⟨it, out, h1, h2, by simpa using h3⟩

/-! ## Exact arithmetic -/

/-- The receiver is linear over the complex numbers, on arbitrary signals. -/
theorem C76_linear {n p : ℕ} (h1 : 1 ≤ p) (h2 : p ≤ n) (a b : Cx ℝ) {x y : List (Cx ℝ)} (hxy : x.length = y.length)
    (hd : n + n / 4 ∣ x.length) :
    ∃ u v, (do let rx ← rxBasebandOfdm (F := ℝ) (ofList x) n p; collect rx) = pure u ∧
      (do let rx ← rxBasebandOfdm (F := ℝ) (ofList y) n p; collect rx) = pure v ∧
      (do let rx ← rxBasebandOfdm (F := ℝ) (ofList (List.zipWith (fun s t => a * s + b * t) x y)) n p; collect rx)
        = pure (List.zipWith (fun s t => a * s + b * t) u v) := by
  obtain ⟨i1, e1, y1⟩ := rxBasebandOfdm_ok (yields_ofList x) h1 h2 hd
  obtain ⟨i2, e2, y2⟩ := rxBasebandOfdm_ok (yields_ofList y) h1 h2 (hxy ▸ hd)
  obtain ⟨i3, e3, y3⟩ := rxBasebandOfdm_ok (yields_ofList (mix2 a b x y)) h1 h2 (by rw [mix2_length _ _ hxy]; exact hd)
  refine ⟨_, _, by rw [e1, pure_bind, collect_of_yields y1], by rw [e2, pure_bind, collect_of_yields y2], ?_⟩
  have := deframeAll_mix h1 h2 a b hxy hd
  unfold deframeAll at this
  unfold mix2 at e3 y3
  rw [e3, pure_bind, collect_of_yields y3]
  exact congrArg pure this

example (x y : List (Cx ℝ)) (hx : x.length = 80) (hy : y.length = 80) :
    ∃ u v, (do let rx ← rxBasebandOfdm (F := ℝ) (ofList x) 64 12; collect rx) = pure u ∧
      (do let rx ← rxBasebandOfdm (F := ℝ) (ofList y) 64 12; collect rx) = pure v ∧
      (do let rx ← rxBasebandOfdm (F := ℝ) (ofList (List.zipWith (fun s t => (⟨2, 0⟩ : Cx ℝ) * s + (⟨0, 1⟩ : Cx ℝ) * t) x y)) 64 12; collect rx)
        = pure (List.zipWith (fun s t => (⟨2, 0⟩ : Cx ℝ) * s + (⟨0, 1⟩ : Cx ℝ) * t) u v) :=
  C76_linear (by decide) (by decide) _ _ (by omega) (by rw [hx])

/-- The energy of a frame body is the energy of its symbols divided by the carrier count (even ones). -/
theorem C76_energy [RIter ι (Cx ℝ)] {s : ι} {l : List (Cx ℝ)} (h : Yields s l) {n p : ℕ} (h1 : 1 ≤ p) (h2 : p < n)
    (he : n % 2 = 0) :
    ∃ it, ∃ frames : List (List (Cx ℝ)), txBasebandOfdm (F := ℝ) s n p = pure it ∧ Yields it frames.flatten ∧
      frames.map (fun f => n * cxEnergy (f.drop (n / 4))) = (blocks (n - p) l).map cxEnergy := by
  obtain ⟨it, e, hy⟩ := txBasebandOfdm_ok h h1 (by omega : p ≤ n)
  refine ⟨it, (blocks (n - p) l).map (frameL n p), e, by rwa [← List.flatMap_def], ?_⟩
  rw [List.map_map]
  refine List.map_congr_left fun d hd => ?_
  exact cxEnergy_frame h1 h2.le he d (mem_blocks_length hd)

example (a b : Cx ℝ) : ∃ it, ∃ frames : List (List (Cx ℝ)), txBasebandOfdm (F := ℝ) (ofList [a, b]) 8 6 = pure it ∧
    Yields it frames.flatten ∧ frames.map (fun f => (8 : ℕ) * cxEnergy (f.drop 2)) = [cxEnergy [a, b]] := by
  obtain ⟨it, fr, h1, h2, h3⟩ := C76_energy (yields_ofList [a, b]) (n := 8) (p := 6) (by decide) (by decide) (by decide)
  exact ⟨it, fr, h1, h2, by rw [h3, blocks_cons (by decide) (by simp)]; simp [blocks_nil]⟩

private theorem mix2_one (x y : List (Cx ℝ)) : mix2 ⟨1, 0⟩ ⟨1, 0⟩ x y = List.zipWith (· + ·) x y := by
  unfold mix2
  congr 1
  funext a b
  apply Cx.toC_inj
  rw [toC_add, toC_add, Cx.toC_mul, Cx.toC_mul]
  have : Cx.toC ⟨1, 0⟩ = 1 := rfl
  rw [this]; ring

theorem wrong_append (a b r : List Bool) (h : a.length = b.length) : wrong a (b ++ r) = wrong a b := by
  unfold wrong
  congr 1
  induction a generalizing b with
  | nil => rfl
  | cons x a ih =>
    cases b with
    | nil => simp at h
    | cons y b => rw [List.cons_append, List.zip_cons_cons, List.zip_cons_cons, ih b (by simpa using h)]

theorem take_of_wrong {a b : List Bool} (h : a.length ≤ b.length) (hw : wrong a b = 0) : b.take a.length = a := by
  unfold wrong at hw
  induction a generalizing b with
  | nil => rfl
  | cons x a ih =>
    cases b with
    | nil => simp at h
    | cons y b =>
      rw [List.zip_cons_cons, List.countP_cons] at hw
      have h0 : x = y := by
        by_contra hne
        simp [hne] at hw
      rw [List.length_cons, List.take_succ_cons, ih (by simpa using h) (by omega), h0]

/-- With noise of any kind added to the samples, at most `n/2` bits per unit of noise energy are received wrong. -/
theorem C76_errors [RIter ι Bool] {m : ι} {msg : List Bool} (h : Yields m msg) (hm : msg.length % 2 = 0) {n p : ℕ}
    (h1 : 1 ≤ p) (h2 : p < n) (he : n % 2 = 0) :
    ∃ sent, (do let tx ← txBasebandOfdm (F := ℝ) (txBasebandQpsk (F := ℝ) m) n p; collect tx) = pure sent ∧
      ∀ noise : List (Cx ℝ), noise.length = sent.length →
        ∃ bits, (do let rx ← rxBasebandOfdm (F := ℝ) (ofList (List.zipWith (· + ·) sent noise)) n p
                    collect (rxBasebandQpsk (F := ℝ) rx)) = pure bits ∧
          msg.length ≤ bits.length ∧ 2 * (wrong msg bits : ℝ) ≤ n * cxEnergy noise := by
  have hs := h.txBasebandQpsk (F := ℝ)
  have hL : 0 < n + n / 4 := by omega
  obtain ⟨it, e, hy⟩ := txBasebandOfdm_ok hs h1 (by omega : p ≤ n)
  refine ⟨_, by rw [e, pure_bind, collect_of_yields hy], ?_⟩
  intro noise hn
  set sent := (blocks (n - p) ((pairs msg).map (fun b => (qpskPoint b : Cx ℝ)))).flatMap (frameL n p) with hsent
  have hsd : n + n / 4 ∣ sent.length := by
    rw [hsent, length_flatMap_const (k := n + n / 4) _ _ (fun b _ => frameL_length n p b)]; exact ⟨_, Nat.mul_comm _ _⟩
  have hz := (mix2_one sent noise).symm
  obtain ⟨it2, e2, hy2⟩ := rxBasebandOfdm_ok (yields_ofList (List.zipWith (· + ·) sent noise)) h1 h2.le
    (by rw [hz, mix2_length _ _ hn.symm]; exact hsd)
  refine ⟨_, by rw [e2, pure_bind, collect_of_yields hy2.rxBasebandQpsk], ?_⟩
  obtain ⟨c, hc1, hc2, hc3⟩ := C33_roundtrip_partial hs h1 h2 he
  obtain ⟨it3, e3, hy3⟩ := rxBasebandOfdm_ok hy h1 h2.le hsd
  rw [e, pure_bind, e3, pure_bind, collect_of_yields hy3, RM.ok_inj] at hc3
  set N := deframeAll n p noise with hN
  have hNl : N.length = (pairs msg).length + c := by
    rw [hN, deframeAll_length h1 h2.le _ (hn ▸ hsd), hn, ← deframeAll_length h1 h2.le sent hsd]
    unfold deframeAll
    rw [hc3]; simp
  have hout : (blocks (n + n / 4) (List.zipWith (· + ·) sent noise)).flatMap (deframeL n p)
      = List.zipWith (· + ·) ((pairs msg).map (fun b => (qpskPoint b : Cx ℝ)) ++ List.replicate c 0) N := by
    have := deframeAll_mix h1 h2.le ⟨1, 0⟩ ⟨1, 0⟩ hn.symm hsd
    rw [hz]
    unfold deframeAll at this
    rw [this, hc3, mix2_one]
    rfl
  rw [hout]
  have hN2 : N = N.take (pairs msg).length ++ N.drop (pairs msg).length := (List.take_append_drop _ _).symm
  have hflat : (pairs msg).flatMap (fun b => [b.1, b.2]) = msg := by
    rw [pairs_flat, List.take_of_length_le (by omega)]
  have hpl := pairs_length msg
  have hw := wrong_decide (pairs msg) (N.take (pairs msg).length)
  rw [hflat] at hw
  have hEn := cxEnergy_deframeAll h1 h2.le noise (hn ▸ hsd)
  have hEt := cxEnergy_take_le N (pairs msg).length
  rw [hN2, List.zipWith_append (by simp [hNl]), List.flatMap_append]
  set A := (List.zipWith (· + ·) ((pairs msg).map (fun b => (qpskPoint b : Cx ℝ))) (N.take (pairs msg).length)).flatMap
    (fun z => [Flt.le 0 z.re, Flt.le 0 z.im]) with hA
  have hAl : A.length = msg.length := by
    rw [hA, length_flatMap_const (k := 2) _ _ (fun _ _ => rfl), List.length_zipWith, List.length_map, List.length_take, hNl]
    omega
  refine ⟨by rw [List.length_append, hAl]; omega, ?_⟩
  rw [wrong_append _ _ _ hAl.symm]
  exact hw.trans (hEt.trans hEn)

/-- Hence no bit is wrong if the energy of the noise is less than `2/n`. -/
theorem C76_noise [RIter ι Bool] {m : ι} {msg : List Bool} (h : Yields m msg) (hm : msg.length % 2 = 0) {n p : ℕ}
    (h1 : 1 ≤ p) (h2 : p < n) (he : n % 2 = 0) :
    ∃ sent, (do let tx ← txBasebandOfdm (F := ℝ) (txBasebandQpsk (F := ℝ) m) n p; collect tx) = pure sent ∧
      ∀ noise : List (Cx ℝ), noise.length = sent.length → n * cxEnergy noise < 2 →
        ∃ bits, (do let rx ← rxBasebandOfdm (F := ℝ) (ofList (List.zipWith (· + ·) sent noise)) n p
                    collect (rxBasebandQpsk (F := ℝ) rx)) = pure bits ∧ bits.take msg.length = msg := by
  obtain ⟨sent, hs, hr⟩ := C76_errors h hm h1 h2 he
  refine ⟨sent, hs, fun noise hn hE => ?_⟩
  obtain ⟨bits, hb, hl, hw⟩ := hr noise hn
  refine ⟨bits, hb, take_of_wrong hl ?_⟩
  have : (wrong msg bits : ℝ) < 1 := by linarith
  exact_mod_cast (Nat.lt_one_iff.mp (by exact_mod_cast this))

/-- Four bits on 8 carriers, two of them used: every sample may be off by up to 0.15. -/
example : ∃ sent, (do let tx ← txBasebandOfdm (F := ℝ) (txBasebandQpsk (F := ℝ) (ofList [true, false, false, true])) 8 6
                      collect tx) = pure sent ∧
      ∀ noise : List (Cx ℝ), noise.length = sent.length → 8 * cxEnergy noise < 2 →
        ∃ bits, (do let rx ← rxBasebandOfdm (F := ℝ) (ofList (List.zipWith (· + ·) sent noise)) 8 6
                    collect (rxBasebandQpsk (F := ℝ) rx)) = pure bits ∧ bits.take 4 = [true, false, false, true] := by
  obtain ⟨s, h1, h2⟩ := C76_noise (yields_ofList [true, false, false, true]) (by decide) (n := 8) (p := 6) (by decide)
    (by decide) (by decide)
  exact ⟨s, h1, fun noise hn hE => h2 noise hn (by exact_mod_cast hE)⟩

/-- Ten arbitrary samples, 8 subcarriers of which 2 pilots: six symbols. -/
example (l : List (Cx ℝ)) (h : l.length = 10) :
    ∃ out, (do let rx ← rxBasebandOfdm (F := ℝ) (ofList l) 8 2; collect rx) = pure out ∧ out.length = 6 := by
  obtain ⟨out, h1, h2⟩ := C76_total (n := 8) (p := 2) (by decide) (by decide) l (by rw [h])
  exact ⟨out, h1, by rw [h2, h]⟩

example (msg : List Bool) (hm : msg.length = 12) :
    ∃ sent, (do let tx ← txBasebandOfdm (F := ℝ) (txBasebandQpsk (F := ℝ) (ofList msg)) 8 2; collect tx) = pure sent ∧
      ∀ noise : List (Cx ℝ), noise.length = sent.length →
        ∃ bits, (do let rx ← rxBasebandOfdm (F := ℝ) (ofList (List.zipWith (· + ·) sent noise)) 8 2
                    collect (rxBasebandQpsk (F := ℝ) rx)) = pure bits ∧
          msg.length ≤ bits.length ∧ 2 * (wrong msg bits : ℝ) ≤ (8 : ℕ) * cxEnergy noise :=
  C76_errors (yields_ofList msg) (by rw [hm]) (by decide) (by decide) rfl

end Verif.Props
