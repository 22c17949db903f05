import Verif.Lemmas.OfdmRx

/-! # OFDM: C32–C35

The transform is a parameter for the structural theorems (`[Fft F]`, any length-preserving function); at `ℝ` it is the
exact DFT. -/
namespace Verif.Props
open Verif Spec
set_option linter.unusedSectionVars false
variable {ι : Type}

section anyF
variable {F : Type} [Add F] [Sub F] [Mul F] [Div F] [Neg F] [Zero F] [One F] [Flt F] [Fft F]

/-! ## C32 — allocation of the data carriers -/

theorem C32_carriers {n p : ℕ} (h1 : 1 ≤ p) (h2 : p ≤ n) :
    ∃ cs, getDataSubcarriers n p = pure cs ∧ cs.length = n - p ∧ cs.Pairwise (· < ·) ∧
      ∀ c ∈ cs, c < n ∧ c ≠ n / 2 :=
  ⟨_, getDataSubcarriers_ok h1 h2, carriers_length h1 h2, carriers_sorted n p, fun c hc =>
    ⟨carriers_lt h1 h2 c hc, ((mem_carriers h1 h2).mp hc).2.2⟩⟩

/-- The configuration of the tests: 52 carriers. -/
example : ∃ cs, getDataSubcarriers 64 12 = pure cs ∧ cs.length = 52 := by
  obtain ⟨cs, h, hl, _⟩ := C32_carriers (n := 64) (p := 12) (by decide) (by decide)
  exact ⟨cs, h, hl⟩

/-- The unused positions other than the middle one are split evenly between both ends of the band. -/
theorem C32_guard_bands {n p : ℕ} (h1 : 1 ≤ p) (h2 : p ≤ n) :
    ∃ cs, getDataSubcarriers n p = pure cs ∧
      ∀ c, c < n → (c ∉ cs ↔ c < p / 2 ∨ c = n / 2 ∨ n - (p - 1) / 2 ≤ c) :=
  ⟨_, getDataSubcarriers_ok h1 h2, fun c hc => by rw [mem_carriers h1 h2]; omega⟩

example : ∃ cs, getDataSubcarriers 8 3 = pure cs ∧ ∀ c, c < 8 → (c ∉ cs ↔ c < 1 ∨ c = 4 ∨ 7 ≤ c) := by
  obtain ⟨cs, h, hl⟩ := C32_guard_bands (n := 8) (p := 3) (by decide) (by decide)
  exact ⟨cs, h, by simpa using hl⟩

theorem C32_panics (s : ι) {n p : ℕ} (h : p = 0 ∨ n < p) :
    (txBasebandOfdm (F := F) s n p).Panics ∧ (rxBasebandOfdm (F := F) s n p).Panics := by
  unfold txBasebandOfdm rxBasebandOfdm getDataSubcarriers
  by_cases hn : n < p
  · rw [usub_lt hn]; exact ⟨⟨_, rfl⟩, ⟨_, rfl⟩⟩
  · have hp : p = 0 := by omega
    subst hp
    rw [usub_le (Nat.zero_le n), usub_lt (show 0 < 1 by decide)]; exact ⟨⟨_, rfl⟩, ⟨_, rfl⟩⟩

example : (txBasebandOfdm (F := F) (ofList [(0 : Cx F)]) 64 0).Panics := (C32_panics _ (.inl rfl)).1

/-! ## C34 — frames and their cyclic prefix -/

/-- Whatever the transform computes. -/
theorem C34_cyclic_prefix [RIter ι (Cx F)] {s : ι} {l : List (Cx F)} (h : Yields s l) {n p : ℕ} (h1 : 1 ≤ p)
    (h2 : p < n) :
    ∃ it, ∃ frames : List (List (Cx F)), txBasebandOfdm (F := F) s n p = pure it ∧ Yields it frames.flatten ∧
      frames.length = (l.length + (n - p) - 1) / (n - p) ∧
      ∀ f ∈ frames, f.length = n + n / 4 ∧ f.take (n / 4) = f.drop n := by
  obtain ⟨it, e, hy⟩ := txBasebandOfdm_ok h h1 (by omega : p ≤ n)
  refine ⟨it, (blocks (n - p) l).map (frameL n p), e, by rwa [← List.flatMap_def],
    by rw [List.length_map, blocks_length _ (by omega)], ?_⟩
  intro f hf
  obtain ⟨d, _, rfl⟩ := List.mem_map.mp hf
  refine ⟨frameL_length n p d, ?_⟩
  have hb := frameBody_length n p d
  rw [frameL, ← List.map_take, ← List.map_drop]
  congr 1
  rw [List.take_left' (by rw [List.length_drop, hb]; omega), List.drop_append, List.drop_drop,
    List.drop_of_length_le (i := n - n / 4 + n) (by rw [hb]; omega), List.nil_append, List.length_drop, hb]
  congr 1; omega

/-- Three symbols on 8 carriers with 6 pilots: two frames of 10 samples. -/
example (a b c : Cx F) : ∃ it, ∃ frames : List (List (Cx F)), txBasebandOfdm (F := F) (ofList [a, b, c]) 8 6 = pure it ∧
    Yields it frames.flatten ∧ frames.length = 2 := by
  obtain ⟨it, fr, h1, h2, h3, _⟩ := C34_cyclic_prefix (yields_ofList [a, b, c]) (n := 8) (p := 6) (by decide) (by decide)
  exact ⟨it, fr, h1, h2, by rw [h3]; simp⟩

/-! ## C35 — the passband receiver -/

/-- Does not hold for one sample per symbol, see `C35_refuted`.  With at least two samples per symbol no panic, and two
bits per data carrier and frame. -/
theorem C35_count_partial [RIter ι Bool] {m : ι} {msg : List Bool} (h : Yields m msg) {n p fs sym : ℕ} {fc : F}
    (h1 : 1 ≤ p) (h2 : p < n) (hk : 2 ≤ fs / sym) (hint : isInt (Flt.ofNat fs / Flt.ofNat sym : F) = true) :
    ∃ bits, (do let tx ← txOfdmQpsk m n p fs sym fc
                let rx ← rxOfdmQpsk tx n p fs sym fc
                collect rx) = pure bits ∧
      bits.length = 2 * (n - p) * ((msg.length / 2 + (n - p) - 1) / (n - p)) := by
  obtain ⟨it, e, hy⟩ := txOfdmQpsk_ok h (fc := fc) h1 h2.le (by omega) hint
  obtain ⟨it2, e2, hy2⟩ := rxOfdmQpsk_ok hy (fc := fc) (S := (ofdmSamples (F := F) n p msg).length) h1 h2.le hk hint
    (wave_length ..) (by rw [ofdmSamples_length]; exact ⟨_, Nat.mul_comm _ _⟩)
  rw [e, pure_bind, e2, pure_bind, collect_of_yields hy2]
  refine ⟨_, rfl, ?_⟩
  rw [length_flatMap_const (k := 2) _ _ (fun _ _ => rfl),
    length_flatMap_const (k := n - p) _ _ (fun b _ => deframeL_length h1 h2.le b),
    blocks_length _ (by omega), ofdmRxSamples_length, if_neg (by omega), ofdmSamples_length]
  have hL : 0 < n + n / 4 := by omega
  rw [show ∀ a L : ℕ, 0 < L → (a * L + L - 1) / L = a from fun a L hL => by
    rw [Nat.add_sub_assoc hL, Nat.mul_comm, Nat.mul_add_div hL, Nat.div_eq_of_lt (by omega), Nat.add_zero] ]
  · rw [blocks_length _ (by omega)]
    rw [pairs_length, Nat.mul_comm, ← Nat.mul_assoc, Nat.mul_comm]
    ring
  · exact hL

/-- One sample per symbol: the sample that the decimator skips is missing at the end, and the receiver panics on the
incomplete last frame, for every message of at least one QPSK symbol. -/
theorem C35_refuted [RIter ι Bool] {m : ι} {msg : List Bool} (h : Yields m msg) {n p fs : ℕ} {fc : F}
    (h1 : 1 ≤ p) (h2 : p < n) (hfs : 0 < fs) (hint : isInt (Flt.ofNat fs / Flt.ofNat fs : F) = true)
    (hmsg : 2 ≤ msg.length) :
    (do let tx ← txOfdmQpsk m n p fs fs fc
        let rx ← rxOfdmQpsk tx n p fs fs fc
        collect rx).Panics := by
  obtain ⟨it, e, hy⟩ := txOfdmQpsk_ok h (fc := fc) h1 h2.le (by rw [Nat.div_self hfs]; decide) hint
  rw [e, pure_bind]
  refine rxOfdmQpsk_panics hy (S := (ofdmSamples (F := F) n p msg).length) h1 h2.le hfs hint
    (by rw [wave_length, Nat.div_self hfs, Nat.mul_one]) (by rw [ofdmSamples_length]; exact ⟨_, Nat.mul_comm _ _⟩) ?_
    (by omega)
  rw [ofdmSamples_length]
  apply Nat.mul_pos _ (by omega)
  match msg, hmsg with
  | a :: b :: t, _ =>
    rw [pairs, blocks_length _ (by omega), List.length_cons]
    exact Nat.div_pos (by omega) (by omega)

end anyF

/-- A bit pair at 44100 samples and 900 symbols per second, and at 900 samples per second. -/
example : ∃ bits, (do let tx ← txOfdmQpsk (F := ℝ) (ofList [true, false]) 64 12 44100 900 1800
                      let rx ← rxOfdmQpsk tx 64 12 44100 900 (1800 : ℝ)
                      collect rx) = pure bits ∧ bits.length = 104 := by
  obtain ⟨b, h, hl⟩ := C35_count_partial (F := ℝ) (yields_ofList [true, false]) (n := 64) (p := 12) (fs := 44100)
    (sym := 900) (fc := 1800) (by decide) (by decide) (by decide) ((isInt_real (by norm_num) (by norm_num)).mpr (by decide))
  exact ⟨b, h, hl⟩

example : (do let tx ← txOfdmQpsk (F := ℝ) (ofList [true, false]) 64 12 900 900 1800
              let rx ← rxOfdmQpsk tx 64 12 900 900 (1800 : ℝ)
              collect rx).Panics :=
  C35_refuted (F := ℝ) (yields_ofList [true, false]) (by decide) (by decide) (by decide)
    ((isInt_real (by norm_num) (by norm_num)).mpr (by decide)) (by decide)

/-! ## C33 — baseband round trip (exact arithmetic) -/

/-- Only for even carrier counts; for odd ones see `C33_refuted`. -/
theorem C33_roundtrip_partial [RIter ι (Cx ℝ)] {s : ι} {l : List (Cx ℝ)} (h : Yields s l) {n p : ℕ} (h1 : 1 ≤ p)
    (h2 : p < n) (he : n % 2 = 0) :
    ∃ c, c < n - p ∧ n - p ∣ l.length + c ∧
      (do let tx ← txBasebandOfdm (F := ℝ) s n p
          let rx ← rxBasebandOfdm (F := ℝ) tx n p
          collect rx) = pure (l ++ List.replicate c 0) := by
  obtain ⟨it, e, hy⟩ := txBasebandOfdm_ok h h1 (by omega : p ≤ n)
  obtain ⟨it2, e2, hy2⟩ := rxBasebandOfdm_ok hy h1 h2.le (by
    rw [length_flatMap_const (k := n + n / 4) _ _ (fun b _ => frameL_length n p b)]; exact ⟨_, Nat.mul_comm _ _⟩)
  obtain ⟨c, hc1, hc2, hc3⟩ := blocks_pad (k := n - p) (by omega) l (0 : Cx ℝ)
  refine ⟨c, hc1, hc2, ?_⟩
  rw [e, pure_bind, e2, pure_bind, collect_of_yields hy2, ← hc3,
    blocks_flatMap (by omega) _ _ (fun b _ => frameL_length n p b), List.flatMap_map]
  congr 1
  refine List.flatMap_congr fun d hd => ?_
  exact deframe_frame_even h1 h2.le he d (mem_blocks_length hd)

example (l : List (Cx ℝ)) (hl : l.length = 53) :
    (do let tx ← txBasebandOfdm (F := ℝ) (ofList l) 64 12
        let rx ← rxBasebandOfdm (F := ℝ) tx 64 12
        collect rx) = pure (l ++ List.replicate 51 0) := by
  obtain ⟨c, h1, h2, h3⟩ := C33_roundtrip_partial (yields_ofList l) (n := 64) (p := 12) (by decide) (by decide) (by decide)
  rw [hl] at h2
  have : c = 51 := by omega
  rw [h3, this]

/-- The same with QPSK on the carriers: the bits come back, followed by `true`s for the unused carriers of the last frame
(and an odd last bit is lost). -/
theorem C33_bits_partial [RIter ι Bool] {m : ι} {msg : List Bool} (h : Yields m msg) (hm : msg.length % 2 = 0) {n p : ℕ}
    (h1 : 1 ≤ p) (h2 : p < n) (he : n % 2 = 0) :
    ∃ c, c < n - p ∧ n - p ∣ msg.length / 2 + c ∧
      (do let tx ← txBasebandOfdm (F := ℝ) (txBasebandQpsk (F := ℝ) m) n p
          let rx ← rxBasebandOfdm (F := ℝ) tx n p
          collect (rxBasebandQpsk (F := ℝ) rx)) = pure (msg ++ List.replicate (2 * c) true) := by
  have hs := h.txBasebandQpsk (F := ℝ)
  obtain ⟨it, e, hy⟩ := txBasebandOfdm_ok hs h1 (by omega : p ≤ n)
  obtain ⟨it2, e2, hy2⟩ := rxBasebandOfdm_ok hy h1 h2.le (by
    rw [length_flatMap_const (k := n + n / 4) _ _ (fun b _ => frameL_length n p b)]; exact ⟨_, Nat.mul_comm _ _⟩)
  obtain ⟨c, hc1, hc2, hc3⟩ := C33_roundtrip_partial hs h1 h2 he
  rw [e, pure_bind, e2, pure_bind, collect_of_yields hy2, RM.ok_inj] at hc3
  rw [List.length_map, pairs_length] at hc2
  refine ⟨c, hc1, hc2, ?_⟩
  rw [e, pure_bind, e2, pure_bind, collect_of_yields hy2.rxBasebandQpsk, hc3, List.flatMap_append]
  congr 2
  · rw [List.flatMap_map]
    clear h hs e hy e2 hy2 hc3 hc2
    fun_induction pairs msg with
    | case1 a b t ih =>
      rw [List.flatMap_cons, ih (by simp only [List.length_cons] at hm; omega)]
      cases a <;> cases b <;> simp [qpskPoint, Real.sqrt_nonneg]
    | case2 l hl =>
      match l, hl with
      | [], _ => rfl
      | [_], _ => simp at hm
      | a :: b :: t, hl => exact absurd rfl (hl a b t)
  · clear hc3 hc1 hc2
    induction c with
    | zero => rfl
    | succ c ih => rw [List.replicate_succ, List.flatMap_cons, ih]; simp [Nat.mul_add, List.replicate_succ]

example : (do let tx ← txBasebandOfdm (F := ℝ) (txBasebandQpsk (F := ℝ) (ofList [true, false, false, true])) 8 6
              let rx ← rxBasebandOfdm (F := ℝ) tx 8 6
              collect (rxBasebandQpsk (F := ℝ) rx)) = pure [true, false, false, true] := by
  obtain ⟨c, h1, h2, h3⟩ := C33_bits_partial (yields_ofList [true, false, false, true]) (by decide) (n := 8) (p := 6)
    (by decide) (by decide) (by decide)
  have : c = 0 := by simp at h2; omega
  subst this
  exact h3

/-- For every odd carrier count (and every accepted pilot count) a frame of ones does not come back: `fftshift` is used
on both sides although it is not its own inverse for odd lengths. -/
theorem C33_refuted {n p : ℕ} (h1 : 1 ≤ p) (h2 : p < n) (ho : n % 2 = 1) :
    (do let tx ← txBasebandOfdm (F := ℝ) (ofList (List.replicate (n - p) (⟨1, 0⟩ : Cx ℝ))) n p
        let rx ← rxBasebandOfdm (F := ℝ) tx n p
        collect rx) ≠ pure (List.replicate (n - p) ⟨1, 0⟩) := by
  set l := List.replicate (n - p) (⟨1, 0⟩ : Cx ℝ) with hl
  have hll : l.length = n - p := by rw [hl]; simp
  obtain ⟨it, e, hy⟩ := txBasebandOfdm_ok (yields_ofList l) h1 (by omega : p ≤ n)
  obtain ⟨it2, e2, hy2⟩ := rxBasebandOfdm_ok hy h1 h2.le (by
    rw [length_flatMap_const (k := n + n / 4) _ _ (fun b _ => frameL_length n p b)]; exact ⟨_, Nat.mul_comm _ _⟩)
  rw [e, pure_bind, e2, pure_bind, collect_of_yields hy2,
    blocks_flatMap (by omega) _ _ (fun b _ => frameL_length n p b), List.flatMap_map]
  have hb : blocks (n - p) l = [l] := by
    rw [blocks_cons (by omega) (by intro h; rw [h] at hll; simp at hll; omega), List.take_of_length_le hll.le,
      List.drop_of_length_le hll.le, blocks_nil]
  rw [hb, List.flatMap_cons, List.flatMap_nil, List.append_nil, deframe_frame]
  intro hcontra
  rw [RM.ok_inj] at hcontra
  -- the carrier whose right neighbour is not a carrier
  obtain ⟨c, hc, hnext⟩ : ∃ c ∈ carriers n p, (c + 1) % n ∉ carriers n p := by
    by_cases hf : p / 2 < n / 2
    · refine ⟨n / 2 - 1, (mem_carriers h1 h2.le).mpr (by omega), ?_⟩
      rw [show n / 2 - 1 + 1 = n / 2 by omega, Nat.mod_eq_of_lt (by omega), mem_carriers h1 h2.le]; omega
    · refine ⟨n - (p - 1) / 2 - 1, (mem_carriers h1 h2.le).mpr (by omega), ?_⟩
      rw [mem_carriers h1 h2.le]
      by_cases hb : (p - 1) / 2 = 0
      · rw [hb, show n - 0 - 1 + 1 = n by omega, Nat.mod_self]; omega
      · rw [Nat.mod_eq_of_lt (by omega)]; omega
  have hmem : (fftshift (fftshift (place n (carriers n p) l))).getD c 0 ∈ List.replicate (n - p) (⟨1, 0⟩ : Cx ℝ) := by
    have : ∀ x ∈ (carriers n p).map (fun k => (fftshift (fftshift (place n (carriers n p) l))).getD k 0), x ∈ l := by
      rw [hcontra]; exact fun x hx => hx
    exact this _ (List.mem_map.mpr ⟨c, hc, rfl⟩)
  have h3 := List.eq_of_mem_replicate hmem
  have hcn := carriers_lt h1 h2.le c hc
  have hplen := place_length (F := ℝ) n (carriers n p) l
  have h4 : (fftshift (fftshift (place n (carriers n p) l)))[c]? = some 0 := by
    rw [fftshift_fftshift, List.getElem?_rotate (by omega), hplen,
      show c + ((n + 1) / 2 + (n + 1) / 2) = (c + 1) + n by omega, Nat.add_mod_right]
    exact place_empty (carriers_nodup n p) (carriers_lt h1 h2.le) l (Nat.mod_lt _ (by omega)) hnext
  rw [List.getD, h4, Option.getD_some] at h3
  have := congrArg Cx.re h3
  simp at this

/-- 63 carriers, 12 pilots. -/
example : (do let tx ← txBasebandOfdm (F := ℝ) (ofList (List.replicate 51 (⟨1, 0⟩ : Cx ℝ))) 63 12
              let rx ← rxBasebandOfdm (F := ℝ) tx 63 12
              collect rx) ≠ pure (List.replicate 51 ⟨1, 0⟩) := C33_refuted (by decide) (by decide) (by decide)

/-! ## C32, observable side: no carrier at frequency zero -/

/-- For even carrier counts the data part of every transmitted frame has mean zero (exact arithmetic). -/
theorem C32_no_dc [RIter ι (Cx ℝ)] {s : ι} {l : List (Cx ℝ)} (h : Yields s l) {n p : ℕ} (h1 : 1 ≤ p) (h2 : p < n)
    (he : n % 2 = 0) :
    ∃ it, ∃ frames : List (List (Cx ℝ)), txBasebandOfdm (F := ℝ) s n p = pure it ∧ Yields it frames.flatten ∧
      ∀ f ∈ frames, f.length = n + n / 4 ∧
        ((f.drop (n / 4)).map Cx.re).sum = 0 ∧ ((f.drop (n / 4)).map Cx.im).sum = 0 := by
  obtain ⟨it, e, hy⟩ := txBasebandOfdm_ok h h1 (by omega : p ≤ n)
  refine ⟨it, (blocks (n - p) l).map (frameL n p), e, by rwa [← List.flatMap_def], ?_⟩
  intro f hf
  obtain ⟨d, _, rfl⟩ := List.mem_map.mp hf
  refine ⟨frameL_length n p d, ?_⟩
  have hl : (fftshift (place n (carriers n p) d)).length = n := by rw [fftshift_length, place_length]
  have hrt := fft_roundtrip (fftshift (place n (carriers n p) d))
  rw [hl] at hrt
  have hd : (frameL n p d).drop (n / 4) = (frameBody n p d).map (fun z => Cx.divR z (n : ℝ)) := frameL_drop n p d
  have h0 : (Fft.dft false ((frameL n p d).drop (n / 4)))[0]? = some 0 := by
    rw [hd, frameBody, hrt, fftshift_eq_rotate, List.getElem?_rotate (by rw [place_length]; omega), place_length,
      Nat.zero_add, Nat.mod_eq_of_lt (by omega)]
    refine place_empty (carriers_nodup n p) (carriers_lt h1 h2.le) d (by omega) ?_
    rw [mem_carriers h1 h2.le]; omega
  set y := (frameL n p d).drop (n / 4) with hyd
  have hyl : y.length = n := by rw [hyd, List.length_drop, frameL_length]; omega
  have hsum : (y.map Cx.toC).sum = 0 := by
    have h3 : ((Fft.dft false y).map Cx.toC)[0]? = some 0 := by
      rw [List.getElem?_map, h0]; rfl
    rw [fft_map_toC] at h3
    simp only [Bool.false_eq_true, if_false, Spec.dft, List.length_map, hyl] at h3
    rw [List.getElem?_map, List.getElem?_range (by omega), Option.map_some, Option.some.injEq] at h3
    rw [← h3, dftAt, List.length_map, Finset.sum_range, ← List.sum_ofFn]
    congr 1
    apply List.ext_getElem
    · simp
    · intro i hi1 hi2
      simp only [List.length_map] at hi1
      simp [List.getD]
  have key : ∀ l : List (Cx ℝ), (l.map Cx.toC).sum = ⟨(l.map Cx.re).sum, (l.map Cx.im).sum⟩ := by
    intro l
    induction l with
    | nil => rfl
    | cons a l ih => rw [List.map_cons, List.sum_cons, ih]; rfl
  rw [key] at hsum
  exact ⟨congrArg Complex.re hsum, congrArg Complex.im hsum⟩

example (a : Cx ℝ) : ∃ it, ∃ frames : List (List (Cx ℝ)), txBasebandOfdm (F := ℝ) (ofList [a]) 8 6 = pure it ∧
    Yields it frames.flatten ∧ ∀ f ∈ frames, ((f.drop 2).map Cx.re).sum = 0 := by
  obtain ⟨it, fr, h1, h2, h3⟩ := C32_no_dc (yields_ofList [a]) (n := 8) (p := 6) (by decide) (by decide) (by decide)
  exact ⟨it, fr, h1, h2, fun f hf => (h3 f hf).2.1⟩

/-! ## C66 — passband round trip (exact arithmetic) -/

/-- With a whole number of carrier periods per symbol, an even number of carriers and at least 12 samples per symbol, the
receiver recovers every transmitted bit, although its correlator window is one sample late. -/
theorem C66_roundtrip [RIter ι Bool] {m : ι} {msg : List Bool} (h : Yields m msg) {n p fs sym : ℕ} {fc : ℝ}
    (h1 : 1 ≤ p) (h2 : p < n) (he : n % 2 = 0) (hfs : fs < 2 ^ 64) (hdvd : sym ∣ fs) (hk : 12 ≤ fs / sym)
    {q : ℤ} (hq : (fs / sym : ℕ) * fc = q * fs) (hne : ∀ r : ℤ, 2 * fc ≠ r * fs) :
    ∃ out : List Bool,
      (do let tx ← txOfdmQpsk m n p fs sym fc
          let rx ← rxOfdmQpsk tx n p fs sym fc
          collect rx) = pure out ∧
      out.take (2 * (msg.length / 2)) = msg.take (2 * (msg.length / 2)) ∧
      out.length = 2 * (n - p) * ((msg.length / 2 + (n - p) - 1) / (n - p)) := by
  have hsym : 0 < sym := by
    rcases Nat.eq_zero_or_pos sym with rfl | h
    · simp at hk
    · exact h
  have hint : isInt (Flt.ofNat fs / Flt.ofNat sym : ℝ) = true := (isInt_real hfs hsym).mpr hdvd
  have hfs0 : (fs : ℝ) ≠ 0 := by
    intro h0
    have : fs = 0 := by exact_mod_cast h0
    simp [this] at hk
  have hs : Real.sin (dphi fs fc) ≠ 0 := by
    intro h0
    obtain ⟨r, hr⟩ := Real.sin_eq_zero_iff.mp h0
    apply hne r
    unfold dphi at hr
    field_simp at hr
    exact hr.symm
  have hper : ((fs / sym : ℕ) : ℝ) * dphi fs fc = q * (2 * Real.pi) := by
    unfold dphi
    field_simp
    linear_combination hq
  obtain ⟨it, e, hy⟩ := txOfdmQpsk_ok h (fc := fc) h1 h2.le (by omega : 0 < fs / sym) hint
  obtain ⟨it2, e2, hy2⟩ := rxOfdmQpsk_ok hy (fc := fc) (S := (ofdmSamples (F := ℝ) n p msg).length) h1 h2.le (by omega)
    hint (wave_length _ _ _) (by rw [ofdmSamples_length]; exact ⟨_, Nat.mul_comm _ _⟩)
  refine ⟨_, by rw [e, pure_bind, e2, pure_bind, collect_of_yields hy2], ?_, ?_⟩
  · rw [ofdmRxSamples_real (by omega) hper hs]
    exact ofdm_bits h1 h2 he hk msg
  · rw [length_flatMap_const (k := 2) _ _ (fun _ _ => rfl),
      length_flatMap_const (k := n - p) _ _ (fun b _ => deframeL_length h1 h2.le b), blocks_length _ (by omega),
      ofdmRxSamples_length, if_neg (by omega), ofdmSamples_length, blocks_length _ (by omega), pairs_length]
    set N := (msg.length / 2 + (n - p) - 1) / (n - p)
    have : (N * (n + n / 4) + (n + n / 4) - 1) / (n + n / 4) = N := by
      rw [Nat.add_sub_assoc (by omega), Nat.mul_comm, Nat.mul_add_div (by omega), Nat.div_eq_of_lt (by omega), Nat.add_zero]
    rw [this]; ring

example (msg : List Bool) (hm : msg.length = 12) :
    ∃ out : List Bool,
      (do let tx ← txOfdmQpsk (ofList msg) 8 2 16000 1000 (2000 : ℝ)
          let rx ← rxOfdmQpsk tx 8 2 16000 1000 (2000 : ℝ)
          collect rx) = pure out ∧ out.take 12 = msg := by
  obtain ⟨out, h1, h2, -⟩ := C66_roundtrip (yields_ofList msg) (n := 8) (p := 2) (fs := 16000) (sym := 1000) (fc := 2000) (q := 2)
    (by decide) (by decide) rfl (by norm_num) (by norm_num) (by norm_num) (by norm_num) (fun r hr => by
      have h1 : (4000 : ℝ) = (r * 16000 : ℤ) := by push_cast at hr ⊢; linarith
      have h2 : (4000 : ℤ) = r * 16000 := by exact_mod_cast h1
      omega)
  refine ⟨out, h1, ?_⟩
  rw [hm] at h2
  rw [h2, List.take_of_length_le (by rw [hm])]

/-- A message that fills its frames comes back exactly. -/
theorem C66_roundtrip_full [RIter ι Bool] {m : ι} {msg : List Bool} (h : Yields m msg) {n p fs sym : ℕ} {fc : ℝ}
    (h1 : 1 ≤ p) (h2 : p < n) (he : n % 2 = 0) (hfs : fs < 2 ^ 64) (hdvd : sym ∣ fs) (hk : 12 ≤ fs / sym)
    {q : ℤ} (hq : (fs / sym : ℕ) * fc = q * fs) (hne : ∀ r : ℤ, 2 * fc ≠ r * fs) (hm : 2 * (n - p) ∣ msg.length) :
    (do let tx ← txOfdmQpsk m n p fs sym fc
        let rx ← rxOfdmQpsk tx n p fs sym fc
        collect rx) = pure msg := by
  obtain ⟨out, e, h3, h4⟩ := C66_roundtrip h h1 h2 he hfs hdvd hk hq hne
  obtain ⟨c, hc⟩ := hm
  have hhalf : msg.length / 2 = (n - p) * c := by rw [hc, Nat.mul_assoc, Nat.mul_div_cancel_left _ (by norm_num)]
  have hceil : (msg.length / 2 + (n - p) - 1) / (n - p) = c := by
    rw [hhalf, Nat.add_sub_assoc (by omega), Nat.mul_add_div (by omega), Nat.div_eq_of_lt (by omega), Nat.add_zero]
  rw [hceil, Nat.mul_assoc, ← hhalf] at h4
  rw [List.take_of_length_le (by omega), List.take_of_length_le (by rw [hhalf, hc, Nat.mul_assoc])] at h3
  rw [e, h3]

/-- The configuration of the crate's tests: 64 carriers, 12 pilots, 49 samples per symbol, two carrier periods. -/
example (msg : List Bool) (hm : msg.length = 208) :
    (do let tx ← txOfdmQpsk (ofList msg) 64 12 44100 900 (1800 : ℝ)
        let rx ← rxOfdmQpsk tx 64 12 44100 900 (1800 : ℝ)
        collect rx) = pure msg := by
  refine C66_roundtrip_full (yields_ofList msg) (by decide) (by decide) (by decide) (by norm_num) (by decide) (by decide)
    (q := 2) (by norm_num) ?_ (by rw [hm]; decide)
  intro r hr
  have : (2 * 1800 : ℤ) = r * 44100 := by exact_mod_cast hr
  omega

end Verif.Props
