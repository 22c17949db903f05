import Verif.Lemmas.Bpf

/-! C57, C68: the FFT band-pass filter. -/
namespace Verif.Props
open Verif Spec
set_option linter.unusedSectionVars false

section anyF
variable {ι F : Type} [Add F] [Sub F] [Mul F] [Div F] [Neg F] [Zero F] [One F] [Flt F] [RealFft F] [RIter ι F]

/-! ## C57 -/

/-- Whatever the arithmetic and the transform: as many samples come out as go in, and block `b` of the output depends on
block `b` of the input only. -/
theorem C57_shape (lo hi : F) (fs : ℕ) {n : ℕ} (hn : 0 < n) :
    ∃ f : List F → List F, (∀ c, (f c).length = n) ∧ ∀ {m : ι} {l : List F}, Yields m l → n ∣ l.length →
      ∃ out, Yields (bandpass lo hi m fs n) out ∧ out.length = l.length ∧
        ∀ b, b < l.length / n → (out.drop (b * n)).take n = f ((l.drop (b * n)).take n) := by
  refine ⟨bpOut lo hi fs n, bpOut_length _ _ _ _, fun {m l} h hd => ⟨_, bandpass_ok lo hi h hn hd, ?_, ?_⟩⟩
  · rw [length_flatMap_const _ _ (fun c _ => bpOut_length lo hi fs n c), blocks_length n hn]
    obtain ⟨q, hq⟩ := hd
    rw [hq, Nat.add_sub_assoc hn, Nat.mul_add_div hn, Nat.div_eq_of_lt (by omega), Nat.add_zero, Nat.mul_comm]
  · intro b hb
    obtain ⟨q, hq⟩ := hd
    have hbq : b < q := by rwa [hq, Nat.mul_div_cancel_left _ hn] at hb
    have hlt : b * n < l.length := by rw [hq, Nat.mul_comm b]; exact Nat.mul_lt_mul_of_pos_left hbq hn
    set out := (blocks n l).flatMap (bpOut lo hi fs n) with hout
    have hol : out.length = l.length := by
      rw [hout, length_flatMap_const _ _ (fun c _ => bpOut_length lo hi fs n c), blocks_length n hn]
      rw [hq, Nat.add_sub_assoc hn, Nat.mul_add_div hn, Nat.div_eq_of_lt (by omega), Nat.add_zero, Nat.mul_comm]
    have h1 := blocks_getElem? hn out b (by rw [hol]; exact hlt)
    rw [hout, blocks_flatMap hn _ _ (fun c _ => bpOut_length lo hi fs n c), List.getElem?_map, blocks_getElem? hn l b hlt,
      Option.map_some, Option.some.injEq, ← hout] at h1
    exact h1.symm

example (a b c d : F) : ∃ out, Yields (bandpass a b (ofList [a, b, c, d]) 100 2) out ∧ out.length = 4 := by
  obtain ⟨_, _, h⟩ := C57_shape (ι := VecIter F) a b 100 (n := 2) (by decide)
  obtain ⟨out, h1, h2, _⟩ := h (yields_ofList [a, b, c, d]) ⟨2, rfl⟩
  exact ⟨out, h1, h2⟩

/-- A signal whose last chunk is incomplete: the full chunks come out, then the iterator panics. -/
theorem C57_incomplete (lo hi : F) {fs n : ℕ} (hn : 0 < n) {m : ι} {l r : List F} (h : Yields m (l ++ r))
    (hd : n ∣ l.length) (h0 : 0 < r.length) (hr : r.length < n) :
    ∃ out, Crashes (bandpass lo hi m fs n) out ∧ out.length = l.length ∧
      Yields (bandpass lo hi (ofList l) fs n) out := by
  refine ⟨_, bandpass_crash lo hi h hn hd h0 hr, ?_, bandpass_ok lo hi (yields_ofList l) hn hd⟩
  rw [length_flatMap_const _ _ (fun c _ => bpOut_length lo hi fs n c), blocks_length n hn]
  obtain ⟨q, hq⟩ := hd
  rw [hq, Nat.add_sub_assoc hn, Nat.mul_add_div hn, Nat.div_eq_of_lt (by omega), Nat.add_zero, Nat.mul_comm]

example (a b c : F) : ∃ out : List F, Crashes (bandpass a b (ofList [a, b, c]) 100 2) out ∧ out.length = 2 := by
  obtain ⟨out, h1, h2, _⟩ := C57_incomplete a b (fs := 100) (n := 2) (by decide) (m := ofList [a, b, c]) (l := [a, b]) (r := [c])
    (yields_ofList _) ⟨1, rfl⟩ Nat.one_pos Nat.one_lt_two
  exact ⟨out, h1, h2⟩

end anyF

variable {ι : Type} [RIter ι ℝ]

/-- Exact arithmetic: in every block, the bins (of the discrete Fourier transform) whose frequency is in the pass band are
kept, the other ones are zero. -/
theorem C57_spectrum (lo hi : ℝ) (fs : ℕ) {n : ℕ} (hn : 0 < n) {m : ι} {l : List ℝ} (h : Yields m l) (hd : n ∣ l.length) :
    ∃ out : List ℝ, Yields (bandpass lo hi m fs n) out ∧ out.length = l.length ∧
      ∀ b, b < l.length / n → ∀ k, k ≤ n / 2 →
        dftAt (-1) (((out.drop (b * n)).take n).map (fun r : ℝ => (r : ℂ))) k
          = open Classical in if lo ≤ (k : ℝ) * fs / n ∧ (k : ℝ) * fs / n ≤ hi
            then dftAt (-1) (((l.drop (b * n)).take n).map (fun r : ℝ => (r : ℂ))) k else 0 := by
  have hy := bandpass_ok lo hi h hn hd (fs := fs)
  obtain ⟨q, hq⟩ := hd
  set out := (blocks n l).flatMap (bpOut lo hi fs n) with hout
  have hol : out.length = l.length := by
    rw [hout, length_flatMap_const _ _ (fun c _ => bpOut_length lo hi fs n c), blocks_length n hn]
    rw [hq, Nat.add_sub_assoc hn, Nat.mul_add_div hn, Nat.div_eq_of_lt (by omega), Nat.add_zero, Nat.mul_comm]
  refine ⟨out, hy, hol, fun b hb k hk => ?_⟩
  have hbq : b < q := by rwa [hq, Nat.mul_div_cancel_left _ hn] at hb
  have hlt : b * n < l.length := by rw [hq, Nat.mul_comm b]; exact Nat.mul_lt_mul_of_pos_left hbq hn
  have hle : b * n + n ≤ l.length := by
    rw [hq, Nat.mul_comm b, ← Nat.mul_succ]; exact Nat.mul_le_mul_left _ hbq
  have h1 := blocks_getElem? hn out b (by rw [hol]; exact hlt)
  rw [hout, blocks_flatMap hn _ _ (fun c _ => bpOut_length lo hi fs n c), List.getElem?_map, blocks_getElem? hn l b hlt,
    Option.map_some, Option.some.injEq, ← hout] at h1
  rw [← h1]
  have hbl : ((l.drop (b * n)).take n).length = n := by rw [List.length_take, List.length_drop]; omega
  have := bpOut_spectrum lo hi fs hn hbl hk
  unfold inBand toCs at this
  rw [this]
  congr

/-- 4 samples per block at 100 Hz: bins 0, 25 and 50 Hz.  The band 20..30 Hz removes the constant part. -/
example : ∃ out : List ℝ, Yields (bandpass 20 30 (ofList [1, 2, 3, 4]) 100 4) out ∧ out.length = 4 ∧
    dftAt (-1) (((out.drop (0 * 4)).take 4).map (fun r : ℝ => (r : ℂ))) 0 = 0 := by
  obtain ⟨out, h1, h2, h3⟩ := C57_spectrum 20 30 100 (n := 4) (by decide) (yields_ofList [1, 2, 3, 4]) ⟨1, rfl⟩
  refine ⟨out, h1, h2, ?_⟩
  rw [h3 0 (by norm_num) 0 (by norm_num), if_neg (by norm_num)]

/-- Filtering twice is the same as filtering once. -/
theorem C57_idempotent (lo hi : ℝ) (fs : ℕ) {n : ℕ} (hn : 0 < n) {m : ι} {l : List ℝ} (h : Yields m l)
    (hd : n ∣ l.length) :
    ∃ out : List ℝ, Yields (bandpass lo hi m fs n) out ∧ Yields (bandpass lo hi (bandpass lo hi m fs n) fs n) out := by
  have hy := bandpass_ok lo hi h hn hd (fs := fs)
  have hl : n ∣ ((blocks n l).flatMap (bpOut lo hi fs n)).length := by
    rw [length_flatMap_const _ _ (fun c _ => bpOut_length lo hi fs n c)]; exact ⟨_, Nat.mul_comm _ _⟩
  have hy2 := bandpass_ok lo hi hy hn hl (fs := fs)
  refine ⟨_, hy, ?_⟩
  rw [blocks_flatMap hn _ _ (fun c _ => bpOut_length lo hi fs n c), List.flatMap_map] at hy2
  refine hy2.of_eq (List.flatMap_congr fun c hc => ?_)
  exact bpOut_idem lo hi fs hn (mem_blocks_full hn l hd c hc)

example : ∃ out : List ℝ, Yields (bandpass 20 30 (ofList [1, 2, 3, 4]) 100 2) out ∧
    Yields (bandpass 20 30 (bandpass 20 30 (ofList [1, 2, 3, 4]) 100 2) 100 2) out :=
  C57_idempotent 20 30 100 (by decide) (yields_ofList _) ⟨2, rfl⟩

/-- A pass band from 0 to half the sample rate lets everything through. -/
theorem C57_allpass {lo hi : ℝ} {fs n : ℕ} (hn : 0 < n) {m : ι} {l : List ℝ} (h : Yields m l) (hd : n ∣ l.length)
    (hlo : lo ≤ 0) (hhi : (fs : ℝ) / 2 ≤ hi) : Yields (bandpass lo hi m fs n) l := by
  refine (bandpass_ok lo hi h hn hd).of_eq ?_
  have : ∀ c ∈ blocks n l, bpOut lo hi fs n c = c := by
    intro c hc
    refine bpOut_allpass hn (mem_blocks_full hn l hd c hc) fun k hk => ⟨hlo.trans (by positivity), le_trans ?_ hhi⟩
    have hn' : (0 : ℝ) < n := by exact_mod_cast hn
    have hk' : (2 : ℝ) * k ≤ n := by exact_mod_cast (by omega : 2 * k ≤ n)
    rw [div_le_div_iff₀ hn' (by norm_num)]
    nlinarith [Nat.cast_nonneg (α := ℝ) fs]
  rw [List.flatMap_congr this, List.flatMap_id', blocks_flatten n hn]

example : Yields (bandpass (0 : ℝ) 50 (ofList [1, 2, 3, 4]) 100 2) [1, 2, 3, 4] :=
  C57_allpass (by decide) (yields_ofList _) ⟨2, rfl⟩ le_rfl (by norm_num)

/-- Superposition. -/
theorem C57_linear (lo hi a : ℝ) (fs : ℕ) {n : ℕ} (hn : 0 < n) {l l' : List ℝ} (he : l.length = l'.length)
    (hd : n ∣ l.length) :
    ∃ out out' : List ℝ, Yields (bandpass lo hi (ofList l) fs n) out ∧ Yields (bandpass lo hi (ofList l') fs n) out' ∧
      Yields (bandpass lo hi (ofList (List.zipWith (fun x y => a * x + y) l l')) fs n)
        (List.zipWith (fun x y => a * x + y) out out') := by
  refine ⟨_, _, bandpass_ok lo hi (yields_ofList l) hn hd, bandpass_ok lo hi (yields_ofList l') hn (he ▸ hd), ?_⟩
  refine (bandpass_ok lo hi (yields_ofList _) hn (by simpa [← he] using hd)).of_eq ?_
  have hz : ∀ c d : List ℝ, List.zipWith (fun x y => a * x + y) c d = List.zipWith (· + ·) (c.map (fun r => a * r)) d := by
    intro c d; rw [List.zipWith_map_left]
  obtain ⟨q, hq⟩ := hd
  induction q generalizing l l' with
  | zero =>
    have h1 : l = [] := List.length_eq_zero_iff.mp (by simpa using hq)
    have h2 : l' = [] := List.length_eq_zero_iff.mp (by rw [← he]; simpa using hq)
    subst h1; subst h2; simp [blocks_nil]
  | succ q ih =>
    have hlen : l.length = n * q + n := by rw [hq]; ring
    have hne : l ≠ [] := List.length_pos_iff.mp (by omega)
    have hne' : l' ≠ [] := List.length_pos_iff.mp (by omega)
    have hnz : List.zipWith (fun x y => a * x + y) l l' ≠ [] := List.length_pos_iff.mp (by rw [List.length_zipWith]; omega)
    rw [blocks_cons hn hne, blocks_cons hn hne', blocks_cons hn hnz, List.flatMap_cons, List.flatMap_cons, List.flatMap_cons,
      List.zipWith_append (by rw [bpOut_length, bpOut_length]), ← ih (l := l.drop n) (l' := l'.drop n) (by
        rw [List.length_drop, List.length_drop, he]) (by rw [List.length_drop, hlen]; omega), List.take_zipWith,
      List.drop_zipWith, hz (l.take n), bpOut_add lo hi fs hn (by rw [List.length_map, List.length_take]; omega)
        (by rw [List.length_take]; omega), bpOut_smul lo hi fs hn (by rw [List.length_take]; omega), hz (bpOut _ _ _ _ _)]

example : ∃ out out' : List ℝ, Yields (bandpass 20 30 (ofList [1, 2]) 100 2) out ∧
    Yields (bandpass 20 30 (ofList [5, 7]) 100 2) out' ∧
    Yields (bandpass 20 30 (ofList (List.zipWith (fun x y => 3 * x + y) [1, 2] [5, 7])) 100 2)
      (List.zipWith (fun x y => 3 * x + y) out out') :=
  C57_linear 20 30 3 100 (by decide) rfl ⟨1, rfl⟩

/-! ## C68 — tones -/

/-- A sum of tones at multiples of the bin spacing: the ones in the pass band come out unchanged (amplitude and phase), the
other ones disappear.  A tone is `(k, amplitude, phase)`, its frequency is `k·fs/n`; `j/fs` is the time of sample `j`. -/
theorem C68_tones (lo hi : ℝ) {fs n : ℕ} (hn : 0 < n) (hfs : 0 < fs) (q : ℕ) (ts : List (ℕ × ℝ × ℝ))
    (hts : ∀ p ∈ ts, p.1 ≤ n / 2) {m : ι}
    (h : Yields m ((List.range (q * n)).map (fun j : ℕ => (ts.map (fun p =>
      p.2.1 * Real.cos (2 * Real.pi * ((p.1 : ℝ) * fs / n) * ((j : ℝ) / fs) + p.2.2))).sum))) :
    Yields (bandpass lo hi m fs n) (open Classical in (List.range (q * n)).map (fun j : ℕ =>
      ((ts.filter (fun p => decide (lo ≤ (p.1 : ℝ) * fs / n ∧ (p.1 : ℝ) * fs / n ≤ hi))).map (fun p =>
        p.2.1 * Real.cos (2 * Real.pi * ((p.1 : ℝ) * fs / n) * ((j : ℝ) / fs) + p.2.2))).sum)) := by
  classical
  have hfs' : (fs : ℝ) ≠ 0 := by exact_mod_cast hfs.ne'
  have ht : ∀ us : List (ℕ × ℝ × ℝ), (fun j : ℕ => (us.map (fun p =>
      p.2.1 * Real.cos (2 * Real.pi * ((p.1 : ℝ) * fs / n) * ((j : ℝ) / fs) + p.2.2))).sum) = tonesAt n us := by
    intro us
    funext j
    unfold tonesAt
    congr 1
    refine List.map_congr_left fun p _ => ?_
    congr 2
    field_simp
  have hb : ∀ us : List (ℕ × ℝ × ℝ), (List.range (q * n)).map (tonesAt n us)
      = (List.range q).flatMap (fun _ => (List.range n).map (tonesAt n us)) := by
    intro us
    rw [map_range_blocks]
    refine List.flatMap_congr fun b _ => List.map_congr_left fun j _ => tonesAt_period hn us b j
  rw [ht, hb] at h
  rw [ht, hb]
  refine (bandpass_ok lo hi h hn ?_).of_eq ?_
  · rw [length_flatMap_const (k := n) _ _ (fun _ _ => by simp)]; exact ⟨_, Nat.mul_comm _ _⟩
  · rw [blocks_flatMap hn _ _ (fun _ _ => by simp), List.flatMap_map]
    refine List.flatMap_congr fun _ _ => ?_
    rw [bpOut_tones lo hi fs hn ts hts]
    refine congrArg (fun us => (List.range n).map (tonesAt n us)) (List.filter_congr fun p _ => ?_)
    unfold inBand
    congr

/-- 8 samples per block at 8 kHz, pass band 900..1100 Hz: of a 1 kHz and a 3 kHz tone the first remains. -/
example : Yields (bandpass (900 : ℝ) 1100 (ofList ((List.range (2 * 8)).map (fun j : ℕ => ([((1 : ℕ), (5 : ℝ), (0 : ℝ)), (3, 2, 1)].map (fun p =>
      p.2.1 * Real.cos (2 * Real.pi * ((p.1 : ℝ) * (8000 : ℕ) / (8 : ℕ)) * ((j : ℝ) / (8000 : ℕ)) + p.2.2))).sum))) 8000 8)
    ((List.range (2 * 8)).map (fun j : ℕ => ([((1 : ℕ), (5 : ℝ), (0 : ℝ))].map (fun p =>
      p.2.1 * Real.cos (2 * Real.pi * ((p.1 : ℝ) * (8000 : ℕ) / (8 : ℕ)) * ((j : ℝ) / (8000 : ℕ)) + p.2.2))).sum)) := by
  refine Yields.of_eq (C68_tones 900 1100 (fs := 8000) (n := 8) (by decide) (by decide) 2 [((1 : ℕ), (5 : ℝ), (0 : ℝ)), (3, 2, 1)] (by decide)
    (yields_ofList _)) ?_
  congr 1
  funext j
  congr 2
  rw [List.filter_cons_of_pos (by norm_num), List.filter_cons_of_neg (by norm_num), List.filter_nil]

end Verif.Props
