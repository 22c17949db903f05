import Verif.Lemmas.IeeeBpf
import Verif.Props.Bpf
import Mathlib.Tactic.IntervalCases

/-! C134: the band-pass filter in double precision. -/
namespace Verif.Props
open Verif Spec F64
set_option linter.unusedSectionVars false

/-! ## A transform that meets the hypothesis -/

/-- The exact transforms, correctly rounded. -/
noncomputable def rfftNear (x : List Float) : List (Cx Float) :=
  (List.range (x.length / 2 + 1)).map (fun k => ⟨near (dftAt (-1) (toCs (x.map val)) k).re, near (dftAt (-1) (toCs (x.map val)) k).im⟩)

/-- The exact inverse, correctly rounded. -/
noncomputable def irfftNear (n : ℕ) (X : List (Cx Float)) : List Float :=
  (List.range n).map (fun j => near (dftAt 1 (herm n (X.map valC)) j).re)

theorem near_zero : Flt.eq (near 0) (0 : Float) = true := by
  obtain ⟨h1, h2⟩ := (exists_round' 0).choose_spec (by rw [abs_zero]; positivity)
  refine (beq_iff h1 fin_zero).mpr ?_
  rw [val_zero, h2, rnd_zero]

@[instance_reducible] noncomputable def rfftRounded : RealFft Float where
  rfft := rfftNear
  irfft := irfftNear
  length_rfft x := by simp [rfftNear]
  length_irfft n X := by simp [irfftNear]
  rfft_first x z h := by
    rw [rfftNear, List.getElem?_map, List.getElem?_range (Nat.succ_pos _), Option.map_some, Option.some.injEq] at h
    rw [← h]
    show Flt.eq (near (dftAt (-1) (toCs (x.map val)) 0).im) 0 = true
    rw [dftAt_zero_im]; exact near_zero
  rfft_last x z h2 h := by
    rw [rfftNear, List.getElem?_map, List.getElem?_range (Nat.lt_succ_self _), Option.map_some, Option.some.injEq] at h
    rw [← h]
    show Flt.eq (near (dftAt (-1) (toCs (x.map val)) (x.length / 2)).im) 0 = true
    have := dftAt_half_im (x := x.map val) (by rw [List.length_map]; exact h2)
    rw [List.length_map] at this
    rw [this]; exact near_zero
  zero_eq := (beq_iff fin_zero fin_zero).mpr rfl

theorem accurate_rfft : AccurateRfft rfftNear irfftNear (1 / 2 ^ 51) := by
  constructor
  · intro x B hn hB0 hB1 hx k z hz
    have hBp : 0 < B := lt_of_lt_of_le (by norm_num) hB0
    have hn' : (x.length : ℝ) ≤ 2 ^ 40 := by exact_mod_cast hn
    by_cases h0 : x.length = 0
    · have hx0 : x = [] := List.length_eq_zero_iff.mp h0
      subst hx0
      have hd : ∀ k, dftAt (-1) (toCs (([] : List Float).map val)) k = 0 := by intro k; simp [dftAt, toCs]
      simp only [rfftNear, hd, Complex.zero_re, Complex.zero_im] at hz
      rw [List.getElem?_map, Option.map_eq_some_iff] at hz
      obtain ⟨_, _, rfl⟩ := hz
      obtain ⟨h1, h2⟩ := (exists_round' 0).choose_spec (by rw [abs_zero]; positivity)
      have : Ap (near 0) 0 (1 / 2 ^ 51 * (([] : List Float).length : ℕ) * B) := by
        refine ⟨h1, ?_⟩
        rw [show val (near 0) = rnd 0 from h2, rnd_zero]; simp
      rw [hd]
      exact ⟨this, this⟩
    have hn1 : (1 : ℝ) ≤ x.length := by exact_mod_cast (by omega : 1 ≤ x.length)
    rw [rfftNear, List.getElem?_map, Option.map_eq_some_iff] at hz
    obtain ⟨i, hi, rfl⟩ := hz
    have hik : i = k := by
      obtain ⟨h1, h2⟩ := List.getElem?_eq_some_iff.mp hi
      rw [← h2, List.getElem_range]
    subst hik
    have h2 := dft_real_norm (x := x.map val) (B := B) (by
      intro a ha
      obtain ⟨b, hb, rfl⟩ := List.mem_map.mp ha
      exact (hx b hb).2) i
    rw [List.length_map] at h2
    have a1 : (x.length : ℝ) * B ≤ 2 ^ 200 := by
      calc (x.length : ℝ) * B ≤ 2 ^ 40 * 2 ^ 100 := mul_le_mul hn' hB1 hBp.le (by norm_num)
        _ ≤ 2 ^ 200 := by norm_num
    have a2 : 1 / 2 ^ 100 ≤ (x.length : ℝ) * B := by nlinarith
    have a3 : (x.length : ℝ) * B / 2 ^ 52 ≤ 1 / 2 ^ 51 * x.length * B := by
      have : (0 : ℝ) ≤ x.length * B := by positivity
      rw [div_eq_mul_one_div]
      nlinarith [mul_le_mul_of_nonneg_left (show (1 : ℝ) / 2 ^ 52 ≤ 1 / 2 ^ 51 by norm_num) this]
    exact ⟨(near_ap ((Complex.abs_re_le_norm _).trans h2) a1 a2).mono a3,
      (near_ap ((Complex.abs_im_le_norm _).trans h2) a1 a2).mono a3⟩
  · intro n X B hn hX hB0 hB1 hXB j a ha
    have hBp : 0 < B := lt_of_lt_of_le (by norm_num) hB0
    have hn' : (n : ℝ) ≤ 2 ^ 40 := by exact_mod_cast hn
    rw [irfftNear, List.getElem?_map, Option.map_eq_some_iff] at ha
    obtain ⟨i, hi, rfl⟩ := ha
    obtain ⟨h1, h2⟩ := List.getElem?_eq_some_iff.mp hi
    have hik : i = j := by rw [← h2, List.getElem_range]
    subst hik
    rw [List.length_range] at h1
    have hn1 : (1 : ℝ) ≤ n := by exact_mod_cast (by omega : 1 ≤ n)
    have h3 := herm_dft_norm (n := n) (X := X.map valC) (M := 2 * B) (by
      intro k hk
      have hlt : k < X.length := by omega
      have : (X.map valC).getD k 0 = valC X[k] := by simp [List.getD, hlt]
      rw [this]
      exact (hXB _ (List.getElem_mem hlt)).norm) i
    have a1 : (n : ℝ) * (2 * B) ≤ 2 ^ 200 := by
      calc (n : ℝ) * (2 * B) ≤ 2 ^ 40 * (2 * 2 ^ 100) := mul_le_mul hn' (by linarith) (by positivity) (by norm_num)
        _ ≤ 2 ^ 200 := by norm_num
    have a2 : 1 / 2 ^ 100 ≤ (n : ℝ) * (2 * B) := by nlinarith
    have a3 : (n : ℝ) * (2 * B) / 2 ^ 52 = 1 / 2 ^ 51 * n * B := by ring
    exact (near_ap ((Complex.abs_re_le_norm _).trans h3) a1 a2).mono a3.le

/-! ## C134 -/

section
variable {ι : Type} [RIter ι Float] [RealFft Float]

theorem flatMap_near {n : ℕ} (hn : 0 < n) {x : List Float} {y : List ℝ} {e e' : ℝ} {f : List Float → List Float}
    {g : List ℝ → List ℝ} (hd : n ∣ x.length) (h : List.Forall₂ (fun a b => Ap a b e) x y)
    (hf : ∀ c d, c.length = n → (∀ a ∈ c, a ∈ x) → List.Forall₂ (fun a b => Ap a b e) c d →
      List.Forall₂ (fun a b => Ap a b e') (f c) (g d)) :
    List.Forall₂ (fun a b => Ap a b e') ((blocks n x).flatMap f) ((blocks n y).flatMap g) := by
  have hb := forall₂_blocks hn h
  have hfull := mem_blocks_full hn x hd
  have hmem : ∀ c ∈ blocks n x, ∀ a ∈ c, a ∈ x := by
    intro c hc a ha
    have : a ∈ (blocks n x).flatten := List.mem_flatten.mpr ⟨c, hc, ha⟩
    rwa [blocks_flatten n hn] at this
  generalize blocks n x = X at hb hfull hmem
  generalize blocks n y = Y at hb
  induction hb with
  | nil => exact .nil
  | cons h1 _ ih =>
    rw [List.flatMap_cons, List.flatMap_cons]
    exact List.rel_append (hf _ _ (hfull _ (by simp)) (hmem _ (by simp)) h1)
      (ih (fun c hc => hfull c (by simp [hc])) (fun c hc => hmem c (by simp [hc])))

theorem near_self {x : List Float} {B : ℝ} (h : ∀ a ∈ x, RB a B) : List.Forall₂ (fun a b => Ap a b 0) x (x.map val) := by
  rw [List.forall₂_map_right_iff, List.forall₂_same]
  exact fun a ha => ⟨(h a ha).1, by simp⟩

theorem map_val_eq {c : List Float} {d : List ℝ} (h : List.Forall₂ (fun a b => Ap a b 0) c d) : d = c.map val := by
  induction h with
  | nil => rfl
  | cons h _ ih =>
    have := abs_nonpos_iff.mp h.2
    rw [List.map_cons, ih, sub_eq_zero.mp this]

/-- Double precision: the output is within `n·B·(4δ + 2⁻⁵²)` of what the same filter would give in exact arithmetic for the
same samples, `B` being a bound of the samples and `δ` the accuracy of the transforms. -/
theorem C134_filter {δ : ℝ} (hR : AccurateRfft RealFft.rfft RealFft.irfft δ) (hδ0 : 0 ≤ δ) (hδ : δ ≤ 1 / 8)
    {lo hi : Float} (flo : Fin lo) (fhi : Fin hi) {fs n : ℕ} (hn : 0 < n) (hn' : n ≤ 2 ^ 40) (hfs : n / 2 * fs ≤ 2 ^ 53)
    (he : ∀ k : ℕ, k ≤ n / 2 → (val lo ≤ (k : ℝ) * fs / n ∧ (k : ℝ) * fs / n ≤ val hi) ∨
      (k : ℝ) * fs / n * (1 + 1 / 2 ^ 52) < val lo ∨ val hi < (k : ℝ) * fs / n * (1 - 1 / 2 ^ 52))
    {m : ι} {l : List Float} (h : Yields m l) (hd : n ∣ l.length) {B : ℝ} (hB0 : 1 / 2 ^ 90 ≤ B) (hB1 : B ≤ 2 ^ 50)
    (hl : ∀ a ∈ l, Fin a ∧ |val a| ≤ B) :
    ∃ (out : List Float) (exact : List ℝ), Yields (bandpass lo hi m fs n) out ∧
      Yields (bandpass (val lo) (val hi) (ofList (l.map val)) fs n) exact ∧
      List.Forall₂ (fun a b => Fin a ∧ |val a - b| ≤ n * B * (4 * δ + 1 / 2 ^ 52)) out exact := by
  refine ⟨_, _, bandpass_ok lo hi h hn hd, bandpass_ok _ _ (yields_ofList _) hn (by rwa [List.length_map]), ?_⟩
  have hu : 4 * δ + 1 / 2 ^ 52 = 4 * δ + 2 * uu := by rw [uu_eq]; norm_num
  rw [hu]
  refine flatMap_near hn hd (near_self hl) fun c d hc hm hcd => ?_
  rw [map_val_eq hcd]
  exact bpOut_near hR hδ0 hδ flo fhi hn hn' hfs he hc hB0 hB1 (fun a ha => hl a (hm a ha))

/-- A pass band from 0 to half the sample rate: the signal comes back, up to rounding. -/
theorem C134_allpass {δ : ℝ} (hR : AccurateRfft RealFft.rfft RealFft.irfft δ) (hδ0 : 0 ≤ δ) (hδ : δ ≤ 1 / 8)
    {lo hi : Float} (flo : Fin lo) (fhi : Fin hi) {fs n : ℕ} (hn : 0 < n) (hn' : n ≤ 2 ^ 40) (hfs : n / 2 * fs ≤ 2 ^ 53)
    (hlo : val lo ≤ 0) (hhi : (fs : ℝ) / 2 ≤ val hi)
    {m : ι} {l : List Float} (h : Yields m l) (hd : n ∣ l.length) {B : ℝ} (hB0 : 1 / 2 ^ 90 ≤ B) (hB1 : B ≤ 2 ^ 50)
    (hl : ∀ a ∈ l, Fin a ∧ |val a| ≤ B) :
    ∃ out : List Float, Yields (bandpass lo hi m fs n) out ∧
      List.Forall₂ (fun a b => Fin a ∧ |val a - val b| ≤ n * B * (4 * δ + 1 / 2 ^ 52)) out l := by
  have hnR : (0 : ℝ) < n := by exact_mod_cast hn
  obtain ⟨out, ex, h1, h2, h3⟩ := C134_filter hR hδ0 hδ flo fhi hn hn' hfs (fun k hk => .inl ⟨hlo.trans (by positivity), by
    refine le_trans ?_ hhi
    have hk' : (2 : ℝ) * k ≤ n := by exact_mod_cast (by omega : 2 * k ≤ n)
    rw [div_le_div_iff₀ hnR (by norm_num)]
    nlinarith [Nat.cast_nonneg (α := ℝ) fs]⟩) h hd hB0 hB1 hl
  have h4 := C57_allpass (fs := fs) hn (yields_ofList (l.map val)) (by rwa [List.length_map]) hlo hhi
  rw [h2.unique h4, List.forall₂_map_right_iff] at h3
  exact ⟨out, h1, h3⟩

/-- A recording within `η` of a sum of tones at multiples of the bin spacing: what comes out is within
`n·(η + B·(4δ + 2⁻⁵²))` of the sum of the tones in the pass band.  A tone is `(k, amplitude, phase)`, its frequency is
`k·fs/n`; `j/fs` is the time of sample `j`. -/
theorem C134_tones {δ : ℝ} (hR : AccurateRfft RealFft.rfft RealFft.irfft δ) (hδ0 : 0 ≤ δ) (hδ : δ ≤ 1 / 8)
    {lo hi : Float} (flo : Fin lo) (fhi : Fin hi) {fs n : ℕ} (hn : 0 < n) (hn' : n ≤ 2 ^ 40) (hfs0 : 0 < fs)
    (hfs : n / 2 * fs ≤ 2 ^ 53)
    (he : ∀ k : ℕ, k ≤ n / 2 → (val lo ≤ (k : ℝ) * fs / n ∧ (k : ℝ) * fs / n ≤ val hi) ∨
      (k : ℝ) * fs / n * (1 + 1 / 2 ^ 52) < val lo ∨ val hi < (k : ℝ) * fs / n * (1 - 1 / 2 ^ 52))
    (q : ℕ) (ts : List (ℕ × ℝ × ℝ)) (hts : ∀ p ∈ ts, p.1 ≤ n / 2) {η B : ℝ} (hη : 0 ≤ η)
    (hB : (ts.map (fun p => |p.2.1|)).sum + η ≤ B) (hB0 : 1 / 2 ^ 90 ≤ B) (hB1 : B ≤ 2 ^ 50)
    {m : ι} {l : List Float} (h : Yields m l)
    (hl : List.Forall₂ (fun a b => Fin a ∧ |val a - b| ≤ η) l ((List.range (q * n)).map (fun j : ℕ => (ts.map (fun p =>
      p.2.1 * Real.cos (2 * Real.pi * ((p.1 : ℝ) * fs / n) * ((j : ℝ) / fs) + p.2.2))).sum))) :
    ∃ out : List Float, Yields (bandpass lo hi m fs n) out ∧
      List.Forall₂ (fun a b => Fin a ∧ |val a - b| ≤ n * (η + B * (4 * δ + 1 / 2 ^ 52))) out
        (open Classical in (List.range (q * n)).map (fun j : ℕ =>
          ((ts.filter (fun p => decide (val lo ≤ (p.1 : ℝ) * fs / n ∧ (p.1 : ℝ) * fs / n ≤ val hi))).map (fun p =>
            p.2.1 * Real.cos (2 * Real.pi * ((p.1 : ℝ) * fs / n) * ((j : ℝ) / fs) + p.2.2))).sum)) := by
  have hx := C68_tones (val lo) (val hi) hn hfs0 q ts hts (yields_ofList _)
  have hle : ∀ b ∈ (List.range (q * n)).map (fun j : ℕ => (ts.map (fun p =>
      p.2.1 * Real.cos (2 * Real.pi * ((p.1 : ℝ) * fs / n) * ((j : ℝ) / fs) + p.2.2))).sum),
      |b| ≤ (ts.map (fun p => |p.2.1|)).sum := by
    intro b hb
    obtain ⟨j, _, rfl⟩ := List.mem_map.mp hb
    clear hx hb hl hts hB
    induction ts with
    | nil => simp
    | cons p ts ih =>
      rw [List.map_cons, List.sum_cons, List.map_cons, List.sum_cons]
      refine (abs_add_le _ _).trans (add_le_add ?_ ih)
      rw [abs_mul]
      exact mul_le_of_le_one_right (abs_nonneg _) (Real.abs_cos_le_one _)
  have hlen : ((List.range (q * n)).map (fun j : ℕ => (ts.map (fun p =>
      p.2.1 * Real.cos (2 * Real.pi * ((p.1 : ℝ) * fs / n) * ((j : ℝ) / fs) + p.2.2))).sum)).length = q * n := by simp
  generalize (List.range (q * n)).map (fun j : ℕ => (ts.map (fun p =>
      p.2.1 * Real.cos (2 * Real.pi * ((p.1 : ℝ) * fs / n) * ((j : ℝ) / fs) + p.2.2))).sum) = T at hl hx hle hlen
  have hd : n ∣ l.length := by rw [hl.length_eq, hlen]; exact ⟨q, Nat.mul_comm _ _⟩
  have hdT : n ∣ T.length := by rw [hlen]; exact ⟨q, Nat.mul_comm _ _⟩
  have hu : 4 * δ + 1 / 2 ^ 52 = 4 * δ + 2 * uu := by rw [uu_eq]; norm_num
  have hlB : ∀ a ∈ l, RB a B := by
    intro a ha
    obtain ⟨i, hi'⟩ := List.mem_iff_getElem?.mp ha
    have hi2 : i < T.length := by
      rw [← hl.length_eq]
      exact (List.getElem?_eq_some_iff.mp hi').1
    have := forall₂_get? hl hi' (List.getElem?_eq_getElem hi2)
    refine ⟨this.1, ?_⟩
    have h1 := hle _ (List.getElem_mem hi2)
    have h2 := abs_sub_abs_le_abs_sub (val a) T[i]
    linarith [this.2]
  refine ⟨_, bandpass_ok lo hi h hn hd, ?_⟩
  rw [hx.unique (bandpass_ok _ _ (yields_ofList T) hn hdT)]
  have hl' : List.Forall₂ (fun a b => Ap a b η) l T := hl
  refine flatMap_near hn hd hl' fun c d hc hm hcd => ?_
  have h1 := bpOut_near hR hδ0 hδ flo fhi hn hn' hfs he hc hB0 hB1 (fun a ha => hlB a (hm a ha))
  have hcd' : List.Forall₂ (fun a b => |a - b| ≤ η) (c.map val) d := by
    rw [List.forall₂_map_left_iff]
    exact hcd.imp fun _ _ h => h.2
  have h2 := bpOut_close (val lo) (val hi) fs hn (by rw [List.length_map, hc]) hη hcd'
  refine forall₂_of_get? (by rw [bpOut_length, bpOut_length]) fun i a b ha hb => ?_
  have hi2 : i < (bpOut (val lo) (val hi) fs n (c.map val)).length := by
    rw [bpOut_length, ← bpOut_length lo hi fs n c]
    exact (List.getElem?_eq_some_iff.mp ha).1
  have e1 := forall₂_get? h1 ha (List.getElem?_eq_getElem hi2)
  have e2 := forall₂_get? h2 (List.getElem?_eq_getElem hi2) hb
  refine ⟨e1.1, (abs_sub_le _ _ _).trans ((add_le_add e1.2 e2).trans_eq ?_)⟩
  rw [hu]; ring

/-- Filtering a second time changes the signal by rounding errors only. -/
theorem C134_twice {δ : ℝ} (hR : AccurateRfft RealFft.rfft RealFft.irfft δ) (hδ0 : 0 ≤ δ) (hδ : δ ≤ 1 / 8)
    {lo hi : Float} (flo : Fin lo) (fhi : Fin hi) {fs n : ℕ} (hn : 0 < n) (hn' : n ≤ 2 ^ 40) (hfs : n / 2 * fs ≤ 2 ^ 53)
    (he : ∀ k : ℕ, k ≤ n / 2 → (val lo ≤ (k : ℝ) * fs / n ∧ (k : ℝ) * fs / n ≤ val hi) ∨
      (k : ℝ) * fs / n * (1 + 1 / 2 ^ 52) < val lo ∨ val hi < (k : ℝ) * fs / n * (1 - 1 / 2 ^ 52))
    {m : ι} {l : List Float} (h : Yields m l) (hd : n ∣ l.length) {B : ℝ} (hB0 : 1 / 2 ^ 90 ≤ B) (hB1 : n * B ≤ 2 ^ 49)
    (hl : ∀ a ∈ l, Fin a ∧ |val a| ≤ B) :
    ∃ once twice : List Float, Yields (bandpass lo hi m fs n) once ∧
      Yields (bandpass lo hi (bandpass lo hi m fs n) fs n) twice ∧
      List.Forall₂ (fun a b => Fin a ∧ Fin b ∧ |val a - val b| ≤ (3 * n + 2) * (n * B * (4 * δ + 1 / 2 ^ 52))) twice once := by
  have hBp : 0 < B := lt_of_lt_of_le (by norm_num) hB0
  have hn1 : (1 : ℝ) ≤ n := by exact_mod_cast hn
  have hBn : B ≤ n * B := by nlinarith
  obtain ⟨once, ex, h1, h2, h3⟩ := C134_filter hR hδ0 hδ flo fhi hn hn' hfs he h hd hB0
    (hBn.trans (hB1.trans (by norm_num))) hl
  have hex : ∀ b ∈ ex, |b| ≤ n * B := by
    rw [h2.unique (bandpass_ok (val lo) (val hi) (yields_ofList (l.map val)) hn (by rwa [List.length_map]))]
    intro b hb
    obtain ⟨c, hc, hb⟩ := List.mem_flatMap.mp hb
    have hcl := mem_blocks_full hn (l.map val) (by rwa [List.length_map]) c hc
    refine bpOut_abs (val lo) (val hi) fs hn hcl hBp.le (fun a ha => ?_) b hb
    have : a ∈ l.map val := mem_of_mem_blocks hc ha
    obtain ⟨x, hx, rfl⟩ := List.mem_map.mp this
    exact (hl x hx).2
  have hlen : once.length = l.length := by
    obtain ⟨_, _, hf⟩ := C57_shape (ι := ι) lo hi fs hn
    obtain ⟨o, ho, hol, _⟩ := hf h hd
    rw [h1.unique ho, hol]
  have hd1 : n ∣ once.length := by rw [hlen]; exact hd
  have hl1 : ∀ a ∈ once, RB a (2 * (n * B)) := by
    intro a ha
    obtain ⟨i, hi'⟩ := List.mem_iff_getElem?.mp ha
    have hi2 : i < ex.length := by
      rw [← h3.length_eq]
      exact (List.getElem?_eq_some_iff.mp hi').1
    obtain ⟨g1, g2⟩ := forall₂_get? h3 hi' (List.getElem?_eq_getElem hi2)
    refine ⟨g1, ?_⟩
    have g3 := hex _ (List.getElem_mem hi2)
    have g4 := abs_sub_abs_le_abs_sub (val a) ex[i]
    have g5 : n * B * (4 * δ + 1 / 2 ^ 52) ≤ n * B * 1 :=
      mul_le_mul_of_nonneg_left (by linarith [show (1 : ℝ) / 2 ^ 52 ≤ 1 / 2 by norm_num]) (by positivity)
    linarith
  have hdx : n ∣ ex.length := by rw [← h3.length_eq]; exact hd1
  obtain ⟨ex', h4, h5⟩ := C57_idempotent (val lo) (val hi) fs hn (yields_ofList (l.map val)) (by rwa [List.length_map])
  have hxx := h2.unique h4
  subst hxx
  have h6 := bandpass_ok (val lo) (val hi) h2 (fs := fs) hn hdx
  have h7 := h5.unique h6
  refine ⟨once, _, h1, bandpass_ok lo hi h1 hn hd1, ?_⟩
  set e := n * B * (4 * δ + 1 / 2 ^ 52) with hedef
  have he0 : 0 ≤ e := by positivity
  have hu : n * (2 * (n * B)) * (4 * δ + 2 * uu) = 2 * n * e := by
    have : 2 * uu = 1 / 2 ^ 52 := by rw [uu_eq]; norm_num
    rw [hedef, this]; ring
  have h8 : List.Forall₂ (fun a b => Ap a b (2 * n * e + n * e)) ((blocks n once).flatMap (bpOut lo hi fs n))
      ((blocks n ex).flatMap (bpOut (val lo) (val hi) fs n)) := by
    have h3' : List.Forall₂ (fun a b => Ap a b e) once ex := h3
    refine flatMap_near hn hd1 h3' fun c d hc hm hcd => ?_
    have g1 := bpOut_near hR hδ0 hδ flo fhi hn hn' hfs he hc
      (B := 2 * (n * B)) (by linarith) (by linarith [show (2 : ℝ) * 2 ^ 49 = 2 ^ 50 by norm_num]) (fun a ha => hl1 a (hm a ha))
    rw [hu] at g1
    have hcd' : List.Forall₂ (fun a b => |a - b| ≤ e) (c.map val) d := by
      rw [List.forall₂_map_left_iff]
      exact hcd.imp fun _ _ h => h.2
    have g2 := bpOut_close (val lo) (val hi) fs hn (by rw [List.length_map, hc]) he0 hcd'
    refine forall₂_of_get? (by rw [bpOut_length, bpOut_length]) fun i a b ha hb => ?_
    have hi2 : i < (bpOut (val lo) (val hi) fs n (c.map val)).length := by
      rw [bpOut_length, ← bpOut_length lo hi fs n c]
      exact (List.getElem?_eq_some_iff.mp ha).1
    have e1 := forall₂_get? g1 ha (List.getElem?_eq_getElem hi2)
    have e2 := forall₂_get? g2 (List.getElem?_eq_getElem hi2) hb
    exact ⟨e1.1, (abs_sub_le _ _ _).trans (add_le_add e1.2 e2)⟩
  rw [← h7] at h8
  refine forall₂_of_get? (h8.length_eq.trans h3.length_eq.symm) fun i a b ha hb => ?_
  have hi2 : i < ex.length := by
    rw [← h8.length_eq]
    exact (List.getElem?_eq_some_iff.mp ha).1
  have e1 := forall₂_get? h8 ha (List.getElem?_eq_getElem hi2)
  have e2 := forall₂_get? h3 hb (List.getElem?_eq_getElem hi2)
  refine ⟨e1.1, e2.1, (abs_sub_le _ ex[i] _).trans ?_⟩
  have := e2.2
  rw [abs_sub_comm] at this
  linarith [e1.2]

end

/-- 8 samples per block at 8 kHz, pass band 900..1100 Hz: of a 1 kHz tone of amplitude 5 and a 3 kHz tone of amplitude 2,
recorded in doubles, the first remains up to `10⁻¹²`. -/
example {l : List Float}
    (hl : List.Forall₂ (fun a b => Fin a ∧ |val a - b| ≤ 1 / 2 ^ 50) l ((List.range (2 * 8)).map (fun j : ℕ =>
      ([((1 : ℕ), (5 : ℝ), (0 : ℝ)), (3, 2, 1)].map (fun p =>
        p.2.1 * Real.cos (2 * Real.pi * ((p.1 : ℝ) * (8000 : ℕ) / (8 : ℕ)) * ((j : ℝ) / (8000 : ℕ)) + p.2.2))).sum))) :
    letI := rfftRounded
    ∃ out : List Float, Yields (bandpass (F64.ofNat 900) (F64.ofNat 1100) (ofList l) 8000 8) out ∧
      List.Forall₂ (fun a b => Fin a ∧ |val a - b| ≤ 1 / 10 ^ 12) out ((List.range (2 * 8)).map (fun j : ℕ =>
        ([((1 : ℕ), (5 : ℝ), (0 : ℝ))].map (fun p =>
          p.2.1 * Real.cos (2 * Real.pi * ((p.1 : ℝ) * (8000 : ℕ) / (8 : ℕ)) * ((j : ℝ) / (8000 : ℕ)) + p.2.2))).sum)) := by
  let := rfftRounded
  obtain ⟨f1, v1⟩ := ofNat_exact (show 900 ≤ 2 ^ 53 by norm_num)
  obtain ⟨f2, v2⟩ := ofNat_exact (show 1100 ≤ 2 ^ 53 by norm_num)
  have edges : ∀ k : ℕ, k ≤ 8 / 2 → (val (F64.ofNat 900) ≤ (k : ℝ) * (8000 : ℕ) / (8 : ℕ) ∧
      (k : ℝ) * (8000 : ℕ) / (8 : ℕ) ≤ val (F64.ofNat 1100)) ∨
      (k : ℝ) * (8000 : ℕ) / (8 : ℕ) * (1 + 1 / 2 ^ 52) < val (F64.ofNat 900) ∨
      val (F64.ofNat 1100) < (k : ℝ) * (8000 : ℕ) / (8 : ℕ) * (1 - 1 / 2 ^ 52) := by
    intro k hk
    rw [v1, v2]
    have hk4 : k ≤ 4 := hk
    interval_cases k <;> norm_num
  obtain ⟨out, h1, h2⟩ := C134_tones (δ := 1 / 2 ^ 51) accurate_rfft (by norm_num) (by norm_num) f1 f2 (fs := 8000) (n := 8)
    (by norm_num) (by norm_num) (by norm_num) (by norm_num) edges 2 [((1 : ℕ), (5 : ℝ), (0 : ℝ)), (3, 2, 1)] (by decide) (η := 1 / 2 ^ 50) (B := 8)
    (by norm_num) (by norm_num) (by norm_num) (by norm_num) (yields_ofList l) hl
  refine ⟨out, h1, ?_⟩
  rw [v1, v2, List.filter_cons_of_pos (by norm_num), List.filter_cons_of_neg (by norm_num), List.filter_nil] at h2
  refine h2.imp fun a b h => ⟨h.1, h.2.trans (by norm_num)⟩

/-- Four samples in blocks of two, all frequencies passed. -/
example : letI := rfftRounded
    ∃ out : List Float, Yields (bandpass (F64.ofNat 0) (F64.ofNat 50) (ofList [1, 1, 0, 1]) 100 2) out ∧
      List.Forall₂ (fun a b => Fin a ∧ |val a - val b| ≤ 1 / 10 ^ 12) out [1, 1, 0, 1] := by
  let := rfftRounded
  obtain ⟨f1, v1⟩ := ofNat_exact (show 0 ≤ 2 ^ 53 by norm_num)
  obtain ⟨f2, v2⟩ := ofNat_exact (show 50 ≤ 2 ^ 53 by norm_num)
  obtain ⟨out, h1, h2⟩ := C134_allpass (δ := 1 / 2 ^ 51) accurate_rfft (by norm_num) (by norm_num) f1 f2 (fs := 100) (n := 2)
    (by norm_num) (by norm_num) (by norm_num) (by rw [v1]; norm_num) (by rw [v2]; norm_num)
    (yields_ofList [1, 1, 0, 1]) ⟨2, rfl⟩ (B := 1) (by norm_num) (by norm_num) (by
      intro a ha
      simp only [List.mem_cons, List.not_mem_nil, or_false] at ha
      rcases ha with rfl | rfl | rfl | rfl
      · exact ⟨fin_one, by rw [val_one, abs_one]⟩
      · exact ⟨fin_one, by rw [val_one, abs_one]⟩
      · exact ⟨fin_zero, by rw [val_zero, abs_zero]; norm_num⟩
      · exact ⟨fin_one, by rw [val_one, abs_one]⟩)
  exact ⟨out, h1, h2.imp fun a b h => ⟨h.1, h.2.trans (by norm_num)⟩⟩

/-- Any eight samples between -1 and 1, in one block: the filter of the example above, once and twice. -/
example {l : List Float} (hlen : l.length = 8) (hl : ∀ a ∈ l, Fin a ∧ |val a| ≤ 1) :
    letI := rfftRounded
    ∃ once twice : List Float, Yields (bandpass (F64.ofNat 900) (F64.ofNat 1100) (ofList l) 8000 8) once ∧
      Yields (bandpass (F64.ofNat 900) (F64.ofNat 1100) (bandpass (F64.ofNat 900) (F64.ofNat 1100) (ofList l) 8000 8) 8000 8)
        twice ∧ List.Forall₂ (fun a b => Fin a ∧ Fin b ∧ |val a - val b| ≤ 1 / 10 ^ 11) twice once := by
  let := rfftRounded
  obtain ⟨f1, v1⟩ := ofNat_exact (show 900 ≤ 2 ^ 53 by norm_num)
  obtain ⟨f2, v2⟩ := ofNat_exact (show 1100 ≤ 2 ^ 53 by norm_num)
  have edges : ∀ k : ℕ, k ≤ 8 / 2 → (val (F64.ofNat 900) ≤ (k : ℝ) * (8000 : ℕ) / (8 : ℕ) ∧
      (k : ℝ) * (8000 : ℕ) / (8 : ℕ) ≤ val (F64.ofNat 1100)) ∨
      (k : ℝ) * (8000 : ℕ) / (8 : ℕ) * (1 + 1 / 2 ^ 52) < val (F64.ofNat 900) ∨
      val (F64.ofNat 1100) < (k : ℝ) * (8000 : ℕ) / (8 : ℕ) * (1 - 1 / 2 ^ 52) := by
    intro k hk
    rw [v1, v2]
    have hk4 : k ≤ 4 := hk
    interval_cases k <;> norm_num
  obtain ⟨a, b, h1, h2, h3⟩ := C134_twice (δ := 1 / 2 ^ 51) accurate_rfft (by norm_num) (by norm_num) f1 f2 (fs := 8000)
    (n := 8) (by norm_num) (by norm_num) (by norm_num) edges (yields_ofList l) ⟨1, by rw [hlen]⟩ (B := 1) (by norm_num)
    (by norm_num) hl
  exact ⟨a, b, h1, h2, h3.imp fun x y h => ⟨h.1, h.2.1, h.2.2.trans (by norm_num)⟩⟩

end Verif.Props
