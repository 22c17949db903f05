import Verif.Lemmas.BpfLeak
import Verif.Props.Bpf

/-! C135: the band-pass filter between its bins. -/
namespace Verif.Props
open Verif Spec

variable {ι : Type} [RIter ι ℝ]

theorem out_block (lo hi : ℝ) {fs n : ℕ} (hn : 0 < n) {m : ι} {q : ℕ} {s : ℕ → ℝ} (h : Yields m ((List.range (q * n)).map s)) :
    ∃ out : List ℝ, Yields (bandpass lo hi m fs n) out ∧ out.length = q * n ∧ ∀ b, b < q → ∀ j, j < n →
      out.getD (b * n + j) 0 = (bpOut lo hi fs n ((List.range n).map (fun j => s (b * n + j)))).getD j 0 := by
  rw [map_range_blocks] at h
  have hy := bandpass_ok lo hi h (fs := fs) hn (by
    rw [length_flatMap_const (k := n) _ _ (fun _ _ => by simp)]; exact ⟨_, Nat.mul_comm _ _⟩)
  rw [blocks_flatMap hn _ _ (fun _ _ => by simp), List.flatMap_map] at hy
  have hl : ((List.range q).flatMap (fun b => bpOut lo hi fs n ((List.range n).map (fun j => s (b * n + j))))).length = q * n := by
    rw [length_flatMap_const (k := n) _ _ (fun _ _ => bpOut_length _ _ _ _ _), List.length_range]
  refine ⟨_, hy, hl, fun b hb j hj => ?_⟩
  rw [List.getD, List.getD, getElem?_flatMap_const hn _ _ (fun _ _ => bpOut_length _ _ _ _ _),
    show (b * n + j) / n = b by rw [Nat.mul_comm, Nat.mul_add_div hn, Nat.div_eq_of_lt hj, Nat.add_zero],
    show (b * n + j) % n = j by rw [Nat.mul_comm, Nat.mul_add_mod, Nat.mod_eq_of_lt hj], List.getElem?_range hb]
  rfl

/-- What is kept and what is removed: in every block their energies add up to that of the block. -/
theorem C135_energy (lo hi : ℝ) {fs n : ℕ} (hn : 0 < n) {m : ι} {q : ℕ} {s : ℕ → ℝ} (h : Yields m ((List.range (q * n)).map s)) :
    ∃ out : List ℝ, Yields (bandpass lo hi m fs n) out ∧ out.length = q * n ∧ ∀ b, b < q →
      ∑ j ∈ Finset.range n, out.getD (b * n + j) 0 ^ 2 + ∑ j ∈ Finset.range n, (out.getD (b * n + j) 0 - s (b * n + j)) ^ 2
        = ∑ j ∈ Finset.range n, s (b * n + j) ^ 2 := by
  obtain ⟨out, h1, h2, h3⟩ := out_block lo hi (fs := fs) hn h
  refine ⟨out, h1, h2, fun b hb => ?_⟩
  have hp := bpOut_pythagoras lo hi (fs := fs) hn (c := (List.range n).map (fun j => s (b * n + j))) (by simp)
  have hg : ∀ j ∈ Finset.range n, ((List.range n).map (fun j => s (b * n + j))).getD j 0 = s (b * n + j) := by
    intro j hj
    simp [List.getD, Finset.mem_range.mp hj]
  rw [Finset.sum_congr rfl (fun j hj => by rw [h3 b hb j (Finset.mem_range.mp hj)]),
    Finset.sum_congr rfl (fun j hj => by rw [h3 b hb j (Finset.mem_range.mp hj), ← hg j hj] :
      ∀ j ∈ Finset.range n, (out.getD (b * n + j) 0 - s (b * n + j)) ^ 2
        = ((bpOut lo hi fs n ((List.range n).map (fun j => s (b * n + j)))).getD j 0
          - ((List.range n).map (fun j => s (b * n + j))).getD j 0) ^ 2), hp]
  exact Finset.sum_congr rfl fun j hj => by rw [hg j hj]

/-- Two blocks of four samples, pass band 20..30 Hz at 100 Hz. -/
example : ∃ out : List ℝ, Yields (bandpass (20 : ℝ) 30 (ofList ((List.range (2 * 4)).map (fun j : ℕ => (j : ℝ)))) 100 4) out ∧
    out.length = 8 ∧ ∑ j ∈ Finset.range 4, out.getD (1 * 4 + j) 0 ^ 2 ≤ 4 ^ 2 + 5 ^ 2 + 6 ^ 2 + 7 ^ 2 := by
  obtain ⟨out, h1, h2, h3⟩ := C135_energy (20 : ℝ) 30 (fs := 100) (n := 4) (by norm_num) (q := 2) (s := fun j : ℕ => (j : ℝ))
    (yields_ofList _)
  refine ⟨out, h1, h2, ?_⟩
  have h := h3 1 (by norm_num)
  have h0 : 0 ≤ ∑ j ∈ Finset.range 4, (out.getD (1 * 4 + j) 0 - ((1 * 4 + j : ℕ) : ℝ)) ^ 2 :=
    Finset.sum_nonneg fun _ _ => by positivity
  refine (le_add_of_nonneg_right h0).trans (h.trans_le (le_of_eq ?_))
  simp [Finset.sum_range_succ]
  norm_num

/-- The sum of the tones of a list at sample `j`: `(frequency, amplitude, phase)`. -/
noncomputable def sumTones (fs : ℕ) (ts : List (ℝ × ℝ × ℝ)) (j : ℕ) : ℝ :=
  (ts.map (fun p => p.2.1 * Real.cos (2 * Real.pi * p.1 * ((j : ℝ) / fs) + p.2.2))).sum

theorem block_toneL {fs n : ℕ} (hn : 0 < n) (hfs : 0 < fs) (f a θ : ℝ) (b : ℕ) :
    (List.range n).map (fun j : ℕ => a * Real.cos (2 * Real.pi * f * (((b * n + j : ℕ) : ℝ) / fs) + θ))
      = toneL n (f * n / fs) a (2 * Real.pi * f * (((b * n : ℕ) : ℝ) / fs) + θ) := by
  have hnR : (n : ℝ) ≠ 0 := by exact_mod_cast hn.ne'
  have hfR : (fs : ℝ) ≠ 0 := by exact_mod_cast hfs.ne'
  refine List.map_congr_left fun j _ => ?_
  congr 2
  rw [Nat.cast_add]
  field_simp
  ring

/-- Bins closer to an inside tone than the margin are in the band. -/
theorem inside_bins {lo hi f D : ℝ} {fs n : ℕ} (hn : 0 < n) (hfs : 0 < fs) (h1 : lo ≤ 0 ∨ lo + D * (fs / n) ≤ f)
    (h2 : (fs : ℝ) / 2 ≤ hi ∨ f + D * (fs / n) ≤ hi) {k : ℕ} (hk : k ≤ n / 2) (hd : |f * n / fs - k| < D) :
    inBand lo hi fs n k := by
  have hnR : (0 : ℝ) < n := by exact_mod_cast hn
  have hfR : (0 : ℝ) < fs := by exact_mod_cast hfs
  obtain ⟨d1, d2⟩ := abs_lt.mp hd
  have e : f * n / fs * (fs / n) = f := by field_simp
  have hp : (0 : ℝ) < fs / n := by positivity
  have m1 := mul_lt_mul_of_pos_right d1 hp
  have m2 := mul_lt_mul_of_pos_right d2 hp
  rw [sub_mul, e] at m1 m2
  have hkf : (k : ℝ) * fs / n = k * (fs / n) := by ring
  constructor
  · rw [hkf]
    rcases h1 with h | h
    · exact h.trans (by positivity)
    · linarith
  · rw [hkf]
    rcases h2 with h | h
    · refine le_trans ?_ h
      have hk' : (2 : ℝ) * k ≤ n := by exact_mod_cast (by omega : 2 * k ≤ n)
      rw [← hkf, div_le_div_iff₀ hnR (by norm_num)]
      nlinarith
    · linarith

theorem outside_bins {lo hi f D : ℝ} {fs n : ℕ} (hn : 0 < n) (hfs : 0 < fs)
    (h : hi + D * (fs / n) ≤ f ∨ f + D * (fs / n) ≤ lo) {k : ℕ} (hd : |f * n / fs - k| < D) : ¬ inBand lo hi fs n k := by
  have hnR : (0 : ℝ) < n := by exact_mod_cast hn
  have hfR : (0 : ℝ) < fs := by exact_mod_cast hfs
  obtain ⟨d1, d2⟩ := abs_lt.mp hd
  have e : f * n / fs * (fs / n) = f := by field_simp
  have hp : (0 : ℝ) < fs / n := by positivity
  have m1 := mul_lt_mul_of_pos_right d1 hp
  have m2 := mul_lt_mul_of_pos_right d2 hp
  rw [sub_mul, e] at m1 m2
  have hkf : (k : ℝ) * fs / n = k * (fs / n) := by ring
  rintro ⟨b1, b2⟩
  rw [hkf] at b1 b2
  rcases h with h | h <;> linarith

/-- Tones of any frequencies, each at least `D` bins inside the band or at least `D` bins outside it (a band that begins
at 0 or ends at half the sample rate has no edge there).  In every block, what comes out differs from the sum of the tones
inside by at most `(Σ|amplitudes|) / √(D - 1/2)`, root mean square. -/
theorem C135_tones (lo hi : ℝ) {fs n : ℕ} (hn : 0 < n) (hfs : 0 < fs) {D : ℝ} (hD : 1 / 2 < D) (q : ℕ) (ts : List (ℝ × ℝ × ℝ))
    (hts : ∀ p ∈ ts, 0 ≤ p.1 ∧ p.1 ≤ (fs : ℝ) / 2 ∧
      ((lo ≤ p.1 ∧ p.1 ≤ hi ∧ (lo ≤ 0 ∨ lo + D * (fs / n) ≤ p.1) ∧ ((fs : ℝ) / 2 ≤ hi ∨ p.1 + D * (fs / n) ≤ hi)) ∨
        hi + D * (fs / n) ≤ p.1 ∨ p.1 + D * (fs / n) ≤ lo)) {m : ι}
    (h : Yields m ((List.range (q * n)).map (fun j : ℕ =>
      (ts.map (fun p => p.2.1 * Real.cos (2 * Real.pi * p.1 * ((j : ℝ) / fs) + p.2.2))).sum))) :
    ∃ out : List ℝ, Yields (bandpass lo hi m fs n) out ∧ out.length = q * n ∧ ∀ b, b < q →
      √((∑ j ∈ Finset.range n, (out.getD (b * n + j) 0
        - (open Classical in ((ts.filter (fun p => decide (lo ≤ p.1 ∧ p.1 ≤ hi))).map (fun p =>
          p.2.1 * Real.cos (2 * Real.pi * p.1 * (((b * n + j : ℕ) : ℝ) / fs) + p.2.2))).sum)) ^ 2) / n)
        ≤ (ts.map (fun p => |p.2.1|)).sum / √(D - 1 / 2) := by
  classical
  have hnR : (0 : ℝ) < n := by exact_mod_cast hn
  have hfR : (0 : ℝ) < fs := by exact_mod_cast hfs
  have hDp : 0 < D - 1 / 2 := by linarith
  obtain ⟨out, h1, h2, h3⟩ := out_block lo hi (fs := fs) hn h
  refine ⟨out, h1, h2, fun b hb => ?_⟩
  rw [Finset.sum_congr rfl (fun j hj => by rw [h3 b hb j (Finset.mem_range.mp hj)])]
  clear h h1 h2 h3 hb
  rw [Real.sqrt_div (Finset.sum_nonneg fun _ _ => by positivity), div_le_iff₀ (by positivity)]
  show √(∑ j ∈ Finset.range n, ((bpOut lo hi fs n ((List.range n).map (fun j => sumTones fs ts (b * n + j)))).getD j 0
    - sumTones fs (ts.filter (fun p => decide (lo ≤ p.1 ∧ p.1 ≤ hi))) (b * n + j)) ^ 2) ≤ _
  induction ts with
  | nil =>
    have hz : (List.range n).map (fun j => sumTones fs [] (b * n + j)) = (toneL n 0 0 0) := by
      refine List.map_congr_left fun j _ => ?_
      simp [sumTones]
    have ho := bpOut_smul lo hi fs hn (toneL_length n 0 0 0) 0
    have hz2 : (toneL n 0 0 0).map (fun r => 0 * r) = toneL n 0 0 0 := by
      rw [toneL, List.map_map]
      refine List.map_congr_left fun j _ => ?_
      simp
    rw [hz2] at ho
    rw [hz, ho]
    have hs : ∀ j ∈ Finset.range n, ((((bpOut lo hi fs n (toneL n 0 0 0)).map (fun r => 0 * r)).getD j 0
        - sumTones fs (([] : List (ℝ × ℝ × ℝ)).filter (fun p => decide (lo ≤ p.1 ∧ p.1 ≤ hi))) (b * n + j)) ^ 2) = 0 := by
      intro j _
      rw [List.getD, List.getElem?_map]
      cases (bpOut lo hi fs n (toneL n 0 0 0))[j]? <;> simp [sumTones]
    rw [Finset.sum_congr rfl hs]
    simp
  | cons p ts ih =>
    have ih := ih (fun p hp => hts p (List.mem_cons_of_mem _ hp))
    obtain ⟨hp0, hp1, hp2⟩ := hts p (List.mem_cons_self ..)
    obtain ⟨f, a, θ⟩ := p
    simp only at hp0 hp1 hp2
    -- one tone
    have hφ0 : 0 ≤ f * n / fs := by positivity
    have hφ1 : f * n / fs ≤ n / 2 := by
      rw [div_le_div_iff₀ hfR (by norm_num)]
      nlinarith
    set θ' := 2 * Real.pi * f * (((b * n : ℕ) : ℝ) / fs) + θ with hθ'
    have hbt := block_toneL hn hfs f a θ b
    rw [← hθ'] at hbt
    have hone : √(∑ j ∈ Finset.range n, ((bpOut lo hi fs n (toneL n (f * n / fs) a θ')).getD j 0
        - (if lo ≤ f ∧ f ≤ hi then (toneL n (f * n / fs) a θ').getD j 0 else 0)) ^ 2) ≤ |a| / √(D - 1 / 2) * √n := by
      have hval : √(n * (a ^ 2 / (D - 1 / 2))) = |a| / √(D - 1 / 2) * √n := by
        rw [Real.sqrt_mul hnR.le, Real.sqrt_div (sq_nonneg a), Real.sqrt_sq_eq_abs, mul_comm]
      rw [← hval]
      refine Real.sqrt_le_sqrt ?_
      rcases hp2 with ⟨g1, g2, g3, g4⟩ | g
      · rw [Finset.sum_congr rfl (fun j _ => by rw [if_pos ⟨g1, g2⟩])]
        exact bpOut_inside lo hi hn hφ0 hφ1 a θ' hD (fun k hk hd => inside_bins hn hfs g3 g4 hk hd)
      · have hn' : ¬ (lo ≤ f ∧ f ≤ hi) := by
          have : 0 < D * (fs / n) := by
            have : 0 < D := by linarith
            positivity
          rintro ⟨g1, g2⟩
          rcases g with g | g <;> linarith
        rw [Finset.sum_congr rfl (fun j _ => by rw [if_neg hn', sub_zero])]
        exact bpOut_outside lo hi hn hφ0 hφ1 a θ' hD (fun k hk hd => outside_bins hn hfs g hd)
    -- the sum
    have hsplit : (List.range n).map (fun j => sumTones fs ((f, a, θ) :: ts) (b * n + j))
        = List.zipWith (· + ·) (toneL n (f * n / fs) a θ') ((List.range n).map (fun j => sumTones fs ts (b * n + j))) := by
      rw [← hbt, List.zipWith_map, List.zipWith_self]
      refine List.map_congr_left fun j _ => ?_
      simp [sumTones]
    rw [hsplit, bpOut_add lo hi fs hn (toneL_length ..) (by simp)]
    set o1 := bpOut lo hi fs n (toneL n (f * n / fs) a θ') with ho1
    set o2 := bpOut lo hi fs n ((List.range n).map (fun j => sumTones fs ts (b * n + j))) with ho2
    have hg : ∀ j ∈ Finset.range n, ((List.zipWith (· + ·) o1 o2).getD j 0
        - sumTones fs (((f, a, θ) :: ts).filter (fun p => decide (lo ≤ p.1 ∧ p.1 ≤ hi))) (b * n + j)) ^ 2
        = ((o1.getD j 0 - (if lo ≤ f ∧ f ≤ hi then (toneL n (f * n / fs) a θ').getD j 0 else 0))
          + (o2.getD j 0 - sumTones fs (ts.filter (fun p => decide (lo ≤ p.1 ∧ p.1 ≤ hi))) (b * n + j))) ^ 2 := by
      intro j hj
      have hj := Finset.mem_range.mp hj
      have e1 : (List.zipWith (· + ·) o1 o2).getD j 0 = o1.getD j 0 + o2.getD j 0 := by
        rw [List.getD, List.getD, List.getD, List.getElem?_zipWith, List.getElem?_eq_getElem (by rw [ho1, bpOut_length]; exact hj),
          List.getElem?_eq_getElem (by rw [ho2, bpOut_length]; exact hj)]
        rfl
      have e2 : (toneL n (f * n / fs) a θ').getD j 0 = a * Real.cos (2 * Real.pi * f * (((b * n + j : ℕ) : ℝ) / fs) + θ) := by
        rw [← hbt]
        simp [List.getD, hj]
      rw [e1]
      by_cases hin : lo ≤ f ∧ f ≤ hi
      · rw [List.filter_cons_of_pos (by simpa using hin), if_pos hin, e2]
        simp only [sumTones, List.map_cons, List.sum_cons]
        ring
      · rw [List.filter_cons_of_neg (by simpa using hin), if_neg hin]
        ring
    rw [Finset.sum_congr rfl hg]
    refine (rms_add n _ _).trans ?_
    rw [List.map_cons, List.sum_cons, add_div, add_mul]
    exact add_le_add hone ih

/-- The three tones of the crate's unit test, 50, 100 and 150 Hz at 10 kHz in blocks of 8192 (none of them on a bin), and
the band 80..120 Hz.  The 100 Hz tone comes out, with an error of at most `3/√15.5 < 0.77`, root mean square. -/
example (q : ℕ) : ∃ out : List ℝ, Yields (bandpass (80 : ℝ) 120 (ofList ((List.range (q * 8192)).map (fun j : ℕ =>
      ([((100 : ℝ), (1 : ℝ), (0 : ℝ)), (50, 1, 0), (150, 1, 0)].map (fun p : ℝ × ℝ × ℝ =>
        p.2.1 * Real.cos (2 * Real.pi * p.1 * ((j : ℝ) / (10000 : ℕ)) + p.2.2))).sum))) 10000 8192) out ∧
    out.length = q * 8192 ∧ ∀ b, b < q →
      √((∑ j ∈ Finset.range 8192, (out.getD (b * 8192 + j) 0
        - 1 * Real.cos (2 * Real.pi * 100 * (((b * 8192 + j : ℕ) : ℝ) / (10000 : ℕ)) + 0)) ^ 2) / (8192 : ℕ))
        ≤ 3 / √(16 - 1 / 2) := by
  obtain ⟨out, h1, h2, h3⟩ := C135_tones (ι := VecIter ℝ) 80 120 (fs := 10000) (n := 8192) (by norm_num) (by norm_num) (D := 16)
    (by norm_num) q [((100 : ℝ), (1 : ℝ), (0 : ℝ)), (50, 1, 0), (150, 1, 0)] (by
      intro p hp
      simp only [List.mem_cons, List.not_mem_nil, or_false] at hp
      rcases hp with rfl | rfl | rfl <;> norm_num) (yields_ofList _)
  refine ⟨out, h1, h2, fun b hb => ?_⟩
  have h := h3 b hb
  rw [List.filter_cons_of_pos (by norm_num), List.filter_cons_of_neg (by norm_num), List.filter_cons_of_neg (by norm_num),
    List.filter_nil] at h
  simp only [List.map_cons, List.map_nil, List.sum_cons, List.sum_nil, add_zero, abs_one] at h
  refine le_trans (le_of_eq ?_) (h.trans (le_of_eq ?_))
  · simp only [add_zero]
  · norm_num

end Verif.Props
