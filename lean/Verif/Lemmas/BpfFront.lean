import Verif.Spec.Bins
import Verif.Lemmas.BpfLeak
import Verif.Lemmas.Jitter
import Verif.Lemmas.Cdma
import Verif.Props.BpfLeak

/-! Correlations with a tone, before and after the band-pass filter. -/
namespace Verif
open Spec

theorem tone_getD {n k : ℕ} (a φ : ℝ) {j : ℕ} (hj : j < n) :
    (tone n k a φ).getD j 0 = a * Real.cos (2 * Real.pi * ((k : ℝ) * (j : ℝ) / n) + φ) := by
  simp [tone, List.getD, hj]

theorem zipAdd_getD {x y : List ℝ} {n j : ℕ} (hx : x.length = n) (hy : y.length = n) (hj : j < n) :
    (List.zipWith (· + ·) x y).getD j 0 = x.getD j 0 + y.getD j 0 := by
  rw [List.getD, List.getD, List.getD, List.getElem?_zipWith, List.getElem?_eq_getElem (by omega), List.getElem?_eq_getElem (by omega)]
  rfl

/-- The filter is an orthogonal projection: correlating its output with a tone on a bin of the band is correlating its input,
and correlating with a tone on another bin gives 0. -/
theorem bpOut_corr (lo hi : ℝ) {fs n k : ℕ} (hn : 0 < n) (hk : k ≤ n / 2) {c : List ℝ} (hc : c.length = n) (φ : ℝ) :
    ∑ j ∈ Finset.range n, (bpOut lo hi fs n c).getD j 0 * Real.cos (2 * Real.pi * ((k : ℝ) * (j : ℝ) / n) + φ)
      = open Classical in if inBand lo hi fs n k then
        ∑ j ∈ Finset.range n, c.getD j 0 * Real.cos (2 * Real.pi * ((k : ℝ) * (j : ℝ) / n) + φ) else 0 := by
  classical
  have htl : (tone n k 1 φ).length = n := by simp [tone]
  have hol := bpOut_length lo hi fs n c
  have p1 := bpOut_pythagoras lo hi (fs := fs) hn hc
  have p2 := bpOut_pythagoras lo hi (fs := fs) hn (c := List.zipWith (· + ·) c (tone n k 1 φ)) (by simp [hc, htl])
  rw [bpOut_add lo hi fs hn hc htl, bpOut_tone lo hi fs hn hk] at p2
  set o := bpOut lo hi fs n c with ho
  set g := fun j : ℕ => Real.cos (2 * Real.pi * ((k : ℝ) * (j : ℝ) / n) + φ) with hg
  have ht' : ∀ j ∈ Finset.range n, (tone n k 1 φ).getD j 0 = g j := by
    intro j hj
    rw [tone_getD 1 φ (Finset.mem_range.mp hj), one_mul]
  by_cases hb : inBand lo hi fs n k
  · rw [if_pos hb] at p2 ⊢
    have e1 : ∀ j ∈ Finset.range n, (List.zipWith (· + ·) o (tone n k 1 φ)).getD j 0 ^ 2
        = o.getD j 0 ^ 2 + 2 * (o.getD j 0 * g j) + g j ^ 2 := by
      intro j hj
      rw [zipAdd_getD hol htl (Finset.mem_range.mp hj), ht' j hj]; ring
    have e2 : ∀ j ∈ Finset.range n, ((List.zipWith (· + ·) o (tone n k 1 φ)).getD j 0
        - (List.zipWith (· + ·) c (tone n k 1 φ)).getD j 0) ^ 2 = (o.getD j 0 - c.getD j 0) ^ 2 := by
      intro j hj
      rw [zipAdd_getD hol htl (Finset.mem_range.mp hj), zipAdd_getD hc htl (Finset.mem_range.mp hj)]; ring
    have e3 : ∀ j ∈ Finset.range n, (List.zipWith (· + ·) c (tone n k 1 φ)).getD j 0 ^ 2
        = c.getD j 0 ^ 2 + 2 * (c.getD j 0 * g j) + g j ^ 2 := by
      intro j hj
      rw [zipAdd_getD hc htl (Finset.mem_range.mp hj), ht' j hj]; ring
    rw [Finset.sum_congr rfl e1, Finset.sum_congr rfl e2, Finset.sum_congr rfl e3] at p2
    simp only [Finset.sum_add_distrib, ← Finset.mul_sum] at p2
    linarith
  · rw [if_neg hb] at p2 ⊢
    have hz : ∀ j, (List.replicate n (0 : ℝ)).getD j 0 = 0 := by
      intro j
      simp only [List.getD, List.getElem?_replicate]
      split <;> rfl
    have hzl : (List.replicate n (0 : ℝ)).length = n := by simp
    have e1 : ∀ j ∈ Finset.range n, (List.zipWith (· + ·) o (List.replicate n 0)).getD j 0 ^ 2 = o.getD j 0 ^ 2 := by
      intro j hj
      rw [zipAdd_getD hol hzl (Finset.mem_range.mp hj), hz, add_zero]
    have e2 : ∀ j ∈ Finset.range n, ((List.zipWith (· + ·) o (List.replicate n 0)).getD j 0
        - (List.zipWith (· + ·) c (tone n k 1 φ)).getD j 0) ^ 2
        = (o.getD j 0 - c.getD j 0) ^ 2 - 2 * (o.getD j 0 * g j) + 2 * (c.getD j 0 * g j) + g j ^ 2 := by
      intro j hj
      rw [zipAdd_getD hol hzl (Finset.mem_range.mp hj), zipAdd_getD hc htl (Finset.mem_range.mp hj), ht' j hj, hz]; ring
    have e3 : ∀ j ∈ Finset.range n, (List.zipWith (· + ·) c (tone n k 1 φ)).getD j 0 ^ 2
        = c.getD j 0 ^ 2 + 2 * (c.getD j 0 * g j) + g j ^ 2 := by
      intro j hj
      rw [zipAdd_getD hc htl (Finset.mem_range.mp hj), ht' j hj]; ring
    rw [Finset.sum_congr rfl e1, Finset.sum_congr rfl e2, Finset.sum_congr rfl e3] at p2
    simp only [Finset.sum_add_distrib, Finset.sum_sub_distrib, ← Finset.mul_sum] at p2
    linarith

/-- `o` is what the filter made of the recording `l`, block by block. -/
def Kept (lo hi : ℝ) (fs n q : ℕ) (l o : List ℝ) : Prop :=
  o.length = q * n ∧ l.length = q * n ∧ ∀ b, b < q → ∀ f, OnBin fs n f → ∀ φ : ℝ,
    ∑ j ∈ Finset.range n, o.getD (b * n + j) 0 * Real.cos (2 * Real.pi * f * ((b * n + j : ℕ) : ℝ) / fs + φ)
      = open Classical in if lo ≤ f ∧ f ≤ hi then
        ∑ j ∈ Finset.range n, l.getD (b * n + j) 0 * Real.cos (2 * Real.pi * f * ((b * n + j : ℕ) : ℝ) / fs + φ) else 0

theorem list_range_getD {l : List ℝ} {N : ℕ} (h : l.length = N) : l = (List.range N).map (fun i => l.getD i 0) := by
  apply List.ext_getElem
  · simp [h]
  · intro i h1 h2
    simp [List.getD, h1]

theorem bandpass_kept {ι : Type} [RIter ι ℝ] (lo hi : ℝ) {fs n : ℕ} (hfs : 0 < fs) (hn : 0 < n) {m : ι} {l : List ℝ}
    (h : Yields m l) {q : ℕ} (hq : l.length = q * n) :
    ∃ o : List ℝ, Yields (bandpass lo hi m fs n) o ∧ Kept lo hi fs n q l o := by
  classical
  obtain ⟨o, h1, h2, h3⟩ := Props.out_block lo hi (fs := fs) hn (h.of_eq (list_range_getD hq))
  refine ⟨o, h1, h2, hq, fun b hb f hf φ => ?_⟩
  obtain ⟨p, hp, he⟩ := hf
  have hfR : (fs : ℝ) ≠ 0 := by exact_mod_cast hfs.ne'
  have hnR : (n : ℝ) ≠ 0 := by exact_mod_cast hn.ne'
  have hf : f = p * fs / n := by rw [eq_div_iff hnR, he]
  have hc : ∀ j : ℕ, Real.cos (2 * Real.pi * f * ((b * n + j : ℕ) : ℝ) / fs + φ)
      = Real.cos (2 * Real.pi * ((p : ℝ) * (j : ℝ) / n) + φ) := by
    intro j
    have : 2 * Real.pi * f * ((b * n + j : ℕ) : ℝ) / fs + φ
        = 2 * Real.pi * ((p : ℝ) * (j : ℝ) / n) + φ + ((p * b : ℕ) : ℝ) * (2 * Real.pi) := by
      rw [hf]; push_cast; field_simp; ring
    rw [this, Real.cos_add_nat_mul_two_pi]
  simp only [hc]
  have hcl : ((List.range n).map (fun j => l.getD (b * n + j) 0)).length = n := by simp
  have := bpOut_corr lo hi (fs := fs) hn hp hcl φ
  rw [Finset.sum_congr rfl (fun j hj => by rw [h3 b hb j (Finset.mem_range.mp hj)]), this]
  have hib : inBand lo hi fs n p ↔ lo ≤ f ∧ f ≤ hi := by rw [hf]; rfl
  by_cases hb2 : lo ≤ f ∧ f ≤ hi
  · rw [if_pos hb2, if_pos (hib.mpr hb2)]
    refine Finset.sum_congr rfl fun j hj => ?_
    have hj := Finset.mem_range.mp hj
    congr 1
    simp [List.getD, hj]
  · rw [if_neg hb2, if_neg (fun h => hb2 (hib.mp h))]

theorem sum_sub_blocks (d n : ℕ) (f : ℕ → ℝ) : ∑ j ∈ Finset.range (d * n), f j = ∑ b ∈ Finset.range d, ∑ j ∈ Finset.range n, f (b * n + j) := by
  induction d with
  | zero => simp
  | succ d ih => rw [Finset.sum_range_succ, ← ih, Nat.succ_mul, Finset.sum_range_add]

/-- The correlation of a whole symbol of `d` blocks, weighted by a factor that is constant on each block. -/
theorem Kept.symbol {lo hi : ℝ} {fs n q : ℕ} {l o : List ℝ} (h : Kept lo hi fs n q l o) {d m : ℕ} (hm : (m + 1) * d ≤ q)
    {f : ℝ} (hf : OnBin fs n f) (φ : ℝ) (A : ℕ → ℝ) (hA : ∀ b j, j < n → A (b * n + j) = A (b * n)) :
    ∑ j ∈ Finset.range (d * n), o.getD (m * (d * n) + j) 0 * A (m * (d * n) + j)
        * Real.cos (2 * Real.pi * f * ((m * (d * n) + j : ℕ) : ℝ) / fs + φ)
      = open Classical in if lo ≤ f ∧ f ≤ hi then
        ∑ j ∈ Finset.range (d * n), l.getD (m * (d * n) + j) 0 * A (m * (d * n) + j)
          * Real.cos (2 * Real.pi * f * ((m * (d * n) + j : ℕ) : ℝ) / fs + φ) else 0 := by
  classical
  have e : ∀ x : List ℝ, ∑ j ∈ Finset.range (d * n), x.getD (m * (d * n) + j) 0 * A (m * (d * n) + j)
        * Real.cos (2 * Real.pi * f * ((m * (d * n) + j : ℕ) : ℝ) / fs + φ)
      = ∑ b ∈ Finset.range d, A ((m * d + b) * n) * ∑ j ∈ Finset.range n, x.getD ((m * d + b) * n + j) 0
        * Real.cos (2 * Real.pi * f * (((m * d + b) * n + j : ℕ) : ℝ) / fs + φ) := by
    intro x
    rw [sum_sub_blocks]
    refine Finset.sum_congr rfl fun b _ => ?_
    rw [Finset.mul_sum]
    refine Finset.sum_congr rfl fun j hj => ?_
    rw [show m * (d * n) + (b * n + j) = (m * d + b) * n + j by ring, hA _ j (Finset.mem_range.mp hj)]
    ring
  rw [e, e]
  have hb : ∀ b ∈ Finset.range d, m * d + b < q := by
    intro b hb
    have := Finset.mem_range.mp hb
    have : (m + 1) * d = m * d + d := by ring
    omega
  by_cases hin : lo ≤ f ∧ f ≤ hi
  · rw [if_pos hin]
    refine Finset.sum_congr rfl fun b hb' => ?_
    rw [h.2.2 _ (hb b hb') f hf φ, if_pos hin]
  · rw [if_neg hin]
    refine Finset.sum_eq_zero fun b hb' => ?_
    rw [h.2.2 _ (hb b hb') f hf φ, if_neg hin, mul_zero]

theorem recording_self {l : List ℝ} {N k : ℕ} (h : l.length = N * k) : Recording l N k (fun _ i => l.getD i 0) :=
  ⟨h, fun i hi => by simp [List.getD, h, hi]⟩

end Verif
