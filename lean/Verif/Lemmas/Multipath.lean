import Verif.Lemmas.OfdmRx
import Verif.Lemmas.Symbols
import Verif.Lemmas.Ssca
import Verif.Spec.Channel

/-! OFDM frames over a channel that is no longer than the cyclic prefix. -/
namespace Verif
open Spec

theorem response_unit (n : ℕ) (h : List ℂ) (f : ℤ) :
    response n h f = ∑ d ∈ Finset.range h.length, h.getD d 0 * unit n (-(d * f)) := by
  unfold response unit
  refine Finset.sum_congr rfl fun d _ => ?_
  congr 2; push_cast; ring

/-- A circular shift by `d` samples turns the carrier `q`. -/
theorem sum_shift {n d : ℕ} (hd : d < n) (g : ℕ → ℂ) (q : ℤ) :
    ∑ j ∈ Finset.range n, g ((j + n - d) % n) * unit n (-(j * q))
      = unit n (-(d * q)) * ∑ m ∈ Finset.range n, g m * unit n (-(m * q)) := by
  have hn : 0 < n := by omega
  rw [Finset.mul_sum]
  refine Finset.sum_bij' (fun j _ => (j + n - d) % n) (fun m _ => (m + d) % n) ?_ ?_ ?_ ?_ ?_
  · intro j _; exact Finset.mem_range.mpr (Nat.mod_lt _ hn)
  · intro j _; exact Finset.mem_range.mpr (Nat.mod_lt _ hn)
  · intro j hj
    have hj := Finset.mem_range.mp hj
    rw [Nat.mod_add_mod, show j + n - d + d = j + n by omega, Nat.add_mod_right, Nat.mod_eq_of_lt hj]
  · intro j hj
    have hj := Finset.mem_range.mp hj
    rw [Nat.add_sub_assoc hd.le, Nat.mod_add_mod, show j + d + (n - d) = j + n by omega, Nat.add_mod_right,
      Nat.mod_eq_of_lt hj]
  · intro j hj
    have hj := Finset.mem_range.mp hj
    rw [show ∀ a b c : ℂ, a * (b * c) = b * (a * c) by intros; ring]
    congr 1
    rw [← unit_add]
    apply unit_congr hn
    have e : (((j + n - d) % n : ℕ) : ℤ) = (j + n - d) - n * (((j + n - d) / n : ℕ) : ℤ) := by
      have := Nat.mod_add_div (j + n - d) n
      have h2 : ((j + n - d : ℕ) : ℤ) = j + n - d := by omega
      rw [← h2, eq_sub_iff_add_eq]
      exact_mod_cast this
    rw [e]
    refine ⟨(1 - ((j + n - d) / n : ℕ)) * q, ?_⟩
    ring

/-- Inside a frame the samples before the body repeat its end. -/
theorem frameL_wrap {n p d j : ℕ} (x : List (Cx ℝ)) (hd : d ≤ n / 4) (hj : j < n) :
    (frameL n p x).getD (n / 4 + j - d) 0 = ((frameL n p x).drop (n / 4)).getD ((j + n - d) % n) 0 := by
  have hb := frameBody_length n p x
  rw [frameL_drop, frameL, List.map_append]
  simp only [List.getD]
  congr 1
  by_cases h : d ≤ j
  · rw [show j + n - d = (j - d) + n by omega, Nat.add_mod_right, Nat.mod_eq_of_lt (by omega),
      List.getElem?_append_right (by simp [hb]; omega)]
    congr 1
    simp [hb]; omega
  · rw [Nat.mod_eq_of_lt (by omega), List.getElem?_append_left (by simp [hb]; omega), List.map_drop, List.getElem?_drop]
    congr 1
    omega

theorem deframe_getD {n p i : ℕ} (h1 : 1 ≤ p) (h2 : p ≤ n) (b : List (Cx ℝ)) (hb : b.length = n + n / 4) (hi : i < n - p) :
    ((deframeL n p b).getD i 0).toC
      = ∑ j ∈ Finset.range n, (b.getD (n / 4 + j) 0).toC
          * unit n (-(j * (((carriers n p).getD i 0 + (n + 1) / 2 : ℕ) : ℤ))) := by
  have hi' : i < (carriers n p).length := by rw [carriers_length h1 h2]; exact hi
  have hc : (carriers n p)[i]? = some (carriers n p)[i] := List.getElem?_eq_getElem hi'
  have hclt : (carriers n p)[i] < n := carriers_lt h1 h2 _ (List.getElem_mem hi')
  have hbl : (b.drop (n / 4)).length = n := by rw [List.length_drop, hb]; omega
  rw [deframeL]
  have e : ((carriers n p).map (fun k => (fftshift (Fft.dft false (b.drop (n / 4)))).getD k 0)).getD i 0
      = (fftshift (Fft.dft false (b.drop (n / 4)))).getD (carriers n p)[i] 0 := by
    rw [List.getD, List.getElem?_map, hc]; rfl
  rw [e, fftshift_getD _ hbl hclt, Cx.toC_ofC, dftAt_unit, List.length_map, hbl]
  refine Finset.sum_congr rfl fun j hj => ?_
  have hj := Finset.mem_range.mp hj
  congr 1
  · simp [List.getD, hb, show n / 4 + j < n + n / 4 by omega]
  · apply unit_congr (by omega)
    have : (carriers n p).getD i 0 = (carriers n p)[i] := by simp [List.getD, hc]
    rw [this]
    set a := (carriers n p)[i] + (n + 1) / 2
    refine ⟨j * ((a / n : ℕ) : ℤ), ?_⟩
    have h := Nat.mod_add_div a n
    have h' : (a : ℤ) = ((a % n : ℕ) : ℤ) + n * ((a / n : ℕ) : ℤ) := by exact_mod_cast h.symm
    rw [h']
    push_cast
    have h3 : (((a % n : ℕ) : ℤ) + n * ((a / n : ℕ) : ℤ)) % n = ((a % n : ℕ) : ℤ) := by rw [← h']; push_cast; rfl
    push_cast at h3
    ring_nf at h3 ⊢

theorem deframe_frame_getD {n p i : ℕ} (h1 : 1 ≤ p) (h2 : p ≤ n) (he : n % 2 = 0) (d : List (Cx ℝ)) (hi : i < n - p) :
    (deframeL n p (frameL n p d)).getD i 0 = d.getD i 0 := by
  have hi' : i < (carriers n p).length := by rw [carriers_length h1 h2]; exact hi
  have hc : (carriers n p)[i]? = some (carriers n p)[i] := List.getElem?_eq_getElem hi'
  rw [deframe_frame, fftshift_even _ (by rw [place_length]; exact he), List.getD, List.getElem?_map, hc, Option.map_some,
    Option.getD_some, List.getD, place_carrier (carriers_nodup n p) (carriers_lt h1 h2) d hc]
  rfl

/-- One frame whose body went through the channel. -/
theorem deframe_channel {n p i : ℕ} (h1 : 1 ≤ p) (h2 : p ≤ n) (he : n % 2 = 0) (x b : List (Cx ℝ)) (h : List ℂ)
    (hh : h.length ≤ n / 4 + 1) (hb : b.length = n + n / 4)
    (hbs : ∀ j < n, (b.getD (n / 4 + j) 0).toC
      = ∑ d ∈ Finset.range h.length, h.getD d 0 * ((frameL n p x).getD (n / 4 + j - d) 0).toC)
    (hi : i < n - p) :
    ((deframeL n p b).getD i 0).toC
      = response n h ((carriers n p).getD i 0 - (n / 2 : ℕ)) * (x.getD i 0).toC := by
  have hn : 0 < n := by omega
  rw [← deframe_frame_getD h1 h2 he x hi, deframe_getD h1 h2 b hb hi,
    deframe_getD h1 h2 (frameL n p x) (frameL_length n p x) hi, response_unit, Finset.sum_mul]
  set q : ℤ := (((carriers n p).getD i 0 + (n + 1) / 2 : ℕ) : ℤ) with hq
  rw [Finset.sum_congr rfl (fun j hj => by rw [hbs j (Finset.mem_range.mp hj), Finset.sum_mul]), Finset.sum_comm]
  refine Finset.sum_congr rfl fun d hd => ?_
  have hd := Finset.mem_range.mp hd
  have hdn : d ≤ n / 4 := by omega
  have hu : unit n (-(d * ((carriers n p).getD i 0 - (n / 2 : ℕ)))) = unit n (-(d * q)) := by
    apply unit_congr hn
    refine ⟨d, ?_⟩
    have : ((n + 1) / 2 : ℕ) + (n / 2 : ℕ) = n := by omega
    have : (((n + 1) / 2 : ℕ) : ℤ) = n - ((n / 2 : ℕ) : ℤ) := by omega
    rw [hq, Nat.cast_add, this]; ring
  rw [hu, mul_assoc]
  have := sum_shift (n := n) (d := d) (by omega) (fun m => (((frameL n p x).drop (n / 4)).getD m 0).toC) q
  have e2 : ∀ m, ((frameL n p x).drop (n / 4)).getD m 0 = (frameL n p x).getD (n / 4 + m) 0 := by
    intro m; simp [List.getD, List.getElem?_drop]
  simp only [← e2]
  rw [← this, Finset.mul_sum]
  refine Finset.sum_congr rfl fun j hj => ?_
  rw [← frameL_wrap x hdn (Finset.mem_range.mp hj)]
  ring

end Verif
