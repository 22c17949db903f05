import Verif.Lemmas.IeeeRadio

/-! Several CDMA users in IEEE arithmetic. -/
namespace Verif
open Spec F64

theorem agreements_comm (a b : List Bool) : agreements a b = agreements b a := by
  unfold agreements
  rw [← List.zip_swap, List.countP_map]
  congr 1
  funext x
  simp only [Function.comp, Prod.fst_swap, Prod.snd_swap]
  exact Bool.beq_comm

theorem agreements_self (l : List Bool) : agreements l l = l.length := by
  unfold agreements
  induction l with
  | nil => rfl
  | cons a l ih => rw [List.zip_cons_cons, List.countP_cons, ih]; simp

theorem bitToNrz_sg (b : Bool) : (bitToNrz b : ℝ) = sg b := bitToNrz_real b

/-- Correlation of one user's signal with the key of another one, exact arithmetic. -/
theorem cdma_corr_one {k k' : List Bool} {L sps spc n : ℕ} (hdiv : sps = L * spc) (hk : k.length = L) (hk' : k'.length = L)
    {d : ℝ} {p : ℤ} (hd : spc * d = p * Real.pi) (hs : Real.sin d ≠ 0) (b : Bool) :
    ∑ j ∈ Finset.range sps, sg b * Real.cos ((n * sps + j : ℕ) * d) * sg (keyBit k spc (n * sps + j))
        * sg (keyBit k' spc (n * sps + j)) * Real.cos ((n * sps + j : ℕ) * d)
      = sg b * (spc / 2) * (2 * (agreements k k' : ℝ) - L) := by
  rw [← key_inner hk hk', Finset.mul_sum, hdiv, sum_range_mul']
  apply Finset.sum_congr rfl
  intro c hc
  have hc' : c < L := by simpa using hc
  rw [← sum_cos_sq_half hd hs (n * (L * spc) + c * spc), Finset.mul_sum, Finset.sum_mul]
  apply Finset.sum_congr rfl
  intro t ht
  have ht' : t < spc := by simpa using ht
  have hkb : ∀ k : List Bool, k.length = L → keyBit k spc (n * (L * spc) + (c * spc + t)) = k.getD c false := by
    intro k hkl
    rw [← hkl]
    exact keyBit_eq (by omega) ht'
  rw [hkb k hk, hkb k' hk', bitToNrz_sg, bitToNrz_sg, ← Nat.add_assoc]
  ring

/-- Correlation of the superposition with the key of one of the users. -/
theorem cdma_corr {users : List (List Bool × List Bool)} {v : List Bool × List Bool} {L sps spc n : ℕ} (hdiv : sps = L * spc)
    (hkey : ∀ u ∈ users, u.1.length = L) (hv : v ∈ users) (horth : users.Pairwise (fun u v => 2 * agreements u.1 v.1 = L))
    {d : ℝ} {p : ℤ} (hd : spc * d = p * Real.pi) (hs : Real.sin d ≠ 0) :
    ∑ j ∈ Finset.range sps, (users.map (fun u => sg (u.2.getD n false) * Real.cos ((n * sps + j : ℕ) * d)
        * sg (keyBit u.1 spc (n * sps + j)))).sum * sg (keyBit v.1 spc (n * sps + j)) * Real.cos ((n * sps + j : ℕ) * d)
      = sg (v.2.getD n false) * (sps / 2) := by
  simp only [list_sum_map_mul_left]
  rw [finset_sum_list_sum]
  have e : users.map (fun u => ∑ j ∈ Finset.range sps, sg (u.2.getD n false) * Real.cos ((n * sps + j : ℕ) * d)
        * sg (keyBit u.1 spc (n * sps + j)) * sg (keyBit v.1 spc (n * sps + j)) * Real.cos ((n * sps + j : ℕ) * d))
      = users.map (fun u => sg (u.2.getD n false) * (spc / 2) * (2 * (agreements u.1 v.1 : ℝ) - L)) :=
    List.map_congr_left (fun u hu => cdma_corr_one hdiv (hkey u hu) (hkey v hv) hd hs _)
  rw [e]
  obtain ⟨as, bs, rfl⟩ := List.append_of_mem hv
  rw [List.pairwise_append, List.pairwise_cons] at horth
  obtain ⟨-, ⟨ho2, -⟩, ho1⟩ := horth
  have hz : ∀ l : List (List Bool × List Bool), (∀ u ∈ l, 2 * agreements u.1 v.1 = L) →
      (l.map (fun u => sg (u.2.getD n false) * (spc / 2) * (2 * (agreements u.1 v.1 : ℝ) - L))).sum = 0 := by
    intro l hl
    apply List.sum_eq_zero
    intro x hx
    obtain ⟨u, hu, rfl⟩ := List.mem_map.mp hx
    have : (2 : ℝ) * (agreements u.1 v.1 : ℝ) = L := by exact_mod_cast hl u hu
    rw [this, sub_self, mul_zero]
  have hself : agreements v.1 v.1 = L := by
    rw [agreements_self]
    exact hkey v (by simp)
  rw [List.map_append, List.map_cons, List.sum_append, List.sum_cons, hz as (fun u hu => ho1 u hu v (by simp)),
    hz bs (fun u hu => by rw [agreements_comm]; exact ho2 u hu), hself, hdiv]
  push_cast
  ring

theorem _root_.Verif.F64.Ap.mul_nrz {a : Float} {r ε : ℝ} (ha : Ap a r ε) (b : Bool) : Ap (a * (if b then 1 else -1)) (r * sg b) ε := by
  cases b
  · simp only [Bool.false_eq_true, if_false, sg, mul_neg_one_eq, mul_neg, mul_one]; exact ha.neg
  · simp only [if_true, sg, mul_one_eq, mul_one]; exact ha

theorem abs_list_sum_sub_le {A : Type} (l : List A) (f g : A → ℝ) {e : ℝ} (h : ∀ a ∈ l, |f a - g a| ≤ e) :
    |(l.map f).sum - (l.map g).sum| ≤ l.length * e := by
  induction l with
  | nil => simp
  | cons a l ih =>
    have h1 := h a (by simp)
    have h2 := ih (fun x hx => h x (by simp [hx]))
    simp only [List.map_cons, List.sum_cons, List.length_cons]
    push_cast
    rw [show f a + (l.map f).sum - (g a + (l.map g).sum) = (f a - g a) + ((l.map f).sum - (l.map g).sum) by ring]
    refine (abs_add_le _ _).trans ?_
    linarith

theorem abs_list_sum_le {A : Type} (l : List A) (f : A → ℝ) {B : ℝ} (h : ∀ a ∈ l, |f a| ≤ B) : |(l.map f).sum| ≤ l.length * B := by
  have := abs_list_sum_sub_le l f (fun _ => 0) (e := B) (fun a ha => by simpa using h a ha)
  simpa using this

/-- The correlator on samples with errors up to `3/16`, `2^32` samples, amplitudes up to 64. -/
theorem corr_noisy {k : ℕ} (hk : k ≤ 2 ^ 32) {x c : ℕ → Float} {X C : ℕ → ℝ}
    (hx : ∀ j < k, Ap (x j) (X j) (5 / 32) ∧ |X j| ≤ 64) (hc : ∀ j < k, Ap (c j) (C j) (1 / 2 ^ 14) ∧ |C j| ≤ 1) :
    Ap (rsum ((List.range k).map (fun j => x j * c j))) (∑ j ∈ Finset.range k, X j * C j) (k * (3 / 16)) := by
  have hk' : (k : ℝ) ≤ 4294967296 := by norm_num at hk; exact_mod_cast hk
  have hk0 : (0 : ℝ) ≤ k := by positivity
  have ht := tiny_le (k := 60) (by norm_num)
  refine (Ap.rsum (e := 11 / 64) (t := 1 / 2 ^ 14) (B := 64) ?_ ?_ (by norm_num) ?_ ?_).mono ?_
  · intro j hj
    refine ((hx j hj).1.mul (hc j hj).1 (hx j hj).2 (hc j hj).2 (le_big (k := 7) (by norm_num) (by norm_num))).mono ?_
    rw [uu_eq]
    norm_num at ht ⊢
    linarith
  · intro j hj
    rw [abs_mul]
    calc |X j| * |C j| ≤ 64 * 1 := mul_le_mul (hx j hj).2 (hc j hj).2 (abs_nonneg _) (by norm_num)
      _ = 64 := by norm_num
  · refine le_big (k := 40) (by norm_num) ?_
    norm_num
    linarith
  · rw [uu_eq]
    norm_num at ht ⊢
    linarith
  · norm_num
    linarith

/-- Up to 64 samples of amplitude about one, added from left to right. -/
theorem sum_ap {l : List Float} (hl : l.length ≤ 64) (h : ∀ x ∈ l, Fin x ∧ |val x| ≤ 1 + 1 / 2 ^ 14) :
    Ap (rsum l) (l.map val).sum (1 / 8) := by
  have hlR : (l.length : ℝ) ≤ 64 := by exact_mod_cast hl
  have hl0 : (0 : ℝ) ≤ l.length := by positivity
  have ht := tiny_le (k := 60) (by norm_num)
  have e1 : (List.range l.length).map (fun j => l.getD j 0) = l := by
    apply List.ext_getElem
    · simp
    · intro i h1 h2
      simp [List.getD_eq_getElem?_getD, List.getElem?_eq_getElem h2]
  have e2 : (l.map val).sum = ∑ j ∈ Finset.range l.length, val (l.getD j 0) := by
    conv_lhs => rw [← e1]
    rw [List.map_map]
    rfl
  have hm : ∀ j < l.length, l.getD j 0 ∈ l := by
    intro j hj
    rw [List.getD_eq_getElem?_getD, List.getElem?_eq_getElem hj]
    exact List.getElem_mem _
  have main := Ap.rsum (a := fun j => l.getD j 0) (r := fun j => val (l.getD j 0)) (n := l.length) (B := 2) (e := 0)
    (t := 1 / 2 ^ 10) (fun j hj => Ap.exact (h _ (hm j hj)).1)
    (fun j hj => (h _ (hm j hj)).2.trans (by norm_num)) (by norm_num)
    (le_big (k := 40) (by norm_num) (by norm_num; linarith)) (by rw [uu_eq]; norm_num at ht ⊢; linarith)
  rw [e1] at main
  rw [e2]
  exact main.mono (by norm_num; linarith)

end Verif
