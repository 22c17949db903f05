import Verif.F64.Dft
import Verif.F64.CMul
import Verif.F64.Libm
import Verif.F64.Int
import Verif.Model.Lib

/-!
Sums of squares, means and root mean squares in IEEE arithmetic: finiteness, accuracy and monotonicity.
-/

namespace Verif
open F64

/-- The exact sum of squares of a list of doubles. -/
noncomputable def sqSum (l : List Float) : ℝ := (l.map (fun x => val x ^ 2)).sum

theorem sqSum_nonneg (l : List Float) : 0 ≤ sqSum l := List.sum_nonneg (by simp; intros; positivity)

theorem sqSum_le {l : List Float} {S : ℝ} (h : ∀ x ∈ l, F64.Fin x ∧ |val x| ≤ S) : sqSum l ≤ l.length * S ^ 2 := by
  induction l with
  | nil => simp [sqSum]
  | cons x l ih =>
    have h1 := ih (fun y hy => h y (List.mem_cons_of_mem _ hy))
    have h2 := (h x List.mem_cons_self).2
    have h3 : val x ^ 2 ≤ S ^ 2 := by
      rw [← sq_abs]; exact pow_le_pow_left₀ (abs_nonneg _) h2 2
    unfold sqSum at *
    simp only [List.map_cons, List.sum_cons, List.length_cons]
    push_cast
    linarith

theorem rsum_concat (l : List Float) (x : Float) : rsum (l ++ [x]) = rsum l + x := by simp [rsum]

/-- One step of the summation, in numbers. -/
theorem sum_step {k E x a u t s : ℝ} (hk : 0 ≤ k) (hE : 0 ≤ E) (hx : 0 ≤ x) (hu : 0 < u) (ht : 0 < t) (hs : s = k * (3 * u * E + 4 * t))
    (ha : a = x * u + t) (hku : 4 * (k + 1) * u ≤ 1 / 4) :
    s + a + (E + x + (s + a)) * u + t ≤ (k + 1) * (3 * u * (E + x) + 4 * t) := by
  subst hs ha
  have h1 : k * u ≤ 1 / 16 := by nlinarith
  have hu1 : u ≤ 1 / 16 := by nlinarith
  have h2 : k * (3 * u * E + 4 * t) * u ≤ 3 / 16 * (u * E) + 1 / 4 * t := by
    have e : k * (3 * u * E + 4 * t) * u = 3 * (u * E) * (k * u) + 4 * t * (k * u) := by ring
    rw [e]
    have := mul_le_mul_of_nonneg_left h1 (show 0 ≤ 3 * (u * E) by positivity)
    have := mul_le_mul_of_nonneg_left h1 (show 0 ≤ 4 * t by positivity)
    linarith
  have h3 : (x * u + t) * u ≤ 1 / 16 * (u * x) + 1 / 16 * t := by
    have e : (x * u + t) * u = (u * x) * u + t * u := by ring
    rw [e]
    have := mul_le_mul_of_nonneg_left hu1 (show 0 ≤ u * x by positivity)
    have := mul_le_mul_of_nonneg_left hu1 ht.le
    linarith
  have h4 : 0 ≤ k * u * x := by positivity
  have h5 : 0 ≤ u * E := by positivity
  have h6 : 0 ≤ u * x := by positivity
  nlinarith

theorem sum_part {A B t : ℝ} (hB : 0 ≤ B) (ht : 0 ≤ t) : A ≤ A + B + t := by linarith

theorem big_part {W E A : ℝ} (h : E ≤ W) (h1 : 1 ≤ W) (hA : A ≤ E + 1) : E + A ≤ 1024 * W := by linarith

/-- The computed sum of squares: finite, and its relative error is at most `3 n / 2^53` (up to underflow). -/
theorem sumsq_ap {S : ℝ} (hS : S ≤ 2 ^ 400) {l : List Float} (hl : l.length ≤ 2 ^ 40)
    (h : ∀ x ∈ l, F64.Fin x ∧ |val x| ≤ S) :
    Ap (rsum (l.map (fun x => x * x))) (sqSum l) (l.length * (3 * uu * sqSum l + 4 * tiny)) := by
  induction l using List.reverseRecOn with
  | nil =>
    refine ⟨fin_zero, ?_⟩
    show |val 0 - _| ≤ _
    rw [val_zero]
    simp [sqSum]
  | append_singleton l x ih =>
    have hl1 : l.length + 1 ≤ 2 ^ 40 := by simpa using hl
    have hlR : (l.length : ℝ) + 1 ≤ 2 ^ 40 := by exact_mod_cast hl1
    have hl' : ∀ y ∈ l, F64.Fin y ∧ |val y| ≤ S := fun y hy => h y (by simp [hy])
    obtain ⟨fx, hx⟩ := h x (by simp)
    have hS0 : 0 ≤ S := (abs_nonneg _).trans hx
    have i1 := ih (by omega) hl'
    have hE := sqSum_le hl'
    have hE0 := sqSum_nonneg l
    have hS2 : S ^ 2 ≤ 2 ^ 800 := by
      have := pow_le_pow_left₀ hS0 hS 2
      rwa [← pow_mul] at this
    have hx2 : |val x| * |val x| = val x ^ 2 := by rw [← sq, sq_abs]
    have hxS : val x ^ 2 ≤ S ^ 2 := by rw [← sq_abs]; exact pow_le_pow_left₀ (abs_nonneg _) hx 2
    have hu : uu ≤ 1 / 2 ^ 53 := uu_eq.le
    have hu0 := uu_pos
    have ht : tiny ≤ 1 / 2 ^ 60 := tiny_le (by norm_num)
    have ht0 := tiny_pos
    have m1 : Ap (x * x) (val x ^ 2) (val x ^ 2 * uu + tiny) := by
      have := (Ap.exact fx).mul (Ap.exact fx) le_rfl le_rfl (R := |val x|) (S := |val x|)
        (le_big (k := 800) (by norm_num) (by rw [hx2]; linarith))
      rw [hx2] at this
      have e : val x * val x = val x ^ 2 := by ring
      rw [e] at this
      exact this.mono (le_of_eq (by ring))
    have e1 : sqSum (l ++ [x]) = sqSum l + val x ^ 2 := by simp [sqSum]
    have hku : 4 * ((l.length : ℝ) + 1) * uu ≤ 1 / 4 := by
      calc 4 * ((l.length : ℝ) + 1) * uu ≤ 4 * 2 ^ 40 * (1 / 2 ^ 53) := by
            apply mul_le_mul (by linarith) hu hu0.le (by norm_num)
        _ ≤ 1 / 4 := by norm_num
    have st := sum_step (k := l.length) (E := sqSum l) (x := val x ^ 2) (u := uu) (t := tiny) (Nat.cast_nonneg _) hE0 (sq_nonneg _) hu0
      ht0 rfl rfl hku
    have hES : sqSum l + val x ^ 2 ≤ 2 ^ 40 * 2 ^ 800 := by
      have h1 : ((l.length : ℝ) + 1) * S ^ 2 ≤ 2 ^ 40 * 2 ^ 800 := mul_le_mul hlR hS2 (by positivity) (by positivity)
      linarith
    have hx0 := sq_nonneg (val x)
    have a1 := i1.add m1 (R := sqSum l + val x ^ 2) (by rw [abs_of_nonneg (by positivity)]) (by
      refine le_big (k := 850) (by norm_num) ?_
      have b1 : ((l.length : ℝ) + 1) * (3 * uu * (sqSum l + val x ^ 2) + 4 * tiny) ≤ (sqSum l + val x ^ 2) + 1 := by
        have c1 : ((l.length : ℝ) + 1) * uu ≤ 1 / 16 := by linarith
        have c2 : ((l.length : ℝ) + 1) * tiny ≤ 1 / 4 := by
          calc ((l.length : ℝ) + 1) * tiny ≤ 2 ^ 40 * (1 / 2 ^ 60) := mul_le_mul hlR ht ht0.le (by norm_num)
            _ ≤ 1 / 4 := by norm_num
        have c3 := mul_le_mul_of_nonneg_right c1 (show 0 ≤ 3 * (sqSum l + val x ^ 2) by positivity)
        have e : ((l.length : ℝ) + 1) * (3 * uu * (sqSum l + val x ^ 2) + 4 * tiny)
          = ((l.length : ℝ) + 1) * uu * (3 * (sqSum l + val x ^ 2)) + 4 * (((l.length : ℝ) + 1) * tiny) := by ring
        rw [e]; linarith
      have b2 : 0 ≤ (sqSum l + val x ^ 2 + (l.length * (3 * uu * sqSum l + 4 * tiny) + (val x ^ 2 * uu + tiny))) * uu := by positivity
      have b3 : (2 : ℝ) ^ 850 = 2 ^ 10 * (2 ^ 40 * 2 ^ 800) := by rw [← pow_add, ← pow_add]
      have b4 : (1 : ℝ) ≤ 2 ^ 40 * 2 ^ 800 := by
        rw [← pow_add]; exact one_le_pow₀ (by norm_num)
      have b5 := le_trans (sum_part b2 ht0.le) (st.trans b1)
      have b6 : (2 : ℝ) ^ 10 = 1024 := by norm_num
      rw [b3, b6]
      exact big_part hES b4 b5)
    rw [List.map_append, List.map_singleton, rsum_concat, e1]
    refine a1.mono ?_
    rw [List.length_append, List.length_singleton]
    push_cast
    exact st

theorem mul_self_val {S : ℝ} (hS : S ≤ 2 ^ 400) {x : Float} (h : F64.Fin x ∧ |val x| ≤ S) :
    F64.Fin (x * x) ∧ val (x * x) = rnd (val x * val x) := by
  refine mul_val h.1 h.1 (rnd_lt_huge (le_big (k := 800) (by norm_num) ?_))
  rw [abs_mul]
  have hS0 := (abs_nonneg _).trans h.2
  calc |val x| * |val x| ≤ 2 ^ 400 * 2 ^ 400 := mul_le_mul (h.2.trans hS) (h.2.trans hS) (abs_nonneg _) (by positivity)
    _ = 2 ^ 800 := by rw [← pow_add]

/-- A finite sum of two finite numbers of moderate size is the rounded exact sum. -/
theorem add_val_of_bound {a b : Float} {W : ℝ} (ha : F64.Fin a) (hb : F64.Fin b) (h : |val a + val b| ≤ W) (hW : W ≤ 2 ^ (1023 : ℤ)) :
    F64.Fin (a + b) ∧ val (a + b) = rnd (val a + val b) := add_val ha hb (rnd_lt_huge (h.trans hW))

theorem four_part {W E A : ℝ} (h : E ≤ W) (h1 : 1 ≤ W) (hA : A ≤ E + 1) : E + A ≤ 4 * W := by linarith

theorem mul_self_le {S : ℝ} (hS : S ≤ 2 ^ 400) {x : Float} (h : F64.Fin x ∧ |val x| ≤ S) : |val (x * x)| ≤ 2 ^ 842 := by
  rw [(mul_self_val hS h).2, abs_rnd]
  refine rnd_le_of_le ?_ ?_
  · have := isF_zpow (e := 842) (by norm_num)
    exact_mod_cast this
  rw [abs_mul]
  calc |val x| * |val x| ≤ 2 ^ 400 * 2 ^ 400 := mul_le_mul (h.2.trans hS) (h.2.trans hS) (abs_nonneg _) (by positivity)
    _ = 2 ^ 800 := by rw [← pow_add]
    _ ≤ 2 ^ 842 := pow_le_pow_right₀ (by norm_num) (by norm_num)

/-- A finite computed sum of squares of `l` is at most twice the exact sum, plus 1. -/
theorem sumsq_le {S : ℝ} (hS : S ≤ 2 ^ 400) {l : List Float} (hl : l.length ≤ 2 ^ 40)
    (h : ∀ x ∈ l, F64.Fin x ∧ |val x| ≤ S) : |val (rsum (l.map (fun x => x * x)))| ≤ 2 ^ 842 := by
  have h1 := sumsq_ap hS hl h
  have h2 := sqSum_le h
  have h0 := sqSum_nonneg l
  have hlR : (l.length : ℝ) ≤ 2 ^ 40 := by exact_mod_cast hl
  have hu := uu_pos
  have ht := tiny_pos
  have hE : sqSum l ≤ 2 ^ 40 * 2 ^ 800 := by
    rcases l with _ | ⟨x, l⟩
    · simp only [sqSum, List.map_nil, List.sum_nil]; positivity
    have hS0 : 0 ≤ S := (abs_nonneg _).trans (h x (by simp)).2
    have hS2 : S ^ 2 ≤ 2 ^ 800 := by
      have := pow_le_pow_left₀ hS0 hS 2
      rwa [← pow_mul] at this
    exact h2.trans (mul_le_mul hlR hS2 (by positivity) (by positivity))
  have h3 : (l.length : ℝ) * (3 * uu * sqSum l + 4 * tiny) ≤ sqSum l + 1 := by
    have c1 : (l.length : ℝ) * uu ≤ 1 / 16 := by
      calc (l.length : ℝ) * uu ≤ 2 ^ 40 * (1 / 2 ^ 53) := mul_le_mul hlR uu_eq.le hu.le (by norm_num)
        _ ≤ 1 / 16 := by norm_num
    have c2 : (l.length : ℝ) * tiny ≤ 1 / 4 := by
      calc (l.length : ℝ) * tiny ≤ 2 ^ 40 * (1 / 2 ^ 60) := mul_le_mul hlR (tiny_le (by norm_num)) ht.le (by norm_num)
        _ ≤ 1 / 4 := by norm_num
    have c3 := mul_le_mul_of_nonneg_right c1 (show 0 ≤ 3 * sqSum l by positivity)
    have e : (l.length : ℝ) * (3 * uu * sqSum l + 4 * tiny) = (l.length : ℝ) * uu * (3 * sqSum l) + 4 * ((l.length : ℝ) * tiny) := by ring
    rw [e]; linarith
  refine (h1.abs_le (R := sqSum l) (by rw [abs_of_nonneg h0])).trans ?_
  have b3 : (2 : ℝ) ^ 842 = 4 * (2 ^ 40 * 2 ^ 800) := by rw [← pow_add, show 842 = 2 + 840 by norm_num, pow_add]; norm_num
  have b4 : (1 : ℝ) ≤ 2 ^ 40 * 2 ^ 800 := by
    rw [← pow_add]; exact one_le_pow₀ (by norm_num)
  rw [b3]
  exact four_part hE b4 h3

/-- The computed sum never decreases when the samples grow in size. -/
theorem sumsq_mono {S : ℝ} (hS : S ≤ 2 ^ 400) {l m : List Float} (hm : m.length ≤ 2 ^ 40)
    (h : ∀ y ∈ m, F64.Fin y ∧ |val y| ≤ S) (hlm : List.Forall₂ (fun x y => F64.Fin x ∧ |val x| ≤ |val y|) l m) :
    val (rsum (l.map (fun x => x * x))) ≤ val (rsum (m.map (fun x => x * x))) := by
  have hl : ∀ x ∈ l, F64.Fin x ∧ |val x| ≤ S := by
    clear hm
    induction hlm with
    | nil => simp
    | cons hxy _ ih =>
      intro z hz
      rcases List.mem_cons.mp hz with rfl | hz
      · exact ⟨hxy.1, hxy.2.trans (h _ List.mem_cons_self).2⟩
      · exact ih (fun y hy => h y (List.mem_cons_of_mem _ hy)) z hz
  have hlen := hlm.length_eq
  induction m using List.reverseRecOn generalizing l with
  | nil =>
    cases hlm
    exact le_rfl
  | append_singleton m y ih =>
    have k1 := List.forall₂_take_append l m [y] hlm
    have k2 := List.forall₂_drop_append l m [y] hlm
    obtain ⟨l', l'', rfl, h1, h2⟩ : ∃ l' l'', l = l' ++ l'' ∧ List.Forall₂ (fun x y => F64.Fin x ∧ |val x| ≤ |val y|) l' m ∧
        List.Forall₂ (fun x y => F64.Fin x ∧ |val x| ≤ |val y|) l'' [y] := ⟨_, _, (List.take_append_drop m.length l).symm, k1, k2⟩
    clear k1 k2
    obtain ⟨x, _, hxy, hn, rfl⟩ := List.forall₂_cons_right_iff.mp h2
    cases hn
    have hm' : m.length ≤ 2 ^ 40 := by simp at hm; omega
    have i1 := ih hm' (fun z hz => h z (by simp [hz])) h1 (fun z hz => hl z (by simp [hz])) h1.length_eq
    have ll' : l'.length ≤ 2 ^ 40 := by rw [h1.length_eq]; exact hm'
    have s1 := sumsq_ap hS ll' (fun z hz => hl z (by simp [hz]))
    have s2 := sumsq_ap hS hm' (fun z hz => h z (by simp [hz]))
    have t1 := sumsq_le hS ll' (fun z hz => hl z (by simp [hz]))
    have t2 := sumsq_le hS hm' (fun z hz => h z (by simp [hz]))
    have x1 := mul_self_val hS (hl x (by simp))
    have y1 := mul_self_val hS (h y (by simp))
    have hW : (2 : ℝ) ^ 842 + 2 ^ 842 ≤ 2 ^ (1023 : ℤ) := le_big (k := 843) (by norm_num) (by rw [← two_mul, ← pow_succ'])
    have x3 : |val (x * x)| ≤ 2 ^ 842 := mul_self_le hS (hl x (by simp))
    have y3 : |val (y * y)| ≤ 2 ^ 842 := mul_self_le hS (h y (by simp))
    have a1 := (add_val_of_bound s1.1 x1.1 ((abs_add_le _ _).trans (add_le_add t1 x3)) hW).2
    have a2 := (add_val_of_bound s2.1 y1.1 ((abs_add_le _ _).trans (add_le_add t2 y3)) hW).2
    rw [List.map_append, List.map_singleton, rsum_concat, List.map_append, List.map_singleton, rsum_concat, a1, a2]
    apply rnd_mono
    apply add_le_add i1
    rw [x1.2, y1.2]
    apply rnd_mono
    rw [← abs_mul_abs_self, ← abs_mul_abs_self (val y)]
    exact mul_self_le_mul_self (abs_nonneg _) hxy.2

theorem sumsq_nonneg {S : ℝ} (hS : S ≤ 2 ^ 400) {l : List Float} (hl : l.length ≤ 2 ^ 40)
    (h : ∀ x ∈ l, F64.Fin x ∧ |val x| ≤ S) : 0 ≤ val (rsum (l.map (fun x => x * x))) := by
  induction l using List.reverseRecOn with
  | nil => exact val_zero.ge
  | append_singleton l x ih =>
    have hl' : l.length ≤ 2 ^ 40 := by simp at hl; omega
    have hs : ∀ y ∈ l, F64.Fin y ∧ |val y| ≤ S := fun z hz => h z (by simp [hz])
    have i1 := ih hl' hs
    have x1 := mul_self_val hS (h x (by simp))
    have hW : (2 : ℝ) ^ 842 + 2 ^ 842 ≤ 2 ^ (1023 : ℤ) := le_big (k := 843) (by norm_num) (by rw [← two_mul, ← pow_succ'])
    have a1 := (add_val_of_bound (sumsq_ap hS hl' hs).1 x1.1
      ((abs_add_le _ _).trans (add_le_add (sumsq_le hS hl' hs) (mul_self_le hS (h x (by simp))))) hW).2
    rw [List.map_append, List.map_singleton, rsum_concat, a1]
    refine rnd_nonneg (add_nonneg i1 ?_)
    rw [x1.2]
    exact rnd_nonneg (mul_self_nonneg _)

/-- The mean square of a list of doubles, and its root. -/
noncomputable def meanSq (l : List Float) : ℝ := sqSum l / l.length

theorem meanSq_nonneg (l : List Float) : 0 ≤ meanSq l := div_nonneg (sqSum_nonneg l) (Nat.cast_nonneg _)

theorem mean_step {n E u t e d : ℝ} (hn : 1 ≤ n) (hn' : n * u ≤ 1 / 16) (hE : 0 ≤ E) (hu : 0 < u) (ht : 0 < t) (he : e = n * (3 * u * E + 4 * t) / n)
    (hd : d = E / n) : e + (d + e) * u + t ≤ 4 * (n + 1) * u * d + 16 * t := by
  have hn0 : 0 < n := by linarith
  have hEd : E = d * n := by rw [hd]; field_simp
  have he' : e = 3 * u * E + 4 * t := by rw [he]; field_simp
  have hd0 : 0 ≤ d := by rw [hd]; positivity
  rw [he', hEd]
  have hu1 : u ≤ 1 / 16 := by nlinarith
  have h1 : 3 * u * (d * n) * u ≤ 3 / 16 * (d * u) := by
    have := mul_le_mul_of_nonneg_left hn' (show 0 ≤ 3 * (d * u) by positivity)
    nlinarith
  have h2 : 4 * t * u ≤ t := by nlinarith
  have h3 : 0 ≤ n * (u * d) := by positivity
  have h4 : 0 ≤ u * d := by positivity
  nlinarith

/-- The computed mean square. -/
theorem meanSq_ap {S : ℝ} (hS : S ≤ 2 ^ 400) {l : List Float} (h0 : 0 < l.length) (hl : l.length ≤ 2 ^ 40)
    (h : ∀ x ∈ l, F64.Fin x ∧ |val x| ≤ S) :
    Ap (rsum (l.map (fun x => x * x)) / F64.ofNat l.length) (meanSq l) (4 * (l.length + 1) * uu * meanSq l + 16 * tiny) := by
  have h1 := sumsq_ap hS hl h
  have hn : (1 : ℝ) ≤ l.length := by exact_mod_cast h0
  have hlR : (l.length : ℝ) ≤ 2 ^ 40 := by exact_mod_cast hl
  have hE := sqSum_nonneg l
  have hnu : (l.length : ℝ) * uu ≤ 1 / 16 := by
    calc (l.length : ℝ) * uu ≤ 2 ^ 40 * (1 / 2 ^ 53) := mul_le_mul hlR uu_eq.le uu_pos.le (by norm_num)
      _ ≤ 1 / 16 := by norm_num
  have hst := mean_step hn hnu hE uu_pos tiny_pos rfl (d := meanSq l) rfl
  refine (ap_div_nat h1 h0 (hl.trans (by norm_num)) (R := meanSq l) ?_ ?_).mono hst
  · rw [abs_of_nonneg hE, meanSq, div_mul_cancel₀ _ (by positivity)]
  · refine le_big (k := 842) (by norm_num) ?_
    have hS0 : 0 ≤ S := by
      obtain ⟨x, hx⟩ := List.exists_mem_of_length_pos h0
      exact (abs_nonneg _).trans (h x hx).2
    have hS2 : S ^ 2 ≤ 2 ^ 800 := by
      have := pow_le_pow_left₀ hS0 hS 2
      rwa [← pow_mul] at this
    have hE2 : sqSum l ≤ 2 ^ 40 * 2 ^ 800 := (sqSum_le h).trans (mul_le_mul hlR hS2 (by positivity) (by positivity))
    have b3 : (2 : ℝ) ^ 842 = 4 * (2 ^ 40 * 2 ^ 800) := by rw [← pow_add, show 842 = 2 + 840 by norm_num, pow_add]; norm_num
    have b4 : (1 : ℝ) ≤ 2 ^ 40 * 2 ^ 800 := by
      rw [← pow_add]; exact one_le_pow₀ (by norm_num)
    have b5 : meanSq l ≤ sqSum l := div_le_self hE hn
    have b6 : l.length * (3 * uu * sqSum l + 4 * tiny) / l.length ≤ sqSum l + 1 := by
      rw [mul_div_cancel_left₀ _ (by positivity)]
      have c1 : uu ≤ 1 / 16 := uu_eq.le.trans (by norm_num)
      have c2 : tiny ≤ 1 / 2 ^ 2 := tiny_le (by norm_num)
      have c3 := mul_le_mul_of_nonneg_right c1 hE
      linarith
    rw [b3]
    exact le_trans (add_le_add b5 le_rfl) (four_part hE2 b4 b6)

theorem meanSq_val {S : ℝ} (hS : S ≤ 2 ^ 400) {l : List Float} (h0 : 0 < l.length) (hl : l.length ≤ 2 ^ 40)
    (h : ∀ x ∈ l, F64.Fin x ∧ |val x| ≤ S) :
    val (rsum (l.map (fun x => x * x)) / F64.ofNat l.length) = rnd (val (rsum (l.map (fun x => x * x))) / l.length) := by
  have hn : (1 : ℝ) ≤ l.length := by exact_mod_cast h0
  obtain ⟨fn, vn⟩ := ofNat_exact (n := l.length) (hl.trans (by norm_num))
  rw [← vn]
  refine (div_val (sumsq_ap hS hl h).1 fn (by rw [vn]; positivity) (rnd_lt_huge ?_)).2
  refine le_big (k := 842) (by norm_num) ?_
  rw [vn, abs_div, abs_of_pos (by linarith : (0 : ℝ) < l.length)]
  exact (div_le_self (abs_nonneg _) hn).trans (sumsq_le hS hl h)

/-- Square roots of nearby numbers. -/
theorem sqrt_close {a M η τ : ℝ} (ha : 0 ≤ a) (hM : 0 ≤ M) (hη : 0 ≤ η) (hη1 : η ≤ 1) (hτ : 0 ≤ τ) (h : |a - M| ≤ η * M + τ ^ 2) :
    |Real.sqrt a - Real.sqrt M| ≤ η * Real.sqrt M + τ := by
  have h1 := Real.sqrt_nonneg a
  have h2 := Real.sqrt_nonneg M
  have e1 := Real.mul_self_sqrt ha
  have e2 := Real.mul_self_sqrt hM
  set p := Real.sqrt a
  set q := Real.sqrt M
  have h3 := abs_le.mp h
  have k1 : 0 ≤ η * (q * q) := by positivity
  have k2 : 0 ≤ η * q * τ := by positivity
  have k3 : 0 ≤ q * τ := by positivity
  have k4 : 0 ≤ p * τ := by positivity
  have k5 : 0 ≤ η * η * (q * q) := by positivity
  have hp : p ≤ (1 + η) * q + τ := by
    apply nonneg_le_nonneg_of_sq_le_sq (by positivity)
    nlinarith
  have hq : (1 - η) * q ≤ p + τ := by
    apply nonneg_le_nonneg_of_sq_le_sq (by positivity)
    have k6 : 0 ≤ η * (1 - η) * (q * q) := mul_nonneg (mul_nonneg hη (by linarith)) (by positivity)
    nlinarith
  rw [abs_le]
  constructor <;> nlinarith

theorem half_pow {t : ℝ} (h : t ≤ 1 / (2 ^ 2 * 2 ^ 501)) : 3 / 2 * (1 / 2 ^ 501) + t ≤ 1 / 2 ^ (501 - 1) := by
  have e : (2 : ℝ) ^ 501 = 2 * 2 ^ (501 - 1) := by rw [← pow_succ']
  rw [e] at h ⊢
  have hp : (0 : ℝ) < 2 ^ (501 - 1) := by positivity
  generalize (2 : ℝ) ^ (501 - 1) = w at *
  have e1 : 1 / (2 ^ 2 * (2 * w)) = 1 / 8 * (1 / w) := by field_simp; norm_num
  have e2 : 1 / (2 * w) = 1 / 2 * (1 / w) := by field_simp
  rw [e1] at h
  rw [e2]
  have : 0 < 1 / w := by positivity
  linarith

theorem rms_step {p q n u τ t y r : ℝ} (hp : 0 ≤ p) (hq : 0 ≤ q) (hτ : 0 ≤ τ) (hu : 0 < u) (hu1 : u ≤ 1 / 2) (ht : 0 ≤ t)
    (hc : |p - q| ≤ 4 * (n + 1) * u * q + τ) (hr : |r - p| ≤ max (|p| * u) t) (hnu : 4 * (n + 1) * u ≤ 1) (hy : 3 / 2 * τ + t ≤ y) :
    |r - q| ≤ 4 * (n + 2) * u * q + y := by
  rw [abs_of_nonneg hp] at hr
  have h1 : |r - p| ≤ p * u + t := hr.trans (max_le (by linarith) (by nlinarith))
  have h2 : p ≤ 2 * q + τ := by
    have := (abs_le.mp hc).2
    have := mul_le_mul_of_nonneg_right hnu hq
    linarith
  have h3 : p * u ≤ 2 * (q * u) + τ * u := by nlinarith
  have h4 : τ * u ≤ τ * (1 / 2) := mul_le_mul_of_nonneg_left hu1 hτ
  have h5 := abs_sub_le r p q
  nlinarith [mul_nonneg hq hu.le]

/-- The computed root mean square. -/
theorem rms_ap {S : ℝ} (hS : S ≤ 2 ^ 400) {l : List Float} (h0 : 0 < l.length) (hl : l.length ≤ 2 ^ 40)
    (h : ∀ x ∈ l, F64.Fin x ∧ |val x| ≤ S) :
    Ap (Float.sqrt (rsum (l.map (fun x => x * x)) / F64.ofNat l.length)) (Real.sqrt (meanSq l))
      (4 * (l.length + 2) * uu * Real.sqrt (meanSq l) + 1 / 2 ^ 500) := by
  have hm := meanSq_ap hS h0 hl h
  have hv := meanSq_val hS h0 hl h
  have ha : 0 ≤ val (rsum (l.map (fun x => x * x)) / F64.ofNat l.length) := by
    rw [hv]; exact rnd_nonneg (div_nonneg (sumsq_nonneg hS hl h) (Nat.cast_nonneg _))
  obtain ⟨f1, v1⟩ := sqrt_val hm.1 ha
  refine ⟨f1, ?_⟩
  have hn : (1 : ℝ) ≤ l.length := by exact_mod_cast h0
  have hlR : (l.length : ℝ) ≤ 2 ^ 40 := by exact_mod_cast hl
  have hu := uu_pos
  have ht : 16 * tiny ≤ (1 / 2 ^ 501 : ℝ) ^ 2 := by
    have : tiny ≤ 1 / 2 ^ 1006 := tiny_le (by norm_num)
    calc 16 * tiny ≤ 16 * (1 / 2 ^ 1006) := by linarith
      _ = (1 / 2 ^ 501 : ℝ) ^ 2 := by
        rw [div_pow, ← pow_mul, show 1006 = 4 + 501 * 2 by norm_num, pow_add]; norm_num; ring
  have hnu : 4 * ((l.length : ℝ) + 1) * uu ≤ 1 := by
    calc 4 * ((l.length : ℝ) + 1) * uu ≤ 4 * (2 ^ 40 + 1) * (1 / 2 ^ 53) :=
          mul_le_mul (by linarith) uu_eq.le hu.le (by norm_num)
      _ ≤ 1 := by norm_num
  have hM := meanSq_nonneg l
  have hc := sqrt_close ha hM (by positivity) hnu (by positivity : (0 : ℝ) ≤ 1 / 2 ^ 501) (hm.2.trans (by linarith))
  rw [v1]
  have hr := abs_rnd_sub_le_abs (Real.sqrt (val (rsum (l.map (fun x => x * x)) / F64.ofNat l.length)))
  have ht' : tiny ≤ 1 / 2 ^ 503 := tiny_le (by norm_num)
  exact rms_step (Real.sqrt_nonneg _) (Real.sqrt_nonneg _) (by positivity) hu (uu_eq.le.trans (by norm_num)) tiny_pos.le hc hr hnu
    (by rw [show 503 = 2 + 501 by norm_num, pow_add] at ht'; rw [show 500 = 501 - 1 by norm_num]; exact half_pow ht')

theorem avg_float {S : ℝ} (hS : S ≤ 2 ^ 400) {l : List Float} (h0 : l ≠ []) (hl : l.length ≤ 2 ^ 40)
    (h : ∀ x ∈ l, F64.Fin x ∧ |val x| ≤ S) :
    F64.Fin (avgEnergy l) ∧ 0 ≤ val (avgEnergy l) ∧
      |val (avgEnergy l) - (l.map (fun x => val x ^ 2)).sum / l.length|
        ≤ (l.length + 1) / 2 ^ 51 * ((l.map (fun x => val x ^ 2)).sum / l.length) + 1 / 2 ^ 1071 := by
  have hp := List.length_pos_iff.mpr h0
  have h1 := meanSq_ap hS hp hl h
  have h2 := meanSq_val hS hp hl h
  have h3 := sumsq_nonneg hS hl h
  refine ⟨h1.1, ?_, h1.2.trans ?_⟩
  · exact le_of_le_of_eq (rnd_nonneg (div_nonneg h3 (Nat.cast_nonneg _))) h2.symm
  · have ht : 16 * tiny ≤ 1 / 2 ^ 1071 := by
      have e : (1 : ℝ) / 2 ^ 1071 = 16 * (1 / 2 ^ 1075) := by
        rw [show 1075 = 4 + 1071 by norm_num, pow_add]; norm_num; ring
      have := tiny_le (k := 1075) le_rfl
      rw [e]; linarith
    have hu : 4 * ((l.length : ℝ) + 1) * uu = (l.length + 1) / 2 ^ 51 := by rw [uu_eq]; ring
    rw [hu]
    exact add_le_add le_rfl ht

theorem forall₂_fin {S : ℝ} {l m : List Float} (h : ∀ y ∈ m, F64.Fin y ∧ |val y| ≤ S)
    (hlm : List.Forall₂ (fun x y => F64.Fin x ∧ |val x| ≤ |val y|) l m) : ∀ x ∈ l, F64.Fin x ∧ |val x| ≤ S := by
  induction hlm with
  | nil => simp
  | cons hxy _ ih =>
    intro z hz
    rcases List.mem_cons.mp hz with rfl | hz
    · exact ⟨hxy.1, hxy.2.trans (h _ List.mem_cons_self).2⟩
    · exact ih (fun y hy => h y (List.mem_cons_of_mem _ hy)) z hz

theorem avg_mono_float {S : ℝ} (hS : S ≤ 2 ^ 400) {l m : List Float} (h0 : m ≠ []) (hm : m.length ≤ 2 ^ 40)
    (h : ∀ y ∈ m, F64.Fin y ∧ |val y| ≤ S) (hlm : List.Forall₂ (fun x y => F64.Fin x ∧ |val x| ≤ |val y|) l m) :
    val (avgEnergy l) ≤ val (avgEnergy m) := by
  have hp := List.length_pos_iff.mpr h0
  have e := hlm.length_eq
  have h1 := meanSq_val hS hp hm h
  have h2 := meanSq_val hS (by omega) (by omega) (forall₂_fin h hlm)
  refine le_of_eq_of_le h2 (le_of_le_of_eq ?_ h1.symm)
  rw [e]
  exact rnd_mono (div_le_div_of_nonneg_right (sumsq_mono hS hm h hlm) (Nat.cast_nonneg _))

theorem detector_iff {S : ℝ} (hS : S ≤ 2 ^ 400) {l : List Float} (h0 : l ≠ []) (hl : l.length ≤ 2 ^ 40)
    (h : ∀ x ∈ l, F64.Fin x ∧ |val x| ≤ S) {n0 : Float} (hn : F64.Fin n0) :
    energyDetector l n0 = true ↔ val n0 < val (Float.sqrt (avgEnergy l)) :=
  lt_iff hn (rms_ap hS (List.length_pos_iff.mpr h0) hl h).1

theorem detector_float {S : ℝ} (hS : S ≤ 2 ^ 400) {l : List Float} (h0 : l ≠ []) (hl : l.length ≤ 2 ^ 40)
    (h : ∀ x ∈ l, F64.Fin x ∧ |val x| ≤ S) {n0 : Float} (hn : F64.Fin n0) {r : ℝ}
    (hr : r = Real.sqrt ((l.map (fun x => val x ^ 2)).sum / l.length)) :
    (val n0 < r - ((l.length + 2) / 2 ^ 51 * r + 1 / 2 ^ 500) → energyDetector l n0 = true) ∧
    (r + ((l.length + 2) / 2 ^ 51 * r + 1 / 2 ^ 500) ≤ val n0 → energyDetector l n0 = false) := by
  have hp := List.length_pos_iff.mpr h0
  have h1 : |val (Float.sqrt (avgEnergy l)) - Real.sqrt (meanSq l)| ≤ _ := (rms_ap hS hp hl h).2
  have hu : 4 * ((l.length : ℝ) + 2) * uu = (l.length + 2) / 2 ^ 51 := by rw [uu_eq]; ring
  have hr' : Real.sqrt (meanSq l) = r := hr.symm
  rw [hu, hr', abs_le] at h1
  constructor
  · intro hlt
    exact (detector_iff hS h0 hl h hn).mpr (by linarith [h1.1])
  · intro hle
    rw [← Bool.not_eq_true, detector_iff hS h0 hl h hn]
    have := h1.2
    linarith

theorem detector_mono_float {S : ℝ} (hS : S ≤ 2 ^ 400) {l m : List Float} (h0 : m ≠ []) (hm : m.length ≤ 2 ^ 40)
    (h : ∀ y ∈ m, F64.Fin y ∧ |val y| ≤ S) (hlm : List.Forall₂ (fun x y => F64.Fin x ∧ |val x| ≤ |val y|) l m)
    {n0 n1 : Float} (hn0 : F64.Fin n0) (hn1 : F64.Fin n1) (hn : val n1 ≤ val n0) (hd : energyDetector l n0 = true) :
    energyDetector m n1 = true := by
  have e := hlm.length_eq
  have hl0 : l ≠ [] := by
    rintro rfl
    exact h0 (List.length_eq_zero_iff.mp e.symm)
  have hl := forall₂_fin h hlm
  have hl' : l.length ≤ 2 ^ 40 := by omega
  rw [detector_iff hS h0 hm h hn1]
  rw [detector_iff hS hl0 hl' hl hn0] at hd
  refine hn.trans_lt (hd.trans_le ?_)
  obtain ⟨f1, p1, -⟩ := avg_float hS hl0 hl' hl
  obtain ⟨f2, p2, -⟩ := avg_float hS h0 hm h
  rw [(sqrt_val f1 p1).2, (sqrt_val f2 p2).2]
  exact rnd_mono (Real.sqrt_le_sqrt (avg_mono_float hS h0 hm h hlm))

open Float.Model Float.Model.UnpackedFloat in
theorem not_fin_div {a b : Float} (h : ¬ F64.Fin a) : ¬ F64.Fin (a / b) := by
  rw [fin_iff] at *
  rw [div_eq]
  cases ha : up a with
  | notANumber =>
    rw [show up (mk (UnpackedFloat.div Format.binary64 .notANumber (up b))) = .notANumber from unpack_pack_nan]
    simp [UnpackedFloat.isFinite]
  | infinity s =>
    cases up b with
    | notANumber =>
      rw [show up (mk (UnpackedFloat.div Format.binary64 (.infinity s) .notANumber)) = .notANumber from unpack_pack_nan]
      simp [UnpackedFloat.isFinite]
    | infinity s' =>
      rw [show up (mk (UnpackedFloat.div Format.binary64 (.infinity s) (.infinity s'))) = .notANumber from unpack_pack_nan]
      simp [UnpackedFloat.isFinite]
    | zero s' =>
      rw [show up (mk (UnpackedFloat.div Format.binary64 (.infinity s) (.zero s'))) = .infinity (s / s') from unpack_pack_infinity _]
      simp [UnpackedFloat.isFinite]
    | finite s' m e hm =>
      rw [show up (mk (UnpackedFloat.div Format.binary64 (.infinity s) (.finite s' m e hm))) = .infinity (s / s') from
        unpack_pack_infinity _]
      simp [UnpackedFloat.isFinite]
  | zero s => simp [ha, UnpackedFloat.isFinite] at h
  | finite s m e hm => simp [ha, UnpackedFloat.isFinite] at h

theorem avg_empty : Float.isNaN (avgEnergy ([] : List Float)) = true := by decide +kernel

theorem detector_empty (n0 : Float) : energyDetector ([] : List Float) n0 = false := by
  show Float.lt n0 (Float.sqrt (0 / F64.ofNat 0)) = false
  rw [show Float.sqrt (0 / F64.ofNat 0) = F64.nan by decide +kernel, lt_eq, up_nan]
  cases up n0 <;> rfl

theorem quotient_short (x fs : Float) : ¬ F64.Fin (x / F64.ofNat 0 / fs) := by
  have hz : F64.ofNat 0 = 0 := by decide +kernel
  rw [hz]
  exact not_fin_div (not_fin_div_zero _)

end Verif
