import Verif.Lemmas.GaussRx
import Verif.Lemmas.Flips

/-! # Baseband symbols in noise on the real part -/
namespace Verif
open Spec MeasureTheory ProbabilityTheory
variable {Ω : Type} [MeasurableSpace Ω] {P : Measure Ω} {σ : ℝ} {w : ℕ → Ω → ℝ}

/-- One bit after the other. -/
def duo (l : List (Bool × Bool)) : List Bool := l.flatMap (fun p => [p.1, p.2])

theorem duo_length (l : List (Bool × Bool)) : (duo l).length = 2 * l.length := by
  induction l with
  | nil => rfl
  | cons a l ih => simp only [duo, List.flatMap_cons, List.length_append, List.length_cons, List.length_nil] at ih ⊢; omega

theorem duo_inj {l l' : List (Bool × Bool)} (h : duo l = duo l') : l = l' := by
  induction l generalizing l' with
  | nil =>
    cases l' with
    | nil => rfl
    | cons b l' => simp [duo] at h
  | cons a l ih =>
    cases l' with
    | nil => simp [duo] at h
    | cons b l' =>
      simp only [duo, List.flatMap_cons, List.cons_append, List.nil_append, List.cons.injEq] at h
      rw [ih h.2.2, Prod.ext h.1 h.2.1]

theorem duo_even (l : List (Bool × Bool)) (n : ℕ) : (duo l)[2 * n]? = (l.map Prod.fst)[n]? := by
  unfold duo
  rw [getElem?_flatMap_const (k := 2) (by norm_num) _ _ (fun _ _ => rfl), Nat.mul_div_cancel_left n two_pos, Nat.mul_mod_right, List.getElem?_map]
  cases l[n]? <;> rfl

theorem duo_odd (l : List (Bool × Bool)) (n : ℕ) : (duo l)[2 * n + 1]? = (l.map Prod.snd)[n]? := by
  unfold duo
  rw [getElem?_flatMap_const (k := 2) (by norm_num) _ _ (fun _ _ => rfl), show (2 * n + 1) / 2 = n by omega, show (2 * n + 1) % 2 = 1 by omega,
    List.getElem?_map]
  cases l[n]? <;> rfl

theorem prod_pairs (f : ℕ → ℝ) (N : ℕ) : ∏ n ∈ Finset.range (2 * N), f n = ∏ n ∈ Finset.range N, (f (2 * n) * f (2 * n + 1)) := by
  induction N with
  | zero => simp
  | succ N ih => rw [Nat.mul_succ, Finset.prod_range_succ, Finset.prod_range_succ, ih, Finset.prod_range_succ, mul_assoc]

/-- A channel that flips first bits and never second bits. -/
theorem Spec.Flips.duo [IsProbabilityMeasure P] {L : List (Bool × Bool)} {firsts : Ω → List Bool} {q : ℕ → ℝ}
    (h : Flips P (L.map Prod.fst) firsts q) :
    Flips P (Verif.duo L) (fun ω => Verif.duo ((firsts ω).zip (L.map Prod.snd))) (fun n => if n % 2 = 0 then q (n / 2) else 0) := by
  have hl : ∀ ω, (firsts ω).length = L.length := fun ω => by simpa using h.length ω
  refine ⟨fun ω => ?_, fun e => ?_, fun e he => ?_⟩
  · rw [duo_length, duo_length, List.length_zip, hl, List.length_map, Nat.min_self]
  · exact h.nullMeas (fun l => Verif.duo (l.zip (L.map Prod.snd)) = e)
  · obtain ⟨E, rfl⟩ : ∃ E, e = Verif.duo E := by
      refine ⟨pairs e, ?_⟩
      unfold Verif.duo
      rw [pairs_flat, List.take_of_length_le]
      rw [duo_length] at he
      omega
    rw [duo_length, duo_length] at he
    have he' : E.length = L.length := by omega
    rw [duo_length, prod_pairs]
    have h0 : ∀ n, (if (2 * n) % 2 = 0 then q (2 * n / 2) else 0) = q n := fun n => by
      rw [if_pos (by omega), Nat.mul_div_cancel_left n two_pos]
    have h1 : ∀ n, (if (2 * n + 1) % 2 = 0 then q ((2 * n + 1) / 2) else 0) = 0 := fun n => by rw [if_neg (by omega)]
    simp only [duo_even, duo_odd, h0, h1, sub_zero]
    by_cases hs : E.map Prod.snd = L.map Prod.snd
    · have : {ω | Verif.duo ((firsts ω).zip (L.map Prod.snd)) = Verif.duo E} = {ω | firsts ω = E.map Prod.fst} := by
        ext ω
        simp only [Set.mem_ofPred_eq]
        constructor
        · intro h2
          have := congrArg (List.map Prod.fst) (duo_inj h2)
          rwa [List.map_fst_zip (by rw [hl, List.length_map])] at this
        · intro h2
          rw [h2, ← hs, ← List.zip_of_prod (l := E.map Prod.fst) (l' := E.map Prod.snd) rfl rfl]
      rw [this, h.pattern _ (by simpa using he'), List.length_map]
      refine Finset.prod_congr rfl fun n hn => ?_
      rw [hs, if_pos rfl, mul_one]
    · have : {ω | Verif.duo ((firsts ω).zip (L.map Prod.snd)) = Verif.duo E} = ∅ := by
        ext ω
        simp only [Set.mem_ofPred_eq, Set.mem_empty_iff_false, iff_false]
        intro h2
        have := congrArg (List.map Prod.snd) (duo_inj h2)
        rw [List.map_snd_zip (by rw [hl, List.length_map])] at this
        exact hs this.symm
      rw [this, measureReal_empty]
      obtain ⟨n, hn, hne⟩ : ∃ n < L.length, (E.map Prod.snd)[n]? ≠ (L.map Prod.snd)[n]? := by
        by_contra hc
        push Not at hc
        refine hs (List.ext_getElem? fun n => ?_)
        by_cases hn : n < L.length
        · exact hc n hn
        · rw [List.getElem?_eq_none (by simp; omega), List.getElem?_eq_none (by simp; omega)]
      rw [Finset.prod_eq_zero (Finset.mem_range.mpr hn)]
      rw [if_neg hne, mul_zero]

/-- One sample per bit, threshold zero. -/
theorem gauss_sample (hw : White P σ w) (hσ : 0 < σ) {A : ℝ} (hA : 0 < A) (msg : List Bool) :
    Flips P msg (fun ω => msg.mapIdx (fun i b => decide (0 ≤ (if b then A else -A) + w i ω))) (fun _ => bitError (A ^ 2) σ) := by
  have hget : ∀ n (hn : n < msg.length), msg.getD n false = msg[n] := fun n hn => by
    rw [List.getD_eq_getElem?_getD, List.getElem?_eq_getElem hn]; rfl
  have hsum : ∀ n < msg.length, ∀ f : ℕ → ℝ, ∑ i ∈ Finset.range msg.length, (if i = n then (1 : ℝ) else 0) * f i = f n := by
    intro n hn f
    rw [Finset.sum_eq_single_of_mem n (Finset.mem_range.mpr hn) (fun i _ hi => by rw [if_neg hi, zero_mul]), if_pos rfl, one_mul]
  have hs : Signs (fun ω => msg.mapIdx (fun i b => decide (0 ≤ (if b then A else -A) + w i ω))) msg.length msg.length
      (fun n i => if i = n then 1 else 0) (fun i => if msg.getD i false then A else -A) w := by
    have hst : ∀ ω n, n < msg.length → stat msg.length (fun n i => if i = n then (1 : ℝ) else 0) (fun i => if msg.getD i false then A else -A) w n ω
        = (if msg.getD n false then A else -A) + w n ω := fun ω n hn => by
      unfold stat
      exact hsum n hn (fun i => (if msg.getD i false then A else -A) + w i ω)
    refine ⟨fun ω => by rw [List.length_mapIdx], fun ω n hn h => ?_, fun ω n hn h => ?_⟩
    · rw [hst ω n hn] at h
      rw [List.getElem?_mapIdx, List.getElem?_eq_getElem hn, Option.map_some]
      rw [hget n hn] at h
      rw [decide_eq_true h.le]
    · rw [hst ω n hn] at h
      rw [List.getElem?_mapIdx, List.getElem?_eq_getElem hn, Option.map_some]
      rw [hget n hn] at h
      rw [decide_eq_false (not_le.mpr h)]
  have h2 : ∀ n < msg.length, ∑ i ∈ Finset.range msg.length, (if i = n then (1 : ℝ) else 0) ^ 2 = 1 := by
    intro n hn
    have := hsum n hn (fun i => if i = n then (1 : ℝ) else 0)
    simp only [sq]
    rw [this, if_pos rfl]
  have := hs.flips hw hσ (fun n hn => by rw [h2 n hn]; exact one_pos) (fun k hk l hl hkl => by
    have := hsum k hk (fun i => if i = l then (1 : ℝ) else 0)
    rw [this, if_neg hkl]) (fun _ => A) (fun n hn => by
    have := hsum n hn (fun i => if msg.getD i false then A else -A)
    rw [this, hget n hn]
    split_ifs <;> simp)
  refine Spec.Flips.congr this fun n hn => ?_
  rw [h2 n hn, bitError, mul_one, Real.sqrt_div' _ (by positivity), Real.sqrt_sq hA.le]

end Verif
