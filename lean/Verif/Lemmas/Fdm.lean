import Verif.Lemmas.Jitter

/-! # Carriers that are orthogonal over a symbol -/
namespace Verif
open Spec
variable {κ : Type}

/-- A carrier correlated with an orthogonal one. -/
theorem cross_corr {v w : ℝ} {k : ℕ} {p q : ℤ} (h1 : k * (v + w) = p * (2 * Real.pi)) (h2 : k * (v - w) = q * (2 * Real.pi))
    (s1 : Real.sin ((v + w) / 2) ≠ 0) (s2 : Real.sin ((v - w) / 2) ≠ 0) (X Y : ℝ) (m : ℕ) :
    ∑ j ∈ Finset.range k, (X * Real.cos ((m + j : ℕ) * v) - Y * Real.sin ((m + j : ℕ) * v)) * Real.cos ((m + j : ℕ) * w) = 0 ∧
    ∑ j ∈ Finset.range k, (X * Real.cos ((m + j : ℕ) * v) - Y * Real.sin ((m + j : ℕ) * v)) * -Real.sin ((m + j : ℕ) * w) = 0 := by
  have a1 := sum_cos_period (a := m * (v + w)) h1 s1
  have a2 := sum_cos_period (a := m * (v - w)) h2 s2
  have b1 := sum_sin_period (a := m * (v + w)) h1 s1
  have b2 := sum_sin_period (a := m * (v - w)) h2 s2
  have e1 : ∀ j : ℕ, (m : ℝ) * (v + w) + j * (v + w) = (m + j : ℕ) * v + (m + j : ℕ) * w := by intro j; push_cast; ring
  have e2 : ∀ j : ℕ, (m : ℝ) * (v - w) + j * (v - w) = (m + j : ℕ) * v - (m + j : ℕ) * w := by intro j; push_cast; ring
  simp only [e1] at a1 b1
  simp only [e2] at a2 b2
  constructor
  · have : ∀ j ∈ Finset.range k, (X * Real.cos ((m + j : ℕ) * v) - Y * Real.sin ((m + j : ℕ) * v)) * Real.cos ((m + j : ℕ) * w)
        = X / 2 * Real.cos ((m + j : ℕ) * v + (m + j : ℕ) * w) + X / 2 * Real.cos ((m + j : ℕ) * v - (m + j : ℕ) * w)
          - Y / 2 * Real.sin ((m + j : ℕ) * v + (m + j : ℕ) * w) - Y / 2 * Real.sin ((m + j : ℕ) * v - (m + j : ℕ) * w) := by
      intro j _
      rw [Real.cos_add, Real.cos_sub, Real.sin_add, Real.sin_sub]; ring
    rw [Finset.sum_congr rfl this, Finset.sum_sub_distrib, Finset.sum_sub_distrib, Finset.sum_add_distrib, ← Finset.mul_sum,
      ← Finset.mul_sum, ← Finset.mul_sum, ← Finset.mul_sum, a1, a2, b1, b2]
    ring
  · have : ∀ j ∈ Finset.range k, (X * Real.cos ((m + j : ℕ) * v) - Y * Real.sin ((m + j : ℕ) * v)) * -Real.sin ((m + j : ℕ) * w)
        = X / 2 * Real.sin ((m + j : ℕ) * v - (m + j : ℕ) * w) - X / 2 * Real.sin ((m + j : ℕ) * v + (m + j : ℕ) * w)
          + Y / 2 * Real.cos ((m + j : ℕ) * v - (m + j : ℕ) * w) - Y / 2 * Real.cos ((m + j : ℕ) * v + (m + j : ℕ) * w) := by
      intro j _
      rw [Real.cos_add, Real.cos_sub, Real.sin_add, Real.sin_sub]; ring
    rw [Finset.sum_congr rfl this, Finset.sum_sub_distrib, Finset.sum_add_distrib, Finset.sum_sub_distrib, ← Finset.mul_sum,
      ← Finset.mul_sum, ← Finset.mul_sum, ← Finset.mul_sum, a1, a2, b1, b2]
    ring

theorem sum_none {A : Type} (us : List A) (f : A → ℝ) (h : ∀ u ∈ us, f u = 0) : (us.map f).sum = 0 := by
  induction us with
  | nil => rfl
  | cons u us ih =>
    rw [List.map_cons, List.sum_cons, h u List.mem_cons_self, ih (fun x hx => h x (List.mem_cons_of_mem _ hx)), add_zero]

/-- Of a sum over pairwise unrelated terms only the own one remains. -/
theorem sum_own {A : Type} {R : A → A → Prop} (hsym : ∀ a b, R a b → R b a) {us : List A} (hR : us.Pairwise R) {f : A → ℝ} {v : A}
    (hv : v ∈ us) (h : ∀ u, R u v → f u = 0) : (us.map f).sum = f v := by
  induction us with
  | nil => simp at hv
  | cons u us ih =>
    rw [List.pairwise_cons] at hR
    rw [List.map_cons, List.sum_cons]
    rcases List.mem_cons.mp hv with rfl | hv'
    · rw [sum_none us f (fun x hx => h x (hsym _ _ (hR.1 x hx))), add_zero]
    · rw [h u (hR.1 v hv'), ih hR.2 hv', zero_add]

theorem sum_corr {A : Type} (us : List A) (f : A → ℕ → ℝ) (c : ℕ → ℝ) (k : ℕ) :
    ∑ j ∈ Finset.range k, (us.map (fun u => f u j)).sum * c j = (us.map (fun u => ∑ j ∈ Finset.range k, f u j * c j)).sum := by
  induction us with
  | nil => simp
  | cons u us ih =>
    simp only [List.map_cons, List.sum_cons, add_mul, Finset.sum_add_distrib, ih]

end Verif
