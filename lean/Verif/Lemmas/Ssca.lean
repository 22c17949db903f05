import Verif.Model.Ssca
import Verif.Spec.Ssca
import Verif.Lemmas.DftLeak
import Verif.Lemmas.Helpers

/-! Helper lemmas for the SSCA. -/
namespace Verif
open Spec
set_option linter.unusedSectionVars false

theorem mapM_ok {α β : Type} {f : α → RM β} {g : α → β} {l : List α} (h : ∀ a ∈ l, f a = pure (g a)) :
    l.mapM f = pure (l.map g) := by
  induction l with
  | nil => rfl
  | cons a l ih =>
    rw [List.mapM_cons, h a (by simp), pure_bind, ih (fun b hb => h b (by simp [hb])), pure_bind, List.map_cons]

theorem mapM_panics {α β : Type} {f : α → RM β} {l l' : List α} {a : α} (h : ∀ b ∈ l, ∃ c, f b = pure c)
    (ha : (f a).Panics) : ((l ++ a :: l').mapM f).Panics := by
  induction l with
  | nil =>
    obtain ⟨p, hp⟩ := ha
    rw [List.nil_append, List.mapM_cons, hp, RM.panic_bind]
    exact ⟨p, rfl⟩
  | cons b l ih =>
    obtain ⟨c, hc⟩ := h b (by simp)
    obtain ⟨p, hp⟩ := ih (fun b hb => h b (by simp [hb]))
    rw [List.cons_append, List.mapM_cons, hc, pure_bind, hp, RM.panic_bind]
    exact ⟨p, rfl⟩

theorem list_eq_map_getD {α : Type} {l : List α} {n : ℕ} (h : l.length = n) (d : α) :
    l = (List.range n).map (fun i => l.getD i d) := by
  apply List.ext_getElem
  · simp [h]
  · intro i h1 h2
    simp [List.getD, h1]

theorem replicate_eq_map {α : Type} (n : ℕ) (a : α) : List.replicate n a = (List.range n).map (fun _ => a) := by
  rw [List.map_const']; simp

section anyF
variable {F : Type} [Add F] [Sub F] [Mul F] [Div F] [Neg F] [Zero F] [One F] [Flt F] [Fft F]

/-- The windowed segment that is transformed for row `i`. -/
def sscaSeg (s : List F) (np i : ℕ) : List (Cx F) :=
  (List.range np).map (fun j => ⟨hammingAt np j * s.getD (i + j) 0, 0 * s.getD (i + j) 0⟩)

/-- The phase factor of row `i`, column `k`. -/
def sscaEm (np i k : ℕ) : Cx F :=
  Cx.exp ⟨0, -(Flt.ofNat 2) * Flt.pi * (Flt.ofNat k - Flt.ofNat np / Flt.ofNat 2) * Flt.ofNat i / Flt.ofNat np⟩

/-- Row `i`, column `k` of `xg`. -/
def sscaXg (s : List F) (n np i k : ℕ) : Cx F :=
  (fftshift (Fft.dft false (sscaSeg s np i))).getD k 0 * sscaEm np i k * Cx.conj ⟨s.getD (np / 2 + i) 0, 0⟩
    * ⟨hammingAt n i, 0⟩

theorem sscaSeg_length (s : List F) (np i : ℕ) : (sscaSeg s np i).length = np := by simp [sscaSeg]

theorem sscaRow_ok {s : List F} {n np i : ℕ} (h : i + np ≤ s.length) :
    sscaRow s n np i = pure ((List.range np).map (sscaXg s n np i)) := by
  unfold sscaRow
  simp only []
  rw [slice_ok (by omega) h, pure_bind]
  have hseg : List.zipWith (fun (z : Cx F) (x : F) => (⟨z.re * x, z.im * x⟩ : Cx F)) (hammingWindowComplex np)
      ((s.drop i).take (i + np - i)) = sscaSeg s np i := by
    rw [Nat.add_sub_cancel_left, hammingWindowComplex, list_eq_map_getD (l := (s.drop i).take np) (n := np)
      (by rw [List.length_take, List.length_drop]; omega) 0, List.zipWith_map, List.zipWith_self, sscaSeg]
    refine List.map_congr_left fun j hj => ?_
    have hj := List.mem_range.mp hj
    have hg : ((s.drop i).take np).getD j 0 = s.getD (i + j) 0 := by
      simp [List.getD, List.getElem?_take_of_lt hj]
    rw [hg]
  rw [hseg, fftProcess_one false (sscaSeg_length s np i), pure_bind]
  have hxs : (List.range np).mapM (fun _ => do
      let v ← index s (np / 2 + i)
      pure (Cx.conj (⟨v, 0⟩ : Cx F))) = (pure ((List.range np).map (fun _ => Cx.conj ⟨s.getD (np / 2 + i) 0, 0⟩)) : RM _) := by
    refine mapM_ok fun j hj => ?_
    have hj := List.mem_range.mp hj
    have hlt : np / 2 + i < s.length := by omega
    rw [index_lt hlt, pure_bind]
    simp [List.getD, hlt]
  rw [hxs, pure_bind]
  refine congrArg pure ?_
  rw [list_eq_map_getD (l := fftshift (Fft.dft false (sscaSeg s np i))) (n := np)
      (by rw [fftshift_length, Fft.length_dft, sscaSeg_length]) 0, replicate_eq_map, List.zipWith_map, List.zipWith_self,
    List.zipWith_map, List.zipWith_self, List.zipWith_map, List.zipWith_self]
  refine List.map_congr_left fun k hk => ?_
  rw [sscaXg, sscaEm]

theorem transposeM_map (rows cols : ℕ) (f : ℕ → ℕ → Cx F) :
    transposeM cols ((List.range rows).map (fun i => (List.range cols).map (f i)))
      = (List.range cols).map (fun j => (List.range rows).map (fun i => f i j)) := by
  unfold transposeM
  refine List.map_congr_left fun j hj => ?_
  rw [List.map_map]
  refine List.map_congr_left fun i _ => ?_
  simp [List.getD, List.mem_range.mp hj]

/-- Row `q`, column `k` of the result. -/
def sscaVal (s : List F) (n np q k : ℕ) : Cx F :=
  (fftshift (Fft.dft false ((List.range n).map (fun i => sscaXg s n np i k)))).getD q 0

theorem sscaBase_ok {s : List F} {n np : ℕ} (h1 : np < n) (h2 : n + np ≤ s.length + 1) :
    sscaBase s n np = pure ((List.range n).map (fun q => (List.range np).map (sscaVal s n np q))) := by
  unfold sscaBase
  rw [rassert_pos (by simpa using h1), pure_bind,
    mapM_ok (g := fun i => (List.range np).map (sscaXg s n np i)) (fun i hi => sscaRow_ok (by
      have := List.mem_range.mp hi; omega)), pure_bind, transposeM_map]
  rw [mapM_ok (g := fun col => (List.range n).map (fun q => (fftshift (Fft.dft false col)).getD q 0))]
  · rw [pure_bind, List.map_map]
    refine congrArg pure ?_
    exact transposeM_map np n (fun k q => sscaVal s n np q k)
  · intro col hc
    obtain ⟨k, _, rfl⟩ := List.mem_map.mp hc
    rw [fftProcess_one false (by simp), pure_bind]
    exact congrArg pure (list_eq_map_getD (by rw [fftshift_length, Fft.length_dft]; simp) 0)

theorem sscaBase_panics {s : List F} {n np : ℕ} (h : ¬ (np < n ∧ n + np ≤ s.length + 1)) : (sscaBase s n np).Panics := by
  unfold sscaBase
  by_cases h1 : np < n
  · rw [rassert_pos (by simpa using h1), pure_bind]
    have h2 : s.length + 1 < n + np := by
      by_contra h3; exact h ⟨h1, by omega⟩
    -- the first row that does not fit
    have hr : List.range n = List.range (s.length + 1 - np) ++
        (s.length + 1 - np) :: (List.range (n - (s.length + 1 - np) - 1)).map (· + (s.length + 1 - np) + 1) := by
      apply List.ext_getElem
      · simp; omega
      · intro i h3 h4
        rw [List.getElem_range, List.getElem_append]
        split
        · simp
        · next h5 =>
          simp only [List.length_range, not_lt] at h5
          simp only [List.length_range, List.getElem_cons]
          split
          · omega
          · simp; omega
    obtain ⟨p, hp⟩ := mapM_panics (f := sscaRow s n np) (l := List.range (s.length + 1 - np)) (a := s.length + 1 - np)
      (l' := (List.range (n - (s.length + 1 - np) - 1)).map (· + (s.length + 1 - np) + 1))
      (fun i hi => ⟨_, sscaRow_ok (by have := List.mem_range.mp hi; omega)⟩) (by
        unfold sscaRow slice
        simp only []
        rw [if_pos (by omega), RM.panic_bind]
        exact ⟨_, rfl⟩)
    rw [hr, hp, RM.panic_bind]
    exact ⟨p, rfl⟩
  · unfold rassert
    rw [if_neg (by simpa using h1)]
    exact ⟨_, rfl⟩

end anyF

/-! ## Exact arithmetic -/

theorem unit_congr {n : ℕ} (hn : 0 < n) {a b : ℤ} (h : (n : ℤ) ∣ a - b) : unit n a = unit n b := by
  obtain ⟨c, hc⟩ := h
  rw [show a = b + c * n by rw [mul_comm, ← hc]; ring, unit_add, unit_mul_self hn, mul_one]

theorem fftshift_getD {n k : ℕ} (x : List (Cx ℝ)) (hx : x.length = n) (hk : k < n) :
    (fftshift (Fft.dft false x)).getD k 0
      = Cx.ofC (dftAt (-1) (x.map Cx.toC) ((k + (n + 1) / 2) % n)) := by
  have hl : (Fft.dft false x).length = n := by rw [Fft.length_dft, hx]
  have hlt : (k + (n + 1) / 2) % n < n := Nat.mod_lt _ (by omega)
  rw [List.getD, fftshift_eq_rotate, List.getElem?_rotate (by omega), hl]
  have : (Fft.dft false x)[(k + (n + 1) / 2) % n]?
      = some (Cx.ofC (dftAt (-1) (x.map Cx.toC) ((k + (n + 1) / 2) % n))) := by
    simp [Fft.dft, dft, hx, hlt]
  rw [this]
  rfl

@[simp] theorem Cx.toC_mul (a b : Cx ℝ) : (a * b).toC = a.toC * b.toC := by
  apply Complex.ext <;> simp [Cx.toC]

theorem sscaEm_toC (np i k : ℕ) : (sscaEm np i k : Cx ℝ).toC
    = Complex.exp (-(2 * Real.pi * Complex.I * ((i : ℂ) * ((k : ℂ) - (np : ℂ) / 2) / np))) := by
  have : -(2 * Real.pi * Complex.I * ((i : ℂ) * ((k : ℂ) - (np : ℂ) / 2) / np))
      = ((-(2 * Real.pi * ((k : ℝ) - (np : ℝ) / 2) * i / np) : ℝ) : ℂ) * Complex.I := by push_cast; ring
  rw [this]
  apply Complex.ext
  · rw [Complex.exp_ofReal_mul_I_re]
    simp only [sscaEm, Cx.exp, Cx.toC, Flt.exp_real, Flt.cos_real, Real.exp_zero, one_mul, Flt.ofNat_real, Flt.pi_real]
    congr 1; push_cast; ring
  · rw [Complex.exp_ofReal_mul_I_im]
    simp only [sscaEm, Cx.exp, Cx.toC, Flt.exp_real, Flt.sin_real, Real.exp_zero, one_mul, Flt.ofNat_real, Flt.pi_real]
    congr 1; push_cast; ring

theorem hammingAt_real (n i : ℕ) : (hammingAt n i : ℝ) = hammingW n i := by
  simp only [hammingAt, hammingW, Flt.lit_real, Flt.cos_real, Flt.ofNat_real, Flt.pi_real]
  norm_num

/-- One entry as a double sum. -/
theorem sscaVal_toC (s : List ℝ) {n np q k : ℕ} (hq : q < n) (hk : k < np) :
    (sscaVal s n np q k).toC = ∑ i ∈ Finset.range n, ∑ j ∈ Finset.range np,
      (hammingW n i * hammingW np j * s.getD (i + np / 2) 0 * s.getD (i + j) 0 : ℝ)
        * (unit np (-(j * ((k + (np + 1) / 2) % np : ℕ))) * (sscaEm np i k : Cx ℝ).toC
          * unit n (-(i * ((q + (n + 1) / 2) % n : ℕ)))) := by
  rw [sscaVal, fftshift_getD _ (by simp) hq, Cx.toC_ofC, dftAt_unit]
  simp only [List.length_map, List.length_range]
  refine Finset.sum_congr rfl fun i hi => ?_
  have hi := Finset.mem_range.mp hi
  have hg : (((List.range n).map (fun i => sscaXg s n np i k)).map Cx.toC).getD i 0 = (sscaXg s n np i k).toC := by
    simp [List.getD, hi]
  rw [hg, sscaXg, Cx.toC_mul, Cx.toC_mul, Cx.toC_mul, fftshift_getD _ (sscaSeg_length s np i) hk, Cx.toC_ofC, dftAt_unit]
  simp only [List.length_map, sscaSeg_length]
  rw [Finset.sum_mul, Finset.sum_mul, Finset.sum_mul, Finset.sum_mul]
  refine Finset.sum_congr rfl fun j hj => ?_
  have hj := Finset.mem_range.mp hj
  have hsj : ((sscaSeg s np i).map Cx.toC).getD j 0 = ((hammingW np j * s.getD (i + j) 0 : ℝ) : ℂ) := by
    simp only [sscaSeg, List.getD, List.getElem?_map, List.getElem?_range hj, Option.map_some, Option.getD_some, hammingAt_real]
    apply Complex.ext <;> simp [Cx.toC]
  have hc : (Cx.conj (⟨s.getD (np / 2 + i) 0, 0⟩ : Cx ℝ)).toC = ((s.getD (i + np / 2) 0 : ℝ) : ℂ) := by
    rw [Nat.add_comm]; apply Complex.ext <;> simp [Cx.toC, Cx.conj]
  have hh : (⟨hammingAt n i, 0⟩ : Cx ℝ).toC = ((hammingW n i : ℝ) : ℂ) := by
    rw [hammingAt_real]; rfl
  rw [hsj, hc, hh]
  push_cast
  rw [neg_one_mul, neg_one_mul]
  ring

theorem sscaVal_spec (s : List ℝ) {n np q k : ℕ} (hq : q < n) (hk : k < np) (hn : n % 2 = 0) (hnp : np % 2 = 0) :
    (sscaVal s n np q k).toC = ssca (fun i => s.getD i 0) n np q k := by
  rw [sscaVal_toC s hq hk, ssca]
  refine Finset.sum_congr rfl fun i _ => Finset.sum_congr rfl fun j _ => ?_
  congr 1
  have e1 : unit np (-(j * ((k + (np + 1) / 2) % np : ℕ))) = unit np (-(j * ((k : ℤ) - (np / 2 : ℕ)))) := by
    refine unit_congr (by omega) ?_
    have h1 : (np : ℤ) ∣ ((k + (np + 1) / 2) % np : ℕ) - ((k : ℤ) - (np / 2 : ℕ)) := by
      refine ⟨1 - ((k + (np + 1) / 2) / np : ℕ), ?_⟩
      have h2 := Nat.mod_add_div (k + (np + 1) / 2) np
      have h3 : (k : ℤ) + ((np + 1) / 2 : ℕ) = ((k + (np + 1) / 2) % np : ℕ) + np * ((k + (np + 1) / 2) / np : ℕ) := by
        exact_mod_cast h2.symm
      have h4 : (((np + 1) / 2 : ℕ) : ℤ) + (np / 2 : ℕ) = np := by exact_mod_cast (by omega : (np + 1) / 2 + np / 2 = np)
      have h5 : (np : ℤ) * (1 - ((k + (np + 1) / 2) / np : ℕ)) = np - np * ((k + (np + 1) / 2) / np : ℕ) := by ring
      rw [h5]
      have h6 : ((np / 2 : ℕ) : ℤ) = ((np + 1) / 2 : ℕ) := by exact_mod_cast (by omega : np / 2 = (np + 1) / 2)
      omega
    rw [show -((j : ℤ) * ((k + (np + 1) / 2) % np : ℕ)) - -(j * ((k : ℤ) - (np / 2 : ℕ)))
      = -(j : ℤ) * (((k + (np + 1) / 2) % np : ℕ) - ((k : ℤ) - (np / 2 : ℕ))) by ring]
    exact Dvd.dvd.mul_left h1 _
  have e2 : unit n (-(i * ((q + (n + 1) / 2) % n : ℕ))) = unit n (-(i * ((q : ℤ) - (n / 2 : ℕ)))) := by
    refine unit_congr (by omega) ?_
    have h1 : (n : ℤ) ∣ ((q + (n + 1) / 2) % n : ℕ) - ((q : ℤ) - (n / 2 : ℕ)) := by
      refine ⟨1 - ((q + (n + 1) / 2) / n : ℕ), ?_⟩
      have h2 := Nat.mod_add_div (q + (n + 1) / 2) n
      have h3 : (q : ℤ) + ((n + 1) / 2 : ℕ) = ((q + (n + 1) / 2) % n : ℕ) + n * ((q + (n + 1) / 2) / n : ℕ) := by
        exact_mod_cast h2.symm
      have h5 : (n : ℤ) * (1 - ((q + (n + 1) / 2) / n : ℕ)) = n - n * ((q + (n + 1) / 2) / n : ℕ) := by ring
      rw [h5]
      have h6 : ((n / 2 : ℕ) : ℤ) = ((n + 1) / 2 : ℕ) := by exact_mod_cast (by omega : n / 2 = (n + 1) / 2)
      have h4 : (((n + 1) / 2 : ℕ) : ℤ) + (n / 2 : ℕ) = n := by exact_mod_cast (by omega : (n + 1) / 2 + n / 2 = n)
      omega
    rw [show -((i : ℤ) * ((q + (n + 1) / 2) % n : ℕ)) - -(i * ((q : ℤ) - (n / 2 : ℕ)))
      = -(i : ℤ) * (((q + (n + 1) / 2) % n : ℕ) - ((q : ℤ) - (n / 2 : ℕ))) by ring]
    exact Dvd.dvd.mul_left h1 _
  have e3 : (np : ℂ) / 2 = ((np / 2 : ℕ) : ℂ) := by
    have : np = 2 * (np / 2) := by omega
    have h : (np : ℂ) = 2 * ((np / 2 : ℕ) : ℂ) := by exact_mod_cast this
    rw [h]; ring
  rw [e1, e2, sscaEm_toC, e3]
  unfold unit
  rw [← Complex.exp_add, ← Complex.exp_add]
  congr 1
  generalize np / 2 = h1
  generalize n / 2 = h2
  push_cast
  ring

/-- Scaling the signal by `c` scales every entry by `c²`. -/
theorem sscaVal_scale (s : List ℝ) (c : ℝ) {n np q k : ℕ} (hq : q < n) (hk : k < np) :
    sscaVal (s.map (fun x => c * x)) n np q k = Cx.smulR (c ^ 2) (sscaVal s n np q k) := by
  apply Cx.toC_inj
  have hs : (Cx.smulR (c ^ 2) (sscaVal s n np q k)).toC = ((c ^ 2 : ℝ) : ℂ) * (sscaVal s n np q k).toC := by
    apply Complex.ext
    · simp [Cx.toC, Cx.smulR, -Complex.ofReal_pow]
    · simp [Cx.toC, Cx.smulR, -Complex.ofReal_pow]
  rw [hs, sscaVal_toC _ hq hk, sscaVal_toC _ hq hk, Finset.mul_sum]
  refine Finset.sum_congr rfl fun i _ => ?_
  rw [Finset.mul_sum]
  refine Finset.sum_congr rfl fun j _ => ?_
  have hg : ∀ i, (s.map (fun x => c * x)).getD i 0 = c * s.getD i 0 := by
    intro i
    simp only [List.getD, List.getElem?_map]
    cases s[i]? <;> simp
  rw [hg, hg]
  push_cast
  ring

end Verif
