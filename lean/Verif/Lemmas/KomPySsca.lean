import Verif.Lemmas.SscaMap
import Verif.Model.KomPyMore

/-! Helper lemmas for the Python SSCA. -/
namespace Verif
open Spec
set_option linter.unusedSectionVars false

theorem py_mapM_ok {α β : Type} {f : α → KomPy.Py β} {g : α → β} {l : List α} (h : ∀ a ∈ l, f a = pure (g a)) :
    l.mapM f = pure (l.map g) := by
  induction l with
  | nil => rfl
  | cons a l ih =>
    rw [List.mapM_cons, h a (by simp), pure_bind, ih (fun b hb => h b (by simp [hb])), pure_bind, List.map_cons]

theorem py_foldlM_rep {α γ σ : Type} (R : γ → σ) {f : σ → α → KomPy.Py σ} {h : γ → α → γ} {l : List α}
    (hf : ∀ g, ∀ a ∈ l, f (R g) a = pure (R (h g a))) (g : γ) : l.foldlM f (R g) = pure (R (l.foldl h g)) := by
  induction l generalizing g with
  | nil => rfl
  | cons a l ih =>
    rw [List.foldlM_cons, hf g a (by simp), pure_bind, ih (fun g b hb => hf g b (by simp [hb])), List.foldl_cons]

theorem zipWith_zipWith_map {A : Type} (f : A → A → A) (n m : ℕ) (a b : ℕ → ℕ → A) :
    List.zipWith (List.zipWith f) ((List.range n).map (fun i => (List.range m).map (a i)))
      ((List.range n).map (fun i => (List.range m).map (b i)))
      = (List.range n).map (fun i => (List.range m).map (fun j => f (a i j) (b i j))) := by
  rw [List.zipWith_map, List.zipWith_self]
  refine List.map_congr_left fun i _ => ?_
  rw [List.zipWith_map, List.zipWith_self]

section anyF
variable {F : Type} [Add F] [Sub F] [Mul F] [Div F] [Neg F] [Zero F] [One F] [Flt F] [Fft F]

theorem npHamming_length (M : ℕ) : (KomPy.npHamming M : List F).length = M := by
  unfold KomPy.npHamming
  split
  · next h => simp [h]
  · simp

/-- The windowed segment that is transformed for row `i`. -/
def pySeg (s : List F) (Np i : ℕ) : List (Cx F) :=
  (List.range Np).map (fun j => ⟨s.getD (i + j) 0 * (KomPy.npHamming Np).getD j 0, 0⟩)

/-- Row `i`, column `k` of `xg`. -/
def pyXg (s : List F) (N Np i k : ℕ) : Cx F :=
  (fftshift (Fft.dft false (pySeg s Np i))).getD k 0 * KomPy.sscaE Np i k * Cx.conj ⟨s.getD (Np / 2 + i) 0, 0⟩
    * ⟨(KomPy.npHamming N).getD i 0, 0⟩

/-- Row `q`, column `k` of the result. -/
def pyVal (s : List F) (N Np q k : ℕ) : Cx F :=
  (fftshift (Fft.dft false ((List.range N).map (fun i => pyXg s N Np i k)))).getD q 0

theorem getD_take_lt {A : Type} (l : List A) {n i : ℕ} (h : i < n) (d : A) : (l.take n).getD i d = l.getD i d := by
  simp [List.getD, List.getElem?_take_of_lt h]

theorem pyBase_ok {s : List F} {N Np : ℕ} (hN : 0 < N) (hNp : 0 < Np) (h : N + Np ≤ s.length) :
    KomPy.sscaBase s N Np = .ok ((List.range N).map (fun q => (List.range Np).map (pyVal s N Np q))) := by
  unfold KomPy.sscaBase
  have hl : (s.take (N + Np)).length = N + Np := by rw [List.length_take]; omega
  simp only [KomPy.pyAssert, hl, beq_self_eq_true, if_true]
  rw [show (N != 0) = true by simp; omega]
  simp only [if_true]
  change ((_ : KomPy.Py (Mat F)) >>= _) = _
  rw [List.mapM_map, py_mapM_ok (l := List.range N) (g := fun i => (List.range Np).map (fun k => (fftshift (Fft.dft false (pySeg s Np i))).getD k 0)), pure_bind,
    py_mapM_ok (l := List.range N) (g := fun i => (List.range Np).map (fun _ => Cx.conj (⟨s.getD (Np / 2 + i) 0, 0⟩ : Cx F))), pure_bind]
  · have hg : (KomPy.npHamming N).map (fun w => List.replicate Np (⟨w, 0⟩ : Cx F))
        = (List.range N).map (fun i => (List.range Np).map (fun _ => (⟨(KomPy.npHamming N).getD i 0, 0⟩ : Cx F))) := by
      conv_lhs => rw [list_eq_map_getD (l := (KomPy.npHamming N : List F)) (npHamming_length N) 0]
      rw [List.map_map]
      refine List.map_congr_left fun i _ => ?_
      exact replicate_eq_map _ _
    rw [hg, zipWith_zipWith_map, zipWith_zipWith_map, zipWith_zipWith_map, transposeM_map,
      py_mapM_ok (g := fun col => (List.range N).map (fun q => (fftshift (Fft.dft false col)).getD q 0))]
    · rw [pure_bind, List.map_map]
      refine congrArg Except.ok ?_
      exact transposeM_map Np N (fun k q => pyVal s N Np q k)
    · intro col hc
      obtain ⟨k, _, rfl⟩ := List.mem_map.mp hc
      rw [KomPy.npFft, if_neg (by omega)]
      have hx := list_eq_map_getD (l := fftshift (Fft.dft false ((List.range N).map (fun i =>
        (fftshift (Fft.dft false (pySeg s Np i))).getD k 0 * KomPy.sscaE Np i k * Cx.conj ⟨s.getD (Np / 2 + i) 0, 0⟩
          * ⟨(KomPy.npHamming N).getD i 0, 0⟩)))) (n := N) (by rw [fftshift_length, Fft.length_dft]; simp) 0
      exact congrArg Except.ok hx
  · intro i hi
    have hi := List.mem_range.mp hi
    refine py_mapM_ok fun j hj => ?_
    have hj := List.mem_range.mp hj
    have hlt : Np / 2 + i < N + Np := by omega
    have : (s.take (N + Np))[Np / 2 + i]? = some (s.getD (Np / 2 + i) 0) := by
      rw [List.getElem?_take_of_lt hlt, List.getD, List.getElem?_eq_getElem (by omega)]; rfl
    rw [KomPy.pyIndex, this]
    rfl
  · intro i hi
    have hi := List.mem_range.mp hi
    rw [Function.comp, KomPy.npFft, if_neg (by omega)]
    have hseg : List.zipWith (fun (v w : F) => (⟨v * w, 0⟩ : Cx F)) (((s.take (N + Np)).drop i).take Np) (KomPy.npHamming Np)
        = pySeg s Np i := by
      rw [list_eq_map_getD (l := (((s.take (N + Np)).drop i).take Np)) (n := Np)
        (by rw [List.length_take, List.length_drop, hl]; omega) 0,
        list_eq_map_getD (l := (KomPy.npHamming Np : List F)) (npHamming_length Np) 0, List.zipWith_map, List.zipWith_self, pySeg]
      refine List.map_congr_left fun j hj => ?_
      have hj := List.mem_range.mp hj
      rw [getD_take_lt _ hj]
      have : ((s.take (N + Np)).drop i).getD j 0 = s.getD (i + j) 0 := by
        rw [List.getD, List.getElem?_drop, List.getElem?_take_of_lt (by omega)]; rfl
      rw [this]
    rw [hseg]
    exact congrArg Except.ok (list_eq_map_getD (l := fftshift (Fft.dft false (pySeg s Np i))) (n := Np)
      (by rw [fftshift_length, Fft.length_dft]; simp [pySeg]) 0)

theorem pyBase_short {s : List F} {N Np : ℕ} (h : s.length < N + Np) : KomPy.sscaBase s N Np = .error .assertion := by
  unfold KomPy.sscaBase
  have hl : (s.take (N + Np)).length = s.length := by rw [List.length_take]; omega
  simp only [KomPy.pyAssert, hl]
  rw [show (s.length == N + Np) = false by simp; omega]
  rfl

theorem pyBase_zero {s : List F} {Np : ℕ} (h : Np ≤ s.length) : KomPy.sscaBase s 0 Np = .error .assertion := by
  unfold KomPy.sscaBase
  have hl : (s.take (0 + Np)).length = 0 + Np := by rw [List.length_take]; omega
  simp only [KomPy.pyAssert, hl]
  rw [show (0 + Np == 0 + Np) = true by simp]
  rfl

theorem pyBase_zero' {s : List F} {N : ℕ} (hN : 0 < N) (h : N ≤ s.length) : KomPy.sscaBase s N 0 = .error .value := by
  unfold KomPy.sscaBase
  have hl : (s.take (N + 0)).length = N + 0 := by rw [List.length_take]; omega
  simp only [KomPy.pyAssert, hl]
  rw [show (N + 0 == N + 0) = true by simp, show (N != 0) = true by simp; omega]
  simp only [if_true]
  obtain ⟨m, rfl⟩ : ∃ m, N = m + 1 := ⟨N - 1, by omega⟩
  rw [List.mapM_map, List.range_succ_eq_map, List.mapM_cons]
  rfl

theorem pySsca_unmapped (s : List F) (N Np : ℕ) : KomPy.ssca s N Np false = KomPy.sscaBase s N Np := by
  unfold KomPy.ssca
  cases KomPy.sscaBase s N Np <;> rfl

theorem pySet_row (R C : ℕ) (g : ℕ × ℕ → Cx F) {p : ℕ × ℕ} (hi : p.1 < R) (hj : p.2 < C) (v : Cx F) :
    (do let row ← KomPy.pySet (← KomPy.pyIndex (matOf R C g) p.1) p.2 v
        KomPy.pySet (matOf R C g) p.1 row) = (pure (matOf R C (Function.update g p v)) : KomPy.Py _) := by
  have h1 : KomPy.pyIndex (matOf R C g) p.1 = (pure ((List.range C).map (fun j => g (p.1, j))) : KomPy.Py _) := by
    have : (matOf R C g)[p.1]? = some ((List.range C).map (fun j => g (p.1, j))) := by simp [matOf, hi]
    rw [KomPy.pyIndex, this]
    rfl
  have h2 : KomPy.pySet ((List.range C).map (fun j => g (p.1, j))) p.2 v
      = (pure ((List.range C).map (fun j => if j = p.2 then v else g (p.1, j))) : KomPy.Py _) := by
    rw [KomPy.pySet, if_pos (by simpa using hj), set_map_range]
    rfl
  rw [h1, pure_bind, h2, pure_bind, KomPy.pySet, if_pos (by rw [matOf_length]; exact hi), matOf, set_map_range]
  refine congrArg Except.ok (List.map_congr_left fun i _ => ?_)
  by_cases h : i = p.1
  · rw [if_pos h]
    refine List.map_congr_left fun j _ => ?_
    by_cases h2 : j = p.2
    · rw [if_pos h2, h, h2, Function.update_self]
    · rw [if_neg h2, Function.update_of_ne (by rintro rfl; exact h2 rfl), h]
  · rw [if_neg h]
    refine List.map_congr_left fun j _ => ?_
    rw [Function.update_of_ne (by rintro rfl; exact h rfl)]

theorem pyMapped_ok {s : List F} {N Np : ℕ} (hN : 0 < N) (hNp : 0 < Np) (h : N + Np ≤ s.length)
    (hr : ∀ q k, q < N → k < Np → (KomPy.sscaCell F N Np q k).1 < Np + 1 ∧ (KomPy.sscaCell F N Np q k).2 < 2 * N + 1) :
    KomPy.ssca s N Np true = .ok (matOf (Np + 1) (2 * N + 1) ((sscaPairs N Np).foldl
      (fun g p => Function.update g (KomPy.sscaCell F N Np p.1 p.2) (pyVal s N Np p.1 p.2)) (fun _ => 0))) := by
  unfold KomPy.ssca
  rw [pyBase_ok hN hNp h]
  change (List.range N).foldlM _ _ = _
  have h0 : (List.replicate (Np + 1) (List.replicate (2 * N + 1) 0) : Mat F)
      = matOf (Np + 1) (2 * N + 1) (fun _ => 0) := by
    rw [matOf, replicate_eq_map, replicate_eq_map]
  rw [h0, py_foldlM_rep (matOf (Np + 1) (2 * N + 1)) (h := fun g q => (List.range Np).foldl
      (fun g k => Function.update g (KomPy.sscaCell F N Np q k) (pyVal s N Np q k)) g)]
  · refine congrArg (fun g => pure (matOf (Np + 1) (2 * N + 1) g)) ?_
    rw [sscaPairs, List.foldl_flatMap]
    simp only [List.foldl_map]
  · intro g q hq
    have hq := List.mem_range.mp hq
    refine py_foldlM_rep (matOf (Np + 1) (2 * N + 1))
      (h := fun g k => Function.update g (KomPy.sscaCell F N Np q k) (pyVal s N Np q k)) ?_ g
    intro g k hk
    have hk := List.mem_range.mp hk
    have e1 : KomPy.pyIndex ((List.range N).map (fun q => (List.range Np).map (pyVal s N Np q))) q
        = (pure ((List.range Np).map (pyVal s N Np q)) : KomPy.Py _) := by
      have : ((List.range N).map (fun q => (List.range Np).map (pyVal s N Np q)))[q]?
        = some ((List.range Np).map (pyVal s N Np q)) := by simp [hq]
      rw [KomPy.pyIndex, this]; rfl
    have e2 : KomPy.pyIndex ((List.range Np).map (pyVal s N Np q)) k = (pure (pyVal s N Np q k) : KomPy.Py _) := by
      have : ((List.range Np).map (pyVal s N Np q))[k]? = some (pyVal s N Np q k) := by simp [hk]
      rw [KomPy.pyIndex, this]; rfl
    simp only [e1, e2, pure_bind]
    obtain ⟨h3, h4⟩ := hr q k hq hk
    exact pySet_row _ _ g (p := KomPy.sscaCell F N Np q k) h3 h4 _

end anyF

/-! ## Exact arithmetic -/

theorem npHamming_real {M i : ℕ} (h : i < M) (h1 : M ≠ 1) : (KomPy.npHamming M : List ℝ).getD i 0 = hammingSym M i := by
  unfold KomPy.npHamming
  rw [if_neg h1]
  simp only [List.getD, List.getElem?_map, List.getElem?_range h, Option.map_some, Option.getD_some, hammingSym, Flt.lit_real,
    Flt.cos_real, Flt.ofNat_real, Flt.pi_real]
  rw [Nat.cast_sub (by omega : 1 ≤ M)]
  norm_num

theorem sscaE_toC {Np : ℕ} (h : Np % 2 = 0) (i k : ℕ) : (KomPy.sscaE Np i k : Cx ℝ).toC
    = Complex.exp (-(2 * Real.pi * Complex.I * ((i : ℂ) * ((k : ℂ) - ((Np / 2 : ℕ) : ℂ)) / Np))) := by
  have e : (Np + 1) / 2 = Np / 2 := by omega
  have : -(2 * Real.pi * Complex.I * ((i : ℂ) * ((k : ℂ) - ((Np / 2 : ℕ) : ℂ)) / Np))
      = ((-(2 * Real.pi * ((k : ℝ) - ((Np / 2 : ℕ) : ℝ)) * i / Np) : ℝ) : ℂ) * Complex.I := by push_cast; ring
  rw [this]
  apply Complex.ext
  · rw [Complex.exp_ofReal_mul_I_re]
    simp only [KomPy.sscaE, Cx.exp, Cx.toC, Flt.exp_real, Flt.cos_real, Real.exp_zero, one_mul, Flt.ofNat_real, Flt.pi_real, e]
    congr 1; push_cast; ring
  · rw [Complex.exp_ofReal_mul_I_im]
    simp only [KomPy.sscaE, Cx.exp, Cx.toC, Flt.exp_real, Flt.sin_real, Real.exp_zero, one_mul, Flt.ofNat_real, Flt.pi_real, e]
    congr 1; push_cast; ring

/-- A bin of a shifted transform of even length. -/
theorem unit_shift {n k : ℕ} (hk : k < n) (hn : n % 2 = 0) (j : ℕ) :
    unit n (-(j * ((k + (n + 1) / 2) % n : ℕ))) = unit n (-(j * ((k : ℤ) - (n / 2 : ℕ)))) := by
  refine unit_congr (by omega) ?_
  have h1 : (n : ℤ) ∣ ((k + (n + 1) / 2) % n : ℕ) - ((k : ℤ) - (n / 2 : ℕ)) := by
    refine ⟨1 - ((k + (n + 1) / 2) / n : ℕ), ?_⟩
    have h2 := Nat.mod_add_div (k + (n + 1) / 2) n
    have h3 : (k : ℤ) + ((n + 1) / 2 : ℕ) = ((k + (n + 1) / 2) % n : ℕ) + n * ((k + (n + 1) / 2) / n : ℕ) := by
      exact_mod_cast h2.symm
    have h4 : (((n + 1) / 2 : ℕ) : ℤ) + (n / 2 : ℕ) = n := by exact_mod_cast (by omega : (n + 1) / 2 + n / 2 = n)
    have h5 : (n : ℤ) * (1 - ((k + (n + 1) / 2) / n : ℕ)) = n - n * ((k + (n + 1) / 2) / n : ℕ) := by ring
    rw [h5]
    have h6 : ((n / 2 : ℕ) : ℤ) = ((n + 1) / 2 : ℕ) := by exact_mod_cast (by omega : n / 2 = (n + 1) / 2)
    omega
  rw [show -((j : ℤ) * ((k + (n + 1) / 2) % n : ℕ)) - -(j * ((k : ℤ) - (n / 2 : ℕ)))
    = -(j : ℤ) * (((k + (n + 1) / 2) % n : ℕ) - ((k : ℤ) - (n / 2 : ℕ))) by ring]
  exact Dvd.dvd.mul_left h1 _

theorem pyVal_spec (s : List ℝ) {N Np q k : ℕ} (hq : q < N) (hk : k < Np) (hN : N % 2 = 0) (hNp : Np % 2 = 0) :
    (pyVal s N Np q k).toC = sscaWith (hammingSym N) (hammingSym Np) (fun i => s.getD i 0) N Np q k := by
  rw [pyVal, fftshift_getD _ (by simp) hq, Cx.toC_ofC, dftAt_unit, sscaWith]
  simp only [List.length_map, List.length_range]
  refine Finset.sum_congr rfl fun i hi => ?_
  have hi := Finset.mem_range.mp hi
  have hg : (((List.range N).map (fun i => pyXg s N Np i k)).map Cx.toC).getD i 0 = (pyXg s N Np i k).toC := by
    simp [List.getD, hi]
  have hlen : (pySeg s Np i).length = Np := by simp [pySeg]
  rw [hg, pyXg, Cx.toC_mul, Cx.toC_mul, Cx.toC_mul, fftshift_getD _ hlen hk, Cx.toC_ofC, dftAt_unit]
  simp only [List.length_map, hlen]
  rw [Finset.sum_mul, Finset.sum_mul, Finset.sum_mul, Finset.sum_mul]
  refine Finset.sum_congr rfl fun j hj => ?_
  have hj := Finset.mem_range.mp hj
  have hsj : ((pySeg s Np i).map Cx.toC).getD j 0 = ((s.getD (i + j) 0 * hammingSym Np j : ℝ) : ℂ) := by
    simp only [pySeg, List.getD, List.getElem?_map, List.getElem?_range hj, Option.map_some, Option.getD_some]
    rw [← npHamming_real hj (by omega)]
    rfl
  have hc : (Cx.conj (⟨s.getD (Np / 2 + i) 0, 0⟩ : Cx ℝ)).toC = ((s.getD (i + Np / 2) 0 : ℝ) : ℂ) := by
    rw [Nat.add_comm]; apply Complex.ext <;> simp [Cx.toC, Cx.conj]
  have hh : (⟨(KomPy.npHamming N).getD i 0, 0⟩ : Cx ℝ).toC = ((hammingSym N i : ℝ) : ℂ) := by
    rw [npHamming_real hi (by omega)]; rfl
  rw [hsj, hc, hh, neg_one_mul, neg_one_mul, unit_shift hk hNp, unit_shift hq hN, sscaE_toC hNp]
  have hexp : Complex.exp (-(2 * Real.pi * Complex.I
          * (((i + j : ℕ) : ℂ) * ((k : ℂ) - ((Np / 2 : ℕ) : ℂ)) / Np + (i : ℂ) * ((q : ℂ) - ((N / 2 : ℕ) : ℂ)) / N)))
      = unit Np (-(j * ((k : ℤ) - (Np / 2 : ℕ))))
        * Complex.exp (-(2 * Real.pi * Complex.I * ((i : ℂ) * ((k : ℂ) - ((Np / 2 : ℕ) : ℂ)) / Np)))
        * unit N (-(i * ((q : ℤ) - (N / 2 : ℕ)))) := by
    unfold unit
    rw [← Complex.exp_add, ← Complex.exp_add]
    congr 1
    generalize Np / 2 = h1
    generalize N / 2 = h2
    push_cast
    ring
  rw [hexp]
  push_cast
  ring

theorem sscaCell_real (N Np q k : ℕ) : KomPy.sscaCell ℝ N Np q k = sscaPos ℝ N Np (q, k) := by
  unfold KomPy.sscaCell sscaPos mappedRow mappedCol
  simp only [Flt.ofNat_real]
  push_cast
  rfl

end Verif
