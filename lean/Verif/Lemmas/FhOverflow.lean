import Verif.F64.Spread
import Verif.F64.Libm
import Verif.Lemmas.FhOfdm
import Verif.Lemmas.OfdmRx
import Verif.Props.FhOfdm

/-! # Infinities in the frames of FH-OFDM-DCSK -/
namespace Verif
open F64

/-- Both parts of the complex number are finite. -/
def CFin (z : Cx Float) : Prop := Fin z.re ∧ Fin z.im

/-- A transform of `n` points that never hides an infinity or NaN: if some input is not finite, no output is. -/
def Spreads (n : ℕ) (D : Bool → List (Cx Float) → List (Cx Float)) : Prop :=
  ∀ inv x, x.length = n → (∃ z ∈ x, ¬ CFin z) → ∀ z ∈ D inv x, ¬ CFin z

theorem CFin.of_mul {a b : Cx Float} (h : CFin (a * b)) : CFin a ∧ CFin b := by
  have h1 : Fin (a.re * b.re - a.im * b.im) := h.1
  exact ⟨⟨h1.of_sub.1.of_mul.1, h1.of_sub.2.of_mul.1⟩, ⟨h1.of_sub.1.of_mul.2, h1.of_sub.2.of_mul.2⟩⟩

theorem CFin.of_re_mul {a b : Cx Float} (h : Fin (a * b).re) : CFin a ∧ CFin b := by
  have h1 : Fin (a.re * b.re - a.im * b.im) := h
  exact ⟨⟨h1.of_sub.1.of_mul.1, h1.of_sub.2.of_mul.1⟩, ⟨h1.of_sub.1.of_mul.2, h1.of_sub.2.of_mul.2⟩⟩

theorem CFin.of_divR {a : Cx Float} {x : Float} (h : CFin (Cx.divR a x)) : CFin a :=
  ⟨Fin.of_div (b := x) h.1, Fin.of_div (b := x) h.2⟩

/-- A sum with an infinite or undefined term is infinite or undefined. -/
theorem fin_foldl {l : List Float} {a : Float} (h : Fin (l.foldl (· + ·) a)) : Fin a ∧ ∀ x ∈ l, Fin x := by
  induction l generalizing a with
  | nil => exact ⟨h, by simp⟩
  | cons x l ih =>
    obtain ⟨h1, h2⟩ := ih (a := a + x) h
    refine ⟨h1.of_add.1, fun y hy => ?_⟩
    rcases List.mem_cons.mp hy with rfl | hy
    · exact h1.of_add.2
    · exact h2 y hy

theorem fin_rsum {l : List Float} (h : Fin (rsum l)) : ∀ x ∈ l, Fin x := (fin_foldl h).2

variable {ρ : Type} [Rng ρ] {L : Libm} [Fft (FloatL L)]

/-- The last chaotic sample of a frame is infinite, so every sample of the frame is infinite or undefined. -/
theorem fhFrame_bad (hD : Spreads 8 (Fft.dft (F := FloatL L))) (r : ρ) {p : List (Cx (FloatL L)) × List (FloatL L)}
    (hs : p.1.length = 7) (hc : p.2.length = 8) (hb : ∃ x, p.2[7]? = some x ∧ ¬ Fin x) :
    ∀ z ∈ fhFrame r p, ¬ CFin z := by
  obtain ⟨x, hx, hbx⟩ := hb
  have hlast : ∃ z ∈ preHop p.1 p.2, ¬ CFin z := by
    refine ⟨p.1[6] * (⟨x, 0⟩ : Cx (FloatL L)), ?_, fun h => hbx (CFin.of_mul h).2.1⟩
    unfold preHop
    refine List.mem_cons_of_mem _ (List.mem_map.mpr ⟨(x, p.1[6]), ?_, rfl⟩)
    refine List.mem_iff_getElem?.mpr ⟨6, ?_⟩
    rw [List.getElem?_zip_eq_some]
    exact ⟨by rw [List.getElem?_drop]; exact hx, List.getElem?_eq_getElem _⟩
  set y := fftshift ((hopPerm r).map (fun i => (preHop p.1 p.2).getD i 0)) with hy
  have hyl : y.length = 8 := by rw [hy, fftshift_length, List.length_map, hopPerm_length]
  have hyb : ∃ z ∈ y, ¬ CFin z := by
    obtain ⟨z, hz, hzb⟩ := hlast
    obtain ⟨i, hi, rfl⟩ := List.getElem_of_mem hz
    refine ⟨_, (mem_fftshift _ _).mpr (List.mem_map.mpr ⟨i, (mem_hopPerm r i).mpr (by rw [preHop_length hs hc] at hi; exact hi), rfl⟩), ?_⟩
    have e : (preHop p.1 p.2).getD i 0 = (preHop p.1 p.2)[i] := by simp [List.getD, List.getElem?_eq_getElem hi]
    rwa [e]
  have hall := hD true y hyl hyb
  intro z hz
  unfold fhFrame at hz
  obtain ⟨w, hw, rfl⟩ := List.mem_map.mp hz
  have hw' : w ∈ Fft.dft true y := by
    rcases List.mem_append.mp hw with h | h
    · exact List.mem_of_mem_drop h
    · exact h
  exact fun h => hall w hw' (CFin.of_divR h)

omit [Fft (FloatL L)] in
theorem chaos_bad (n : ℕ) (hn : 7 ≤ n) : ¬ Fin (orbit chebyshev (Flt.lit 5 1 : FloatL L) n) := by
  have h := Props.chebyshev_overflow.2 n hn
  have e : (Flt.lit 5 1 : FloatL L) = (0.5 : Float) := by
    show (F64.lit 5 1 : Float) = 0.5
    decide +kernel
  have key : ∀ x : Float, x = Float.ofBits 0x7FF0000000000000 → ¬ Fin x := by
    rintro _ rfl
    decide +kernel
  refine key _ ?_
  rw [← h]
  exact congrArg (fun x : Float => orbit chebyshev x n) e

omit [Fft (FloatL L)] in
theorem mem_fhInput_bad {msg : List Bool} {p : List (Cx (FloatL L)) × List (FloatL L)} (h : p ∈ fhInput msg) :
    ∃ x, p.2[7]? = some x ∧ ¬ Fin x := by
  obtain ⟨i, hi, rfl⟩ := List.mem_mapIdx.mp h
  exact ⟨orbit chebyshev (Flt.lit 5 1 : FloatL L) (i * 8 + 7), rfl, chaos_bad _ (by omega)⟩

theorem mem_wave {A B : Type} {k : ℕ} {w : ℕ → A → ℕ → B} {l : List A} {b : B} (h : b ∈ wave k w l) :
    ∃ n a j, a ∈ l ∧ b = w n a j := by
  unfold wave at h
  obtain ⟨s, hs, hb⟩ := List.mem_flatten.mp h
  obtain ⟨i, hi, rfl⟩ := List.mem_mapIdx.mp hs
  obtain ⟨j, -, rfl⟩ := List.mem_map.mp hb
  exact ⟨i, l[i], j, List.getElem_mem _, rfl⟩

omit [Fft (FloatL L)] in
theorem not_finite {x : FloatL L} : Flt.isFinite x = false ↔ ¬ F64.Fin x := by
  show Float.isFinite x = false ↔ ¬ (Float.isFinite x = true)
  rw [Bool.not_eq_true]

omit [Fft (FloatL L)] in
theorem half_ok : (Flt.le (-1) (Flt.lit 5 1 : FloatL L) && Flt.le (Flt.lit 5 1 : FloatL L) 1) = true := by
  show (Float.le (-1) (F64.lit 5 1 : Float) && Float.le (F64.lit 5 1 : Float) 1) = true
  decide +kernel

omit [Fft (FloatL L)] in
/-- The noise level computed from samples that are not finite is not finite. -/
theorem energy_bad {l : List (FloatL L)} (hpos : 0 < l.length) (hb : ∀ x ∈ l, Flt.isFinite x = false) (snr : FloatL L) :
    Flt.isFinite (avgEnergy l / snr) = false := by
  refine not_finite.mpr (fun h1 => ?_)
  have h2 := fin_rsum (h1.of_div.of_div)
  have h3 := h2 _ (List.mem_map.mpr ⟨l[0], List.getElem_mem hpos, rfl⟩)
  have h4 : F64.Fin (l[0]) := by
    have : F64.Fin (l[0] * l[0]) := h3
    exact this.of_mul.1
  exact not_finite.mp (hb _ (List.getElem_mem hpos)) h4

/-! ## A transform that spreads -/

/-- The transform by definition: `n` products and additions per output, any factors. -/
def sumDft (w : Bool → ℕ → ℕ → Cx Float) (inv : Bool) (x : List (Cx Float)) : List (Cx Float) :=
  (List.range x.length).map (fun k =>
    ⟨rsum (x.mapIdx (fun j z => (z * w inv j k).re)), rsum (x.mapIdx (fun j z => (z * w inv j k).im))⟩)

theorem sumDft_length (w : Bool → ℕ → ℕ → Cx Float) (inv : Bool) (x : List (Cx Float)) :
    (sumDft w inv x).length = x.length := by simp [sumDft]

theorem spreads_sumDft (w : Bool → ℕ → ℕ → Cx Float) (n : ℕ) : Spreads n (sumDft w) := by
  rintro inv x - ⟨z, hz, hb⟩ y hy hf
  obtain ⟨k, -, rfl⟩ := List.mem_map.mp hy
  obtain ⟨j, hj, rfl⟩ := List.getElem_of_mem hz
  have := fin_rsum hf.1 ((x[j] * w inv j k).re) (List.mem_mapIdx.mpr ⟨j, hj, rfl⟩)
  exact hb (CFin.of_re_mul this).1

end Verif
