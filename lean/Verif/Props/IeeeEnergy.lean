import Verif.Lemmas.IeeeEnergy
import Verif.Lemmas.Helpers
import Verif.Props.Helpers
import Verif.Props.Ieee

/-!
# C152: energies and the energy detector in double precision
-/

namespace Verif
open F64
variable {L : Libm}

namespace Props

/-- `avg_energy` in double precision: finite, not negative, and within a relative error of `(n + 1) / 2⁵¹` of the exact mean
square of the samples (the absolute term is underflow). -/
theorem C152_avg {S : ℝ} (hS : S ≤ 2 ^ 400) {l : List (FloatL L)} (h0 : l ≠ []) (hl : l.length ≤ 2 ^ 40)
    (h : ∀ x ∈ l, F64.Fin x ∧ |val x| ≤ S) :
    F64.Fin (avgEnergy l) ∧ 0 ≤ val (avgEnergy l) ∧
      |val (avgEnergy l) - (l.map (fun x : FloatL L => val x ^ 2)).sum / l.length|
        ≤ (l.length + 1) / 2 ^ 51 * ((l.map (fun x : FloatL L => val x ^ 2)).sum / l.length) + 1 / 2 ^ 1071 :=
  avg_float (l := l) hS h0 hl h

theorem ones_fin (n : ℕ) : ∀ x ∈ List.replicate n (1 : FloatL L), F64.Fin x ∧ |val x| ≤ 1 := by
  intro x hx
  rw [List.eq_of_mem_replicate hx]
  exact ⟨fin_one, by rw [show val (1 : FloatL L) = 1 from val_one, abs_one]⟩

theorem ones_sum (n : ℕ) : ((List.replicate n (1 : FloatL L)).map (fun x : FloatL L => val x ^ 2)).sum = n := by
  rw [List.map_replicate, show val (1 : FloatL L) = 1 from val_one]
  simp

/-- A thousand unit samples. -/
example : F64.Fin (avgEnergy (List.replicate 1000 (1 : FloatL L))) ∧ |val (avgEnergy (List.replicate 1000 (1 : FloatL L))) - 1| ≤ 1 / 2 ^ 40 := by
  obtain ⟨h1, -, h3⟩ := C152_avg (one_le_pow₀ (by norm_num)) (l := List.replicate 1000 (1 : FloatL L)) (List.cons_ne_nil _ _) (by rw [List.length_replicate]; norm_num) (ones_fin 1000)
  refine ⟨h1, ?_⟩
  rw [ones_sum, List.length_replicate] at h3
  have h5 : (1 : ℝ) / 2 ^ 1071 ≤ 1 / 2 ^ 42 := one_div_le_one_div_of_le (by positivity) (pow_le_pow_right₀ (by norm_num) (by norm_num))
  rw [show ((1000 : ℕ) : ℝ) / ((1000 : ℕ) : ℝ) = 1 by norm_num] at h3
  refine h3.trans ((add_le_add le_rfl h5).trans ?_)
  norm_num

/-- Growing every sample in size never lowers the computed energy: the rounding is monotone. In particular the signs of the
samples play no part. -/
theorem C152_mono {S : ℝ} (hS : S ≤ 2 ^ 400) {l m : List (FloatL L)} (h0 : m ≠ []) (hm : m.length ≤ 2 ^ 40)
    (h : ∀ y ∈ m, F64.Fin y ∧ |val y| ≤ S) (hlm : List.Forall₂ (fun x y => F64.Fin x ∧ |val x| ≤ |val y|) l m) :
    val (avgEnergy l) ≤ val (avgEnergy m) := avg_mono_float (l := l) (m := m) hS h0 hm h hlm

/-- A negated recording has exactly the same energy. -/
example {S : ℝ} (hS : S ≤ 2 ^ 400) {m : List Float} (h0 : m ≠ []) (hm : m.length ≤ 2 ^ 40)
    (h : ∀ y ∈ m, F64.Fin y ∧ |val y| ≤ S) : val (avgEnergy (m.map (fun y => -y))) ≤ val (avgEnergy m) := by
  refine C152_mono (L := .lean) hS (l := m.map (fun y => -y)) (m := m) h0 hm h ?_
  show List.Forall₂ _ (m.map (fun y : Float => -y)) m
  rw [List.forall₂_map_left_iff]
  refine List.forall₂_same.mpr fun y hy => ⟨neg_fin.mpr (h y hy).1, ?_⟩
  rw [neg_val, abs_neg]

/-- The energy detector in double precision decides rightly whenever the root mean square of the samples is further from the
threshold than `(n + 2) / 2⁵¹` of itself. -/
theorem C152_detector {S : ℝ} (hS : S ≤ 2 ^ 400) {l : List (FloatL L)} (h0 : l ≠ []) (hl : l.length ≤ 2 ^ 40)
    (h : ∀ x ∈ l, F64.Fin x ∧ |val x| ≤ S) {n0 : FloatL L} (hn : F64.Fin n0) {r : ℝ}
    (hr : r = Real.sqrt ((l.map (fun x : FloatL L => val x ^ 2)).sum / l.length)) :
    (val n0 < r - ((l.length + 2) / 2 ^ 51 * r + 1 / 2 ^ 500) → energyDetector l n0 = true) ∧
    (r + ((l.length + 2) / 2 ^ 51 * r + 1 / 2 ^ 500) ≤ val n0 → energyDetector l n0 = false) :=
  detector_float (l := l) hS h0 hl h hn hr

/-- A thousand unit samples: a threshold of 0 is exceeded, a threshold of 2 is not. -/
example : energyDetector (List.replicate 1000 (1 : FloatL L)) 0 = true ∧
    energyDetector (List.replicate 1000 (1 : FloatL L)) (Flt.ofNat 2) = false := by
  have hr : (1 : ℝ) = Real.sqrt (((List.replicate 1000 (1 : FloatL L)).map (fun x : FloatL L => val x ^ 2)).sum / (List.replicate 1000 (1 : FloatL L)).length) := by
    rw [ones_sum, List.length_replicate]; norm_num
  obtain ⟨f2, v2⟩ := ofNat_exact (n := 2) (by norm_num)
  have h5 : (1 : ℝ) / 2 ^ 500 ≤ 1 / 2 := one_div_le_one_div_of_le (by positivity) (by
    calc (2 : ℝ) = 2 ^ 1 := by norm_num
      _ ≤ 2 ^ 500 := pow_le_pow_right₀ (by norm_num) (by norm_num))
  have key := fun (n0 : FloatL L) (hn : F64.Fin n0) => C152_detector (one_le_pow₀ (by norm_num)) (l := List.replicate 1000 (1 : FloatL L))
    (List.cons_ne_nil _ _) (by rw [List.length_replicate]; norm_num) (ones_fin 1000) hn hr
  simp only [List.length_replicate] at key
  have h6 : ((1000 : ℕ) + 2 : ℝ) / 2 ^ 51 * 1 ≤ 1 / 4 := by norm_num
  constructor
  · refine (key 0 fin_zero).1 ?_
    rw [show val (0 : FloatL L) = 0 from val_zero]
    linarith
  · refine (key (Flt.ofNat 2) f2).2 ?_
    rw [show val (Flt.ofNat 2 : FloatL L) = 2 from v2.trans (by norm_num)]
    linarith

/-- A detection is never lost when every sample grows in size and the threshold does not rise. -/
theorem C152_detector_mono {S : ℝ} (hS : S ≤ 2 ^ 400) {l m : List (FloatL L)} (h0 : m ≠ []) (hm : m.length ≤ 2 ^ 40)
    (h : ∀ y ∈ m, F64.Fin y ∧ |val y| ≤ S) (hlm : List.Forall₂ (fun x y => F64.Fin x ∧ |val x| ≤ |val y|) l m)
    {n0 n1 : FloatL L} (hn0 : F64.Fin n0) (hn1 : F64.Fin n1) (hn : val n1 ≤ val n0) (hd : energyDetector l n0 = true) :
    energyDetector m n1 = true := detector_mono_float (l := l) (m := m) hS h0 hm h hlm hn0 hn1 hn hd

/-- The sample 1 is detected at threshold 0, hence so are the samples 2. -/
example : energyDetector ([F64.ofNat 2] : List Float) 0 = true := by
  obtain ⟨f2, v2⟩ := ofNat_exact (n := 2) (by norm_num)
  have v2' : |val (F64.ofNat 2)| ≤ 2 := by rw [v2]; norm_num
  refine C152_detector_mono (L := .lean) (S := 2) (l := ([1] : List Float)) (m := ([F64.ofNat 2] : List Float)) (n0 := (0 : Float)) (n1 := (0 : Float)) ?_
    (List.cons_ne_nil _ _) ?_ ?_ ?_ fin_zero fin_zero le_rfl (by decide +kernel)
  · calc (2 : ℝ) = 2 ^ 1 := by norm_num
      _ ≤ 2 ^ 400 := pow_le_pow_right₀ (by norm_num) (by norm_num)
  · show 1 ≤ 2 ^ 40
    norm_num
  · intro y hy
    have : y = F64.ofNat 2 := List.mem_singleton.mp hy
    rw [this]
    exact ⟨f2, v2'⟩
  · refine List.Forall₂.cons ⟨fin_one, ?_⟩ .nil
    show |val 1| ≤ |val (F64.ofNat 2)|
    rw [val_one, v2]
    norm_num

/-- On no samples at all the mean energy is NaN, and the detector never fires, whatever the threshold. -/
theorem C152_empty (n0 : FloatL L) : Float.isNaN (avgEnergy ([] : List (FloatL L))) = true ∧ energyDetector [] n0 = false :=
  ⟨avg_empty, detector_empty n0⟩

/-- `power` of a recording of at most one sample divides by zero: the result is infinite or NaN, for every sample and rate. -/
theorem C152_power_short {ι : Type} [RIter ι (FloatL L)] {src : ι} {l : List (FloatL L)} (h : Yields src l) (hl : l.length ≤ 1) (fs : FloatL L) :
    ∃ p : FloatL L, power src fs = pure p ∧ ¬ F64.Fin p := by
  unfold power
  rw [collect_of_yields h.renumerate, pure_bind]
  rcases l with _ | ⟨x, _ | ⟨y, l⟩⟩
  · exact ⟨_, rfl, quotient_short 0 fs⟩
  · exact ⟨_, rfl, quotient_short _ fs⟩
  · simp at hl

example (x fs : FloatL L) : ∃ p : FloatL L, power (ofList [x]) fs = pure p ∧ ¬ F64.Fin p :=
  C152_power_short (yields_ofList [x]) (by simp) fs

end Props
end Verif
