import Verif.Model.KomPyMore
import Verif.Model.Hadamard
import Verif.Props.Fh
import Verif.Props.Helpers

/-!
# Chirps, durations, error rates and averages of the pure-Python code, and the printed Hadamard matrix (C97–C100)
-/
namespace Verif.Props
open Verif Spec
set_option linter.unusedSectionVars false

/-! ## C97 chirps -/

theorem chirpz_ok {r fs f0 f1 φ : ℝ} (hr : 0 < r) :
    KomPy.chirpz r fs f0 f1 φ = .ok ((KomPy.npLinspace 0 (1 / r) (Flt.toNat (fs / r))).map (fun t =>
      Real.sin (2 * Real.pi * ((f1 - f0) / (1 / r) * (t * t) / 2 + f0 * t) + φ))) := by
  unfold KomPy.chirpz
  have : (Flt.le r 0 && Flt.le 0 r) = false := by simp [hr]
  rw [this]
  simp

/-- Both chirps follow the same law, but not at the same instants and not from the same starting phase: of
`n = ⌊fs/rate⌋ ≥ 2` samples, sample `i` of the compiled chirp is the cosine of the sweep at time `i/(n·rate)`, that of the
Python chirp the sine (displaced by `phase_rad`) at time `i/((n-1)·rate)`.  *Missing for the full claim: the instants are not the same; see `C97_differ`.* -/
theorem C97_chirp_partial {r : ℝ} (hr : 0 < r) (fs : ℕ) (hfs : fs / r < 2 ^ 64) (h2 : 2 ≤ ⌊fs / r⌋₊) (f0 f1 φ : ℝ) :
    ∃ u v, Yields (linearChirp r fs f0 f1) u ∧ KomPy.chirpz r (fs : ℝ) f0 f1 φ = .ok v ∧
      u.length = ⌊fs / r⌋₊ ∧ v.length = ⌊fs / r⌋₊ ∧
      ∃ θ : ℝ → ℝ, (∀ t, θ t = 2 * Real.pi * (f0 * t + (f1 - f0) * r * t ^ 2 / 2)) ∧ ∀ i, i < ⌊fs / r⌋₊ →
        u[i]? = some (Real.cos (θ (i / (⌊fs / r⌋₊ * r)))) ∧
        v[i]? = some (Real.sin (θ (i / ((⌊fs / r⌋₊ - 1) * r)) + φ)) := by
  have hfl : ⌊fs / r⌋₊ < 2 ^ 64 := by
    rw [Nat.floor_lt (by positivity)]; exact_mod_cast hfs
  have hN : (Flt.toNat ((fs : ℝ) / r)) = ⌊fs / r⌋₊ := by rw [Flt.toNat_real, min_eq_left (by omega)]
  obtain ⟨u, h1, h3, h4⟩ := C38_chirp hr fs hfs f0 f1
  refine ⟨u, _, h1, chirpz_ok hr, h3, by rw [hN, List.length_map, KomPy.npLinspace, List.length_map, List.length_range], _,
    fun _ => rfl, fun i hi => ⟨?_, ?_⟩⟩
  · rw [h4 i hi]
    unfold chirpSample
    congr 2
    field_simp
  · rw [hN, List.getElem?_map, KomPy.npLinspace, List.getElem?_map, List.getElem?_range hi, Option.map_some, Option.map_some]
    have hn0 : ((⌊fs / r⌋₊ : ℕ) : ℝ) - 1 ≠ 0 := by
      have : (2 : ℝ) ≤ (⌊fs / r⌋₊ : ℕ) := by exact_mod_cast h2
      linarith
    simp only [Flt.ofNat_real]
    rw [Nat.cast_sub (by omega : 1 ≤ ⌊fs / r⌋₊)]
    congr 3
    push_cast
    field_simp
    ring

example : ∃ u v, Yields (linearChirp (1 : ℝ) 8 1 3) u ∧ KomPy.chirpz (1 : ℝ) (8 : ℕ) 1 3 0 = .ok v ∧ u.length = 8 ∧ v.length = 8 := by
  obtain ⟨u, v, h1, h2, h3, h4, _⟩ := C97_chirp_partial (r := 1) (by norm_num) 8 (by norm_num) (by norm_num) 1 3 0
  exact ⟨u, v, h1, h2, by rw [h3]; norm_num, by rw [h4]; norm_num⟩

/-- With the default phase they differ from the first sample on: the compiled chirp starts with 1, the Python one with 0. -/
theorem C97_first {r : ℝ} (hr : 0 < r) (fs : ℕ) (hfs : fs / r < 2 ^ 64) (h2 : 2 ≤ ⌊fs / r⌋₊) (f0 f1 : ℝ) :
    ∃ u v, Yields (linearChirp r fs f0 f1) u ∧ KomPy.chirpz r (fs : ℝ) f0 f1 0 = .ok v ∧ u[0]? = some 1 ∧ v[0]? = some 0 := by
  obtain ⟨u, v, h1, h3, _, _, θ, hθ, h⟩ := C97_chirp_partial hr fs hfs h2 f0 f1 0
  obtain ⟨h4, h5⟩ := h 0 (by omega)
  refine ⟨u, v, h1, h3, ?_, ?_⟩
  · rw [h4, hθ]; simp
  · rw [h5, hθ]; simp

example : ∃ u v, Yields (linearChirp (2 : ℝ) 10 1 5) u ∧ KomPy.chirpz (2 : ℝ) ((10 : ℕ) : ℝ) 1 5 0 = .ok v ∧ u[0]? = some 1 ∧ v[0]? = some 0 :=
  C97_first (by norm_num) 10 (by norm_num) (by norm_num) 1 5

/-- Starting both at phase zero of the cosine does not make them equal either: rate 1, two samples per second, a constant
frequency of 1 Hz. -/
theorem C97_differ : ∃ u v, Yields (linearChirp (1 : ℝ) 2 1 1) u ∧ KomPy.chirpz (1 : ℝ) (2 : ℕ) 1 1 (Real.pi / 2) = .ok v ∧
    u[1]? = some (-1 : ℝ) ∧ v[1]? = some 1 := by
  have hfl : ⌊((2 : ℕ) : ℝ) / 1⌋₊ = 2 := by norm_num
  obtain ⟨u, v, h1, h3, _, _, θ, hθ, h⟩ := C97_chirp_partial (r := 1) (by norm_num) 2 (by norm_num) (by rw [hfl]) 1 1 (Real.pi / 2)
  obtain ⟨h4, h5⟩ := h 1 (by rw [hfl]; norm_num)
  refine ⟨u, v, h1, h3, ?_, ?_⟩
  · rw [h4, hθ, hfl]
    congr 1
    rw [show 2 * Real.pi * (1 * (((1 : ℕ) : ℝ) / (((2 : ℕ) : ℝ) * 1)) + (1 - 1) * 1 * (((1 : ℕ) : ℝ) / (((2 : ℕ) : ℝ) * 1)) ^ 2 / 2)
      = Real.pi by push_cast; ring]
    exact Real.cos_pi
  · rw [h5, hθ, hfl]
    congr 1
    rw [show 2 * Real.pi * (1 * (((1 : ℕ) : ℝ) / ((((2 : ℕ) : ℝ) - 1) * 1))
        + (1 - 1) * 1 * (((1 : ℕ) : ℝ) / ((((2 : ℕ) : ℝ) - 1) * 1)) ^ 2 / 2) + Real.pi / 2 = Real.pi / 2 + 2 * Real.pi by
      push_cast; ring, Real.sin_add_two_pi]
    exact Real.sin_pi_div_two

/-- The last sample of the Python chirp is at the end of the sweep, where the next one begins. -/
theorem C97_last {r : ℝ} (hr : 0 < r) (fs : ℕ) (hfs : fs / r < 2 ^ 64) (h2 : 2 ≤ ⌊fs / r⌋₊) (f0 f1 φ : ℝ) :
    ∃ v, KomPy.chirpz r (fs : ℝ) f0 f1 φ = .ok v ∧ v.getLast? = some (Real.sin (Real.pi * (f0 + f1) / r + φ)) := by
  obtain ⟨u, v, h1, h3, _, hv, θ, hθ, h⟩ := C97_chirp_partial hr fs hfs h2 f0 f1 φ
  obtain ⟨_, h5⟩ := h (⌊fs / r⌋₊ - 1) (by omega)
  refine ⟨v, h3, ?_⟩
  rw [List.getLast?_eq_getElem?, hv, h5, hθ, Nat.cast_sub (by omega : 1 ≤ ⌊fs / r⌋₊)]
  have hn0 : ((⌊fs / r⌋₊ : ℕ) : ℝ) - 1 ≠ 0 := by
    have : (2 : ℝ) ≤ (⌊fs / r⌋₊ : ℕ) := by exact_mod_cast h2
    linarith
  congr 3
  push_cast
  field_simp
  ring

example : ∃ v, KomPy.chirpz (2 : ℝ) ((10 : ℕ) : ℝ) 1 5 0 = .ok v ∧ v.getLast? = some (Real.sin (Real.pi * (1 + 5) / 2 + 0)) :=
  C97_last (by norm_num) 10 (by norm_num) (by norm_num) 1 5 0

/-- `chirpCtr` hands its arguments over in the wrong order: for a repetition rate below the sample rate, which is the only
sensible use, it returns no samples at all. -/
theorem C97_ctr_empty {fs rep : ℝ} (hfs : 0 < fs) (_h0 : 0 ≤ rep) (h : rep < fs) (fc bw φ : ℝ) :
    KomPy.chirpCtr fs fc rep bw φ = .ok [] := by
  unfold KomPy.chirpCtr
  simp only []
  rw [chirpz_ok hfs]
  have : ⌊rep / fs⌋₊ = 0 := Nat.floor_eq_zero.mpr ((div_lt_one hfs).mpr h)
  rw [Flt.toNat_real, this]
  rfl

example : KomPy.chirpCtr (8000 : ℝ) 1000 10 500 0 = .ok [] := C97_ctr_empty (by norm_num) (by norm_num) (by norm_num) _ _ _

/-- The starting phase given to it has no effect. -/
theorem C97_ctr_phase {F : Type} [Add F] [Sub F] [Mul F] [Div F] [Neg F] [Zero F] [One F] [Flt F] (fs fc rep bw φ ψ : F) :
    KomPy.chirpCtr fs fc rep bw φ = KomPy.chirpCtr fs fc rep bw ψ := rfl

/-! ## C98 durations -/

theorem ratFloorDiv_nat {x : ℚ} (hx : 0 ≤ x) (b : ℕ) : KomPy.ratFloorDiv x b = ((⌊x⌋₊ / b : ℕ) : ℤ) := by
  unfold KomPy.ratFloorDiv
  rw [← Nat.floor_div_natCast, Int.natCast_floor_eq_floor (by positivity)]

theorem ratMod_nonneg {x : ℚ} {b : ℕ} (hb : 0 < b) : 0 ≤ KomPy.ratMod x b := by
  unfold KomPy.ratMod
  have hb' : (0 : ℚ) < b := by exact_mod_cast hb
  have := Int.floor_le (x / b)
  rw [le_div_iff₀ hb'] at this
  linarith

theorem ratMod_floor {x : ℚ} (hx : 0 ≤ x) {b : ℕ} (hb : 0 < b) : ⌊KomPy.ratMod x b⌋₊ = ⌊x⌋₊ % b := by
  have h := ratFloorDiv_nat hx b
  unfold KomPy.ratFloorDiv at h
  have h1 : ((⌊KomPy.ratMod x b⌋₊ : ℕ) : ℤ) = ((⌊x⌋₊ % b : ℕ) : ℤ) := by
    rw [Int.natCast_floor_eq_floor (ratMod_nonneg hb), KomPy.ratMod, h]
    rw [show x - (b : ℚ) * (((⌊x⌋₊ / b : ℕ) : ℤ) : ℚ) = x - ((b * (⌊x⌋₊ / b) : ℕ) : ℤ) by push_cast; rfl, Int.floor_sub_intCast,
      ← Int.natCast_floor_eq_floor hx]
    have := Nat.div_add_mod ⌊x⌋₊ b
    omega
  exact_mod_cast h1

/-- What is printed, in terms of the whole seconds. -/
theorem secsToStr_nat {x : ℚ} (hx : 0 < x) :
    KomPy.secsToStr x =
      (if 31557600 ≤ ⌊x⌋₊ then s!"{⌊x⌋₊ / 31557600}Y:" else "") ++ (if 86400 ≤ ⌊x⌋₊ then s!"{⌊x⌋₊ % 31557600 / 86400}d:" else "")
        ++ (if 3600 ≤ ⌊x⌋₊ then s!"{⌊x⌋₊ % 86400 / 3600}h:" else "") ++ (if 60 ≤ ⌊x⌋₊ then s!"{⌊x⌋₊ % 3600 / 60}m:" else "")
        ++ s!"{⌊x⌋₊ % 60}s" := by
  unfold KomPy.secsToStr
  have e1 : (60 : ℚ) = ((60 : ℕ) : ℚ) := by norm_num
  have e2 : (60 * ((60 : ℕ) : ℚ) : ℚ) = ((3600 : ℕ) : ℚ) := by norm_num
  have e3 : (24 * ((3600 : ℕ) : ℚ) : ℚ) = ((86400 : ℕ) : ℚ) := by norm_num
  have e4 : (365.25 * ((86400 : ℕ) : ℚ) : ℚ) = ((31557600 : ℕ) : ℚ) := by norm_num
  simp only [e1]
  rw [show ((60 : ℕ) : ℚ) * ((60 : ℕ) : ℚ) = ((3600 : ℕ) : ℚ) by norm_num]
  simp only [e3, e4]
  have hm : ∀ b : ℕ, 0 < b → ∀ c : ℕ, KomPy.ratFloorDiv (KomPy.ratMod x b) c = ((⌊x⌋₊ % b / c : ℕ) : ℤ) := fun b hb c => by
    rw [ratFloorDiv_nat (ratMod_nonneg hb), ratMod_floor hx.le hb]
  have hf : ⌊KomPy.ratMod x (60 : ℕ)⌋ = ((⌊x⌋₊ % 60 : ℕ) : ℤ) := by
    rw [← Int.natCast_floor_eq_floor (ratMod_nonneg (by norm_num)), ratMod_floor hx.le (by norm_num)]
  rw [hm _ (by norm_num), hm _ (by norm_num), hm _ (by norm_num), hf, ratFloorDiv_nat hx.le, ratFloorDiv_nat hx.le, ratFloorDiv_nat hx.le,
    ratFloorDiv_nat hx.le]
  generalize ⌊x⌋₊ = n
  have hs : ∀ k : ℕ, toString ((k : ℕ) : ℤ) = toString k := fun k => rfl
  have hn : ∀ b : ℕ, 0 < b → ((((n / b : ℕ) : ℤ) ≠ 0) ↔ b ≤ n) := fun b hb => by
    rw [ne_eq, Int.natCast_eq_zero, Nat.div_eq_zero_iff]
    omega
  have hne : ∀ (a : String) (k : ℕ), ¬ (a ++ s!"{k}s" = "") := fun a k h => by
    have := congrArg String.toList h
    simp at this
  simp only [hn _ (by norm_num : 0 < 31557600), hn _ (by norm_num : 0 < 86400), hn _ (by norm_num : 0 < 3600), hn _ (by norm_num : 0 < 60), hs,
    hx.ne', ne_eq, not_false_iff, if_true]
  rw [if_neg (hne _ _)]
  split_ifs <;> simp [String.append_assoc]
/-- For every whole number of seconds below a year of 365.25 days, and for fractions after rounding down, the figures that
are printed are days, hours below 24, minutes below 60 and seconds below 60 that add up to the number; leading figures are
left out when the number is below their unit.  *Missing for the full claim: longer durations; see `C98_years`.* -/
theorem C98_figures_partial {x : ℚ} (hx : 0 < x) (h : x < 31557600) :
    ∃ d h m s : ℕ, h < 24 ∧ m < 60 ∧ s < 60 ∧ 86400 * d + 3600 * h + 60 * m + s = ⌊x⌋₊ ∧
      KomPy.secsToStr x = (if d = 0 then "" else s!"{d}d:") ++ (if d = 0 ∧ h = 0 then "" else s!"{h}h:")
        ++ (if d = 0 ∧ h = 0 ∧ m = 0 then "" else s!"{m}m:") ++ s!"{s}s" := by
  have hn : ⌊x⌋₊ < 31557600 := (Nat.floor_lt hx.le).mpr (by exact_mod_cast h)
  rw [secsToStr_nat hx]
  generalize ⌊x⌋₊ = n at hn
  refine ⟨n / 86400, n % 86400 / 3600, n % 3600 / 60, n % 60, by omega, by omega, by omega, by omega, ?_⟩
  rw [show n % 31557600 = n by omega, if_neg (show ¬ 31557600 ≤ n by omega)]
  have c1 : (n / 86400 = 0) ↔ ¬ 86400 ≤ n := by omega
  have c2 : (n / 86400 = 0 ∧ n % 86400 / 3600 = 0) ↔ ¬ 3600 ≤ n := by omega
  have c3 : (n / 86400 = 0 ∧ n % 86400 / 3600 = 0 ∧ n % 3600 / 60 = 0) ↔ ¬ 60 ≤ n := by omega
  simp only [c3, c2]
  simp only [c1, ite_not, String.empty_append]

example : KomPy.secsToStr 93784 = "1d:2h:3m:4s" := by
  rw [secsToStr_nat (by norm_num)]
  rw [show ⌊(93784 : ℚ)⌋₊ = 93784 by norm_num]
  decide +kernel

/-- From one year on, the text is `{Y}Y:{d}d:{h}h:{m}m:{s}s`, and the figures (a year counted as 31557600 seconds) add up to the
number of seconds exactly when the number of years is a multiple of four: the hours, minutes and seconds are taken from the
whole number rather than from what the years have left. -/
theorem C98_years {x : ℚ} (h : 31557600 ≤ x) :
    ∃ Y d h m s : ℕ, 1 ≤ Y ∧ d < 366 ∧ h < 24 ∧ m < 60 ∧ s < 60 ∧ KomPy.secsToStr x = s!"{Y}Y:{d}d:{h}h:{m}m:{s}s" ∧
      31557600 * Y + 86400 * d ≤ ⌊x⌋₊ ∧ ⌊x⌋₊ < 31557600 * Y + 86400 * (d + 1) ∧
      (31557600 * Y + 86400 * d + 3600 * h + 60 * m + s = ⌊x⌋₊ ↔ 4 ∣ Y) := by
  have hx : 0 < x := by linarith
  have hn : 31557600 ≤ ⌊x⌋₊ := Nat.le_floor (by exact_mod_cast h)
  rw [secsToStr_nat hx]
  generalize ⌊x⌋₊ = n at hn
  refine ⟨n / 31557600, n % 31557600 / 86400, n % 86400 / 3600, n % 3600 / 60, n % 60, by omega, by omega, by omega, by omega,
    by omega, ?_, by omega, by omega, by omega⟩
  rw [if_pos hn, if_pos (by omega), if_pos (by omega), if_pos (by omega)]
  simp [String.append_assoc]

/-- One year prints with six hours too many. -/
theorem C98_differ : KomPy.secsToStr 31557600 = "1Y:0d:6h:0m:0s" := by
  rw [secsToStr_nat (by norm_num), show ⌊(31557600 : ℚ)⌋₊ = 31557600 by norm_num]
  decide +kernel

/-- A duration of zero prints a word that is not a duration. -/
theorem C98_zero : KomPy.secsToStr 0 = "Эспэранто" := by
  unfold KomPy.secsToStr KomPy.ratFloorDiv
  simp

/-- The characters before the first one that is not a digit. -/
theorem digits_split {a b x y : List Char} {c c' : Char} (ha : ∀ d ∈ a, d.isDigit) (hb : ∀ d ∈ b, d.isDigit) (hc : c.isDigit = false)
    (hc' : c'.isDigit = false) (h : a ++ c :: x = b ++ c' :: y) : a = b ∧ c = c' ∧ x = y := by
  induction a generalizing b with
  | nil =>
    cases b with
    | nil => simpa using h
    | cons d b =>
      simp only [List.nil_append, List.cons_append, List.cons.injEq] at h
      have := hb d (by simp)
      rw [← h.1, hc] at this
      simp at this
  | cons e a ih =>
    cases b with
    | nil =>
      simp only [List.nil_append, List.cons_append, List.cons.injEq] at h
      have := ha e (by simp)
      rw [h.1, hc'] at this
      simp at this
    | cons d b =>
      simp only [List.cons_append, List.cons.injEq] at h
      obtain ⟨h1, h2, h3⟩ := ih (fun d hd => ha d (by simp [hd])) (fun d hd => hb d (by simp [hd])) h.2
      exact ⟨by rw [h.1, h1], h2, h3⟩

theorem toString_toList (n : ℕ) : (toString n).toList = Nat.toDigits 10 n := by
  show (Nat.repr n).toList = _
  simp [Nat.repr]

theorem toDigits_inj {n m : ℕ} (h : Nat.toDigits 10 n = Nat.toDigits 10 m) : n = m := by
  rw [← Nat.ofDigitChars_toDigits (n := n) (by decide : 1 < 10) (by decide), h,
    Nat.ofDigitChars_toDigits (by decide) (by decide)]

/-- A number, a letter and more text. -/
theorem num_split {n m : ℕ} {c c' : Char} {x y : List Char} (hc : c.isDigit = false) (hc' : c'.isDigit = false)
    (h : Nat.toDigits 10 n ++ c :: x = Nat.toDigits 10 m ++ c' :: y) : n = m ∧ c = c' ∧ x = y := by
  obtain ⟨h1, h2, h3⟩ := digits_split (fun _ hd => Nat.isDigit_of_mem_toDigits (by decide) (by decide) hd)
    (fun _ hd => Nat.isDigit_of_mem_toDigits (by decide) (by decide) hd) hc hc' h
  exact ⟨toDigits_inj h1, h2, h3⟩

/-- Different whole numbers of seconds below a year print differently. -/
theorem C98_injective {a b : ℕ} (ha : a < 31557600) (hb : b < 31557600) (h : KomPy.secsToStr a = KomPy.secsToStr b) : a = b := by
  have key : ∀ n : ℕ, 0 < n → n < 31557600 → ∃ d h m s : ℕ, 86400 * d + 3600 * h + 60 * m + s = n ∧
      (KomPy.secsToStr n).toList = (if d = 0 then [] else Nat.toDigits 10 d ++ 'd' :: [':'])
        ++ ((if d = 0 ∧ h = 0 then [] else Nat.toDigits 10 h ++ 'h' :: [':'])
        ++ ((if d = 0 ∧ h = 0 ∧ m = 0 then [] else Nat.toDigits 10 m ++ 'm' :: [':']) ++ (Nat.toDigits 10 s ++ 's' :: []))) := by
    intro n h0 hn
    obtain ⟨d, h, m, s, _, _, _, e, ht⟩ := C98_figures_partial (x := n) (by exact_mod_cast h0) (by exact_mod_cast hn)
    rw [Nat.floor_natCast] at e
    refine ⟨d, h, m, s, e, ?_⟩
    rw [ht]
    simp only [String.toList_append, apply_ite String.toList, List.append_assoc]
    congr 1
    · split_ifs
      · rfl
      · exact congrArg (· ++ _) (toString_toList _)
    congr 1
    · split_ifs
      · rfl
      · exact congrArg (· ++ _) (toString_toList _)
    congr 1
    · split_ifs
      · rfl
      · exact congrArg (· ++ _) (toString_toList _)
    · exact congrArg (· ++ _) (toString_toList _)
  have hz : ∀ n : ℕ, 0 < n → n < 31557600 → KomPy.secsToStr n ≠ KomPy.secsToStr 0 := by
    intro n h0 hn e
    obtain ⟨d, h, m, s, _, ht⟩ := key n h0 hn
    rw [e, C98_zero] at ht
    have := congrArg List.getLast? ht
    rw [← List.append_assoc, ← List.append_assoc, ← List.append_assoc, List.getLast?_append] at this
    revert this
    simp
  rcases Nat.eq_zero_or_pos a with rfl | h1 <;> rcases Nat.eq_zero_or_pos b with rfl | h2
  · rfl
  · exact absurd h.symm (hz b h2 hb)
  · exact absurd h (hz a h1 ha)
  · obtain ⟨d, h', m, s, e, t⟩ := key a h1 ha
    obtain ⟨d', h'', m', s', e', t'⟩ := key b h2 hb
    rw [h, t'] at t
    have cls : ∀ d h m : ℕ, d ≠ 0 ∨ (d = 0 ∧ h ≠ 0) ∨ (d = 0 ∧ h = 0 ∧ m ≠ 0) ∨ (d = 0 ∧ h = 0 ∧ m = 0) := by omega
    rcases cls d h' m with c1 | ⟨c1, c2⟩ | ⟨c1, c2, c3⟩ | ⟨c1, c2, c3⟩ <;>
      rcases cls d' h'' m' with c1' | ⟨c1', c2'⟩ | ⟨c1', c2', c3'⟩ | ⟨c1', c2', c3'⟩ <;>
      simp only [*, false_and, and_false, if_true, if_false, and_self, List.append_assoc,
        List.cons_append, List.nil_append] at t <;>
      first
      | exact absurd (num_split (by decide) (by decide) t).2.1 (by decide)
      | (obtain ⟨r4, -, t⟩ := num_split (by decide) (by decide) t
         omega)
      | (obtain ⟨r3, -, t⟩ := num_split (by decide) (by decide) t
         obtain ⟨r4, -, t⟩ := num_split (by decide) (by decide) (List.cons.inj t).2
         omega)
      | (obtain ⟨r2, -, t⟩ := num_split (by decide) (by decide) t
         obtain ⟨r3, -, t⟩ := num_split (by decide) (by decide) (List.cons.inj t).2
         obtain ⟨r4, -, t⟩ := num_split (by decide) (by decide) (List.cons.inj t).2
         omega)
      | (obtain ⟨r1, -, t⟩ := num_split (by decide) (by decide) t
         obtain ⟨r2, -, t⟩ := num_split (by decide) (by decide) (List.cons.inj t).2
         obtain ⟨r3, -, t⟩ := num_split (by decide) (by decide) (List.cons.inj t).2
         obtain ⟨r4, -, t⟩ := num_split (by decide) (by decide) (List.cons.inj t).2
         omega)

example : KomPy.secsToStr (3600 : ℕ) ≠ KomPy.secsToStr (60 : ℕ) := fun h =>
  absurd (C98_injective (by norm_num) (by norm_num) h) (by decide)

/-! ## C99 error rate and averages -/

/-- The Python `ber` raises exactly when one of the two sequences is empty, and otherwise gives what the compiled `ber` gives, in any
arithmetic. -/
theorem C99_ber {F : Type} [Div F] [Flt F] (tx rx : List Bool) :
    (KomPy.ber tx rx : KomPy.Py F) = if tx = [] ∨ rx = [] then .error .zeroDivision else .ok (ber tx rx) := by
  unfold KomPy.ber KomPy.pyDiv
  have hz : (min tx.length rx.length = 0) ↔ (tx = [] ∨ rx = []) := by
    rw [← List.length_eq_zero_iff, ← List.length_eq_zero_iff]; omega
  have hs : List.zipWith (fun t r => if t = r then 0 else 1) tx rx
      = (tx.zip rx).map (fun p : Bool × Bool => if p.1 == p.2 then 0 else 1) := by
    rw [List.map_zip_eq_zipWith]
    congr 1
    funext t r
    by_cases h : t = r <;> simp [h]
  by_cases h : tx = [] ∨ rx = []
  · rw [if_pos h, if_pos (hz.mpr h)]
  · rw [if_neg h, if_neg (fun e => h (hz.mp e)), hs]
    rfl

example : (KomPy.ber [true, false, true, true] [true, true, true] : KomPy.Py ℝ) = .ok (1 / 3) := by
  rw [C99_ber, if_neg (by simp), C16_value]
  simp [diffCount]

/-- Where the Python function raises, the compiled one returns a number that is not a number. -/
theorem C99_ber_empty (tx rx : List Bool) (h : tx = [] ∨ rx = []) :
    (KomPy.ber tx rx : KomPy.Py Float) = .error .zeroDivision ∧ Flt.le (ber tx rx : Float) (ber tx rx) = false := by
  refine ⟨by rw [C99_ber, if_pos h], ?_⟩
  rw [C16_value]
  have e1 : diffCount tx rx = 0 := by rcases h with rfl | rfl <;> simp [diffCount]
  have e2 : min tx.length rx.length = 0 := by rcases h with rfl | rfl <;> simp
  rw [e1, e2]
  decide +kernel

example : (KomPy.ber [true] [] : KomPy.Py Float) = .error .zeroDivision := (C99_ber_empty [true] [] (Or.inr rfl)).1

/-- The Python `avg_energy` raises for the empty signal and otherwise is the compiled one, in any arithmetic. -/
theorem C99_avg_energy {F : Type} [Add F] [Sub F] [Mul F] [Div F] [Neg F] [Zero F] [One F] [Flt F] (signal : List F) :
    KomPy.avgEnergy signal = if signal = [] then .error .zeroDivision else .ok (avgEnergy signal) := by
  unfold KomPy.avgEnergy avgEnergy
  simp only [List.length_eq_zero_iff]
  rfl

/-- `avg_energy_iq` is half the mean squared magnitude; for a real signal (no imaginary parts) half of `avg_energy`. -/
theorem C99_avg_energy_iq {signal : List (Cx ℝ)} (h : signal ≠ []) :
    KomPy.avgEnergyIq signal = .ok ((signal.map (fun z => z.re ^ 2 + z.im ^ 2)).sum / signal.length / 2) := by
  unfold KomPy.avgEnergyIq
  rw [if_neg (by rwa [List.length_eq_zero_iff]), rsum_eq_sum]
  have : ∀ z : Cx ℝ, Flt.sqrt (Cx.normSq (z * z)) = z.re ^ 2 + z.im ^ 2 := fun z => by
    rw [Flt.sqrt_real, show Cx.normSq (z * z) = (z.re ^ 2 + z.im ^ 2) ^ 2 by
      unfold Cx.normSq; simp; ring]
    exact Real.sqrt_sq (by positivity)
  simp [this]

example : KomPy.avgEnergyIq [(⟨3, 4⟩ : Cx ℝ), ⟨0, 1⟩] = .ok (13 / 2) := by
  rw [C99_avg_energy_iq (by simp)]
  norm_num

/-- Scaling a signal multiplies its average energy by the square of the factor. -/
theorem C99_scale {signal : List ℝ} (h : signal ≠ []) (c : ℝ) :
    ∃ e, KomPy.avgEnergy signal = .ok e ∧ KomPy.avgEnergy (KomPy.scale signal c) = .ok (c ^ 2 * e) := by
  refine ⟨_, by rw [C99_avg_energy, if_neg h], ?_⟩
  rw [C99_avg_energy, if_neg (by simpa [KomPy.scale] using h)]
  congr 1
  unfold avgEnergy KomPy.scale
  simp only [rsum_eq_sum, powi_real, Flt.ofNat_real, List.length_map, List.map_map]
  rw [← mul_div_assoc, ← List.sum_map_mul_left]
  congr 3
  funext x
  simp [mul_pow]

example : ∃ e, KomPy.avgEnergy [(1 : ℝ), 3] = .ok e ∧ KomPy.avgEnergy (KomPy.scale [(1 : ℝ), 3] 2) = .ok (2 ^ 2 * e) :=
  C99_scale (by simp) 2

/-! ## C100 the printed Hadamard matrix -/

/-- The characters that stand for one row. -/
theorem display_row (row : List Bool) (out : String) :
    (row.foldl (fun out bit => out ++ (if bit then "T " else "F ")) out).toList
      = out.toList ++ row.flatMap (fun b => [if b then 'T' else 'F', ' ']) := by
  induction row generalizing out with
  | nil => simp
  | cons b row ih =>
    rw [List.foldl_cons, ih, String.toList_append]
    cases b <;> simp

theorem display_toList (m : BMat) :
    (hadamardDisplay m).toList = m.flatMap (fun row => row.flatMap (fun b => [if b then 'T' else 'F', ' ']) ++ ['\n']) := by
  have : ∀ (m : BMat) (out : String), (m.foldl (fun out row =>
      (row.foldl (fun out bit => out ++ (if bit then "T " else "F ")) out).push '\n') out).toList
        = out.toList ++ m.flatMap (fun row => row.flatMap (fun b => [if b then 'T' else 'F', ' ']) ++ ['\n']) := by
    intro m
    induction m with
    | nil => intro out; simp
    | cons row m ih =>
      intro out
      rw [List.foldl_cons, ih, String.toList_push, display_row, List.flatMap_cons]
      simp
  rw [hadamardDisplay, this]
  simp

/-- The text is one line per row, on each line `T` or `F` and a blank for every entry. -/
theorem C100_text (m : BMat) :
    hadamardDisplay m = String.ofList (m.flatMap (fun row => row.flatMap (fun b => [if b then 'T' else 'F', ' ']) ++ ['\n'])) := by
  rw [← display_toList, String.ofList_toList]

example : hadamardDisplay [[true, true], [true, false]] = "T T \nT F \n" := by decide +kernel

/-- The text determines the matrix, whatever its shape. -/
theorem C100_injective {a b : BMat} (h : hadamardDisplay a = hadamardDisplay b) : a = b := by
  replace h := congrArg String.toList h
  rw [display_toList, display_toList] at h
  have row : ∀ (r s : List Bool) (x y : List Char), r.flatMap (fun b => [if b then 'T' else 'F', ' ']) ++ '\n' :: x
      = s.flatMap (fun b => [if b then 'T' else 'F', ' ']) ++ '\n' :: y → r = s ∧ x = y := by
    intro r
    induction r with
    | nil =>
      intro s x y h
      cases s with
      | nil => simpa using h
      | cons c s => cases c <;> simp at h
    | cons c r ih =>
      intro s x y h
      cases s with
      | nil => cases c <;> simp at h
      | cons c' s =>
        simp only [List.flatMap_cons, List.cons_append, List.nil_append, List.cons.injEq, true_and] at h
        obtain ⟨h1, h2⟩ := ih s x y h.2
        refine ⟨?_, h2⟩
        cases c <;> cases c' <;> simp_all
  induction a generalizing b with
  | nil =>
    cases b with
    | nil => rfl
    | cons r b => simp at h
  | cons r a ih =>
    cases b with
    | nil => simp at h
    | cons s b =>
      simp only [List.flatMap_cons, List.append_assoc, List.cons_append, List.nil_append] at h
      obtain ⟨h1, h2⟩ := row r s _ _ h
      rw [h1, ih h2]

example : hadamardDisplay [[true]] ≠ hadamardDisplay [[false]] := fun h => absurd (C100_injective h) (by decide)

/-- The matrix of order `n` prints as `n` lines of `2·n` characters and a line end each. -/
theorem C100_length {m : BMat} {n : ℕ} (h1 : m.length = n) (h2 : ∀ r ∈ m, r.length = n) :
    (hadamardDisplay m).length = n * (2 * n + 1) := by
  rw [← String.length_toList, display_toList]
  have : ∀ m : BMat, (∀ r ∈ m, r.length = n) →
      (m.flatMap (fun row => row.flatMap (fun b => [if b then 'T' else 'F', ' ']) ++ ['\n'])).length = m.length * (2 * n + 1) := by
    intro m
    induction m with
    | nil => simp
    | cons r m ih =>
      intro h
      rw [List.flatMap_cons, List.length_append, ih (fun r hr => h r (by simp [hr])), List.length_append, List.length_cons]
      have hr := h r (by simp)
      have : (r.flatMap (fun b => [if b then 'T' else 'F', ' '])).length = 2 * r.length := by
        simp [List.length_flatMap, Nat.mul_comm]
      rw [this, hr]
      simp
      ring
  rw [this m h2, h1]

example : (hadamardDisplay [[true, true], [true, false]]).length = 10 := C100_length rfl (by simp)

end Verif.Props
