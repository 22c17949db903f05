import Verif.Props.KomPyBer
import Verif.F64.Sign

/-!
# Property C115 in double precision: the noise levels of the measurement script

The script divides by the signal-to-noise ratio before it calls the compiled `awgn`, which panics if the standard deviation is not
finite.  `nan_to_num` prevents that for every ratio, and turns a ratio of zero into the largest double.
-/
namespace Verif.Props
open Verif Spec F64 Float.Model
set_option linter.unusedSectionVars false

private theorem up_of_mk_inf {x : Float} (h : x = mk (.infinity .positive)) : up x = .infinity .positive := by
  rw [h]; exact unpack_pack_infinity .positive

/-- A positive double is infinite or a positive finite one. -/
private theorem pos_cases {x : Float} (h : Float.lt 0 x = true) :
    up x = .infinity .positive ∨ ∃ m e, ∃ hm : 0 < m, up x = .finite .positive m e hm := by
  rw [lt_eq, up_zero] at h
  cases hx : up x with
  | notANumber => rw [hx] at h; exact absurd h (by decide)
  | zero s => rw [hx] at h; cases s <;> exact absurd h (by decide)
  | infinity s =>
    cases s
    · rw [hx] at h; exact absurd h (by decide)
    · exact .inl rfl
  | finite s m e hm =>
    cases s
    · rw [hx] at h; exact absurd h (by simp [UnpackedFloat.compare])
    · exact .inr ⟨m, e, hm, rfl⟩

private theorem div_zero_pos {x : Float} (h : Float.lt 0 x = true) : up (x / 0) = .infinity .positive := by
  apply up_of_mk_inf
  rw [div_eq, up_zero]
  rcases pos_cases h with h | ⟨m, e, hm, h⟩ <;> rw [h] <;> rfl

private theorem sqrt_inf {x : Float} (h : up x = .infinity .positive) : up x.sqrt = .infinity .positive := by
  apply up_of_mk_inf
  rw [sqrt_eq, h]; rfl

private theorem inf_div {x y : Float} (h : up x = .infinity .positive) (hy : Fin y) (hp : Float.lt 0 y = true) :
    up (x / y) = .infinity .positive := by
  apply up_of_mk_inf
  rw [div_eq, h]
  rcases pos_cases hp with h | ⟨m, e, hm, h⟩
  · rw [fin_iff, h] at hy; exact absurd hy (by decide)
  · rw [h]; rfl

/-- No double exceeds `(2^53 - 1)·2^971`. -/
private theorem val_le_top (x : Float) : val x ≤ (2 ^ 53 - 1) * 2 ^ (971 : ℤ) := by
  have h := canon_up x
  have h0 : (0 : ℝ) ≤ (2 ^ 53 - 1) * 2 ^ (971 : ℤ) := mul_nonneg (by norm_num) (two_zpow_pos _).le
  unfold val
  cases hu : up x with
  | finite s m e hm =>
    rw [hu] at h
    refine (le_abs_self _).trans ?_
    rw [abs_uval]
    obtain ⟨⟨h1, -, -⟩, h2⟩ := h
    have hm : (m : ℝ) ≤ 2 ^ 53 - 1 := by
      have : m + 1 ≤ 2 ^ 53 := h1
      have : ((m + 1 : ℕ) : ℝ) ≤ ((2 ^ 53 : ℕ) : ℝ) := Nat.cast_le.mpr this
      push_cast at this
      linarith
    exact mul_le_mul hm (zpow_le_zpow_right₀ (by norm_num) h2) (two_zpow_pos _).le (by norm_num)
  | _ => simpa only [uval] using h0

private theorem top_val' {N : ℕ} (hN : N = (2 ^ 53 - 1) * 2 ^ 971) :
    Fin (F64.ofNat N) ∧ val (F64.ofNat N) = (2 ^ 53 - 1) * 2 ^ (971 : ℤ) := by
  have hc : (N : ℝ) = (2 ^ 53 - 1) * 2 ^ (971 : ℤ) := by
    show _ = _ * (2 : ℝ) ^ ((971 : ℕ) : ℤ)
    rw [hN, Nat.cast_mul, Nat.cast_pow, Nat.cast_sub Nat.one_le_two_pow, zpow_natCast, Nat.cast_pow, Nat.cast_one, Nat.cast_two]
  have hF : IsF ((2 ^ 53 - 1) * 2 ^ (971 : ℤ)) := by
    refine ⟨2 ^ 53 - 1, 971, by norm_num, by norm_num, ?_⟩
    congr 1
    norm_num
  have hr : rnd (N : ℝ) = (2 ^ 53 - 1) * 2 ^ (971 : ℤ) := by rw [hc, rnd_of_isF hF]
  have := ofNat_val (n := N) (by
    rw [hr, abs_of_nonneg (mul_nonneg (by norm_num) (two_zpow_pos _).le)]
    unfold huge
    rw [show (1024 : ℤ) = 53 + 971 by norm_num, zpow_add₀ two_ne_zero]
    refine mul_lt_mul_of_pos_right ?_ (two_zpow_pos _)
    norm_num)
  rwa [hr] at this

private theorem top_val : Fin (F64.ofNat (2 ^ 1024 - 2 ^ 971)) ∧ val (F64.ofNat (2 ^ 1024 - 2 ^ 971)) = (2 ^ 53 - 1) * 2 ^ (971 : ℤ) :=
  top_val' (by rw [Nat.sub_mul, ← pow_add, one_mul])

private theorem nanToNum_finite (x : Float) : Float.isFinite (KomPy.npNanToNum x) = true := by
  have h1 : Float.isFinite (F64.ofNat (2 ^ 1024 - 2 ^ 971)) = true := by decide +kernel
  have h2 : Float.isFinite (-(F64.ofNat (2 ^ 1024 - 2 ^ 971))) = true := by decide +kernel
  have h3 : Float.isFinite (0 : Float) = true := by decide +kernel
  unfold KomPy.npNanToNum
  split
  · assumption
  · split
    · exact h2
    · split
      · exact h1
      · exact h3

private theorem nanToNum_inf {x : Float} (h : up x = .infinity .positive) : KomPy.npNanToNum x = F64.ofNat (2 ^ 1024 - 2 ^ 971) := by
  have h1 : ¬ (Flt.isFinite x = true) := by
    show ¬ (Fin x)
    rw [fin_iff, h]; decide
  have h2 : ¬ (Flt.lt x 0 = true) := by
    show ¬ (Float.lt x 0 = true)
    rw [lt_eq, h, up_zero]; decide
  have h3 : Flt.lt 0 x = true := by
    show Float.lt 0 x = true
    rw [lt_eq, h, up_zero]; rfl
  unfold KomPy.npNanToNum
  split
  · next h => exact absurd h h1
  · split
    · next h => exact absurd h h2
    · split
      · rfl
      · next h => exact absurd h3 h

variable {L : Libm}

/-- Whatever the energy and the signal-to-noise ratio are — zero, negative, infinite, NaN — the noise level is finite. -/
theorem C115_level_ieee (fs sym : ℕ) (eb snr : FloatL L) : Flt.isFinite (KomPy.berSigma fs sym eb snr) = true :=
  nanToNum_finite _

private theorem level_zero {fs sym : ℕ} (hfs : 0 < fs) (hf : fs ≤ 2 ^ 53) (hsym : 0 < sym) (hs : sym ≤ 2 ^ 53) {eb : Float}
    (heb : Fin eb) (hpos : 0 < val eb) :
    (KomPy.berSigma fs sym eb 0 : Float) = F64.ofNat (2 ^ 1024 - 2 ^ 971) := by
  obtain ⟨f1, f2⟩ := ofNat_exact hf
  obtain ⟨s1, s2⟩ := ofNat_exact hs
  have g1 : GE (val eb) (F64.ofNat fs * eb) := by
    refine GE.mul f1 heb (isF_val eb) hpos.le ?_
    rw [f2]
    have : (1 : ℝ) ≤ fs := by exact_mod_cast hfs
    nlinarith
  have e0 : F64.ofNat 2 * (0 : Float) = 0 := by decide +kernel
  unfold KomPy.berSigma
  refine nanToNum_inf ?_
  show up (Float.sqrt (F64.ofNat fs * eb / (F64.ofNat 2 * (0 : Float))) / F64.ofNat sym) = _
  rw [e0]
  refine inf_div (sqrt_inf (div_zero_pos (g1.pos hpos))) s1 ?_
  rw [lt_iff fin_zero s1, val_zero, s2]
  exact_mod_cast hsym

/-- At a signal-to-noise ratio of zero the noise level is the largest double. -/
theorem C115_zero_snr_ieee {fs sym : ℕ} (hfs : 0 < fs) (hf : fs ≤ 2 ^ 53) (hsym : 0 < sym) (hs : sym ≤ 2 ^ 53) {eb : FloatL L}
    (heb : Fin eb) (hpos : 0 < val eb) :
    ∃ top : FloatL L, KomPy.berSigma fs sym eb 0 = top ∧ Fin top ∧ val top = (2 ^ 53 - 1) * 2 ^ (971 : ℤ) ∧
      ∀ x : FloatL L, val x ≤ val top :=
  ⟨F64.ofNat (2 ^ 1024 - 2 ^ 971), level_zero hfs hf hsym hs heb hpos, top_val.1, top_val.2, fun x => (val_le_top x).trans_eq top_val.2.symm⟩

/-- A sweep with a receiver that returns and never gives an empty answer: `calc_ber` returns one rate per ratio, whatever the
recording and the ratios are. -/
theorem C115_returns_ieee {ν : Type} [RIter ν (FloatL L)] (fs sym : ℕ) {data : List Bool} (hne : data ≠ []) (tx : List (FloatL L))
    {rx : List (FloatL L) → RM (List Bool)} (hrx : ∀ l, l.length = tx.length → ∃ bits, rx l = pure bits ∧ bits ≠ [])
    (snrs : List (FloatL L)) {std : ℕ → ν} {z : ℕ → ℕ → FloatL L} (hz : ∀ i, Gives (std i) (z i)) :
    ∃ rates : List (FloatL L), KomPy.calcBer fs sym data tx rx snrs std = pure (.ok rates) ∧ rates.length = snrs.length := by
  have key : ∀ i (hi : i < snrs.length), ∃ r : FloatL L, KomPy.getBer data tx rx
      (KomPy.berSigma fs sym (rsum (tx.map (fun s => s * s)) / Flt.ofNat data.length) snrs[i]) (std i) = pure (.ok r) := by
    intro i hi
    obtain ⟨bits, h1, h2⟩ := hrx (tx.mapIdx (fun j x => x + (0 + KomPy.berSigma fs sym
      (rsum (tx.map (fun s => s * s)) / Flt.ofNat data.length) snrs[i] * z i j))) (by simp)
    unfold KomPy.getBer
    rw [C56_awgn_py tx (hz i) _ (C115_level_ieee fs sym _ _), pure_bind, h1, pure_bind]
    have hl : 0 < min data.length bits.length :=
      lt_min (List.length_pos_of_ne_nil hne) (List.length_pos_of_ne_nil h2)
    obtain ⟨m, hm⟩ : ∃ m, m = min data.length bits.length := ⟨_, rfl⟩
    unfold KomPy.ber KomPy.pyDiv
    rw [← hm, if_neg (by omega)]
    exact ⟨_, rfl⟩
  choose r hr using key
  refine ⟨_, sweep_returns hne (r := fun i => if hi : i < snrs.length then r i hi else 0) (fun i hi => ?_), by simp⟩
  rw [hr i hi, dif_pos hi]

/-- The settings of the script, a ratio of zero. -/
example : ∃ x : FloatL Libm.rounded, KomPy.berSigma 80000 1000 (Flt.ofNat 40 : FloatL Libm.rounded) 0 = x ∧ Fin x ∧
    val x = (2 ^ 53 - 1) * 2 ^ (971 : ℤ) := by
  obtain ⟨h1, h2⟩ := ofNat_exact (n := 40) (by norm_num)
  obtain ⟨x, a, b, c, -⟩ := C115_zero_snr_ieee (L := Libm.rounded) (fs := 80000) (sym := 1000) (by norm_num) (by norm_num) (by norm_num)
    (by norm_num) (eb := (Flt.ofNat 40 : FloatL Libm.rounded)) h1 (h2.symm ▸ by norm_num)
  exact ⟨x, a, b, c⟩
/-- Ratios of zero, minus one and NaN. -/
example (data : List Bool) (hne : data ≠ []) (tx : List (FloatL L)) : ∃ rates : List (FloatL L),
    KomPy.calcBer 80000 1000 data tx (fun l => pure (l.map (fun x => Flt.lt 0 x) ++ [true])) [0, -1, 0 / 0]
      (fun _ => (Repeat.mk 1 : Repeat (FloatL L))) = pure (.ok rates) ∧ rates.length = 3 :=
  C115_returns_ieee 80000 1000 hne tx (fun l _ => ⟨_, rfl, by simp⟩) _ (fun _ => gives_repeat 1)

end Verif.Props
