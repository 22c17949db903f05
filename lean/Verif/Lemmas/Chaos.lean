import Verif.Lemmas.Psk
import Verif.Model.Chaos
import Mathlib.NumberTheory.Padics.PadicVal.Basic

/-! Orbits of the chaotic maps. -/
namespace Verif
open Spec
set_option linter.unusedSectionVars false

variable {ι : Type}

section anyF
variable {F : Type} [Add F] [Sub F] [Mul F] [Div F] [Neg F] [Zero F] [One F] [Flt F]

/-- Orbit `f x, f (f x), …`. -/
def orbit {A : Type} (f : A → A) (x : A) : ℕ → A
  | 0 => f x
  | n + 1 => f (orbit f x n)

theorem orbit_shift {A : Type} (f : A → A) (x : A) (n : ℕ) : orbit f x (n + 1) = orbit f (f x) n := by
  induction n with
  | zero => rfl
  | succ n ih => rw [orbit, ih]; rfl

theorem gives_logistic (mu x : F) : Gives (LogisticMap.mk mu x) (orbit (logisticMap mu) x) :=
  Beh.coind (R := fun (s : LogisticMap F) f => f = fun n => some (orbit (logisticMap s.mu) s.xn n))
    (fun s f hf => ⟨⟨s.mu, logisticMap s.mu s.xn⟩, by subst hf; rfl, by subst hf; funext n; simp only [orbit_shift]⟩) rfl

theorem gives_chebyshev (x : F) : Gives (Chebyshev.mk x) (orbit chebyshev x) :=
  Beh.coind (R := fun (s : Chebyshev F) f => f = fun n => some (orbit chebyshev s.xn n))
    (fun s f hf => ⟨⟨chebyshev s.xn⟩, by subst hf; rfl, by subst hf; funext n; simp only [orbit_shift]⟩) rfl

/-- An invariant of the map holds along the orbit. -/
theorem orbit_inv {A : Type} {f : A → A} {x : A} (P : A → Prop) (hx : P x) (hf : ∀ a, P a → P (f a)) (n : ℕ) : P (orbit f x n) := by
  induction n with
  | zero => exact hf _ hx
  | succ n ih => exact hf _ ih

theorem txDcsk_ok [RIter ι Bool] {m : ι} {msg : List Bool} (h : Yields m msg)
    (h0 : Flt.le (0 : F) (Flt.lit 1 1) = true) (h1 : Flt.le (Flt.lit 1 1 : F) 1 = true) :
    ∃ it, txDcsk F m = pure it ∧ Yields it ((msg.mapIdx (fun i b =>
      [orbit (logisticMap (Flt.lit 39 1 : F)) (Flt.lit 1 1) i,
       orbit (logisticMap (Flt.lit 39 1 : F)) (Flt.lit 1 1) i * bitToNrz b])).flatten) := by
  unfold txDcsk LogisticMap.new
  rw [rassert_pos (by rw [h0, h1]; rfl)]
  refine ⟨_, by simp only [pure_bind]; rfl, ?_⟩
  refine (Yields.rflatMap (out := fun p : Bool × F => [p.2, p.2 * bitToNrz p.1]) ?_
    (h.rzip_gives (gives_logistic _ _))).of_eq ?_
  · intro p; exact ⟨_, rfl, yields_ofList _⟩
  · rw [List.flatMap_def, map_mapIdx']

theorem pairs_mapIdx_flatten {A B : Type} (f g : ℕ → A → B) (l : List A) :
    pairs ((l.mapIdx (fun i a => [f i a, g i a])).flatten) = l.mapIdx (fun i a => (f i a, g i a)) := by
  induction l generalizing f g with
  | nil => rfl
  | cons a l ih =>
    rw [List.mapIdx_cons, List.flatten_cons, List.mapIdx_cons, ← ih]
    rfl

theorem rxDcsk_ok [RIter ι F] {s : ι} {l : List F} (h : Yields s l) :
    Yields (rxDcsk s) ((pairs l).map (fun p => Flt.lt 0 (p.1 * p.2))) := h.rtuples.rmap _

theorem txCsk_ok [RIter ι Bool] {m : ι} {msg : List Bool} (h : Yields m msg)
    (h0 : Flt.le (0 : F) (Flt.lit 1 1) = true) (h1 : Flt.le (Flt.lit 1 1 : F) 1 = true)
    (h2 : Flt.le (0 : F) (Flt.lit 15 2) = true) (h3 : Flt.le (Flt.lit 15 2 : F) 1 = true) :
    ∃ it, txCsk F m = pure it ∧ Yields it (msg.mapIdx (fun i b =>
      if b then orbit (logisticMap (Flt.lit 39 1 : F)) (Flt.lit 1 1) i
        else orbit (logisticMap (Flt.lit 39 1 : F)) (Flt.lit 15 2) i)) := by
  unfold txCsk LogisticMap.new
  simp only [h0, h1, h2, h3, Bool.and_self, rassert_pos, pure_bind]
  refine ⟨_, rfl, ?_⟩
  refine (((h.rzip_gives (gives_logistic _ _)).rzip_gives (gives_logistic _ _)).rmap _).of_eq ?_
  rw [mapIdx_mapIdx', map_mapIdx']

theorem rxCsk_ok [RIter ι F] {s : ι} {l : List F} (h : Yields s l)
    (h0 : Flt.le (0 : F) (Flt.lit 1 1) = true) (h1 : Flt.le (Flt.lit 1 1 : F) 1 = true)
    (h2 : Flt.le (0 : F) (Flt.lit 15 2) = true) (h3 : Flt.le (Flt.lit 15 2 : F) 1 = true) :
    ∃ it, rxCsk s = pure it ∧ Yields it (l.mapIdx (fun i x =>
      Flt.lt (Flt.abs (x - orbit (logisticMap (Flt.lit 39 1 : F)) (Flt.lit 1 1) i))
        (Flt.abs (x - orbit (logisticMap (Flt.lit 39 1 : F)) (Flt.lit 15 2) i)))) := by
  unfold rxCsk LogisticMap.new
  simp only [h0, h1, h2, h3, Bool.and_self, rassert_pos, pure_bind]
  refine ⟨_, rfl, ?_⟩
  refine (((h.rzip_gives (gives_logistic _ _)).rzip_gives (gives_logistic _ _)).rmap _).of_eq ?_
  rw [mapIdx_mapIdx', map_mapIdx']
end anyF

/-! ### Real orbits -/

theorem logistic_unit {mu x : ℝ} (h0 : 0 ≤ mu) (h4 : mu ≤ 4) (hx : 0 ≤ x ∧ x ≤ 1) :
    0 ≤ logisticMap mu x ∧ logisticMap mu x ≤ 1 := by
  obtain ⟨a, b⟩ := hx
  unfold logisticMap
  have h1 : 0 ≤ x * (1 - x) := mul_nonneg a (by linarith)
  have h2 : x * (1 - x) ≤ 1 / 4 := by nlinarith [sq_nonneg (x - 1 / 2)]
  rw [mul_assoc]
  exact ⟨mul_nonneg h0 h1, by nlinarith⟩

/-- The interval on which the logistic map with `mu = 3.9` acts. -/
theorem logistic_39 {x : ℝ} (hx : 0.0950625 ≤ x ∧ x ≤ 0.975) :
    0.0950625 ≤ logisticMap (3.9 : ℝ) x ∧ logisticMap (3.9 : ℝ) x ≤ 0.975 := by
  obtain ⟨a, b⟩ := hx
  unfold logisticMap
  constructor
  · nlinarith [mul_nonneg (sub_nonneg.mpr b) (by linarith : (0 : ℝ) ≤ x - 0.025)]
  · nlinarith [sq_nonneg (x - 1 / 2)]

theorem lit39 : (Flt.lit 39 1 : ℝ) = 3.9 := by rw [Flt.lit_real]; norm_num
theorem lit1 : (Flt.lit 1 1 : ℝ) = 0.1 := by rw [Flt.lit_real]; norm_num
theorem lit15 : (Flt.lit 15 2 : ℝ) = 0.15 := by rw [Flt.lit_real]; norm_num

theorem chebyshev_real (x : ℝ) : chebyshev x = 3 * x ^ 3 + 2 * x := by
  unfold chebyshev; simp only [powi_real, Flt.ofNat_real]; push_cast; ring

theorem chebyshev_abs (x : ℝ) : 2 * |x| ≤ |chebyshev x| := by
  rw [chebyshev_real, show 3 * x ^ 3 + 2 * x = x * (3 * x ^ 2 + 2) by ring, abs_mul,
    abs_of_pos (by positivity : (0 : ℝ) < 3 * x ^ 2 + 2)]
  have := abs_nonneg x
  nlinarith [sq_nonneg x, mul_nonneg this (sq_nonneg x)]

theorem chebyshev_orbit (x : ℝ) (n : ℕ) : 2 ^ (n + 1) * |x| ≤ |orbit chebyshev x n| := by
  induction n with
  | zero => simpa [orbit] using chebyshev_abs x
  | succ n ih =>
    rw [orbit]
    refine le_trans ?_ (chebyshev_abs _)
    rw [pow_succ]; linarith

/-! ### The two CSK orbits never meet: 2-adic valuations -/

/-- The logistic map with `mu = 39/10` on the rationals. -/
def logQ (x : ℚ) : ℚ := 39 / 10 * x * (1 - x)

theorem orbit_cast (x : ℚ) (n : ℕ) : orbit (logisticMap (3.9 : ℝ)) (x : ℝ) n = ((orbit logQ x n : ℚ) : ℝ) := by
  have key : ∀ y : ℚ, logisticMap (3.9 : ℝ) (y : ℝ) = ((logQ y : ℚ) : ℝ) := by
    intro y; unfold logisticMap logQ; push_cast; norm_num
  induction n with
  | zero => exact key x
  | succ n ih => rw [orbit, orbit, ih, key]

/-- With a negative valuation, one step of the map sends the valuation `v` to `2v - 1`. -/
theorem logQ_val {x : ℚ} (hx : padicValRat 2 x < 0) : padicValRat 2 (logQ x) = 2 * padicValRat 2 x - 1 := by
  have h0 : x ≠ 0 := by rintro rfl; simp at hx
  have h1 : (1 : ℚ) - x ≠ 0 := by
    intro h
    have : x = 1 := by linarith
    subst this; simp at hx
  have hv1 : padicValRat 2 (1 - x) = padicValRat 2 x := by
    have : padicValRat 2 (-x + 1) = padicValRat 2 (-x) := by
      apply padicValRat.add_eq_of_lt (p := 2)
      · intro h; exact h1 (by linarith)
      · exact neg_ne_zero.mpr h0
      · norm_num
      · simpa using hx
    rw [show (1 : ℚ) - x = -x + 1 by ring, this, padicValRat.neg]
  have h39 : padicValRat 2 (39 / 10 : ℚ) = -1 := by
    rw [padicValRat.div (by norm_num) (by norm_num)]
    have e1 : padicValRat 2 (39 : ℚ) = 0 := by
      have := padicValRat.of_nat (p := 2) (n := 39)
      rw [show ((39 : ℕ) : ℚ) = 39 by norm_num] at this
      rw [this, padicValNat.eq_zero_of_not_dvd (by norm_num)]; rfl
    have e2 : padicValRat 2 (10 : ℚ) = 1 := by
      rw [show (10 : ℚ) = 2 * 5 by norm_num, padicValRat.mul (by norm_num) (by norm_num)]
      have e3 : padicValRat 2 (5 : ℚ) = 0 := by
        have := padicValRat.of_nat (p := 2) (n := 5)
        rw [show ((5 : ℕ) : ℚ) = 5 by norm_num] at this
        rw [this, padicValNat.eq_zero_of_not_dvd (by norm_num)]; rfl
      have e4 : padicValRat 2 (2 : ℚ) = 1 := by
        have := padicValRat.self (p := 2) (by norm_num)
        simpa using this
      rw [e3, e4]; rfl
    rw [e1, e2]; rfl
  unfold logQ
  rw [padicValRat.mul (mul_ne_zero (by norm_num) h0) h1, padicValRat.mul (by norm_num) h0, hv1, h39]
  ring

theorem val_tenth : padicValRat 2 (1 / 10 : ℚ) = -1 := by
  have e3 : padicValRat 2 (5 : ℚ) = 0 := by
    have := padicValRat.of_nat (p := 2) (n := 5)
    rw [show ((5 : ℕ) : ℚ) = 5 by norm_num] at this
    rw [this, padicValNat.eq_zero_of_not_dvd (by norm_num)]; rfl
  have e4 : padicValRat 2 (2 : ℚ) = 1 := by
    have := padicValRat.self (p := 2) (by norm_num)
    simpa using this
  rw [padicValRat.div (by norm_num) (by norm_num), show (10 : ℚ) = 2 * 5 by norm_num,
    padicValRat.mul (by norm_num) (by norm_num), e3, e4]; simp

theorem val_15 : padicValRat 2 (3 / 20 : ℚ) = -2 := by
  have e3 : padicValRat 2 (5 : ℚ) = 0 := by
    have := padicValRat.of_nat (p := 2) (n := 5)
    rw [show ((5 : ℕ) : ℚ) = 5 by norm_num] at this
    rw [this, padicValNat.eq_zero_of_not_dvd (by norm_num)]; rfl
  have e5 : padicValRat 2 (3 : ℚ) = 0 := by
    have := padicValRat.of_nat (p := 2) (n := 3)
    rw [show ((3 : ℕ) : ℚ) = 3 by norm_num] at this
    rw [this, padicValNat.eq_zero_of_not_dvd (by norm_num)]; rfl
  have e4 : padicValRat 2 (2 : ℚ) = 1 := by
    have := padicValRat.self (p := 2) (by norm_num)
    simpa using this
  rw [padicValRat.div (by norm_num) (by norm_num), show (20 : ℚ) = 2 * 2 * 5 by norm_num,
    padicValRat.mul (by norm_num) (by norm_num), padicValRat.mul (by norm_num) (by norm_num), e3, e4, e5]; norm_num

theorem orbits_differ {x y : ℚ} (hx : padicValRat 2 x < 0) (hy : padicValRat 2 y < 0) (hxy : padicValRat 2 x ≠ padicValRat 2 y)
    (n : ℕ) : padicValRat 2 (orbit logQ x n) < 0 ∧ padicValRat 2 (orbit logQ y n) < 0 ∧
      padicValRat 2 (orbit logQ x n) ≠ padicValRat 2 (orbit logQ y n) := by
  induction n with
  | zero => rw [orbit, orbit, logQ_val hx, logQ_val hy]; omega
  | succ n ih =>
    obtain ⟨a, b, c⟩ := ih
    rw [orbit, orbit, logQ_val a, logQ_val b]; omega

/-- The two chaotic carriers of CSK differ at every step. -/
theorem csk_orbits_ne (n : ℕ) : orbit (logisticMap (3.9 : ℝ)) 0.1 n ≠ orbit (logisticMap (3.9 : ℝ)) 0.15 n := by
  have e1 := orbit_cast (1 / 10) n
  have e2 := orbit_cast (3 / 20) n
  rw [show (((1 / 10 : ℚ)) : ℝ) = 0.1 by norm_num] at e1
  rw [show (((3 / 20 : ℚ)) : ℝ) = 0.15 by norm_num] at e2
  rw [e1, e2]
  intro h
  have := Rat.cast_injective h
  exact (orbits_differ (x := 1 / 10) (y := 3 / 20) (by rw [val_tenth]; norm_num) (by rw [val_15]; norm_num)
    (by rw [val_tenth, val_15]; norm_num) n).2.2 (by rw [this])

end Verif
