import Verif.Lemmas.Chaos
import Verif.Props.Psk

/-!
# Properties C43–C46: chaotic maps, DCSK, CSK
-/
namespace Verif.Props
open Verif Spec
set_option linter.unusedSectionVars false

variable {ι : Type}

/-! ## C43 -/

/-- The iterator is the orbit of `x ↦ mu·x·(1 - x)`, in any arithmetic, for ever. -/
theorem C43_orbit {F : Type} [Add F] [Sub F] [Mul F] [Div F] [Neg F] [Zero F] [One F] [Flt F] {mu x0 : F} {it : LogisticMap F}
    (h : LogisticMap.new mu x0 = pure it) :
    ∃ g : ℕ → F, Gives it g ∧ g 0 = mu * x0 * (1 - x0) ∧ ∀ n, g (n + 1) = mu * g n * (1 - g n) := by
  unfold LogisticMap.new at h
  by_cases hc : (Flt.le 0 x0 && Flt.le x0 1) = true
  · rw [rassert_pos hc, pure_bind, RM.ok_inj] at h
    subst h
    exact ⟨_, gives_logistic mu x0, rfl, fun _ => rfl⟩
  · simp [rassert, hc] at h

example : ∃ it : LogisticMap Float, ∃ g : ℕ → Float, LogisticMap.new (3.9 : Float) 0.1 = pure it ∧ Gives it g ∧
    ∀ n, g (n + 1) = 3.9 * g n * (1 - g n) := by
  have h : LogisticMap.new (3.9 : Float) 0.1 = pure ⟨3.9, 0.1⟩ := by
    unfold LogisticMap.new; rw [rassert_pos (by decide +kernel), pure_bind]
  obtain ⟨g, h1, -, h2⟩ := C43_orbit h
  exact ⟨_, g, h, h1, h2⟩

/-- Starts outside `[0, 1]` are rejected, the others accepted. -/
theorem C43_guard (mu x0 : ℝ) : (LogisticMap.new mu x0).Panics ↔ ¬ (0 ≤ x0 ∧ x0 ≤ 1) := by
  unfold LogisticMap.new
  simp only [Flt.le_real]
  by_cases h0 : 0 ≤ x0 <;> by_cases h1 : x0 ≤ 1 <;> simp [h0, h1, rassert]

/-- With `0 ≤ mu ≤ 4` all values stay in `[0, 1]`. -/
theorem C43_logistic {mu x0 : ℝ} (h0 : 0 ≤ mu) (h4 : mu ≤ 4) {it : LogisticMap ℝ} (h : LogisticMap.new mu x0 = pure it) :
    ∃ g : ℕ → ℝ, Gives it g ∧ ∀ n, 0 ≤ g n ∧ g n ≤ 1 := by
  have hx : 0 ≤ x0 ∧ x0 ≤ 1 := by
    by_contra hc
    have := (C43_guard mu x0).mpr hc
    rw [h] at this
    exact RM.not_panics_ok _ this
  unfold LogisticMap.new at h
  rw [rassert_pos (by simpa using hx), pure_bind, RM.ok_inj] at h
  subst h
  exact ⟨_, gives_logistic mu x0, orbit_inv (fun x => 0 ≤ x ∧ x ≤ 1) hx (fun a ha => logistic_unit h0 h4 ha)⟩

example : ∃ it g, LogisticMap.new (3.9 : ℝ) 0.1 = pure it ∧ Gives it g ∧ ∀ n, 0 ≤ g n ∧ g n ≤ 1 := by
  have h : LogisticMap.new (3.9 : ℝ) 0.1 = pure ⟨3.9, 0.1⟩ := by
    unfold LogisticMap.new; rw [rassert_pos (by simp; norm_num), pure_bind]
  obtain ⟨g, h1, h2⟩ := C43_logistic (by norm_num) (by norm_num) h
  exact ⟨_, g, h, h1, h2⟩

/-- The bound on `mu` is needed: for every larger `mu` the start `1/2` leaves `[0, 1]` at once. -/
theorem C43_mu_sharp {mu : ℝ} (h : 4 < mu) : 1 < logisticMap mu (1 / 2) := by unfold logisticMap; nlinarith

example : 1 < logisticMap (5 : ℝ) (1 / 2) := C43_mu_sharp (by norm_num)

/-- Tent map with `0 ≤ mu ≤ 1`. -/
theorem C43_tent {mu x : ℝ} (h0 : 0 ≤ mu) (h1 : mu ≤ 1) (hx : -1 ≤ x ∧ x ≤ 1) : -1 ≤ tentMap mu x ∧ tentMap mu x ≤ 1 := by
  unfold tentMap
  simp only [Flt.ofNat_real, Flt.abs_real]
  have ha : |x| ≤ 1 := abs_le.mpr hx
  have hb : 0 ≤ |x| := abs_nonneg x
  push_cast
  constructor <;> nlinarith [mul_nonneg h0 (sub_nonneg.mpr ha)]

example : -1 ≤ tentMap (0.8 : ℝ) (-0.3) ∧ tentMap (0.8 : ℝ) (-0.3) ≤ 1 := C43_tent (by norm_num) (by norm_num) (by norm_num)

/-- The tent map peaks at 0 and is even. -/
theorem C43_tent_shape (mu x : ℝ) : tentMap mu x = 2 * mu * (1 - |x|) - 1 ∧ tentMap mu (-x) = tentMap mu x := by
  unfold tentMap; simp

/-- Bernoulli map with `0 ≤ mu ≤ 2`. -/
theorem C43_bernoulli {mu x : ℝ} (h0 : 0 ≤ mu) (h2 : mu ≤ 2) (hx : -1 ≤ x ∧ x ≤ 1) :
    -1 ≤ bernoulliMap mu x ∧ bernoulliMap mu x ≤ 1 := by
  unfold bernoulliMap
  simp only [Flt.lt_real, decide_eq_true_eq]
  obtain ⟨a, b⟩ := hx
  split_ifs with h
  · constructor <;> nlinarith
  · push_neg at h
    constructor <;> nlinarith

example : -1 ≤ bernoulliMap (1.7 : ℝ) (-0.9) ∧ bernoulliMap (1.7 : ℝ) (-0.9) ≤ 1 :=
  C43_bernoulli (by norm_num) (by norm_num) (by norm_num)

/-- It is the saw-tooth `mu·x ± 1`, the branch chosen by the sign of `x`. -/
theorem C43_bernoulli_shape (mu x : ℝ) : bernoulliMap mu x = mu * x + (if x < 0 then 1 else -1) := by
  unfold bernoulliMap
  simp only [Flt.lt_real, decide_eq_true_eq]
  split_ifs <;> ring

/-! ## C44 -/

/-- Starts outside `[-1, 1]` are rejected, the others accepted. -/
theorem C44_guard (x0 : ℝ) : (Chebyshev.new x0).Panics ↔ ¬ (-1 ≤ x0 ∧ x0 ≤ 1) := by
  unfold Chebyshev.new
  simp only [Flt.le_real]
  by_cases h0 : -1 ≤ x0 <;> by_cases h1 : x0 ≤ 1 <;> simp [h0, h1, rassert]

example : ¬ (Chebyshev.new (-1 : ℝ)).Panics ∧ (Chebyshev.new (-2 : ℝ)).Panics := by
  rw [C44_guard, C44_guard]; norm_num

/-- The claim is false for every start other than 0: the values at least double at each step, so they leave every
bounded interval. -/
theorem C44_refuted {x0 : ℝ} (h : x0 ≠ 0) {it : Chebyshev ℝ} (hit : Chebyshev.new x0 = pure it) (B : ℝ) :
    ∃ g : ℕ → ℝ, Gives it g ∧ (∀ n, 2 ^ (n + 1) * |x0| ≤ |g n|) ∧ ∃ N, ∀ n, N ≤ n → B < |g n| := by
  unfold Chebyshev.new at hit
  by_cases hc : (Flt.le (-1) x0 && Flt.le x0 1) = true
  · rw [rassert_pos hc, pure_bind, RM.ok_inj] at hit
    subst hit
    refine ⟨_, gives_chebyshev x0, chebyshev_orbit x0, ?_⟩
    have hpos : 0 < |x0| := abs_pos.mpr h
    obtain ⟨N, hN⟩ := pow_unbounded_of_one_lt (B / |x0|) (one_lt_two (α := ℝ))
    refine ⟨N, fun n hn => lt_of_lt_of_le ?_ (chebyshev_orbit x0 n)⟩
    rw [div_lt_iff₀ hpos] at hN
    have : (2 : ℝ) ^ N ≤ 2 ^ (n + 1) := pow_le_pow_right₀ (by norm_num) (by omega)
    nlinarith
  · simp only [rassert, hc, Bool.false_eq_true, if_false, RM.panic_bind] at hit
    exact absurd hit RM.panic_ne_ok

example : ∃ it : Chebyshev ℝ, ∃ g : ℕ → ℝ, Chebyshev.new (0.5 : ℝ) = pure it ∧ Gives it g ∧ ∃ N, ∀ n, N ≤ n → 1000 < |g n| := by
  have h : Chebyshev.new (0.5 : ℝ) = pure ⟨0.5⟩ := by
    unfold Chebyshev.new; rw [rassert_pos (by simp; norm_num), pure_bind]
  obtain ⟨g, h1, -, h2⟩ := C44_refuted (by norm_num) h 1000
  exact ⟨_, g, h, h1, h2⟩

/-- The claim holds exactly for the start 0.  Missing with respect to C44: every other start, where it is false. -/
theorem C44_zero_partial {x0 : ℝ} {it : Chebyshev ℝ} (hit : Chebyshev.new x0 = pure it) {g : ℕ → ℝ} (hg : Gives it g) :
    (∀ n, -1 ≤ g n ∧ g n ≤ 1) ↔ x0 = 0 := by
  constructor
  · intro hb
    by_contra h
    obtain ⟨g', hg', _, N, hN⟩ := C44_refuted h hit 1
    have e : g' N = g N := congrFun (hg'.unique hg) N
    have := hN N le_rfl
    rw [e] at this
    exact absurd (abs_le.mpr (hb N)) (not_le.mpr this)
  · rintro rfl n
    unfold Chebyshev.new at hit
    rw [rassert_pos (by simp), pure_bind, RM.ok_inj] at hit
    subst hit
    have hz : ∀ n, orbit (chebyshev (F := ℝ)) 0 n = 0 := fun n =>
      orbit_inv (fun x : ℝ => x = 0) rfl (fun a ha => by rw [chebyshev_real, ha]; ring) n
    rw [hg.unique (gives_chebyshev 0), hz]
    norm_num

example : ∃ it : Chebyshev ℝ, Chebyshev.new (0 : ℝ) = pure it ∧ ∀ g : ℕ → ℝ, Gives it g → ∀ n, -1 ≤ g n ∧ g n ≤ 1 := by
  have h : Chebyshev.new (0 : ℝ) = pure ⟨0⟩ := by
    unfold Chebyshev.new; rw [rassert_pos (by simp), pure_bind]
  exact ⟨_, h, fun g hg => (C44_zero_partial h hg).mpr rfl⟩

/-- In IEEE arithmetic, from `0.5` (the start used by the crate): the eighth value, and all later ones, are `+∞`. -/
theorem C44_overflows : ∃ it, Chebyshev.new (0.5 : Float) = pure it ∧ ∃ g : ℕ → Float, Gives it g ∧
    (∀ n, n < 7 → (g n).isFinite = true) ∧ ∀ n, 7 ≤ n → (g n).isInf = true ∧ 0 < g n := by
  refine ⟨⟨0.5⟩, by unfold Chebyshev.new; rw [rassert_pos (by decide +kernel), pure_bind], _, gives_chebyshev _, ?_, ?_⟩
  · decide +kernel
  · intro n hn
    obtain ⟨k, rfl⟩ := Nat.exists_eq_add_of_le hn
    have key : orbit chebyshev (0.5 : Float) (7 + k) = Float.ofBits 0x7FF0000000000000 := by
      induction k with
      | zero => decide +kernel
      | succ k ih => rw [show 7 + (k + 1) = (7 + k) + 1 from rfl, orbit, ih (by omega)]; decide +kernel
    rw [key]
    decide +kernel

/-! ## C45 DCSK -/

/-- Exact form of the decision in any arithmetic. -/
theorem C45_decision {F : Type} [Add F] [Sub F] [Mul F] [Div F] [Neg F] [Zero F] [One F] [Flt F] [RIter ι Bool] {m : ι}
    {msg : List Bool} (h : Yields m msg) {ref : LogisticMap F} {g : ℕ → F}
    (href : LogisticMap.new (Flt.lit 39 1) (Flt.lit 1 1) = pure ref) (hg : Gives ref g) :
    ∃ tx, txDcsk F m = pure tx ∧ Yields tx ((msg.mapIdx (fun i b => [g i, g i * bitToNrz b])).flatten) ∧
      Yields (rxDcsk (F := F) tx) (msg.mapIdx (fun i b => Flt.lt 0 (g i * (g i * bitToNrz b)))) := by
  have htx : txDcsk F m = pure (rflatMap (rzip m ref) (fun p : Bool × F => pure (ofList [p.2, p.2 * bitToNrz p.1]))) := by
    unfold txDcsk; rw [href, pure_bind]
  have hy : Yields (rflatMap (rzip m ref) (fun p : Bool × F => pure (ofList [p.2, p.2 * bitToNrz p.1])))
      ((msg.mapIdx (fun i b => [g i, g i * bitToNrz b])).flatten) := by
    refine (Yields.rflatMap (out := fun p : Bool × F => [p.2, p.2 * bitToNrz p.1]) ?_ (h.rzip_gives hg)).of_eq ?_
    · intro p; exact ⟨_, rfl, yields_ofList _⟩
    · rw [List.flatMap_def, map_mapIdx']
  refine ⟨_, htx, hy, (rxDcsk_ok hy).of_eq ?_⟩
  rw [pairs_mapIdx_flatten, map_mapIdx']

example : ∃ g : ℕ → Float, ∃ tx, txDcsk Float (ofList [true, false]) = pure tx ∧
    Yields tx [g 0, g 0 * bitToNrz true, g 1, g 1 * bitToNrz false] := by
  have h : LogisticMap.new (Flt.lit 39 1 : Float) (Flt.lit 1 1) = pure ⟨Flt.lit 39 1, Flt.lit 1 1⟩ := by
    unfold LogisticMap.new; rw [rassert_pos (by decide +kernel), pure_bind]
  obtain ⟨tx, h1, h2, -⟩ := C45_decision (yields_ofList [true, false]) h (gives_logistic _ _)
  exact ⟨_, tx, h1, h2⟩

/-- Round trip, exact arithmetic; the references are those of the logistic iterator, positive. -/
theorem C45_roundtrip [RIter ι Bool] {m : ι} {msg : List Bool} (h : Yields m msg) :
    (do let tx ← txDcsk ℝ m; collect (rxDcsk (F := ℝ) tx)) = pure msg ∧
    ∃ ref g, LogisticMap.new (3.9 : ℝ) 0.1 = pure ref ∧ Gives ref g ∧ (∀ n, 0.0950625 ≤ g n ∧ g n ≤ 0.975) ∧
      (do let tx ← txDcsk ℝ m; collect tx)
        = pure ((msg.mapIdx (fun i b => [g i, if b then g i else -g i])).flatten) := by
  have href : LogisticMap.new (Flt.lit 39 1 : ℝ) (Flt.lit 1 1) = pure ⟨3.9, 0.1⟩ := by
    rw [lit39, lit1]; unfold LogisticMap.new; rw [rassert_pos (by simp; norm_num), pure_bind]
  have hb := orbit_inv (f := logisticMap (3.9 : ℝ)) (x := 0.1) (fun x => 0.0950625 ≤ x ∧ x ≤ 0.975) (by norm_num) (fun a ha => logistic_39 ha)
  obtain ⟨tx, e1, e2, e3⟩ := C45_decision h href (gives_logistic (3.9 : ℝ) 0.1)
  refine ⟨?_, _, _, by rw [← href, lit39, lit1], gives_logistic _ _, hb, ?_⟩
  · rw [e1, pure_bind, collect_of_yields e3]
    congr 1
    apply mapIdx_eq_self
    intro i b _
    have hp : 0 < orbit (logisticMap (3.9 : ℝ)) 0.1 i := by have := (hb i).1; linarith
    rw [bitToNrz_real, Flt.lt_real]
    cases b
    · simp only [Bool.false_eq_true, if_false, decide_eq_false_iff_not]; nlinarith
    · simp only [if_true, decide_eq_true_eq]; nlinarith
  · rw [e1, pure_bind, collect_of_yields e2]
    congr 2
    apply mapIdx_congr'
    intro i b _
    rw [bitToNrz_real]
    cases b <;> simp

example : (do let tx ← txDcsk ℝ (ofList [true, false, false]); collect (rxDcsk (F := ℝ) tx)) = pure [true, false, false] :=
  (C45_roundtrip (yields_ofList [true, false, false])).1

/-- The receiver looks at each pair of samples only, and tolerates any common gain except 0: scaling pair `i` by `c i ≠ 0`
does not change its decisions. -/
theorem C45_gain {κ κ' : Type} [RIter κ ℝ] [RIter κ' ℝ] {s : κ} {s' : κ'} {l : List ℝ} (h : Yields s l) {c : ℕ → ℝ} (hc : ∀ i, c i ≠ 0)
    (h' : Yields s' (l.mapIdx (fun i x => c (i / 2) * x))) :
    collect (rxDcsk (F := ℝ) s') = collect (rxDcsk (F := ℝ) s) := by
  rw [collect_of_yields (rxDcsk_ok h), collect_of_yields (rxDcsk_ok h')]
  congr 1
  clear h h'
  have gen : ∀ (l : List ℝ) (c : ℕ → ℝ), (∀ i, c i ≠ 0) → (pairs (l.mapIdx (fun i x => c (i / 2) * x))).map (fun p => Flt.lt 0 (p.1 * p.2))
      = (pairs l).map (fun p => Flt.lt 0 (p.1 * p.2)) := by
    intro l
    induction l using pairs.induct with
    | case1 a b t ih =>
      intro c hc
      have e := ih (fun i => c (i + 1)) (fun i => hc _)
      have h2 : ∀ i : ℕ, (i + 1 + 1) / 2 = i / 2 + 1 := by intro i; omega
      simp only [List.mapIdx_cons, pairs, List.map_cons, h2]
      rw [e]
      congr 1
      simp only [Flt.lt_real, decide_eq_decide]
      have : c (0 / 2) * a * (c ((0 + 1) / 2) * b) = (c 0) ^ 2 * (a * b) := by norm_num; ring
      rw [this]
      exact mul_pos_iff_of_pos_left (by have := hc 0; positivity)
    | case2 l hl =>
      intro c _
      match l, hl with
      | [], _ => rfl
      | [a], _ => rfl
      | a :: b :: t, hl => exact absurd rfl (hl a b t)
  exact gen l c hc

/-- The second pair arrives upside down and twice as strong. -/
example : collect (rxDcsk (F := ℝ) (ofList [0.3, 0.3, -1.0, 1.0])) = collect (rxDcsk (F := ℝ) (ofList [0.3, 0.3, 0.5, -0.5])) := by
  refine C45_gain (yields_ofList _) (c := fun n => if n = 0 then 1 else -2) (fun i => by split <;> norm_num)
    ((yields_ofList _).of_eq ?_)
  norm_num [List.mapIdx_cons]

/-! ## C46 CSK -/

/-- Exact criterion in any arithmetic: `g₁`, `g₂` are the two chaotic carriers. -/
theorem C46_decision {F : Type} [Add F] [Sub F] [Mul F] [Div F] [Neg F] [Zero F] [One F] [Flt F] [RIter ι Bool] {m : ι}
    {msg : List Bool} (h : Yields m msg) {r1 r2 : LogisticMap F} {g1 g2 : ℕ → F}
    (h1 : LogisticMap.new (Flt.lit 39 1) (Flt.lit 1 1) = pure r1) (h2 : LogisticMap.new (Flt.lit 39 1) (Flt.lit 15 2) = pure r2)
    (hg1 : Gives r1 g1) (hg2 : Gives r2 g2) :
    ∃ tx rx, txCsk F m = pure tx ∧ rxCsk (F := F) tx = pure rx ∧
      Yields tx (msg.mapIdx (fun i b => if b then g1 i else g2 i)) ∧
      Yields rx (msg.mapIdx (fun i b => Flt.lt (Flt.abs ((if b then g1 i else g2 i) - g1 i))
        (Flt.abs ((if b then g1 i else g2 i) - g2 i)))) := by
  have y1 := ((h.rzip_gives hg1).rzip_gives hg2).rmap (fun p : (Bool × F) × F => if p.1.1 then p.1.2 else p.2)
  rw [mapIdx_mapIdx', map_mapIdx'] at y1
  have y2 := ((y1.rzip_gives hg1).rzip_gives hg2).rmap
    (fun p : (F × F) × F => Flt.lt (Flt.abs (p.1.1 - p.1.2)) (Flt.abs (p.1.1 - p.2)))
  rw [mapIdx_mapIdx', mapIdx_mapIdx', map_mapIdx'] at y2
  refine ⟨_, _, ?_, ?_, y1, y2⟩
  · unfold txCsk; simp only [h1, h2, pure_bind]
  · unfold rxCsk; simp only [h1, h2, pure_bind]

example : ∃ g1 g2 : ℕ → Float, ∃ tx, txCsk Float (ofList [true, false]) = pure tx ∧ Yields tx [g1 0, g2 1] := by
  have h1 : LogisticMap.new (Flt.lit 39 1 : Float) (Flt.lit 1 1) = pure ⟨Flt.lit 39 1, Flt.lit 1 1⟩ := by
    unfold LogisticMap.new; rw [rassert_pos (by decide +kernel), pure_bind]
  have h2 : LogisticMap.new (Flt.lit 39 1 : Float) (Flt.lit 15 2) = pure ⟨Flt.lit 39 1, Flt.lit 15 2⟩ := by
    unfold LogisticMap.new; rw [rassert_pos (by decide +kernel), pure_bind]
  obtain ⟨tx, rx, e1, -, e3, -⟩ := C46_decision (yields_ofList [true, false]) h1 h2 (gives_logistic _ _) (gives_logistic _ _)
  exact ⟨orbit (logisticMap (Flt.lit 39 1)) (Flt.lit 1 1), orbit (logisticMap (Flt.lit 39 1)) (Flt.lit 15 2), tx, e1, e3⟩

/-- Round trip, exact arithmetic, for every message length: the two carriers never meet. -/
theorem C46_roundtrip [RIter ι Bool] {m : ι} {msg : List Bool} (h : Yields m msg) :
    (do let tx ← txCsk ℝ m; let rx ← rxCsk (F := ℝ) tx; collect rx) = pure msg := by
  have h1 : LogisticMap.new (Flt.lit 39 1 : ℝ) (Flt.lit 1 1) = pure ⟨3.9, 0.1⟩ := by
    rw [lit39, lit1]; unfold LogisticMap.new; rw [rassert_pos (by simp; norm_num), pure_bind]
  have h2 : LogisticMap.new (Flt.lit 39 1 : ℝ) (Flt.lit 15 2) = pure ⟨3.9, 0.15⟩ := by
    rw [lit39, lit15]; unfold LogisticMap.new; rw [rassert_pos (by simp; norm_num), pure_bind]
  obtain ⟨tx, rx, e1, e2, _, e4⟩ := C46_decision h h1 h2 (gives_logistic _ _) (gives_logistic _ _)
  rw [e1, pure_bind, e2, pure_bind, collect_of_yields e4]
  congr 1
  apply mapIdx_eq_self
  intro i b _
  have hne := csk_orbits_ne i
  cases b
  · simp
  · simpa [sub_eq_zero] using hne

example : (do let tx ← txCsk ℝ (ofList [true, false, false]); let rx ← rxCsk (F := ℝ) tx; collect rx) = pure [true, false, false] :=
  C46_roundtrip (yields_ofList [true, false, false])

/-- Noise margin: any received stream closer to the sent carrier than half the carriers' distance is decoded. -/
theorem C46_margin {κ : Type} [RIter κ ℝ] {s : κ} {msg : List Bool} {r1 r2 : LogisticMap ℝ} {g1 g2 : ℕ → ℝ}
    (h1 : LogisticMap.new (3.9 : ℝ) 0.1 = pure r1) (h2 : LogisticMap.new (3.9 : ℝ) 0.15 = pure r2)
    (hg1 : Gives r1 g1) (hg2 : Gives r2 g2) {noise : ℕ → ℝ}
    (hs : Yields s (msg.mapIdx (fun i b => (if b then g1 i else g2 i) + noise i)))
    (hn : ∀ i, 2 * |noise i| < |g1 i - g2 i|) :
    (do let rx ← rxCsk (F := ℝ) s; collect rx) = pure msg := by
  have y2 := ((hs.rzip_gives hg1).rzip_gives hg2).rmap
    (fun p : (ℝ × ℝ) × ℝ => Flt.lt (Flt.abs (p.1.1 - p.1.2)) (Flt.abs (p.1.1 - p.2)))
  rw [mapIdx_mapIdx', mapIdx_mapIdx', map_mapIdx'] at y2
  have hrx : rxCsk (F := ℝ) s = pure (rmap (rzip (rzip s r1) r2)
    (fun p : (ℝ × ℝ) × ℝ => Flt.lt (Flt.abs (p.1.1 - p.1.2)) (Flt.abs (p.1.1 - p.2)))) := by
    unfold rxCsk; simp only [lit39, lit1, lit15, h1, h2, pure_bind]
  rw [hrx, pure_bind, collect_of_yields y2]
  congr 1
  apply mapIdx_eq_self
  intro i b _
  have hi := hn i
  have e1 : |g1 i - g2 i| ≤ |(g1 i + noise i) - g2 i| + |noise i| := by
    have := abs_sub_abs_le_abs_sub (g1 i - g2 i) (-noise i)
    have e : g1 i - g2 i - -noise i = g1 i + noise i - g2 i := by ring
    rw [e, abs_neg] at this; linarith
  have e2 : |g1 i - g2 i| ≤ |(g2 i + noise i) - g1 i| + |noise i| := by
    have := abs_sub_abs_le_abs_sub (g2 i - g1 i) (-noise i)
    have e : g2 i - g1 i - -noise i = g2 i + noise i - g1 i := by ring
    rw [e, abs_neg] at this; rw [abs_sub_comm]; linarith
  cases b
  · simp only [Bool.false_eq_true, if_false, Flt.lt_real, Flt.abs_real, decide_eq_false_iff_not, not_lt]
    rw [show g2 i + noise i - g2 i = noise i by ring]; linarith
  · simp only [if_true, Flt.lt_real, Flt.abs_real, decide_eq_true_eq]
    rw [show g1 i + noise i - g1 i = noise i by ring]; linarith

/-- Noise of a third of the distance between the carriers, on a message of three bits. -/
example : ∃ g1 g2 : ℕ → ℝ, (do let rx ← rxCsk (F := ℝ) (ofList ([true, false, true].mapIdx (fun i (b : Bool) =>
    (if b then g1 i else g2 i) + |g1 i - g2 i| / 3))); collect rx) = pure [true, false, true] := by
  have h1 : LogisticMap.new (3.9 : ℝ) 0.1 = pure ⟨3.9, 0.1⟩ := by
    unfold LogisticMap.new; rw [rassert_pos (by simp; norm_num), pure_bind]
  have h2 : LogisticMap.new (3.9 : ℝ) 0.15 = pure ⟨3.9, 0.15⟩ := by
    unfold LogisticMap.new; rw [rassert_pos (by simp; norm_num), pure_bind]
  refine ⟨_, _, C46_margin h1 h2 (gives_logistic _ _) (gives_logistic _ _) (yields_ofList _) (fun i => ?_)⟩
  have := abs_pos.mpr (sub_ne_zero.mpr (csk_orbits_ne i))
  rw [abs_div, abs_abs]
  norm_num
  linarith

end Verif.Props
