import Verif.F64.Maps
import Verif.Props.Chaos

/-!
# Properties C43, C45, C46 in IEEE double arithmetic

No mathematical library is involved in these functions: `Float` here is the exact IEEE arithmetic of `f64`.  The comparisons
`≤`, `<` on `Float` are the IEEE ones, so a bound such as `0 ≤ x ∧ x ≤ 1` also says that `x` is not NaN.
-/
namespace Verif.Props
open Verif Verif.F64 Spec

variable {ι : Type}

theorem le_fin {a b : Float} (ha : Fin a) (hb : Fin b) : a ≤ b ↔ val a ≤ val b := le_iff ha hb

theorem fin_four : Fin (4 : Float) := by decide +kernel

/-! ## C43 -/

/-- The constructor accepts exactly the finite doubles with value in `[0, 1]`; NaN and infinities are rejected. -/
theorem C43_guard_ieee (mu x0 : Float) :
    (LogisticMap.new mu x0).Panics ↔ ¬ (x0.isFinite = true ∧ 0 ≤ val x0 ∧ val x0 ≤ 1) := by
  rw [logisticNew_panics, not_iff_not]
  constructor
  · rintro ⟨h1, h2⟩
    have := between_fin fin_zero fin_one h1 h2
    rwa [val_zero, val_one] at this
  · rintro ⟨hf, h1, h2⟩
    exact ⟨(le_iff fin_zero hf).mpr (val_zero ▸ h1), (le_iff hf fin_one).mpr (val_one ▸ h2)⟩

/-- In doubles too every value of the iterator stays in `[0, 1]` for every `mu` between 0 and 4, rounding included. -/
theorem C43_logistic_ieee {mu x0 : Float} (h0 : 0 ≤ mu) (h4 : mu ≤ 4) {it : LogisticMap Float}
    (h : LogisticMap.new mu x0 = pure it) : ∃ g : ℕ → Float, Gives it g ∧ ∀ n, 0 ≤ g n ∧ g n ≤ 1 := by
  obtain ⟨hmu, m0, m4⟩ := between_fin fin_zero fin_four h0 h4
  have v4 : val (4 : Float) = 4 := by
    obtain ⟨-, v⟩ := ofNat_exact (n := 4) (by norm_num)
    have e : F64.ofNat 4 = (4 : Float) := by decide +kernel
    rw [e] at v; rw [v]; norm_num
  rw [val_zero] at m0
  rw [v4] at m4
  obtain ⟨c0, c1, rfl⟩ := logisticNew_ok h
  have hx := between_fin fin_zero fin_one c0 c1
  rw [val_zero, val_one] at hx
  refine ⟨_, gives_logistic mu x0, fun n => ?_⟩
  obtain ⟨f, a, b⟩ := orbit_inv (f := logisticMap mu) (x := x0) (fun y => Fin y ∧ 0 ≤ val y ∧ val y ≤ 1) hx
    (fun y ⟨a, b, c⟩ => logistic_unit_ieee hmu m0 m4 a b c) n
  exact ⟨(le_fin fin_zero f).mpr (val_zero ▸ a), (le_fin f fin_one).mpr (val_one ▸ b)⟩

example : ∃ it g, LogisticMap.new (3.99 : Float) 0.3 = pure it ∧ Gives it g ∧ ∀ n, 0 ≤ g n ∧ g n ≤ 1 := by
  have h : LogisticMap.new (3.99 : Float) 0.3 = pure ⟨3.99, 0.3⟩ := by
    unfold LogisticMap.new; rw [rassert_pos (by decide +kernel), pure_bind]
  obtain ⟨g, h1, h2⟩ := C43_logistic_ieee (by decide +kernel) (by decide +kernel) h
  exact ⟨_, g, h, h1, h2⟩

/-- The tent map in doubles. -/
theorem C43_tent_ieee {mu x : Float} (h0 : 0 ≤ mu) (h1 : mu ≤ 1) (hl : -1 ≤ x) (hr : x ≤ 1) :
    -1 ≤ tentMap mu x ∧ tentMap mu x ≤ 1 := by
  have fm : Fin (-1 : Float) := neg_fin.mpr fin_one
  have vm : val (-1 : Float) = -1 := by rw [show val (-1 : Float) = -val 1 from neg_val _, val_one]
  obtain ⟨hmu, m0, m1⟩ := between_fin fin_zero fin_one h0 h1
  obtain ⟨hx, x0, x1⟩ := between_fin fm fin_one hl hr
  rw [val_zero] at m0
  rw [val_one] at m1 x1
  rw [vm] at x0
  obtain ⟨f, a, b⟩ := tent_ieee hmu m0 m1 hx x0 x1
  exact ⟨(le_fin fm f).mpr (vm ▸ a), (le_fin f fin_one).mpr (val_one ▸ b)⟩

/-- The Bernoulli map in doubles. -/
theorem C43_bernoulli_ieee {mu x : Float} (h0 : 0 ≤ mu) (h1 : mu ≤ 2) (hl : -1 ≤ x) (hr : x ≤ 1) :
    -1 ≤ bernoulliMap mu x ∧ bernoulliMap mu x ≤ 1 := by
  have fm : Fin (-1 : Float) := neg_fin.mpr fin_one
  have vm : val (-1 : Float) = -1 := by rw [show val (-1 : Float) = -val 1 from neg_val _, val_one]
  have f2 : Fin (2 : Float) := by decide +kernel
  have v2 : val (2 : Float) = 2 := by
    obtain ⟨-, v⟩ := ofNat_exact (n := 2) (by norm_num)
    have e : F64.ofNat 2 = (2 : Float) := by decide +kernel
    rw [e] at v; rw [v]; norm_num
  obtain ⟨hmu, m0, m1⟩ := between_fin fin_zero f2 h0 h1
  obtain ⟨hx, x0, x1⟩ := between_fin fm fin_one hl hr
  rw [val_zero] at m0
  rw [v2] at m1
  rw [val_one] at x1
  rw [vm] at x0
  obtain ⟨f, a, b⟩ := bernoulli_ieee hmu m0 m1 hx x0 x1
  exact ⟨(le_fin fm f).mpr (vm ▸ a), (le_fin f fin_one).mpr (val_one ▸ b)⟩

example : -1 ≤ tentMap (0.9 : Float) (-0.3) ∧ tentMap (0.9 : Float) (-0.3) ≤ 1 :=
  C43_tent_ieee (by decide +kernel) (by decide +kernel) (by decide +kernel) (by decide +kernel)

example : -1 ≤ bernoulliMap (1.9 : Float) (-0.3) ∧ bernoulliMap (1.9 : Float) (-0.3) ≤ 1 :=
  C43_bernoulli_ieee (by decide +kernel) (by decide +kernel) (by decide +kernel) (by decide +kernel)

/-! ## C45 -/

theorem csk_ref1 : LogisticMap.new (Flt.lit 39 1 : Float) (Flt.lit 1 1) = pure ⟨F64.lit 39 1, F64.lit 1 1⟩ := by
  unfold LogisticMap.new; rw [rassert_pos (by decide +kernel), pure_bind]; rfl

theorem csk_ref2 : LogisticMap.new (Flt.lit 39 1 : Float) (Flt.lit 15 2) = pure ⟨F64.lit 39 1, F64.lit 15 2⟩ := by
  unfold LogisticMap.new; rw [rassert_pos (by decide +kernel), pure_bind]; rfl

/-- DCSK round trip in doubles, for every message, however long. -/
theorem C45_roundtrip_ieee [RIter ι Bool] {m : ι} {msg : List Bool} (h : Yields m msg) :
    (do let tx ← txDcsk Float m; collect (rxDcsk (F := Float) tx)) = pure msg := by
  obtain ⟨tx, e1, e2, e3⟩ := C45_decision h csk_ref1 (gives_logistic _ _)
  rw [e1, pure_bind, collect_of_yields e3]
  congr 1
  apply mapIdx_eq_self
  intro i b _
  obtain ⟨f, a, c⟩ := orbit_39_ieee fin_lit1 val_lit1.1 val_lit1.2 i
  have hp := sq_pos_ieee f a c
  generalize orbit (logisticMap (F64.lit 39 1)) (F64.lit 1 1) i = x at *
  cases b
  · have e : x * bitToNrz false = -x := mul_neg_one_eq x
    rw [e]; exact hp.2
  · have e : x * bitToNrz true = x := mul_one_eq x
    rw [e]; exact hp.1

example : (do let tx ← txDcsk Float (ofList [true, false, false]); collect (rxDcsk (F := Float) tx)) = pure [true, false, false] :=
  C45_roundtrip_ieee (yields_ofList [true, false, false])

/-! ## C46 -/

/-- CSK in doubles: a message survives exactly when the two carriers differ at each position carrying a true bit; false bits
always survive.  (Rounding could in principle make two chaotic orbits meet; over the reals they never do, `C46_roundtrip`.) -/
theorem C46_iff_ieee [RIter ι Bool] {m : ι} {msg : List Bool} (h : Yields m msg) {r1 r2 : LogisticMap Float} {g1 g2 : ℕ → Float}
    (h1 : LogisticMap.new (3.9 : Float) 0.1 = pure r1) (h2 : LogisticMap.new (3.9 : Float) 0.15 = pure r2) (hg1 : Gives r1 g1)
    (hg2 : Gives r2 g2) :
    (do let tx ← txCsk Float m; let rx ← rxCsk (F := Float) tx; collect rx) = pure msg ↔
      ∀ i, msg[i]? = some true → g1 i ≠ g2 i := by
  obtain ⟨-, -, rfl⟩ := logisticNew_ok h1
  obtain ⟨-, -, rfl⟩ := logisticNew_ok h2
  have l39 : (3.9 : Float) = F64.lit 39 1 := by decide +kernel
  have l1 : (0.1 : Float) = F64.lit 1 1 := by decide +kernel
  have l15 : (0.15 : Float) = F64.lit 15 2 := by decide +kernel
  rw [l39] at hg1 hg2
  rw [l1] at hg1
  rw [l15] at hg2
  obtain ⟨tx, rx, e1, e2, _, e4⟩ := C46_decision h csk_ref1 csk_ref2 hg1 hg2
  rw [e1, pure_bind, e2, pure_bind, collect_of_yields e4, RM.ok_inj]
  have hu1 := hg1.unique (gives_logistic _ _)
  have hu2 := hg2.unique (gives_logistic _ _)
  have key : ∀ i, (Float.lt (g1 i - g1 i).abs (g1 i - g2 i).abs = true ↔ g1 i ≠ g2 i) ∧
      Float.lt (g2 i - g1 i).abs (g2 i - g2 i).abs = false := by
    intro i
    obtain ⟨f1, a1, b1⟩ := orbit_39_ieee fin_lit1 val_lit1.1 val_lit1.2 i
    obtain ⟨f2, a2, b2⟩ := orbit_39_ieee fin_lit15 val_lit15.1 val_lit15.2 i
    rw [← hu1] at f1 a1 b1
    rw [← hu2] at f2 a2 b2
    exact closer_self f1 f2 (by linarith) (by linarith) (by linarith) (by linarith)
  constructor
  · intro he i hi
    have := congrArg (·[i]?) he
    simp only [List.getElem?_mapIdx, hi, Option.map_some, Option.some.injEq] at this
    exact (key i).1.mp this
  · intro hne
    apply mapIdx_eq_self
    intro i b hb
    cases b
    · exact (key i).2
    · exact (key i).1.mpr (hne i hb)

end Verif.Props
