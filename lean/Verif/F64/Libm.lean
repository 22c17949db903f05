import Verif.F64.Int
import Verif.Model.Iter

/-!
# IEEE doubles with an arbitrary mathematical library

`sin`, `cos`, `exp`, `log10` and `pow` come from the platform's C library, whose results IEEE-754 does not fix.
`FloatL L` is binary64 arithmetic together with a given library `L`; theorems about it hold for every library.
`Float` itself is `FloatL` of Lean's opaque library functions.
-/
namespace Verif

/-- A mathematical library. -/
structure Libm where
  sin : Float → Float
  cos : Float → Float
  exp : Float → Float
  log10 : Float → Float
  powf : Float → Float → Float

/-- Lean's own library functions. -/
def Libm.lean : Libm := ⟨Float.sin, Float.cos, Float.exp, Float.log10, Float.pow⟩

/-- IEEE-754 binary64 with the library `L`. -/
def FloatL (_ : Libm) : Type := Float

namespace FloatL
variable (L : Libm)
instance : Add (FloatL L) := inferInstanceAs (Add Float)
instance : Sub (FloatL L) := inferInstanceAs (Sub Float)
instance : Mul (FloatL L) := inferInstanceAs (Mul Float)
instance : Div (FloatL L) := inferInstanceAs (Div Float)
instance : Neg (FloatL L) := inferInstanceAs (Neg Float)
instance : Zero (FloatL L) := inferInstanceAs (Zero Float)
instance : One (FloatL L) := inferInstanceAs (One Float)
/-- All operations other than the library's are those of `Float`. -/
instance : Flt (FloatL L) where
  ofNat := F64.ofNat
  lit := F64.lit
  toNat x := Flt.toNat (F := Float) x
  lt := Float.lt
  le := Float.le
  eq := Float.beq
  abs := Float.abs
  sqrt := Float.sqrt
  sin := L.sin
  cos := L.cos
  exp := L.exp
  log10 := L.log10
  powf := L.powf
  pi := Flt.pi (F := Float)
  signPos x := Flt.signPos (F := Float) x
  isFinite := Float.isFinite

/-- `Float` is the instance with Lean's library. -/
example : (inferInstance : Flt (FloatL .lean)) = (inferInstance : Flt Float) := rfl
end FloatL

namespace F64
open Float.Model Float.Model.UnpackedFloat

/-! ## One-sided bounds, with overflow counted as large -/

/-- `x` is `+∞`, or finite and at least `c`. -/
def GE (c : ℝ) (x : Float) : Prop := up x = .infinity .positive ∨ Fin x ∧ c ≤ val x

/-- `x` is `-∞`, or finite and at most `c`. -/
def LE (c : ℝ) (x : Float) : Prop := up x = .infinity .negative ∨ Fin x ∧ val x ≤ c

theorem GE.mono {c d : ℝ} {x : Float} (h : GE c x) (hd : d ≤ c) : GE d x := by
  rcases h with h | ⟨h1, h2⟩
  · exact .inl h
  · exact .inr ⟨h1, hd.trans h2⟩

theorem LE.mono {c d : ℝ} {x : Float} (h : LE c x) (hd : c ≤ d) : LE d x := by
  rcases h with h | ⟨h1, h2⟩
  · exact .inl h
  · exact .inr ⟨h1, h2.trans hd⟩

theorem GE.of_good {u : UnpackedFloat} {x e : ℝ} (h : Good u (rnd x)) (he : IsF e) (h0 : 0 ≤ e) (hx : e ≤ x) :
    GE e (mk u) := by
  have hr : e ≤ rnd x := le_rnd_of_le he hx
  rcases lt_or_ge |rnd x| huge with hl | hl
  · obtain ⟨h1, h2⟩ := mk_good h hl
    exact .inr ⟨h1, h2 ▸ hr⟩
  · left
    rw [mk_overflow h hl, if_pos]
    have := huge_pos
    rw [abs_of_nonneg (h0.trans hr)] at hl
    linarith

theorem LE.of_good {u : UnpackedFloat} {x e : ℝ} (h : Good u (rnd x)) (he : IsF e) (h0 : e ≤ 0) (hx : x ≤ e) :
    LE e (mk u) := by
  have hr : rnd x ≤ e := rnd_le_of_le he hx
  rcases lt_or_ge |rnd x| huge with hl | hl
  · obtain ⟨h1, h2⟩ := mk_good h hl
    exact .inr ⟨h1, h2 ▸ hr⟩
  · left
    rw [mk_overflow h hl, if_neg]
    linarith

theorem add_inf (s : Sign) (u : UnpackedFloat) (hu : u = .infinity s ∨ u.isFinite = true) :
    UnpackedFloat.add Format.binary64 (.infinity s) u = .infinity s ∧
      UnpackedFloat.add Format.binary64 u (.infinity s) = .infinity s := by
  cases u with
  | infinity s' =>
    have : s' = s := by
      rcases hu with h | h
      · injection h
      · simp [UnpackedFloat.isFinite] at h
    subst this
    cases s' <;> exact ⟨rfl, rfl⟩
  | notANumber => simp [UnpackedFloat.isFinite] at hu
  | zero s' => exact ⟨rfl, rfl⟩
  | finite s' m e hm => exact ⟨rfl, rfl⟩

theorem GE.add {a b : Float} {c d e : ℝ} (ha : GE c a) (hb : GE d b) (he : IsF e) (h0 : 0 ≤ e) (h : e ≤ c + d) :
    GE e (a + b) := by
  have key : ∀ u, u = .infinity .positive → up (mk u) = .infinity .positive := by
    rintro u rfl; exact unpack_pack_infinity .positive
  rw [add_eq]
  rcases ha with ha | ⟨fa, va⟩
  · left; rw [ha]; refine key _ (add_inf _ _ ?_).1
    rcases hb with hb | ⟨fb, -⟩
    · exact .inl hb
    · exact .inr fb
  · rcases hb with hb | ⟨fb, vb⟩
    · left; rw [hb]; exact key _ (add_inf _ _ (.inr fa)).2
    · exact .of_good (add_good fa fb) he h0 (by linarith)

theorem LE.add {a b : Float} {c d e : ℝ} (ha : LE c a) (hb : LE d b) (he : IsF e) (h0 : e ≤ 0) (h : c + d ≤ e) :
    LE e (a + b) := by
  have key : ∀ u, u = .infinity .negative → up (mk u) = .infinity .negative := by
    rintro u rfl; exact unpack_pack_infinity .negative
  rw [add_eq]
  rcases ha with ha | ⟨fa, va⟩
  · left; rw [ha]; refine key _ (add_inf _ _ ?_).1
    rcases hb with hb | ⟨fb, -⟩
    · exact .inl hb
    · exact .inr fb
  · rcases hb with hb | ⟨fb, vb⟩
    · left; rw [hb]; exact key _ (add_inf _ _ (.inr fa)).2
    · exact .of_good (add_good fa fb) he h0 (by linarith)

theorem GE.mul {a b : Float} {e : ℝ} (ha : Fin a) (hb : Fin b) (he : IsF e) (h0 : 0 ≤ e) (h : e ≤ val a * val b) :
    GE e (a * b) := .of_good (mul_good ha hb) he h0 h

theorem LE.mul {a b : Float} {e : ℝ} (ha : Fin a) (hb : Fin b) (he : IsF e) (h0 : e ≤ 0) (h : val a * val b ≤ e) :
    LE e (a * b) := .of_good (mul_good ha hb) he h0 h

theorem up_zero : up (0 : Float) = .zero .positive := by
  have h : (0 : Float) = mk (.zero .positive) := by decide +kernel
  rw [h]; exact unpack_pack_zero .positive

theorem fin_zero : Fin (0 : Float) := by rw [fin_iff, up_zero]; rfl

theorem val_zero : val (0 : Float) = 0 := by unfold val; rw [up_zero]; rfl

theorem fin_one : Fin (1 : Float) := by decide +kernel

theorem val_one : val (1 : Float) = 1 := by
  have h : (1 : Float) = F64.ofNat 1 := by decide +kernel
  rw [h, (ofNat_exact (by norm_num)).2, Nat.cast_one]

theorem GE.pos {c : ℝ} {x : Float} (h : GE c x) (hc : 0 < c) : Float.lt 0 x = true := by
  rcases h with h | ⟨h1, h2⟩
  · rw [lt_eq, h, up_zero]; rfl
  · rw [lt_iff fin_zero h1, val_zero]; linarith

theorem LE.not_pos {c : ℝ} {x : Float} (h : LE c x) (hc : c ≤ 0) : Float.lt 0 x = false := by
  rcases h with h | ⟨h1, h2⟩
  · rw [lt_eq, h, up_zero]; rfl
  · rw [← Bool.not_eq_true, lt_iff fin_zero h1, val_zero]; linarith

theorem GE.rsum {l : List Float} (h : ∀ x ∈ l, GE 0 x) {c : ℝ} (hc : IsF c) (h0 : 0 ≤ c) (hx : ∃ x ∈ l, GE c x) :
    GE c (Verif.rsum l) := by
  have main : ∀ (l : List Float) (a : Float), GE 0 a → (∀ x ∈ l, GE 0 x) → (GE c a ∨ ∃ x ∈ l, GE c x) →
      GE c (l.foldl (· + ·) a) := by
    intro l
    induction l with
    | nil =>
      intro a _ _ h
      rcases h with h | ⟨x, hx, -⟩
      · exact h
      · simp at hx
    | cons y l ih =>
      intro a ha hl h
      have hy := hl y (by simp)
      refine ih (a + y) (ha.add hy isF_zero le_rfl (by simp)) (fun x hx => hl x (by simp [hx])) ?_
      rcases h with h | ⟨x, hx, hxc⟩
      · exact .inl (h.add hy hc h0 (by simp))
      · rcases List.mem_cons.mp hx with rfl | hx
        · exact .inl (ha.add hxc hc h0 (by simp))
        · exact .inr ⟨x, hx, hxc⟩
  exact main l 0 (.inr ⟨fin_zero, val_zero.ge⟩) h (.inr hx)

theorem LE.rsum {l : List Float} (h : ∀ x ∈ l, LE 0 x) {c : ℝ} (hc : IsF c) (h0 : c ≤ 0) (hx : ∃ x ∈ l, LE c x) :
    LE c (Verif.rsum l) := by
  have main : ∀ (l : List Float) (a : Float), LE 0 a → (∀ x ∈ l, LE 0 x) → (LE c a ∨ ∃ x ∈ l, LE c x) →
      LE c (l.foldl (· + ·) a) := by
    intro l
    induction l with
    | nil =>
      intro a _ _ h
      rcases h with h | ⟨x, hx, -⟩
      · exact h
      · simp at hx
    | cons y l ih =>
      intro a ha hl h
      have hy := hl y (by simp)
      refine ih (a + y) (ha.add hy isF_zero le_rfl (by simp)) (fun x hx => hl x (by simp [hx])) ?_
      rcases h with h | ⟨x, hx, hxc⟩
      · exact .inl (h.add hy hc h0 (by simp))
      · rcases List.mem_cons.mp hx with rfl | hx
        · exact .inl (ha.add hxc hc h0 (by simp))
        · exact .inr ⟨x, hx, hxc⟩
  exact main l 0 (.inr ⟨fin_zero, val_zero.le⟩) h (.inr hx)

/-- Multiplying by `1` and by `-1` is exact. -/
theorem one_mul_val {a : Float} (ha : Fin a) : Fin (1 * a) ∧ val (1 * a) = val a := by
  have h : |rnd (val 1 * val a)| < huge := by rw [val_one, one_mul, rnd_val]; exact abs_val_lt a
  obtain ⟨h1, h2⟩ := mul_val fin_one ha h
  exact ⟨h1, by rw [h2, val_one, one_mul, rnd_val]⟩

theorem neg_one_mul_val {a : Float} (ha : Fin a) : Fin (-1 * a) ∧ val (-1 * a) = -val a := by
  have e : rnd (val (-1) * val a) = - val a := by rw [neg_val, val_one, neg_one_mul, rnd_neg, rnd_val]
  have h : |rnd (val (-1) * val a)| < huge := by rw [e, abs_neg]; exact abs_val_lt a
  obtain ⟨h1, h2⟩ := mul_val (neg_fin.mpr fin_one) ha h
  exact ⟨h1, by rw [h2, e]⟩

/-- A sum of products `± a * a` has the sign of the common factor: the correlation decision in IEEE arithmetic. -/
theorem correlate_sign {n : ℕ} {a : ℕ → Float} (hf : ∀ j < n, Fin (a j)) {c : ℝ} (hc : IsF c) (h0 : 0 < c)
    (hx : ∃ j < n, c ≤ val (a j) ^ 2) (b : Bool) :
    Float.lt 0 (rsum ((List.range n).map (fun j => (if b then 1 else -1) * a j * a j))) = b := by
  obtain ⟨k, hk, hkc⟩ := hx
  cases b
  · refine (LE.rsum (c := -c) ?_ hc.neg (by linarith) ?_).not_pos (by linarith)
    · intro x hx
      obtain ⟨j, hj, rfl⟩ := List.mem_map.mp hx
      obtain ⟨h1, h2⟩ := neg_one_mul_val (hf j (by simpa using hj))
      exact LE.mul h1 (hf j (by simpa using hj)) isF_zero le_rfl (by simp only [Bool.false_eq_true, if_false]; rw [h2]; nlinarith [sq_nonneg (val (a j))])
    · obtain ⟨h1, h2⟩ := neg_one_mul_val (hf k hk)
      exact ⟨_, List.mem_map.mpr ⟨k, by simpa using hk, rfl⟩, LE.mul h1 (hf k hk) hc.neg (by linarith) (by simp only [Bool.false_eq_true, if_false]; rw [h2]; nlinarith)⟩
  · refine (GE.rsum (c := c) ?_ hc h0.le ?_).pos h0
    · intro x hx
      obtain ⟨j, hj, rfl⟩ := List.mem_map.mp hx
      obtain ⟨h1, h2⟩ := one_mul_val (hf j (by simpa using hj))
      exact GE.mul h1 (hf j (by simpa using hj)) isF_zero le_rfl (by simp only [if_true]; rw [h2]; nlinarith [sq_nonneg (val (a j))])
    · obtain ⟨h1, h2⟩ := one_mul_val (hf k hk)
      exact ⟨_, List.mem_map.mpr ⟨k, by simpa using hk, rfl⟩, GE.mul h1 (hf k hk) hc h0.le (by simp only [if_true]; rw [h2]; nlinarith)⟩

/-- Division by zero never gives a finite number. -/
theorem not_fin_div_zero (x : Float) : ¬ Fin (x / 0) := by
  rw [fin_iff, div_eq, up_zero]
  cases up x with
  | notANumber => rw [show up (mk (UnpackedFloat.div Format.binary64 .notANumber (.zero .positive))) = .notANumber from unpack_pack_nan]
                  simp [UnpackedFloat.isFinite]
  | infinity s =>
    have : up (mk (UnpackedFloat.div Format.binary64 (.infinity s) (.zero .positive))) = .infinity (s / .positive) :=
      unpack_pack_infinity _
    rw [this]; simp [UnpackedFloat.isFinite]
  | zero s => rw [show up (mk (UnpackedFloat.div Format.binary64 (.zero s) (.zero .positive))) = .notANumber from unpack_pack_nan]
              simp [UnpackedFloat.isFinite]
  | finite s m e hm =>
    have : up (mk (UnpackedFloat.div Format.binary64 (.finite s m e hm) (.zero .positive))) = .infinity (s / .positive) :=
      unpack_pack_infinity _
    rw [this]; simp [UnpackedFloat.isFinite]

end F64
end Verif
