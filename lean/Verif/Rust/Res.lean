/-!
# Results of running Rust code

`RM α` is a value, a panic, or divergence (an endless loop).  Divergence is the bottom element used by
`partial_fixpoint`, so a loop that never ends is *proved* to have the value `RM.diverge`.
-/
namespace Verif

/-- Why a Rust panic happened.  The theorems only distinguish "panics" from "does not". -/
inductive Panic where
  /-- `assert!`, `debug_assert!` -/
  | assertion
  /-- slice or vector index out of range -/
  | index
  /-- `a - b` with `a < b`, `a / 0`, `a % 0` on integers (debug profile) -/
  | arith
  /-- `unwrap` / `expect` on `None` or `Err` -/
  | unwrap
  /-- `panic!` / `todo!` / other library panics -/
  | other
  deriving DecidableEq, Repr

/-- The result of running a piece of Rust code. -/
def RM (α : Type) : Type := ExceptT Panic Option α

namespace RM
instance : Monad RM := inferInstanceAs (Monad (ExceptT Panic Option))
instance : LawfulMonad RM := inferInstanceAs (LawfulMonad (ExceptT Panic Option))
instance {α} : Inhabited (RM α) := ⟨(none : Option (Except Panic α))⟩
instance {α} : Lean.Order.CCPO (RM α) := inferInstanceAs (Lean.Order.CCPO (ExceptT Panic Option α))
instance : Lean.Order.MonoBind RM := inferInstanceAs (Lean.Order.MonoBind (ExceptT Panic Option))
instance {α} [DecidableEq α] : DecidableEq (RM α) :=
  fun a b =>
    match a, b with
    | none, none => isTrue rfl
    | none, some _ => isFalse (fun h => Option.noConfusion rfl (heq_of_eq h))
    | some _, none => isFalse (fun h => Option.noConfusion rfl (heq_of_eq h))
    | some (.ok x), some (.ok y) =>
        if h : x = y then isTrue (h ▸ rfl) else isFalse (fun e => h (Except.ok.inj (Option.some.inj e)))
    | some (.error x), some (.error y) =>
        if h : x = y then isTrue (h ▸ rfl) else isFalse (fun e => h (Except.error.inj (Option.some.inj e)))
    | some (.ok _), some (.error _) => isFalse (fun e => Except.noConfusion rfl rfl (heq_of_eq (Option.some.inj e)))
    | some (.error _), some (.ok _) => isFalse (fun e => Except.noConfusion rfl rfl (heq_of_eq (Option.some.inj e)))

/-- A Rust panic. -/
def panic {α} (p : Panic) : RM α := (some (Except.error p) : Option (Except Panic α))
/-- An endless loop. -/
def diverge {α} : RM α := (none : Option (Except Panic α))
/-- Normal termination. -/
abbrev ok {α} (a : α) : RM α := pure a

/-- Terminates normally. -/
def IsOk {α} (r : RM α) : Prop := ∃ a, r = ok a
/-- Panics. -/
def Panics {α} (r : RM α) : Prop := ∃ p, r = panic p

@[simp] theorem panic_bind {α β} (p : Panic) (f : α → RM β) : (panic p >>= f) = panic p := rfl
@[simp] theorem diverge_bind {α β} (f : α → RM β) : ((diverge : RM α) >>= f) = diverge := rfl
@[simp] theorem map_panic {α β} (p : Panic) (f : α → β) : f <$> (panic p : RM α) = panic p := rfl
@[simp] theorem map_diverge {α β} (f : α → β) : f <$> (diverge : RM α) = diverge := rfl
@[simp] theorem ok_inj {α} {a b : α} : (pure a : RM α) = pure b ↔ a = b :=
  ⟨fun h => Except.ok.inj (Option.some.inj h), fun h => h ▸ rfl⟩
@[simp] theorem panic_ne_ok {α} {p : Panic} {a : α} : (panic p : RM α) ≠ pure a :=
  fun h => Except.noConfusion rfl rfl (heq_of_eq (Option.some.inj h))
@[simp] theorem ok_ne_panic {α} {p : Panic} {a : α} : (pure a : RM α) ≠ panic p := fun h => panic_ne_ok h.symm
@[simp] theorem diverge_ne_ok {α} {a : α} : (diverge : RM α) ≠ pure a :=
  fun h => Option.noConfusion rfl (heq_of_eq h)
@[simp] theorem ok_ne_diverge {α} {a : α} : (pure a : RM α) ≠ diverge := fun h => diverge_ne_ok h.symm
@[simp] theorem diverge_ne_panic {α} {p : Panic} : (diverge : RM α) ≠ panic p :=
  fun h => Option.noConfusion rfl (heq_of_eq h)
@[simp] theorem panic_ne_diverge {α} {p : Panic} : (panic p : RM α) ≠ diverge := fun h => diverge_ne_panic h.symm
@[simp] theorem panics_panic {α} (p : Panic) : Panics (panic p : RM α) := ⟨p, rfl⟩
@[simp] theorem not_panics_ok {α} (a : α) : ¬ Panics (pure a : RM α) := fun ⟨_, h⟩ => ok_ne_panic h
@[simp] theorem not_panics_diverge {α} : ¬ Panics (diverge : RM α) := fun ⟨_, h⟩ => diverge_ne_panic h
@[simp] theorem isOk_ok {α} (a : α) : IsOk (pure a : RM α) := ⟨a, rfl⟩
@[simp] theorem not_isOk_panic {α} (p : Panic) : ¬ IsOk (panic p : RM α) := fun ⟨_, h⟩ => panic_ne_ok h

theorem cases {α} (r : RM α) : (∃ a, r = ok a) ∨ (∃ p, r = panic p) ∨ r = diverge := by
  rcases r with _ | _ | _
  · exact .inr (.inr rfl)
  · exact .inr (.inl ⟨_, rfl⟩)
  · exact .inl ⟨_, rfl⟩

theorem bind_eq_ok {α β} {r : RM α} {f : α → RM β} {b : β} :
    (r >>= f) = pure b ↔ ∃ a, r = pure a ∧ f a = pure b := by
  rcases cases r with ⟨a, rfl⟩ | ⟨p, rfl⟩ | rfl
  · simp only [ok, pure_bind]
    exact ⟨fun h => ⟨a, rfl, h⟩, fun ⟨a', h, h'⟩ => by rw [ok_inj] at h; rw [h]; exact h'⟩
  · simp
  · simp
end RM

/-- `assert!(c)`. -/
def rassert (c : Bool) : RM Unit := if c then pure () else RM.panic .assertion
/-- `a / b` on unsigned integers. -/
def udiv (a b : Nat) : RM Nat := if b = 0 then RM.panic .arith else pure (a / b)
/-- `a % b` on unsigned integers. -/
def umod (a b : Nat) : RM Nat := if b = 0 then RM.panic .arith else pure (a % b)
/-- `a - b` on unsigned integers (debug profile: panics on underflow). -/
def usub (a b : Nat) : RM Nat := if a < b then RM.panic .arith else pure (a - b)
/-- `Option::unwrap`. -/
def unwrap {α} : Option α → RM α
  | some a => pure a
  | none => RM.panic .unwrap
/-- `v[i]`. -/
def index {α} (v : List α) (i : Nat) : RM α :=
  match v[i]? with
  | some a => pure a
  | none => RM.panic .index

@[simp] theorem rassert_true : rassert true = pure () := rfl
@[simp] theorem rassert_false : rassert false = RM.panic .assertion := rfl
@[simp] theorem unwrap_some {α} (a : α) : unwrap (some a) = pure a := rfl
@[simp] theorem unwrap_none {α} : unwrap (none : Option α) = RM.panic .unwrap := rfl
theorem rassert_pos {c : Bool} (h : c = true) : rassert c = pure () := by rw [h]; rfl
theorem udiv_pos {a b : Nat} (h : 0 < b) : udiv a b = pure (a / b) := by
  unfold udiv; rw [if_neg (Nat.pos_iff_ne_zero.mp h)]
@[simp] theorem udiv_zero (a : Nat) : udiv a 0 = RM.panic .arith := rfl
theorem umod_pos {a b : Nat} (h : 0 < b) : umod a b = pure (a % b) := by
  unfold umod; rw [if_neg (Nat.pos_iff_ne_zero.mp h)]
@[simp] theorem umod_zero (a : Nat) : umod a 0 = RM.panic .arith := rfl
theorem usub_le {a b : Nat} (h : b ≤ a) : usub a b = pure (a - b) := by
  unfold usub; rw [if_neg (Nat.not_lt.mpr h)]
theorem usub_lt {a b : Nat} (h : a < b) : usub a b = RM.panic .arith := by
  unfold usub; rw [if_pos h]
theorem index_lt {α} {v : List α} {i : Nat} (h : i < v.length) : index v i = pure v[i] := by
  unfold index; rw [List.getElem?_eq_getElem h]
theorem index_ge {α} {v : List α} {i : Nat} (h : v.length ≤ i) : index v i = RM.panic .index := by
  unfold index; rw [List.getElem?_eq_none h]

end Verif
