import Verif.Rust.Res

/-! # Model of `src/hadamard.rs` -/
namespace Verif

/-- The field `matrix: Vec<Vec<Bit>>` of `HadamardMatrix` — src/hadamard.rs:4-6. -/
abbrev BMat := List (List Bool)

/-- `matrix[i][j]` (panics out of range). -/
def getM (m : BMat) (i j : Nat) : RM Bool := do
  let r ← index m i
  index r j

/-- `matrix[i][j] = b` (panics out of range). -/
def setM (m : BMat) (i j : Nat) (b : Bool) : RM BMat := do
  let r ← index m i
  let _ ← index r j
  pure (m.set i (r.set j b))

/-- Body of the innermost loop — src/hadamard.rs:17-19. -/
def hadInner (i1 i2 : Nat) (m : BMat) (i3 : Nat) : RM BMat := do
  let m ← setM m (i1 + i2) i3 (← getM m i2 i3)
  let m ← setM m i2 (i1 + i3) (← getM m i2 i3)
  setM m (i1 + i2) (i1 + i3) (!(← getM m i2 i3))

/-- The `while i1 < n` loop — src/hadamard.rs:13-23. -/
def hadLoop (n i1 : Nat) (m : BMat) : RM BMat :=
  if i1 < n then do
    let m ← (List.range i1).foldlM (fun m i2 => (List.range i1).foldlM (hadInner i1 i2) m) m
    hadLoop n (i1 + i1) m
  else pure m
partial_fixpoint

/-- `HadamardMatrix::new` — src/hadamard.rs:9-26. -/
def hadamardNew (n : Nat) : RM BMat := do
  let p ← usub n 1
  rassert ((n &&& p) == 0)
  hadLoop n 1 (List.replicate n (List.replicate n true))

/-- `HadamardMatrix::key` — src/hadamard.rs:27-30. -/
def hadamardKey (matrix : BMat) (n : Nat) : RM (List Bool) := do
  let r ← umod n matrix.length
  unwrap (matrix[r + 1]?)

/-- `Display::fmt` of `HadamardMatrix` — src/hadamard.rs:33-44: the text that is written. -/
def hadamardDisplay (matrix : BMat) : String :=
  matrix.foldl (fun out row =>
    (row.foldl (fun out bit => out ++ (if bit then "T " else "F ")) out).push '\n') ""

end Verif
