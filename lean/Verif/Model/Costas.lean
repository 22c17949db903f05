import Verif.Rust.Flt

/-!
# Model of `src/costas.rs` and `src/filters.rs`
-/
namespace Verif
set_option linter.unusedSectionVars false

variable {F : Type} [Add F] [Sub F] [Mul F] [Div F] [Neg F] [Zero F] [One F] [Flt F]

/-- `CostasLoop` — src/costas.rs:2-7. -/
structure CostasLoop (F : Type) where
  alpha : F
  beta : F
  vco_phase : F
  vco_freq : F

/-- `CostasLoop::new` — src/costas.rs:10-17. -/
def CostasLoop.new : CostasLoop F := ⟨Flt.lit 132 3, Flt.lit 932 5, 0, 0⟩

/-- `CostasLoop::update` — src/costas.rs:19-30; returns the output and the new state.  `f64 * Complex` multiplies both
parts. -/
def CostasLoop.update (s : CostasLoop F) (sample : Cx F) : Cx F × CostasLoop F :=
  let vco_out := Cx.smulR s.vco_phase (⟨0, -1⟩ : Cx F)
  let out := sample * vco_out
  let error := out.re * out.im
  let vco_freq := s.vco_freq + s.beta * error
  let vco_phase := s.vco_phase + (s.alpha * error + vco_freq)
  (out, { s with vco_phase := vco_phase, vco_freq := vco_freq })

/-- The outputs of successive calls of `update`. -/
def CostasLoop.run (s : CostasLoop F) : List (Cx F) → List (Cx F)
  | [] => []
  | x :: xs => (s.update x).1 :: CostasLoop.run (s.update x).2 xs

/-- The closure of `rrcosfilter` for one time `t` — src/filters.rs:8-20. -/
def rrcosTap (beta ts t : F) : F :=
  if Flt.eq t 0 then
    1 / ts + beta * (Flt.ofNat 4 / Flt.pi - 1)
  else if !Flt.eq beta 0 && (Flt.eq t (ts / (Flt.ofNat 2 * beta)) || Flt.eq ts (-ts / (Flt.ofNat 2 * beta))) then
    beta / (ts * Flt.sqrt (Flt.ofNat 2))
      * ((1 + Flt.ofNat 2 / Flt.pi) * Flt.sin (Flt.pi / (Flt.ofNat 4 * beta))
          + (1 - Flt.ofNat 2 / Flt.pi) * Flt.cos (Flt.pi / (Flt.ofNat 4 * beta)))
  else
    (1 / ts * Flt.sin (Flt.pi * t / ts * (1 - beta)) + Flt.ofNat 4 * beta * t / ts * Flt.cos (Flt.pi * t / ts * (1 + beta)))
      / (Flt.pi * t / ts * (1 - powi (Flt.ofNat 4 * beta * t / ts) 2))

/-- The time of tap `i` — src/filters.rs:7. -/
def rrcosTime (taps : ℕ) (samp_rate : F) (i : ℕ) : F := (Flt.ofNat i - Flt.ofNat taps / Flt.ofNat 2) / samp_rate

/-- `rrcosfilter` — src/filters.rs:3-23. -/
def rrcosfilter (taps : ℕ) (beta symbol_length samp_rate : F) : List F :=
  (List.range taps).map (fun i => rrcosTap beta symbol_length (rrcosTime taps samp_rate i))

end Verif
