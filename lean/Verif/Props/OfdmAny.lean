import Verif.Lemmas.OfdmAny
import Verif.Lemmas.OfdmLin
import Verif.Model.PyOfdm
import Verif.Props.Ofdm

/-!
# Property C114: which recordings the passband OFDM receiver accepts

Any number system and any transform.
-/
namespace Verif.Props
open Verif Spec
set_option linter.unusedSectionVars false
variable {ι : Type} {F : Type} [Add F] [Sub F] [Mul F] [Div F] [Neg F] [Zero F] [One F] [Flt F] [Fft F]

/-- Of `L` samples at `k` samples per symbol, with `R = ⌊(L + min k L - 2) / k⌋`: if `R` is a whole number of frames of `n + n/4`,
the receiver returns `2·(n - p)` bits for each of them. -/
theorem C114_returns [RIter ι F] {s : ι} {l : List F} (h : Yields s l) {n p fs sym : ℕ} {fc : F} (h1 : 1 ≤ p) (h2 : p ≤ n)
    (hk : 0 < fs / sym) (hint : isInt (Flt.ofNat fs / Flt.ofNat sym : F) = true)
    (hd : n + n / 4 ∣ (l.length + min (fs / sym) l.length - 2) / (fs / sym)) :
    ∃ bits, (do let it ← rxOfdmQpsk s n p fs sym fc; collect it) = pure bits ∧
      bits.length = 2 * (n - p) * ((l.length + min (fs / sym) l.length - 2) / (fs / sym) / (n + n / 4)) := by
  obtain ⟨κ, _, t, y, hy, hl, e⟩ := rxOfdmQpsk_front h (n := n) (p := p) (fc := fc) hk hint
  rw [← hl] at hd
  obtain ⟨it, e1, hy1⟩ := rxBasebandOfdm_ok hy h1 h2 hd
  refine ⟨_, by rw [e, e1, pure_bind, collect_of_yields hy1.rxBasebandQpsk], ?_⟩
  rw [length_flatMap_const (k := 2) _ _ (fun _ _ => rfl), ← hl]
  have := deframeAll_length (F := F) h1 h2 y hd
  unfold deframeAll at this
  rw [this]
  ring

/-- Otherwise it panics. -/
theorem C114_panics [RIter ι F] {s : ι} {l : List F} (h : Yields s l) {n p fs sym : ℕ} {fc : F} (h1 : 1 ≤ p) (h2 : p ≤ n)
    (hk : 0 < fs / sym) (hint : isInt (Flt.ofNat fs / Flt.ofNat sym : F) = true)
    (hd : ¬ n + n / 4 ∣ (l.length + min (fs / sym) l.length - 2) / (fs / sym)) :
    (do let it ← rxOfdmQpsk s n p fs sym fc; collect it).Panics := by
  obtain ⟨κ, _, t, y, hy, hl, e⟩ := rxOfdmQpsk_front h (n := n) (p := p) (fc := fc) hk hint
  rw [← hl] at hd
  obtain ⟨it, out, e1, hc⟩ := rxBasebandOfdm_crash hy h1 h2 hd
  rw [e, e1, pure_bind]
  exact (hc.rflatMap (f := fun sample : Cx F => pure (ofList [Flt.le 0 sample.re, Flt.le 0 sample.im]))
    (out := fun z => [Flt.le 0 z.re, Flt.le 0 z.im]) (fun z _ => ⟨_, rfl, yields_ofList _⟩)).collect

/-- `rx_ofdm` of the Python module accepts exactly the same recordings. -/
theorem C114_py (l : List F) {n p fs sym : ℕ} {fc : F} (h1 : 1 ≤ p) (h2 : p ≤ n)
    (hk : 0 < fs / sym) (hint : isInt (Flt.ofNat fs / Flt.ofNat sym : F) = true) :
    (pyRxOfdm l n p fs sym fc).Panics ↔ ¬ n + n / 4 ∣ (l.length + min (fs / sym) l.length - 2) / (fs / sym) := by
  constructor
  · intro hp hd
    obtain ⟨bits, e, -⟩ := C114_returns (yields_ofList l) (fc := fc) h1 h2 hk hint hd
    unfold pyRxOfdm at hp
    rw [e] at hp
    exact RM.not_panics_ok _ hp
  · intro hd
    exact C114_panics (yields_ofList l) (fc := fc) h1 h2 hk hint hd

/-- A recording of whole frames, at two samples per symbol or more, survives the loss of any samples at its end up to all but two
of a symbol, and nothing else: of `c` frames, `c·(n + n/4)·k - d` samples are accepted exactly if `d ≤ k - 2`
(for a loss of less than a frame). -/
theorem C114_cut (l : List F) {n p fs sym c d : ℕ} {fc : F} (h1 : 1 ≤ p) (h2 : p ≤ n) (hn : 2 ≤ n) (hk : 2 ≤ fs / sym)
    (hint : isInt (Flt.ofNat fs / Flt.ofNat sym : F) = true) (hl : l.length + d = c * (n + n / 4) * (fs / sym))
    (hd : d + fs / sym ≤ (n + n / 4) * (fs / sym)) (hc : 0 < c) :
    (pyRxOfdm l n p fs sym fc).Panics ↔ fs / sym - 2 < d := by
  rw [C114_py l h1 h2 (by omega) hint]
  set k := fs / sym
  set L := n + n / 4
  have hL : 2 ≤ L := by omega
  obtain ⟨c', rfl⟩ : ∃ c', c = c' + 1 := ⟨c - 1, by omega⟩
  have e0 : (c' + 1) * L * k = c' * L * k + L * k := by ring
  have hkl : k ≤ l.length := by
    have : 0 ≤ c' * L * k := Nat.zero_le _
    omega
  rw [Nat.min_eq_left hkl]
  by_cases hdk : d ≤ k - 2
  · have : (l.length + k - 2) / k = (c' + 1) * L := by
      rw [show l.length + k - 2 = (k - 2 - d) + k * ((c' + 1) * L) by
        have : k * ((c' + 1) * L) = (c' + 1) * L * k := by ring
        omega, Nat.add_mul_div_left _ _ (by omega), Nat.div_eq_of_lt (by omega), Nat.zero_add]
    rw [this]
    constructor
    · intro h; exact absurd ⟨c' + 1, Nat.mul_comm _ _⟩ h
    · intro h; omega
  · constructor
    · intro _; omega
    · intro _ hdv
      have hlo : c' * L < (l.length + k - 2) / k := by
        rw [← Nat.succ_le_iff, Nat.le_div_iff_mul_le (by omega), Nat.succ_eq_add_one, Nat.add_mul]
        omega
      have hhi : (l.length + k - 2) / k < (c' + 1) * L := by
        rw [Nat.div_lt_iff_lt_mul (by omega)]
        omega
      obtain ⟨q, hq⟩ := hdv
      rw [hq, Nat.mul_comm c' L] at hlo
      rw [hq, Nat.mul_comm (c' + 1) L] at hhi
      have a1 := Nat.lt_of_mul_lt_mul_left hlo
      have a2 := Nat.lt_of_mul_lt_mul_left hhi
      omega

/-! ### Concrete cases -/

/-- One frame of 64 carriers at 49 samples per symbol, with 47 samples lost at its end. -/
example [Fft ℝ] (l : List ℝ) (hl : l.length = 80 * 49 - 47) :
    ∃ bits, (do let it ← rxOfdmQpsk (ofList l) 64 12 44100 900 (1800 : ℝ); collect it) = pure bits ∧ bits.length = 104 := by
  have := C114_returns (yields_ofList l) (n := 64) (p := 12) (fs := 44100) (sym := 900) (fc := (1800 : ℝ)) (by norm_num) (by norm_num)
    (by norm_num) ((isInt_real (by norm_num) (by norm_num)).mpr (by norm_num)) (by rw [hl]; norm_num)
  simpa [hl] using this

/-- One sample less. -/
example [Fft ℝ] (l : List ℝ) (hl : l.length = 80 * 49 - 48) :
    (do let it ← rxOfdmQpsk (ofList l) 64 12 44100 900 (1800 : ℝ); collect it).Panics :=
  C114_panics (yields_ofList l) (by norm_num) (by norm_num)
    (by norm_num) ((isInt_real (by norm_num) (by norm_num)).mpr (by norm_num)) (by rw [hl]; norm_num)

/-- In IEEE arithmetic. -/
example [Fft Float] : (pyRxOfdm (List.replicate 9001 (1 : Float)) 16 12 65536 256 2121).Panics :=
  (C114_py _ (by norm_num) (by norm_num) (by norm_num) (by decide +kernel)).mpr (by rw [List.length_replicate]; norm_num)

example [Fft Float] (l : List Float) (hl : l.length + 60 = 3 * 80 * 49) : (pyRxOfdm l 64 12 44100 900 1800).Panics :=
  (C114_cut l (c := 3) (d := 60) (by norm_num) (by norm_num) (by norm_num) (by norm_num) (by decide +kernel) (by simpa using hl) (by norm_num)
    (by norm_num)).mpr (by norm_num)

end Verif.Props
