import Verif.Lemmas.Cdma
import Verif.Lemmas.Fsk
import Verif.Lemmas.Fh
import Verif.Lemmas.Ofdm

/-!
# Worked cases

The stations used in the examples beside the theorems: 16 samples per symbol at 16 kHz, carrier 2 kHz.  Every transmitter
accepts them, for every message.
-/
namespace Verif.Cases
open Verif Spec

theorem guard16 : isInt (Flt.ofNat 16000 / Flt.ofNat 1000 : ℝ) = true :=
  (isInt_real (a := 16000) (b := 1000) (by norm_num) (by norm_num)).mpr ⟨16, by norm_num⟩

theorem ok {key : List Bool} (h : key.length = 2 ∨ key.length = 4) : CdmaOk 16000 1000 (2000 : ℝ) key.length := by
  refine (cdmaOk_real (by norm_num)).mpr ?_
  rcases h with h | h <;> rw [h] <;> norm_num

theorem bpsk (msg : List Bool) : ∃ a : List ℝ, (do let tx ← txBpsk (ofList msg) 16000 1000 (2000 : ℝ); collect tx) = pure a ∧
    a.length = msg.length * 16 := by
  obtain ⟨it, e1, e2⟩ := txBpsk_ok (yields_ofList msg) (fs := 16000) (sym := 1000) (fc := (2000 : ℝ)) (by norm_num)
    (by rw [Flt.toNat_real]; norm_num) guard16
  exact ⟨_, by rw [e1, pure_bind]; exact collect_of_yields e2, wave_length _ _ _⟩

theorem qpsk (msg : List Bool) : ∃ a : List ℝ, (do let tx ← txQpsk (ofList msg) 16000 1000 (2000 : ℝ); collect tx) = pure a ∧
    a.length = msg.length / 2 * 16 := by
  obtain ⟨it, e1, e2⟩ := txQpsk_ok (yields_ofList msg) (fs := 16000) (sym := 1000) (fc := (2000 : ℝ)) (by norm_num)
  exact ⟨_, by rw [e1, pure_bind]; exact collect_of_yields e2, by rw [wave_length, pairs_length]⟩

theorem cdmaBpsk (msg : List Bool) {key : List Bool} (h : key.length = 2 ∨ key.length = 4) :
    ∃ a : List ℝ, (do let tx ← txCdmaBpsk (ofList msg) 16000 1000 (2000 : ℝ) key; collect tx) = pure a ∧
      a.length = msg.length * 16 := by
  obtain ⟨it, e1, e2⟩ := txCdmaBpsk_ok (yields_ofList msg) (ok h)
  exact ⟨_, by rw [e1, pure_bind]; exact collect_of_yields e2, by rw [List.length_mapIdx, wave_length]⟩

theorem cdmaQpsk (msg : List Bool) {key : List Bool} (h : key.length = 2 ∨ key.length = 4) :
    ∃ a : List ℝ, (do let tx ← txCdmaQpsk (ofList msg) 16000 1000 (2000 : ℝ) key; collect tx) = pure a ∧
      a.length = msg.length / 2 * 16 := by
  obtain ⟨it, e1, e2⟩ := txCdmaQpsk_ok (yields_ofList msg) (ok h)
  exact ⟨_, by rw [e1, pure_bind]; exact collect_of_yields e2, by rw [List.length_mapIdx, wave_length, pairs_length]⟩

theorem bfsk (msg : List Bool) : ∃ a : List ℝ, (do let tx ← txBfsk (ofList msg) 16000 1000 (2000 : ℝ) 3000; collect tx) = pure a ∧
    a.length = msg.length * 16 := by
  obtain ⟨it, e1, e2⟩ := txBfsk_ok (yields_ofList msg) (fs := 16000) (sym := 1000) (lo := (2000 : ℝ)) (hi := 3000) (by norm_num)
    (by rw [Flt.toNat_real]; norm_num) guard16
  exact ⟨_, by rw [e1, pure_bind]; exact collect_of_yields e2, wave_length _ _ _⟩

theorem fsk (msg : List Bool) : ∃ a : List ℝ, (do let tx ← txFsk (ofList msg) 160000 1000 (20000 : ℝ); collect tx) = pure a ∧
    a.length = msg.length * 160 := by
  obtain ⟨it, e1, e2⟩ := txFsk_ok (yields_ofList msg) (fs := 160000) (sym := 1000) (fc := (20000 : ℝ)) (by norm_num)
  exact ⟨_, by rw [e1, pure_bind]; exact collect_of_yields e2, wave_length _ _ _⟩

theorem hopping (ρ : Type) [Rng ρ] (msg : List Bool) :
    ∃ a : List ℝ, (do let tx ← txFhBpsk ρ (ofList msg) (1000 : ℝ) 3000 4 16000 1000; collect tx) = pure a ∧
      a.length = msg.length * 16 := by
  obtain ⟨it, e1, e2⟩ := txFhBpsk_ok (ρ := ρ) (yields_ofList msg) (low := (1000 : ℝ)) (high := 3000) (n := 4) (fs := 16000)
    (sym := 1000) (by norm_num) (by norm_num) (by rw [Flt.toNat_real]; norm_num) guard16 (fun x hx => by
      rw [Flt.toNat_real]
      have := (hopFreqs_real (by norm_num) hx).2
      calc min ⌊x⌋₊ (2 ^ 64 - 1) ≤ ⌊(3000 : ℝ)⌋₊ := (min_le_left _ _).trans (Nat.floor_le_floor this)
        _ ≤ 16000 / 2 := by norm_num)
  exact ⟨_, by rw [e1, pure_bind]; exact collect_of_yields e2, wave_length _ _ _⟩

/-- The four frequencies of that hopping station. -/
theorem hop_freqs : Yields (linspace (1000 : ℝ) 3000 4) [1000, 1500, 2000, 2500] :=
  (linspace_yields _ _ _).of_eq (by simp [hopFreqs, List.range_succ]; norm_num)

end Verif.Cases
