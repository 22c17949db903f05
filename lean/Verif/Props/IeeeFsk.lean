import Verif.Lemmas.IeeeFsk
import Verif.Props.Fsk

/-!
# Property C41 in IEEE arithmetic
-/
namespace Verif.Props
open Verif Spec F64

variable {ι : Type}

/-- Round trip in double precision, for any sine and cosine within `2^-12` of the exact ones, whenever on each transmitted
symbol the exact energy of the tone sent exceeds that of the other one by a thirty-second of the square of the symbol length
(the most it can be is about a quarter). -/
theorem C41_roundtrip_ieee [RIter ι Bool] {L : Libm} {ε : ℝ} (hε : ε ≤ 1 / 2 ^ 12) (hL : Accurate L ε (2 ^ 40))
    {m : ι} {msg : List Bool} (h : Yields m msg) {fs sym : ℕ} {fc : FloatL L} (hfs : fs < 2 ^ 53) (hsps : 0 < fs / sym)
    (hlen : msg.length * (fs / sym) ≤ 2 ^ 31) (hf : Fin fc) (hlo : 1 / 2 ^ 90 ≤ val fc) (hhi : val fc ≤ fs / 2)
    (hE : ∀ (n : ℕ) (b : Bool), msg[n]? = some b →
      toneEnergy (tone fs (val fc) (!b)) (fs / sym) (fun j => Real.cos (tone fs (val fc) b * (n * (fs / sym) + j : ℕ)))
        + ((fs / sym : ℕ) : ℝ) ^ 2 / 32
      ≤ toneEnergy (tone fs (val fc) b) (fs / sym) (fun j => Real.cos (tone fs (val fc) b * (n * (fs / sym) + j : ℕ)))) :
    (do let tx ← txFsk m fs sym fc; let rx ← rxFsk tx fs sym fc; collect rx) = pure msg := by
  have hfs0 : 0 < fs := by
    rcases Nat.eq_zero_or_pos fs with h | h
    · subst h; simp at hsps
    · exact h
  obtain ⟨it, e1, e2⟩ := txFsk_ok h (fc := fc) hsps
  obtain ⟨it', e3, e4⟩ := rxFsk_wave (fc := fc) hsps e2
  rw [e1, pure_bind, e3, pure_bind, collect_of_yields e4]
  congr 1
  apply mapIdx_eq_self
  intro n b hb
  have hlt : n < msg.length := by
    rcases Nat.lt_or_ge n msg.length with h | h
    · exact h
    · rw [List.getElem?_eq_none h] at hb; cases hb
  exact rxFskChunk_ieee hε hL hfs0 hfs hsps ((Nat.mul_le_mul_right _ hlt).trans hlen) hf hlo hhi b (w := tone fs (val fc))
    (fun _ => rfl) (hE n b hb)

/-- In particular for carriers that are multiples of twenty symbol rates, below the Nyquist frequency. -/
theorem C41_orthogonal_ieee [RIter ι Bool] {L : Libm} {ε : ℝ} (hε : ε ≤ 1 / 2 ^ 12) (hL : Accurate L ε (2 ^ 40))
    {m : ι} {msg : List Bool} (h : Yields m msg) {fs sym c : ℕ} (hfs : fs < 2 ^ 53) (hsym : 0 < sym) (hc : 0 < c)
    (hdvd : sym ∣ fs) (hny : 41 * c * sym < fs) (hlen : msg.length * (fs / sym) ≤ 2 ^ 31) :
    (do let tx ← txFsk m fs sym (Flt.ofNat (20 * c * sym) : FloatL L)
        let rx ← rxFsk tx fs sym (Flt.ofNat (20 * c * sym) : FloatL L)
        collect rx) = pure msg := by
  have hcs : 0 < c * sym := Nat.mul_pos hc hsym
  have hfs0 : 0 < fs := by omega
  have hny' : 41 * (c * sym) < fs := by rw [← Nat.mul_assoc]; exact hny
  have hle : 20 * c * sym ≤ 2 ^ 53 := by rw [Nat.mul_assoc]; omega
  obtain ⟨f1, f2⟩ := ofNat_exact hle
  have hsps : 0 < fs / sym := Nat.div_pos (Nat.le_of_dvd hfs0 hdvd) hsym
  have hfc : val (Flt.ofNat (20 * c * sym) : FloatL L) = ((20 * c * sym : ℕ) : ℝ) := f2
  have h1 : (1 : ℝ) ≤ ((20 * c * sym : ℕ) : ℝ) := by
    have : 1 ≤ 20 * c * sym := by rw [Nat.mul_assoc]; omega
    exact_mod_cast this
  refine C41_roundtrip_ieee hε hL h hfs hsps hlen f1 ?_ ?_ ?_
  · rw [hfc]; exact le_trans (by norm_num) h1
  · rw [hfc, le_div_iff₀ (by norm_num)]
    have : 20 * c * sym * 2 ≤ fs := by rw [Nat.mul_assoc 20]; omega
    exact_mod_cast this
  · intro n b _
    obtain ⟨q1, q2⟩ := orthogonal_energies hsym hc hdvd hny (w := tone fs (((20 * c * sym : ℕ) : ℝ))) (fun _ => rfl) b (n * (fs / sym))
    rw [hfc, q1, q2]
    have : (0 : ℝ) ≤ ((fs / sym : ℕ) : ℝ) ^ 2 := by positivity
    rw [div_pow]
    linarith

/-- 44.1 kHz, 100 symbols per second, a 2 kHz carrier. -/
example {msg : List Bool} (hlen : msg.length ≤ 4000000) :
    (do let tx ← txFsk (ofList msg) 44100 100 (Flt.ofNat (20 * 1 * 100) : FloatL Libm.rounded)
        let rx ← rxFsk tx 44100 100 (Flt.ofNat (20 * 1 * 100) : FloatL Libm.rounded)
        collect rx) = pure msg :=
  C41_orthogonal_ieee (ε := 1 / 2 ^ 52) (by norm_num) (accurate_rounded _) (yields_ofList msg) (by norm_num) (by norm_num)
    (by norm_num) (by norm_num) (by norm_num) (by norm_num; omega)

end Verif.Props
