import Verif.Lemmas.IeeeRadio
import Verif.Props.Cdma

/-!
# C28, C29, C31 and C49 in IEEE double arithmetic

`FloatL L` is binary64 with the mathematical library `L`; `Accurate L ε X` says that its `sin` and `cos` are within `ε`
of the exact values for arguments up to `X`.  Real libraries have `ε` about `2^-53`; the theorems ask for `2^-10`.
-/
namespace Verif.Props
open Verif Verif.F64 Spec

variable {ι : Type}

/-! ## C28 QPSK -/

/-- Round trip with whole half-periods per symbol. -/
theorem C28_accurate [RIter ι Bool] {L : Libm} {ε : ℝ} (hε : ε ≤ 1 / 2 ^ 10) (hL : Accurate L ε (2 ^ 40))
    {m : ι} {msg : List Bool} (h : Yields m msg) {fs sym : ℕ} {fc : FloatL L} (hfs : fs < 2 ^ 53) (hsps : 0 < fs / sym)
    (hlen : msg.length * (fs / sym) ≤ 2 ^ 32) (hf : Fin fc) (hlo : 1 / 2 ^ 100 ≤ val fc) (hhi : val fc < fs / 2)
    {p : ℤ} (hp : ((fs / sym : ℕ) : ℝ) * (2 * val fc) = p * fs) :
    (do let tx ← txQpsk m fs sym fc; let rx ← rxQpsk tx fs sym fc; collect rx)
        = pure (msg.take (2 * (msg.length / 2))) := by
  have hfs0 : 0 < fs := by
    rcases Nat.eq_zero_or_pos fs with h | h
    · subst h; simp at hsps
    · exact h
  have hpl : (pairs msg).length ≤ msg.length := by
    have := congrArg List.length (pairs_flat msg)
    rw [length_flatMap_const (k := 2) _ _ (by simp), List.length_take] at this
    omega
  obtain ⟨it, h1, h2⟩ := txQpsk_ok h (fc := fc) hsps
  have hm := fun n => qpsk_margins hfs0 hsps hp (lt_of_lt_of_le (by norm_num) hlo) hhi n
  obtain ⟨it', h3, h4⟩ := rxQpsk_ieee hε hL hfs hsps
    ((Nat.mul_le_mul_right _ hpl).trans hlen) hf hlo hhi.le (fun n _ => (hm n).1) (fun n _ => (hm n).2) h2
  rw [h1, pure_bind, h3, pure_bind, collect_of_yields h4, pairs_flat]

/-- 16 kHz, 1000 symbols per second, 2 kHz carrier. -/
example {msg : List Bool} (hlen : msg.length ≤ 2 ^ 28) :
    (do let tx ← txQpsk (ofList msg) 16000 1000 (Flt.ofNat 2000 : FloatL Libm.rounded)
        let rx ← rxQpsk tx 16000 1000 (Flt.ofNat 2000 : FloatL Libm.rounded)
        collect rx) = pure (msg.take (2 * (msg.length / 2))) := by
  obtain ⟨h1, h2⟩ := ofNat_exact (n := 2000) (by norm_num)
  have h3 : val (Flt.ofNat 2000 : FloatL Libm.rounded) = 2000 := h2.trans (by norm_num)
  refine C28_accurate (ε := 1 / 2 ^ 52) (p := 4) (by norm_num) (accurate_rounded _) (yields_ofList _) (by norm_num)
    (by norm_num) (by norm_num; norm_num at hlen; omega) h1 ?_ ?_ ?_ <;> rw [h3] <;> norm_num

/-! ## C29 CDMA over BPSK -/

/-- The accepted parameters, IEEE arithmetic. -/
theorem C29_guards_ieee [RIter ι Bool] {L : Libm} (m : ι) {fs sym : ℕ} {fc : FloatL L} (key : List Bool)
    (hfs : fs < 2 ^ 53) (hf : Fin fc) :
    (txCdmaBpsk m fs sym fc key).Panics ↔
      ¬ (0 < sym ∧ key ≠ [] ∧ sym * key.length ∣ fs ∧ 2 * (sym * key.length) ≤ fs ∧ ⌊val fc⌋₊ ≤ fs / 2) := by
  rw [← List.length_pos_iff, ← cdmaOk_ieee hfs hf]
  constructor
  · intro hp hok
    have h1 := hok.sps
    have h3 := hok.key_pos
    unfold txCdmaBpsk at hp
    rw [hok.guards, pure_bind] at hp
    have h4 : ¬ (txBpsk m fs sym fc).Panics := by
      rw [C26_panics]
      rintro (h | h | h)
      · have := hok.sym_pos; omega
      · have := hok.car; omega
      · rw [hok.int1] at h; cases h
    apply h4
    unfold txBpsk at hp ⊢
    rw [udiv_pos hok.sym_pos, pure_bind, rassert_pos (decide_eq_true hok.car), pure_bind, rassert_pos hok.int1, pure_bind,
      pure_bind] at hp
    exact absurd hp (RM.not_panics_ok _)
  · intro h
    have := (cdmaGuards_panics fs sym fc key.length).mpr h
    unfold txCdmaBpsk
    obtain ⟨e, he⟩ := this
    rw [he]
    exact ⟨e, RM.panic_bind _ _⟩

/-- The signal after despreading is the BPSK signal, bit for bit; hence the round trip. -/
theorem cdmaBpsk_trip_ieee [RIter ι Bool] {L : Libm} {ε : ℝ} (hε : ε ≤ 1 / 2 ^ 10) (hL : Accurate L ε (2 ^ 40))
    {m : ι} {msg : List Bool} (h : Yields m msg) {fs sym : ℕ} {fc : FloatL L} {key : List Bool} (hfs : fs < 2 ^ 53)
    (hsym : 0 < sym) (hkey : key ≠ []) (hdvd : sym * key.length ∣ fs) (hnyq : 2 * (sym * key.length) ≤ fs)
    (hlen : msg.length * (fs / sym) ≤ 2 ^ 32) (hf : Fin fc) (hhi : val fc ≤ 7 / 16 * fs)
    (hlo : 1 / 16 ≤ (((fs / sym : ℕ) : ℝ) - 1) * (val fc / fs)) :
    ∃ it it', txCdmaBpsk m fs sym fc key = pure it ∧ rxCdmaBpsk it fs sym fc key = pure it' ∧ Yields it' msg := by
  have hfl : ⌊val fc⌋₊ ≤ fs / 2 := by
    have h1 : ⌊val fc⌋₊ ≤ ⌊(fs : ℝ) / 2⌋₊ := Nat.floor_mono (by
      have : (0 : ℝ) ≤ fs := by positivity
      linarith)
    have h2 : ⌊(fs : ℝ) / 2⌋₊ = fs / 2 := by simpa using Nat.floor_div_natCast (fs : ℝ) 2
    omega
  have hok := (cdmaOk_ieee hfs hf).mpr ⟨hsym, List.length_pos_iff.mpr hkey, hdvd, hnyq, hfl⟩
  have h1 := hok.sps
  have h2 := hok.spc
  have h3 := hok.key_pos
  obtain ⟨it, e1, e2⟩ := txCdmaBpsk_ok h hok
  have e3 := (e2.spread h3 (show 0 < fs / sym / key.length by omega)).of_eq (despread_spread_ieee _ _ _)
  obtain ⟨it', e4, e5⟩ := rxBpsk_ieee hε hL hfs (Dvd.dvd.trans (Dvd.intro _ rfl) hdvd) hlen hf hhi hlo e3
  exact ⟨it, it', e1, by rw [rxCdmaBpsk, hok.guards, pure_bind, e4], e5⟩

theorem C29_accurate [RIter ι Bool] {L : Libm} {ε : ℝ} (hε : ε ≤ 1 / 2 ^ 10) (hL : Accurate L ε (2 ^ 40))
    {m : ι} {msg : List Bool} (h : Yields m msg) {fs sym : ℕ} {fc : FloatL L} {key : List Bool} (hfs : fs < 2 ^ 53)
    (hsym : 0 < sym) (hkey : key ≠ []) (hdvd : sym * key.length ∣ fs) (hnyq : 2 * (sym * key.length) ≤ fs)
    (hlen : msg.length * (fs / sym) ≤ 2 ^ 32) (hf : Fin fc) (hhi : val fc ≤ 7 / 16 * fs)
    (hlo : 1 / 16 ≤ (((fs / sym : ℕ) : ℝ) - 1) * (val fc / fs)) :
    (do let tx ← txCdmaBpsk m fs sym fc key; let rx ← rxCdmaBpsk tx fs sym fc key; collect rx) = pure msg := by
  obtain ⟨it, it', e1, e2, e3⟩ := cdmaBpsk_trip_ieee hε hL h hfs hsym hkey hdvd hnyq hlen hf hhi hlo
  rw [e1, pure_bind, e2, pure_bind, collect_of_yields e3]

example {msg : List Bool} (hlen : msg.length ≤ 2 ^ 28) :
    (do let tx ← txCdmaBpsk (ofList msg) 16000 1000 (Flt.ofNat 2000 : FloatL Libm.rounded) [true, false, true, false]
        let rx ← rxCdmaBpsk tx 16000 1000 (Flt.ofNat 2000 : FloatL Libm.rounded) [true, false, true, false]
        collect rx) = pure msg := by
  obtain ⟨h1, h2⟩ := ofNat_exact (n := 2000) (by norm_num)
  have h3 : val (Flt.ofNat 2000 : FloatL Libm.rounded) = 2000 := h2.trans (by norm_num)
  refine C29_accurate (ε := 1 / 2 ^ 52) (by norm_num) (accurate_rounded _) (yields_ofList _) (by norm_num)
    (by norm_num) (by simp) (by simp) (by simp) (by norm_num; norm_num at hlen; omega) h1 ?_ ?_ <;> rw [h3] <;> norm_num

/-! ## C31 CDMA over QPSK -/

theorem C31_accurate [RIter ι Bool] {L : Libm} {ε : ℝ} (hε : ε ≤ 1 / 2 ^ 10) (hL : Accurate L ε (2 ^ 40))
    {m : ι} {msg : List Bool} (h : Yields m msg) {fs sym : ℕ} {fc : FloatL L} {key : List Bool} (hfs : fs < 2 ^ 53)
    (hsym : 0 < sym) (hkey : key ≠ []) (hdvd : sym * key.length ∣ fs) (hnyq : 2 * (sym * key.length) ≤ fs)
    (hlen : msg.length * (fs / sym) ≤ 2 ^ 32) (hf : Fin fc) (hlo : 1 / 2 ^ 100 ≤ val fc) (hhi : val fc < fs / 2)
    {p : ℤ} (hp : ((fs / sym : ℕ) : ℝ) * (2 * val fc) = p * fs) :
    (do let tx ← txCdmaQpsk m fs sym fc key; let rx ← rxCdmaQpsk tx fs sym fc key; collect rx)
      = pure (msg.take (2 * (msg.length / 2))) := by
  have hfl : ⌊val fc⌋₊ ≤ fs / 2 := by
    have h1 : ⌊val fc⌋₊ ≤ ⌊(fs : ℝ) / 2⌋₊ := Nat.floor_mono hhi.le
    have h2 : ⌊(fs : ℝ) / 2⌋₊ = fs / 2 := by simpa using Nat.floor_div_natCast (fs : ℝ) 2
    omega
  have hok := (cdmaOk_ieee hfs hf).mpr ⟨hsym, List.length_pos_iff.mpr hkey, hdvd, hnyq, hfl⟩
  have h1 := hok.sps
  have h2 := hok.spc
  have h3 := hok.key_pos
  have hsps : 0 < fs / sym := by omega
  have hfs0 : 0 < fs := by
    rcases Nat.eq_zero_or_pos fs with h | h
    · subst h; simp at hsps
    · exact h
  have hpl : (pairs msg).length ≤ msg.length := by
    have := congrArg List.length (pairs_flat msg)
    rw [length_flatMap_const (k := 2) _ _ (by simp), List.length_take] at this
    omega
  obtain ⟨it, e1, e2⟩ := txCdmaQpsk_ok h hok
  have e3 := (e2.spread h3 (show 0 < fs / sym / key.length by omega)).of_eq (despread_spread_ieee _ _ _)
  have hm := fun n => qpsk_margins hfs0 hsps hp (lt_of_lt_of_le (by norm_num) hlo) hhi n
  obtain ⟨it', e4, e5⟩ := rxQpsk_ieee hε hL hfs hsps
    ((Nat.mul_le_mul_right _ hpl).trans hlen) hf hlo hhi.le (fun n _ => (hm n).1) (fun n _ => (hm n).2) e3
  rw [e1, pure_bind, rxCdmaQpsk, hok.guards, pure_bind, e4, pure_bind, collect_of_yields e5, pairs_flat]

example {msg : List Bool} (hlen : msg.length ≤ 2 ^ 28) :
    (do let tx ← txCdmaQpsk (ofList msg) 16000 1000 (Flt.ofNat 2000 : FloatL Libm.rounded) [true, false, true, false]
        let rx ← rxCdmaQpsk tx 16000 1000 (Flt.ofNat 2000 : FloatL Libm.rounded) [true, false, true, false]
        collect rx) = pure (msg.take (2 * (msg.length / 2))) := by
  obtain ⟨h1, h2⟩ := ofNat_exact (n := 2000) (by norm_num)
  have h3 : val (Flt.ofNat 2000 : FloatL Libm.rounded) = 2000 := h2.trans (by norm_num)
  refine C31_accurate (ε := 1 / 2 ^ 52) (p := 4) (by norm_num) (accurate_rounded _) (yields_ofList _) (by norm_num)
    (by norm_num) (by simp) (by simp) (by simp) (by norm_num; norm_num at hlen; omega) h1 ?_ ?_ ?_ <;> rw [h3] <;> norm_num

/-! ## C49 error-corrected CDMA -/

theorem C49_accurate [RIter ι Bool] {rs : RS} (hrs : rs.Contract) {L : Libm} {ε : ℝ} (hε : ε ≤ 1 / 2 ^ 10)
    (hL : Accurate L ε (2 ^ 40)) {m : ι} {msg enc : List Bool} (h : Yields m msg) (henc : Yields (bchStreamEncode rs m) enc)
    {fs sym : ℕ} {fc : FloatL L} {key : List Bool} (hfs : fs < 2 ^ 53)
    (hsym : 0 < sym) (hkey : key ≠ []) (hdvd : sym * key.length ∣ fs) (hnyq : 2 * (sym * key.length) ≤ fs)
    (hlen : enc.length * (fs / sym) ≤ 2 ^ 32) (hf : Fin fc) (hhi : val fc ≤ 7 / 16 * fs)
    (hlo : 1 / 16 ≤ (((fs / sym : ℕ) : ℝ) - 1) * (val fc / fs)) :
    ∃ pad, pad < 8 ∧ (msg.length + pad) % 8 = 0 ∧
      (do let tx ← txCodedCdmaBpsk rs m fs sym fc key; let rx ← rxCodedCdmaBpsk rs tx fs sym fc key; collect rx)
        = pure (msg ++ List.replicate pad false) := by
  obtain ⟨it, it', e1, e2, e3⟩ := cdmaBpsk_trip_ieee hε hL henc hfs hsym hkey hdvd hnyq hlen hf hhi hlo
  obtain ⟨pad, p1, p2, p3⟩ := C48_corrects hrs h henc e3 ⟨rfl, fun e he => by
    have hz : ∀ x ∈ e, x = false := by
      intro x hx
      have := List.mem_flatten.mpr ⟨e, he, hx⟩
      rw [blocks_flatten _ (by decide)] at this
      unfold diffs at this
      rw [List.zipWith_self] at this
      obtain ⟨y, _, rfl⟩ := List.mem_map.mp this
      simp
    rw [List.countP_eq_zero.mpr]
    · omega
    · intro x hx; simp [hz x hx]⟩
  refine ⟨pad, p1, p2, ?_⟩
  rw [txCodedCdmaBpsk, e1, pure_bind, rxCodedCdmaBpsk, e2, pure_bind, pure_bind, collect_of_yields p3]

example {enc : List Bool} (henc : Yields (bchStreamEncode rsIdeal (ofList [true, false, true])) enc)
    (hl : enc.length ≤ 2 ^ 28) : ∃ pad, pad < 8 ∧ (3 + pad) % 8 = 0 ∧
    (do let tx ← txCodedCdmaBpsk rsIdeal (ofList [true, false, true]) 16000 1000 (Flt.ofNat 2000 : FloatL Libm.rounded) [true, false]
        let rx ← rxCodedCdmaBpsk rsIdeal tx 16000 1000 (Flt.ofNat 2000 : FloatL Libm.rounded) [true, false]
        collect rx) = pure ([true, false, true] ++ List.replicate pad false) := by
  obtain ⟨h1, h2⟩ := ofNat_exact (n := 2000) (by norm_num)
  have h3 : val (Flt.ofNat 2000 : FloatL Libm.rounded) = 2000 := h2.trans (by norm_num)
  refine C49_accurate (ε := 1 / 2 ^ 52) rsIdeal_contract (by norm_num) (accurate_rounded _) (yields_ofList [true, false, true])
    henc (by norm_num) (by norm_num) (by simp) (by simp) (by simp) (by norm_num; norm_num at hl; omega) h1 ?_ ?_ <;>
    rw [h3] <;> norm_num

end Verif.Props
