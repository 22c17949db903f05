import Verif.F64.Hop
import Verif.Props.Fh

/-!
# Properties C36, C37 in IEEE arithmetic

The hop table and frequency-hopped BPSK in double precision, for any sine and cosine of bounded error.
-/
namespace Verif.Props
open Verif Spec F64

variable {ι ρ : Type} [Rng ρ]

attribute [local instance] toyRng

/-- Every hop lies in `[low, high]`; within a block every one of the evenly spaced frequencies is visited, up to rounding;
and no frequency twice, when the spacing exceeds the rounding. -/
theorem C36_range_ieee {L : Libm} {low high : FloatL L} (fl : Fin low) (fh : Fin high) (h1 : 1 / 2 ^ 100 ≤ val low)
    (h2 : val low ≤ val high) (h3 : val high ≤ 2 ^ 100) {n : ℕ} (hn : 2 ≤ n) (hn' : n ≤ 2 ^ 50) (seed : ℕ) :
    ∃ t g, hopTable ρ low high n seed = pure t ∧ Gives t g ∧ (∀ i, Fin (g i) ∧ val low ≤ val (g i) ∧ val (g i) ≤ val high) ∧
      (∀ k i, i < n → ∃ j, j < n ∧ |val (g (k * n + j)) - (val low + (val high - val low) * i / n)| ≤ val high / 2 ^ 50) ∧
      (n * val high < 2 ^ 49 * (val high - val low) →
        ∀ k j j', j < n → j' < n → g (k * n + j) = g (k * n + j') → j = j') := by
  obtain ⟨t, g, e1, e2, e3⟩ := C36_blocks_partial (ρ := ρ) low high hn seed (linspace_yields low high n)
  have hn0 : (0 : ℝ) < n := by exact_mod_cast (by omega : 0 < n)
  refine ⟨t, g, e1, e2, ?_, ?_, ?_⟩
  · intro i
    refine hopFreqs_ieee fl fh h1 h2 h3 hn' ((e3 (i / n)).mem_iff.mp (List.mem_map.mpr ⟨i % n, by
      simpa using Nat.mod_lt _ (by omega), ?_⟩))
    rw [Nat.mul_comm, Nat.div_add_mod]
  · intro k i hi
    have hmem : low + (high - low) / Flt.ofNat n * Flt.ofNat i ∈ hopFreqs low high n :=
      List.mem_map.mpr ⟨i, by simpa using hi, rfl⟩
    obtain ⟨j, hj, e⟩ := List.mem_map.mp ((e3 k).mem_iff.mpr hmem)
    refine ⟨j, by simpa using hj, ?_⟩
    rw [e]
    exact (hop_ieee fl fh h1 h2 h3 hn' hi).2.2.2
  · intro hgap k j j' hj hj' he
    have hnd : (hopFreqs low high n).Nodup := by
      unfold hopFreqs
      refine List.Nodup.map_on ?_ List.nodup_range
      intro a ha b hb hab
      have ha' : a < n := by simpa using ha
      have hb' : b < n := by simpa using hb
      have qa := (hop_ieee fl fh h1 h2 h3 hn' ha').2.2.2
      have qb := (hop_ieee fl fh h1 h2 h3 hn' hb').2.2.2
      have hab' := congrArg (fun x : FloatL L => val x) hab
      change |val (low + (high - low) / (Flt.ofNat n : FloatL L) * (Flt.ofNat a : FloatL L)) - _| ≤ _ at qa
      change |val (low + (high - low) / (Flt.ofNat n : FloatL L) * (Flt.ofNat b : FloatL L)) - _| ≤ _ at qb
      rw [hab'] at qa
      by_contra hne
      have hd : 1 ≤ |(a : ℝ) - b| := by
        have : (a : ℤ) - b ≠ 0 := by omega
        have := Int.one_le_abs this
        exact_mod_cast this
      have hdiff : |(val high - val low) * a / n - (val high - val low) * b / n| ≤ 2 * (val high / 2 ^ 50) := by
        rw [abs_le] at qa qb ⊢
        constructor <;> linarith [qa.1, qa.2, qb.1, qb.2]
      rw [show (val high - val low) * a / n - (val high - val low) * b / n = (val high - val low) / n * (a - b) by ring,
        abs_mul, abs_of_nonneg (by have := sub_nonneg.mpr h2; positivity)] at hdiff
      have h4 : (val high - val low) / n ≤ (val high - val low) / n * |(a : ℝ) - b| :=
        le_mul_of_one_le_right (by have := sub_nonneg.mpr h2; positivity) hd
      have h5 : (val high - val low) / n ≤ 2 * (val high / 2 ^ 50) := h4.trans hdiff
      rw [div_le_iff₀ hn0] at h5
      linarith
    have hnd' := (e3 k).nodup_iff.mpr hnd
    exact List.inj_on_of_nodup_map hnd' (by simpa using hj) (by simpa using hj') he

/-- 16 hops from 1 to 2 kHz. -/
example : ∃ t g, hopTable ℕ (Flt.ofNat 1000 : FloatL Libm.rounded) (Flt.ofNat 2000) 16 64 = pure t ∧ Gives t g ∧
    (∀ i, 1000 ≤ val (g i) ∧ val (g i) ≤ 2000) ∧
    ∀ k j j', j < 16 → j' < 16 → g (k * 16 + j) = g (k * 16 + j') → j = j' := by
  obtain ⟨a1, a2⟩ := ofNat_exact (n := 1000) (by norm_num)
  obtain ⟨b1, b2⟩ := ofNat_exact (n := 2000) (by norm_num)
  have a3 : val (Flt.ofNat 1000 : FloatL Libm.rounded) = 1000 := a2.trans (by norm_num)
  have b3 : val (Flt.ofNat 2000 : FloatL Libm.rounded) = 2000 := b2.trans (by norm_num)
  obtain ⟨t, g, e1, e2, e3, -, e4⟩ := C36_range_ieee (ρ := ℕ) (L := Libm.rounded) (low := Flt.ofNat 1000)
    (high := Flt.ofNat 2000) a1 b1 (by rw [a3]; norm_num) (by rw [a3, b3]; norm_num) (by rw [b3]; norm_num) (n := 16)
    (by norm_num) (by norm_num) 64
  rw [a3, b3] at e3 e4
  exact ⟨t, g, e1, e2, fun i => (e3 i).2, e4 (by norm_num)⟩

/-- Round trip in double precision for every sine and cosine within `2^-10` (say) of the exact ones, every hop order, and
messages of any length (the oscillator restarts with every bit). -/
theorem C37_roundtrip_ieee [RIter ι Bool] {L : Libm} {ε : ℝ} (hε : ε ≤ 1 / 2 ^ 10) (hL : Accurate L ε (2 ^ 40))
    {m : ι} {msg : List Bool} (h : Yields m msg) {low high : FloatL L} (fl : Fin low) (fh : Fin high)
    (h1 : 1 / 2 ^ 100 ≤ val low) (h2 : val low ≤ val high) {n fs sym : ℕ} (hn : 2 ≤ n) (hn' : n ≤ 2 ^ 50)
    (hfs : fs < 2 ^ 53) (hsym : 0 < sym) (hdvd : sym ∣ fs) (hhigh : val high ≤ fs / 2) (hsps : fs / sym ≤ 2 ^ 32) :
    (do let tx ← txFhBpsk ρ m low high n fs sym; let rx ← rxFhBpsk ρ tx low high n fs sym; collect rx) = pure msg := by
  have hfs0 : 0 < fs := by
    rcases Nat.eq_zero_or_pos fs with h | h
    · subst h
      have : (0 : ℝ) < val low := lt_of_lt_of_le (by positivity) h1
      norm_num at hhigh
      linarith
    · exact h
  have hsps0 : 0 < fs / sym := Nat.div_pos (Nat.le_of_dvd hfs0 hdvd) hsym
  have hfsR : (fs : ℝ) < 2 ^ 53 := by exact_mod_cast hfs
  have h3 : val high ≤ 2 ^ 100 := by
    refine hhigh.trans ?_
    have : (2 : ℝ) ^ 53 ≤ 2 ^ 100 := by norm_num
    have : (0 : ℝ) ≤ fs := by positivity
    linarith
  have hin : ∀ x ∈ hopFreqs low high n, Fin x ∧ val low ≤ val x ∧ val x ≤ val high :=
    fun x hx => hopFreqs_ieee fl fh h1 h2 h3 hn' hx
  have htn : ∀ x : FloatL L, Fin x → val x ≤ val high → Flt.toNat x ≤ fs / 2 := by
    intro x fx hx
    have : Flt.toNat x = min ⌊val x⌋₊ (2 ^ 64 - 1) := toNat_val fx
    rw [this]
    exact floor_le_half (hx.trans hhigh)
  have hint : isInt (Flt.ofNat fs / Flt.ofNat sym : FloatL L) = true :=
    (guard_iff hfs (lt_of_le_of_lt (Nat.le_of_dvd hfs0 hdvd) hfs)).mpr ⟨hsym.ne', hdvd⟩
  obtain ⟨t, hop, e1, e2, e⟩ := C37_decision (ρ := ρ) h (low := low) (high := high) (fs := fs) (sym := sym) hn hsps0
    (htn high fh le_rfl) hint (fun freqs hf x hx => by
      rw [hf.unique (linspace_yields low high n)] at hx
      exact htn x (hin x hx).1 (hin x hx).2.2)
  have hhop : ∀ i, Fin (hop i) ∧ val low ≤ val (hop i) ∧ val (hop i) ≤ val high := by
    intro i
    obtain ⟨t', g, k1, k2, k3, -⟩ := C36_range_ieee (ρ := ρ) fl fh h1 h2 h3 hn hn' SEED
    rw [e1, RM.ok_inj] at k1
    subst k1
    rw [e2.unique k2]
    exact k3 i
  rw [e]
  congr 1
  apply mapIdx_eq_self
  intro i b _
  obtain ⟨f1, f2, f3⟩ := hhop i
  have near : ∀ j ≤ 2 ^ 32, _ := fun j hj =>
    (carrier_near hL (i := j) hfs0 hfs hj f1 (h1.trans f2) (f3.trans hhigh)).1
  refine correlate_sign (a := fun j => L.cos (phase fs (hop i) j)) (c := 2 ^ (-8 : ℤ)) ?_
    (isF_zpow (by norm_num)) (two_zpow_pos _) ⟨0, hsps0, ?_⟩ b
  · intro j hj
    exact (near j (by omega)).1
  · have h0 := (near 0 (by norm_num)).2
    rw [Nat.cast_zero, zero_mul, Real.cos_zero] at h0
    have h5 : (1 : ℝ) / 16 ≤ val (L.cos (phase fs (hop i) 0)) := by
      have h6 := (abs_le.mp h0).1
      have : (1 : ℝ) / 16 ≤ 1 - (1 / 2 ^ 10 + 1 / 2 ^ 15) := by norm_num
      linarith
    rw [show (2 : ℝ) ^ (-8 : ℤ) = (1 / 16) ^ 2 by norm_num [zpow_neg]]
    exact pow_le_pow_left₀ (by norm_num) h5 2

/-- 16 hops from 1 to 2 kHz, 44.1 kHz, 900 bits per second: every message. -/
example (msg : List Bool) :
    (do let tx ← txFhBpsk ℕ (ofList msg) (Flt.ofNat 1000 : FloatL Libm.rounded) (Flt.ofNat 2000) 16 44100 900
        let rx ← rxFhBpsk ℕ tx (Flt.ofNat 1000 : FloatL Libm.rounded) (Flt.ofNat 2000) 16 44100 900
        collect rx) = pure msg := by
  obtain ⟨a1, a2⟩ := ofNat_exact (n := 1000) (by norm_num)
  obtain ⟨b1, b2⟩ := ofNat_exact (n := 2000) (by norm_num)
  refine C37_roundtrip_ieee (ε := 1 / 2 ^ 52) (by norm_num) (accurate_rounded _) (yields_ofList msg) a1 b1 ?_ ?_ (by norm_num)
    (by norm_num) (by norm_num) (by norm_num) (by norm_num) ?_ (by norm_num)
  · rw [a2]; norm_num
  · rw [a2, b2]; norm_num
  · rw [b2]; norm_num

end Verif.Props
