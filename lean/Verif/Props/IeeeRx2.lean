import Verif.Lemmas.IeeeRxFsk
import Verif.Lemmas.Symbols
import Verif.Props.IeeeRx
import Verif.Props.IeeeFh
import Verif.Props.Fading
import Verif.Props.Eb

/-!
# C127: the hopping and the FSK receiver in double precision on arbitrary recordings

As in C86 the recordings hold finite doubles within `τ` of real numbers `s (i / k) i`, and `S` bounds the samples.
-/
namespace Verif.Props
open Verif Spec F64
set_option linter.unusedSectionVars false
variable {ι κ ρ : Type} [Rng ρ]

/-- Correlation of symbol `n` with a carrier of frequency `f` that starts with the symbol. -/
noncomputable def restarted (fs k : ℕ) (f : ℝ) (s : ℕ → ℕ → ℝ) (n : ℕ) : ℝ :=
  ∑ j ∈ Finset.range k, s n (n * k + j) * Real.cos (angle fs f j)

theorem near_size {k N n j : ℕ} {s : ℕ → ℕ → ℝ} {τ S : ℝ} (hS : ∀ i < N * k, |s (i / k) i| + τ ≤ S) (hn : n < N) (hj : j < k) :
    |s n (n * k + j)| + τ ≤ S := by
  have hi : n * k + j < N * k := by
    calc n * k + j < n * k + k := by omega
      _ = (n + 1) * k := by ring
      _ ≤ N * k := Nat.mul_le_mul_right k hn
  have := hS _ hi
  rwa [show (n * k + j) / k = n by
    rw [Nat.mul_comm, Nat.mul_add_div (by omega), Nat.div_eq_of_lt hj, Nat.add_zero]] at this

/-- One symbol cut out of a recording. -/
theorem near_cut {L : Libm} {τ : ℝ} {r : List (FloatL L)} {N k : ℕ} {s : ℕ → ℕ → ℝ} (hr : NearRecording τ r N k s) {n : ℕ}
    (hn : n < N) : NearRecording τ ((List.range k).map (fun j => r.getD (n * k + j) 0)) 1 k (fun _ i => s n (n * k + i)) := by
  refine ⟨by simp, fun i hi => ?_⟩
  rw [Nat.one_mul] at hi
  have := hr.ap hn hi
  exact ⟨_, by rw [List.getElem?_map, List.getElem?_range hi]; rfl, this.1, this.2⟩

/-- Frequency hopping: there is a sequence of hop frequencies, the one the hop table gives for the transmitter as well, such that
bit `n` is the sign of the exact correlation of symbol `n` with a carrier at frequency `n` starting with the symbol, whenever that
exceeds the margin. The number of symbols is not bounded. -/
theorem C127_hopping {L : Libm} [RIter κ (FloatL L)] {ε τ S : ℝ} (hε : ε ≤ 1 / 2 ^ 10) (hL : Accurate L ε (2 ^ 40)) {low high : FloatL L}
    (fl : F64.Fin low) (fh : F64.Fin high) (h1 : 1 / 2 ^ 100 ≤ val low) (h2 : val low ≤ val high) {nf fs sym N : ℕ} (hnf : 2 ≤ nf)
    (hnf' : nf ≤ 2 ^ 50) (hfs : fs < 2 ^ 53) (hsym : 0 < sym) (hdvd : sym ∣ fs) (hhigh : val high ≤ fs / 2) (hsps : fs / sym ≤ 2 ^ 32)
    (hS0 : 1 / 2 ^ 900 ≤ S) (hS1 : S ≤ 2 ^ 900) {r : List (FloatL L)} {s : ℕ → ℕ → ℝ} (hr : NearRecording τ r N (fs / sym) s)
    (hS : ∀ i < N * (fs / sym), |s (i / (fs / sym)) i| + τ ≤ S) {rcv : κ} (hy : Yields rcv r) :
    ∃ t hop, hopTable ρ low high nf 64 = pure t ∧ Gives t hop ∧ (∀ n, val low ≤ val (hop n) ∧ val (hop n) ≤ val high) ∧
      ∃ x : ℕ → Bool, (do let rx ← rxFhBpsk ρ rcv low high nf fs sym; collect rx) = pure ((List.range N).map x) ∧
      ∀ n < N, ((fs / sym : ℕ) : ℝ) * (τ + S * (ε + 1 / 2 ^ 14)) < |restarted fs (fs / sym) (val (hop n)) s n| →
        x n = decide (0 < restarted fs (fs / sym) (val (hop n)) s n) := by
  have hfs0 : 0 < fs := by
    rcases Nat.eq_zero_or_pos fs with h | h
    · subst h
      have : (0 : ℝ) < val low := lt_of_lt_of_le (by positivity) h1
      norm_num at hhigh
      linarith
    · exact h
  have hk : 0 < fs / sym := Nat.div_pos (Nat.le_of_dvd hfs0 hdvd) hsym
  have hfsR : (fs : ℝ) < 2 ^ 53 := by exact_mod_cast hfs
  have h3 : val high ≤ 2 ^ 100 := by
    refine hhigh.trans ?_
    have : (2 : ℝ) ^ 53 ≤ 2 ^ 100 := by norm_num
    have : (0 : ℝ) ≤ fs := by positivity
    linarith
  have htn : Flt.toNat high ≤ fs / 2 := by
    have : Flt.toNat high = min ⌊val high⌋₊ (2 ^ 64 - 1) := toNat_val fh
    rw [this]
    exact floor_le_half hhigh
  have hint : isInt (Flt.ofNat fs / Flt.ofNat sym : FloatL L) = true :=
    (guard_iff hfs (lt_of_le_of_lt (Nat.le_of_dvd hfs0 hdvd) hfs)).mpr ⟨hsym.ne', hdvd⟩
  obtain ⟨it, e1, e2⟩ := rxFhBpsk_sym (ρ := ρ) hy (low := low) (high := high) hnf hk htn hint
  obtain ⟨t, g, k1, k2, k3, -⟩ := C36_range_ieee (ρ := ρ) fl fh h1 h2 h3 hnf hnf' 64
  have hg : hopOf ρ low high nf = g := by
    have hg := hopTable_gives (ρ := ρ) (hopFreqs low high nf) (Rng.seed SEED) (by rw [hopFreqs_length]; exact hnf)
    have k1' : hopTable ρ low high nf SEED = pure t := k1
    rw [hopTable_ok, RM.ok_inj] at k1'
    rw [k1'] at hg
    exact hg.unique k2
  refine ⟨t, g, k1, k2, fun n => (k3 n).2, fun n => decFh ρ low high nf fs n ((List.range (fs / sym)).map
    (fun j => r.getD (n * (fs / sym) + j) 0)), ?_, ?_⟩
  · rw [e1, pure_bind, collect_of_yields e2]
    congr 1
    conv_lhs => rw [list_wave (0 : FloatL L) hk hr.1]
    rw [fullBlocks_wave hk, mapIdx_mapIdx', ← mapIdx_range_self]
  · intro n hn hm
    obtain ⟨f1, f2, f3⟩ := k3 n
    have hR : Radio L ε fs (fs / sym) 1 (g n) S := ⟨hε, hL, hfs, hk, by omega, f1, h1.trans f2, f3.trans hhigh, hS0, hS1⟩
    have hc := (hR.corr (near_cut hr hn) (fun i hi => near_size hS hn (by omega)) (n := 0) (by norm_num)).1
    simp only [Nat.zero_mul, Nat.zero_add] at hc
    unfold restarted at hm ⊢
    simp only [angle_dphi] at hm ⊢
    unfold decFh
    rw [hg, mapIdx_range_map]
    refine Eq.trans ?_ (hc.lt_decide hm)
    refine congrArg (fun l : List (FloatL L) => Flt.lt (0 : FloatL L) (rsum l)) (List.map_congr_left fun j hj => ?_)
    rw [List.getD_eq_getElem?_getD (l := List.map _ _), List.getElem?_map, List.getElem?_range (List.mem_range.mp hj), Option.map_some,
      Option.getD_some]

/-- Hopped BPSK of any strength per bit, received with errors up to `τ`: every bit is returned if the energy of its carrier, times
the strength, exceeds the margin. -/
theorem C127_hopping_signal {L : Libm} [RIter κ (FloatL L)] {ε τ S : ℝ} (hε : ε ≤ 1 / 2 ^ 10) (hL : Accurate L ε (2 ^ 40))
    {low high : FloatL L} (fl : F64.Fin low) (fh : F64.Fin high) (h1 : 1 / 2 ^ 100 ≤ val low) (h2 : val low ≤ val high)
    {nf fs sym : ℕ} (hnf : 2 ≤ nf) (hnf' : nf ≤ 2 ^ 50) (hfs : fs < 2 ^ 53) (hsym : 0 < sym) (hdvd : sym ∣ fs)
    (hhigh : val high ≤ fs / 2) (hsps : fs / sym ≤ 2 ^ 32) (hS0 : 1 / 2 ^ 900 ≤ S) (hS1 : S ≤ 2 ^ 900)
    {t : HopTable ρ (FloatL L)} {hop : ℕ → FloatL L} (ht : hopTable ρ low high nf 64 = pure t) (hhop : Gives t hop)
    {msg : List Bool} {g : ℕ → ℝ} (hg : ∀ n < msg.length, 0 < g n ∧ g n + τ ≤ S)
    (hm : ∀ n < msg.length, ((fs / sym : ℕ) : ℝ) * (τ + S * (ε + 1 / 2 ^ 14))
      < g n * ∑ j ∈ Finset.range (fs / sym), Real.cos (angle fs (val (hop n)) j) ^ 2)
    {r : List (FloatL L)} (hr : NearRecording τ r msg.length (fs / sym)
      (fun n i => g n * pm (msg.getD n false) * Real.cos (angle fs (val (hop n)) (i - n * (fs / sym)))))
    {rcv : κ} (hy : Yields rcv r) :
    (do let rx ← rxFhBpsk ρ rcv low high nf fs sym; collect rx) = pure msg := by
  have hS : ∀ i < msg.length * (fs / sym), |g (i / (fs / sym)) * pm (msg.getD (i / (fs / sym)) false)
      * Real.cos (angle fs (val (hop (i / (fs / sym)))) (i - i / (fs / sym) * (fs / sym)))| + τ ≤ S := by
    intro i hi
    have hk : 0 < fs / sym := by
      rcases Nat.eq_zero_or_pos (fs / sym) with h | h
      · rw [h] at hi; simp at hi
      · exact h
    have hn : i / (fs / sym) < msg.length := by rw [Nat.div_lt_iff_lt_mul hk]; exact hi
    obtain ⟨a, b⟩ := hg _ hn
    rw [abs_mul, abs_mul, pm_abs, mul_one, abs_of_pos a]
    have := Real.abs_cos_le_one (angle fs (val (hop (i / (fs / sym)))) (i - i / (fs / sym) * (fs / sym)))
    nlinarith
  obtain ⟨t', hop', k1, k2, -, x, e1, e2⟩ := C127_hopping (ρ := ρ) hε hL fl fh h1 h2 hnf hnf' hfs hsym hdvd hhigh hsps hS0 hS1 hr hS hy
  rw [ht, RM.ok_inj] at k1
  subst k1
  obtain rfl := hhop.unique k2
  rw [e1]
  congr 1
  have hid : msg = msg.mapIdx (fun _ b => b) := (mapIdx_eq_self (fun _ _ _ => rfl)).symm
  conv_rhs => rw [hid, ← range_map_getD]
  apply List.map_congr_left
  intro n hn
  have hn := List.mem_range.mp hn
  have hc : restarted fs (fs / sym) (val (hop n)) (fun n i => g n * pm (msg.getD n false) * Real.cos (angle fs (val (hop n)) (i - n * (fs / sym)))) n
      = pm (msg.getD n false) * (g n * ∑ j ∈ Finset.range (fs / sym), Real.cos (angle fs (val (hop n)) j) ^ 2) := by
    unfold restarted
    rw [Finset.mul_sum, Finset.mul_sum]
    refine Finset.sum_congr rfl fun j _ => ?_
    beta_reduce
    rw [Nat.add_sub_cancel_left]
    ring
  have hE : 0 ≤ g n * ∑ j ∈ Finset.range (fs / sym), Real.cos (angle fs (val (hop n)) j) ^ 2 :=
    mul_nonneg (hg n hn).1.le (Finset.sum_nonneg fun _ _ => sq_nonneg _)
  have hm := hm n hn
  have hτ : 0 ≤ ((fs / sym : ℕ) : ℝ) * (τ + S * (ε + 1 / 2 ^ 14)) := by
    have hε1 : 0 ≤ ε := (hL 0 fin_zero (by rw [val_zero]; norm_num)).1.nonneg
    have hSp : 0 < S := lt_of_lt_of_le (by positivity) hS0
    have hτ0 : 0 ≤ τ := by
      rcases Nat.eq_zero_or_pos (fs / sym) with h | h
      · rw [h] at hm; simp at hm
      · obtain ⟨x, -, -, h3⟩ := hr.2 0 (Nat.mul_pos (by omega) h)
        exact (abs_nonneg _).trans h3
    positivity
  rw [e2 n hn (by rw [hc, abs_mul, pm_abs, one_mul, abs_of_nonneg hE]; exact hm), hc]
  generalize g n * ∑ j ∈ Finset.range (fs / sym), Real.cos (angle fs (val (hop n)) j) ^ 2 = E at *
  cases msg.getD n false
  · simp [pm]; linarith
  · simp [pm]; linarith

/-- FSK: bit `n` says which tone has more energy in symbol `n`, whenever the energies differ by more than the margin. -/
theorem C127_fsk {L : Libm} [RIter κ (FloatL L)] {ε τ S : ℝ} (hε : ε ≤ 1 / 2 ^ 10) (hL : Accurate L ε (2 ^ 40)) {fs sym N : ℕ}
    (hfs : fs < 2 ^ 53) (hsps : 0 < fs / sym) (hlen : N + fs / sym ≤ 2 ^ 31) {fc : FloatL L} (hf : F64.Fin fc) (hlo : 1 / 2 ^ 90 ≤ val fc)
    (hhi : val fc ≤ fs / 2) (hS0 : 1 / 2 ^ 400 ≤ S) (hS1 : S ≤ 2 ^ 400) {r : List (FloatL L)} {s : ℕ → ℕ → ℝ}
    (hr : NearRecording τ r N (fs / sym) s) (hS : ∀ i < N * (fs / sym), |s (i / (fs / sym)) i| + τ ≤ S) {rcv : κ} (hy : Yields rcv r) :
    ∃ x : ℕ → Bool, (do let rx ← rxFsk rcv fs sym fc; collect rx) = pure ((List.range N).map x) ∧
      ∀ n < N, 16 * ((fs / sym : ℕ) : ℝ) ^ 2 * (S * (τ + S * (ε + 1 / 2 ^ 13)))
          < |toneEnergy (tone fs (val fc) true) (fs / sym) (fun j => s n (n * (fs / sym) + j))
            - toneEnergy (tone fs (val fc) false) (fs / sym) (fun j => s n (n * (fs / sym) + j))| →
        x n = decide (toneEnergy (tone fs (val fc) false) (fs / sym) (fun j => s n (n * (fs / sym) + j))
          ≤ toneEnergy (tone fs (val fc) true) (fs / sym) (fun j => s n (n * (fs / sym) + j))) := by
  have hfs0 : 0 < fs := by
    rcases Nat.eq_zero_or_pos fs with h | h
    · subst h; simp at hsps
    · exact h
  obtain ⟨it, e1, e2⟩ := rxFsk_wave (fc := fc) hsps (hy.of_eq (list_wave (0 : FloatL L) hsps hr.1))
  refine ⟨_, by rw [e1, pure_bind, collect_of_yields e2, ← mapIdx_range_self], fun n hn hm => ?_⟩
  exact rxFskChunk_near hε hL hfs0 hfs hsps (by omega) hf hlo hhi (w := tone fs (val fc)) (fun _ => rfl) hS0 hS1
    (fun j hj => hr.ap hn hj) (fun j hj => near_size hS hn hj) hm

/-- FSK of any strength and phase per bit, on a carrier that is a multiple of twenty symbol rates, received with errors up to `τ`:
returned unchanged if the square of the strength exceeds `64 S (τ + S (ε + 2^-13))`. -/
theorem C127_faded_fsk {L : Libm} [RIter κ (FloatL L)] {ε τ S : ℝ} (hε : ε ≤ 1 / 2 ^ 10) (hL : Accurate L ε (2 ^ 40)) {fs sym c : ℕ}
    (hfs : fs < 2 ^ 53) (hsym : 0 < sym) (hc : 0 < c) (hdvd : sym ∣ fs) (hny : 41 * c * sym < fs) (hS0 : 1 / 2 ^ 400 ≤ S)
    (hS1 : S ≤ 2 ^ 400) {msg : List Bool} (hlen : msg.length + fs / sym ≤ 2 ^ 31) {g θ : ℕ → ℝ}
    (hg : ∀ n < msg.length, |g n| + τ ≤ S) (hm : ∀ n < msg.length, 64 * (S * (τ + S * (ε + 1 / 2 ^ 13))) < g n ^ 2)
    {r : List (FloatL L)} (hr : NearRecording τ r msg.length (fs / sym) (fadedFsk fs ((20 * c * sym : ℕ) : ℝ) msg g θ))
    {rcv : κ} (hy : Yields rcv r) :
    (do let rx ← rxFsk rcv fs sym (Flt.ofNat (20 * c * sym) : FloatL L); collect rx) = pure msg := by
  have hcs : 0 < c * sym := Nat.mul_pos hc hsym
  have hfs0 : 0 < fs := by omega
  have hny' : 41 * (c * sym) < fs := by rw [← Nat.mul_assoc]; exact hny
  have hle : 20 * c * sym ≤ 2 ^ 53 := by rw [Nat.mul_assoc]; omega
  obtain ⟨f1, f2⟩ := ofNat_exact hle
  have hsps : 0 < fs / sym := Nat.div_pos (Nat.le_of_dvd hfs0 hdvd) hsym
  have hkR : (0 : ℝ) < ((fs / sym : ℕ) : ℝ) := by exact_mod_cast hsps
  have hfc : val (Flt.ofNat (20 * c * sym) : FloatL L) = ((20 * c * sym : ℕ) : ℝ) := f2
  have f1 : F64.Fin (Flt.ofNat (20 * c * sym) : FloatL L) := f1
  have h1 : (1 : ℝ) ≤ ((20 * c * sym : ℕ) : ℝ) := by
    have : 1 ≤ 20 * c * sym := by rw [Nat.mul_assoc]; omega
    exact_mod_cast this
  have hS : ∀ i < msg.length * (fs / sym), |fadedFsk fs ((20 * c * sym : ℕ) : ℝ) msg g θ (i / (fs / sym)) i| + τ ≤ S := by
    intro i hi
    have hn : i / (fs / sym) < msg.length := by rw [Nat.div_lt_iff_lt_mul hsps]; exact hi
    have h2 := hg _ hn
    unfold fadedFsk
    rw [abs_mul]
    have := mul_le_mul_of_nonneg_left (Real.abs_cos_le_one (angle fs (((20 * c * sym : ℕ) : ℝ) * (if msg.getD (i / (fs / sym)) false then 1.025 else 0.975)) i + θ (i / (fs / sym))))
      (abs_nonneg (g (i / (fs / sym))))
    linarith
  obtain ⟨x, e1, e2⟩ := C127_fsk hε hL hfs hsps hlen (fc := (Flt.ofNat (20 * c * sym) : FloatL L)) f1
    (by rw [hfc]; exact le_trans (by norm_num) h1)
    (by rw [hfc, le_div_iff₀ (by norm_num)]
        have : 20 * c * sym * 2 ≤ fs := by rw [Nat.mul_assoc 20]; omega
        exact_mod_cast this) hS0 hS1 hr hS hy
  rw [e1]
  congr 1
  have hid : msg = msg.mapIdx (fun _ b => b) := (mapIdx_eq_self (fun _ _ _ => rfl)).symm
  conv_rhs => rw [hid, ← range_map_getD]
  apply List.map_congr_left
  intro n hn
  have hn := List.mem_range.mp hn
  have he : ∀ w, toneEnergy w (fs / sym) (fun j => fadedFsk fs ((20 * c * sym : ℕ) : ℝ) msg g θ n (n * (fs / sym) + j))
      = toneEnergy w (fs / sym) (fun j => g n * Real.cos (tone fs ((20 * c * sym : ℕ) : ℝ) (msg.getD n false)
          * (n * (fs / sym) + j : ℕ) + θ n)) := by
    intro w
    congr 1
    funext j
    rw [fadedFsk, angle, tone]
    congr 3
    ring
  obtain ⟨a1, a2⟩ := fsk_energies hsym hc hdvd hny (g n) (θ n) (n * (fs / sym)) (msg.getD n false)
  have hk2 : 0 < ((fs / sym : ℕ) : ℝ) ^ 2 := by positivity
  have hpos : 16 * ((fs / sym : ℕ) : ℝ) ^ 2 * (S * (τ + S * (ε + 1 / 2 ^ 13))) < (g n * (((fs / sym : ℕ) : ℝ) / 2)) ^ 2 := by
    have := mul_lt_mul_of_pos_left (hm n hn) hk2
    linarith [show (g n * (((fs / sym : ℕ) : ℝ) / 2)) ^ 2 = ((fs / sym : ℕ) : ℝ) ^ 2 * g n ^ 2 / 4 by ring]
  have e2 := e2 n hn
  rw [hfc, he, he] at e2
  have hsq : 0 < (g n * (((fs / sym : ℕ) : ℝ) / 2)) ^ 2 := by
    have hε1 : 0 ≤ ε := (hL 0 fin_zero (by rw [val_zero]; norm_num)).1.nonneg
    have hSp : 0 < S := lt_of_lt_of_le (by positivity) hS0
    have hτ0 : 0 ≤ τ := by
      obtain ⟨x, -, -, h3⟩ := hr.2 0 (Nat.mul_pos (by omega) hsps)
      exact (abs_nonneg _).trans h3
    refine lt_of_le_of_lt ?_ hpos
    positivity
  cases hb : msg.getD n false
  · rw [hb] at a1 a2 e2
    rw [Bool.not_false] at a2
    rw [a1, a2] at e2
    rw [e2 (by rw [zero_sub, abs_neg, abs_of_pos hsq]; exact hpos), decide_eq_false_iff_not]; linarith
  · rw [hb] at a1 a2 e2
    rw [Bool.not_true] at a2
    rw [a1, a2] at e2
    rw [e2 (by rw [sub_zero, abs_of_pos hsq]; exact hpos), decide_eq_true_eq]; linarith

/-- On the same samples, the FSK receiver in double precision and the one in exact arithmetic differ at most in symbols whose two
energies are close to each other. -/
theorem C127_agree_fsk {L : Libm} {ε S : ℝ} (hε : ε ≤ 1 / 2 ^ 10) (hL : Accurate L ε (2 ^ 40)) {fs sym N : ℕ}
    (hfs : fs < 2 ^ 53) (hsps : 0 < fs / sym) (hlen : N + fs / sym ≤ 2 ^ 31) {fc : FloatL L} (hf : F64.Fin fc) (hlo : 1 / 2 ^ 90 ≤ val fc)
    (hhi : val fc ≤ fs / 2) (hS0 : 1 / 2 ^ 400 ≤ S) (hS1 : S ≤ 2 ^ 400) {r : List (FloatL L)} (hl : r.length = N * (fs / sym))
    (hr : ∀ x ∈ r, F64.Fin x ∧ |real x| ≤ S) :
    ∃ x y : ℕ → Bool, (do let rx ← rxFsk (ofList r) fs sym fc; collect rx) = pure ((List.range N).map x) ∧
      (do let rx ← rxFsk (ofList (r.map real)) fs sym (real fc); collect rx) = pure ((List.range N).map y) ∧
      ∀ n < N, 16 * ((fs / sym : ℕ) : ℝ) ^ 2 * (S * (S * (ε + 1 / 2 ^ 13)))
          < |toneEnergy (tone fs (real fc) true) (fs / sym) (fun j => (r.map real).getD (n * (fs / sym) + j) 0)
            - toneEnergy (tone fs (real fc) false) (fs / sym) (fun j => (r.map real).getD (n * (fs / sym) + j) 0)| → x n = y n := by
  obtain ⟨h1, h2, h3⟩ := real_get hl hr
  obtain ⟨x, e1, e2⟩ := C127_fsk hε hL hfs hsps hlen hf hlo hhi hS0 hS1 h1 h3 (yields_ofList r)
  obtain ⟨it, f1, f2⟩ := rxFsk_wave (fc := real fc) hsps ((yields_ofList (r.map real)).of_eq (recording_wave hsps h2))
  refine ⟨x, _, e1, by rw [f1, pure_bind, collect_of_yields f2, ← mapIdx_range_self], fun n hn hm => ?_⟩
  rw [e2 n hn (by rw [zero_add]; exact hm)]
  rw [fskChunk_offset]
  have he : ∀ w, toneEnergy w ((List.range (fs / sym)).map (fun j => (r.map real).getD (n * (fs / sym) + j) 0)).length
      (fun j => ((List.range (fs / sym)).map (fun j => (r.map real).getD (n * (fs / sym) + j) 0)).getD j 0)
      = toneEnergy w (fs / sym) (fun j => (r.map real).getD (n * (fs / sym) + j) 0) := by
    intro w
    unfold toneEnergy
    rw [List.length_map, List.length_range]
    congr 2 <;> apply Finset.sum_congr rfl <;> intro j hj <;> beta_reduce <;>
      rw [List.getD_eq_getElem?_getD (l := List.map _ (List.range _)), List.getElem?_map, List.getElem?_range (Finset.mem_range.mp hj), Option.map_some,
        Option.getD_some]
  rw [he, he]
  rfl


/-! ## Modulator, channel and receiver in double precision -/

/-- The energy of a disturbed signal at a tone. -/
theorem toneEnergy_norm (w : ℝ) (k : ℕ) (x : ℕ → ℝ) :
    toneEnergy w k x = ‖∑ j ∈ Finset.range k, (x j : ℂ) * Complex.exp (((w * j : ℝ) : ℂ) * Complex.I)‖ ^ 2 := by
  rw [← Complex.normSq_eq_norm_sq, Complex.normSq_apply, toneEnergy, pow_two, pow_two]
  congr 2 <;> simp only [Complex.re_sum, Complex.im_sum, Complex.re_ofReal_mul, Complex.im_ofReal_mul, Complex.exp_ofReal_mul_I_re,
    Complex.exp_ofReal_mul_I_im]

theorem toneEnergy_close {w : ℝ} {k : ℕ} {x y : ℕ → ℝ} {τ : ℝ} (h : ∀ j < k, |x j - y j| ≤ τ) :
    |√(toneEnergy w k x) - √(toneEnergy w k y)| ≤ k * τ := by
  rw [toneEnergy_norm, toneEnergy_norm, Real.sqrt_sq (norm_nonneg _), Real.sqrt_sq (norm_nonneg _)]
  refine (abs_norm_sub_norm_le _ _).trans ?_
  rw [← Finset.sum_sub_distrib]
  refine (norm_sum_le _ _).trans ((Finset.sum_le_sum (g := fun _ => τ) fun j hj => ?_).trans (by simp))
  rw [← sub_mul, norm_mul, Complex.norm_exp_ofReal_mul_I, mul_one, ← Complex.ofReal_sub, Complex.norm_real]
  exact h j (Finset.mem_range.mp hj)

/-- What the FSK modulator produces in double precision is within `ε + 2^-14` of the exact signal. -/
theorem C127_sent_fsk_close [RIter ι Bool] {L : Libm} {ε : ℝ} (hL : Accurate L ε (2 ^ 40)) {m : ι} {msg : List Bool}
    (hm : Yields m msg) {fs sym : ℕ} {fc : FloatL L} (hfs : fs < 2 ^ 53) (hsps : 0 < fs / sym) (hlen : msg.length * (fs / sym) ≤ 2 ^ 31)
    (hf : F64.Fin fc) (hlo : 1 / 2 ^ 90 ≤ val fc) (hhi : val fc ≤ fs / 2) {a : List (FloatL L)}
    (ha : (do let tx ← txFsk m fs sym fc; collect tx) = pure a) :
    NearRecording (ε + 1 / 2 ^ 14) a msg.length (fs / sym) (fadedFsk fs (val fc) msg (fun _ => 1) (fun _ => 0)) := by
  obtain ⟨it, e1, e2⟩ := txFsk_ok hm (fc := fc) hsps
  rw [e1, pure_bind, collect_of_yields e2, RM.ok_inj] at ha
  rw [← ha]
  clear e1 e2 ha
  obtain ⟨f, rfl⟩ : ∃ f : Float, @Eq (FloatL L) f fc := ⟨fc, rfl⟩
  have hfs0 : 0 < fs := by
    rcases Nat.eq_zero_or_pos fs with h | h
    · subst h; simp at hsps
    · exact h
  have hfsR : (0 : ℝ) < fs := by exact_mod_cast hfs0
  have hfs1 : (1 : ℝ) ≤ fs := by exact_mod_cast hfs0
  have hfs53 : (fs : ℝ) < 2 ^ 53 := by exact_mod_cast hfs
  have hv0 : 0 < val f := lt_of_lt_of_le (by norm_num) hlo
  have hhi90 : val f ≤ 2 ^ 90 := by
    refine hhi.trans ?_
    have : (2 : ℝ) ^ 53 ≤ 2 ^ 90 := by norm_num
    linarith
  obtain ⟨-, -, t3, t4⟩ := tone_rel hf hlo hhi90
  apply wave_near hsps
  intro n b j hb hj
  have hn : n < msg.length := by
    by_contra hc
    rw [List.getElem?_eq_none (by omega)] at hb
    exact absurd hb (by simp)
  have hi : n * (fs / sym) + j ≤ 2 ^ 31 := by
    have : (n + 1) * (fs / sym) ≤ msg.length * (fs / sym) := Nat.mul_le_mul_right _ hn
    rw [Nat.add_mul, Nat.one_mul] at this
    omega
  have hiR : ((n * (fs / sym) + j : ℕ) : ℝ) ≤ 2 ^ 31 := by exact_mod_cast hi
  have ftx : Rel (f + (if b then (1 : Float) else -1) * (F64.lit 5 2 * f / F64.ofNat 2)) ((if b then 1.025 else 0.975) * val f) (8 * uu) := by
    cases b
    · exact t4
    · exact t3
  have h1 : 1 / 2 ^ 100 ≤ (if b then 1.025 else 0.975) * val f ∧ (if b then 1.025 else 0.975) * val f ≤ 2 ^ 100 ∧
      (if b then 1.025 else 0.975) * val f ≤ 0.5125 * fs := by
    norm_num at hlo hhi90
    cases b <;> norm_num <;> refine ⟨?_, ?_, ?_⟩ <;> linarith
  have h2 : ((n * (fs / sym) + j : ℕ) : ℝ) / fs = 0 ∨ 1 / 2 ^ 100 ≤ ((n * (fs / sym) + j : ℕ) : ℝ) / fs := by
    rcases Nat.eq_zero_or_pos (n * (fs / sym) + j) with h | h
    · left; rw [h]; simp
    · right
      have h1 : (1 : ℝ) ≤ ((n * (fs / sym) + j : ℕ) : ℝ) := by exact_mod_cast h
      rw [div_le_div_iff₀ (by norm_num) hfsR, one_mul]
      have : (2 : ℝ) ^ 53 ≤ 2 ^ 100 := by norm_num
      exact (hfs53.le.trans this).trans (le_mul_of_one_le_left (by norm_num) h1)
  have h3 : ((n * (fs / sym) + j : ℕ) : ℝ) / fs ≤ 2 ^ 100 :=
    (div_le_self (by positivity) hfs1).trans (hiR.trans (by norm_num))
  have h4 : (if b then 1.025 else 0.975) * val f * (((n * (fs / sym) + j : ℕ) : ℝ) / fs) ≤ 2 ^ 31 := by
    rw [← mul_div_assoc, div_le_iff₀ hfsR]
    have := mul_le_mul_of_nonneg_right h1.2.2 (show (0 : ℝ) ≤ ((n * (fs / sym) + j : ℕ) : ℝ) by positivity)
    have h5 : (fs : ℝ) * ((n * (fs / sym) + j : ℕ) : ℝ) ≤ fs * 2 ^ 31 := mul_le_mul_of_nonneg_left hiR hfsR.le
    have h6 : 0 ≤ (fs : ℝ) * ((n * (fs / sym) + j : ℕ) : ℝ) := by positivity
    generalize ((n * (fs / sym) + j : ℕ) : ℝ) = t at *
    refine this.trans ?_
    norm_num at h5 ⊢
    nlinarith
  have h := (osc_near hL ftx (rate_rel (i := n * (fs / sym) + j) hfs0 hfs (by omega)) h1.1 h1.2.1 h2 h3 h4).1
  rw [fadedFsk, List.getD_eq_getElem?_getD, hb, Option.getD_some, one_mul, add_zero, angle]
  rw [show 2 * Real.pi * ((if b then 1.025 else 0.975) * val f) * (((n * (fs / sym) + j : ℕ) : ℝ) / fs)
    = 2 * Real.pi * (val f * (if b then 1.025 else 0.975)) * ((n * (fs / sym) + j : ℕ) : ℝ) / fs by ring] at h
  exact h

/-- What the FSK modulator produces in double precision is within `2^-11` of the exact signal. -/
theorem C127_sent_fsk [RIter ι Bool] {L : Libm} {ε : ℝ} (hε : ε ≤ 1 / 2 ^ 12) (hL : Accurate L ε (2 ^ 40)) {m : ι} {msg : List Bool}
    (hm : Yields m msg) {fs sym : ℕ} {fc : FloatL L} (hfs : fs < 2 ^ 53) (hsps : 0 < fs / sym) (hlen : msg.length * (fs / sym) ≤ 2 ^ 31)
    (hf : F64.Fin fc) (hlo : 1 / 2 ^ 90 ≤ val fc) (hhi : val fc ≤ fs / 2) {a : List (FloatL L)}
    (ha : (do let tx ← txFsk m fs sym fc; collect tx) = pure a) :
    NearRecording (1 / 2 ^ 11) a msg.length (fs / sym) (fadedFsk fs (val fc) msg (fun _ => 1) (fun _ => 0)) := by
  have h := C127_sent_fsk_close hL hm hfs hsps hlen hf hlo hhi ha
  refine ⟨h.1, fun i hi => ?_⟩
  obtain ⟨x, h1, h2, h3⟩ := h.2 i hi
  exact ⟨x, h1, h2, h3.trans (by norm_num at hε ⊢; linarith)⟩

/-- FSK on a carrier that is a multiple of twenty symbol rates: every sample may be disturbed by up to 0.24 between modulator and
receiver (0.25 would make the two tones of a symbol indistinguishable). -/
theorem C127_noise_fsk [RIter ι Bool] {L : Libm} [RIter κ (FloatL L)] {ε : ℝ} (hε : ε ≤ 1 / 2 ^ 12) (hL : Accurate L ε (2 ^ 40))
    {fs sym c : ℕ} (hfs : fs < 2 ^ 53) (hsym : 0 < sym) (hc : 0 < c) (hdvd : sym ∣ fs) (hny : 41 * c * sym < fs)
    {m : ι} {msg : List Bool} (hm : Yields m msg) (hlen : msg.length * (fs / sym) ≤ 2 ^ 30) {a r : List (FloatL L)}
    (ha : (do let tx ← txFsk m fs sym (Flt.ofNat (20 * c * sym) : FloatL L); collect tx) = pure a) (hr : Disturbed 0.24 a r)
    {rcv : κ} (hy : Yields rcv r) :
    (do let rx ← rxFsk rcv fs sym (Flt.ofNat (20 * c * sym) : FloatL L); collect rx) = pure msg := by
  have hcs : 0 < c * sym := Nat.mul_pos hc hsym
  have hfs0 : 0 < fs := by omega
  have hny' : 41 * (c * sym) < fs := by rw [← Nat.mul_assoc]; exact hny
  have hle : 20 * c * sym ≤ 2 ^ 53 := by rw [Nat.mul_assoc]; omega
  obtain ⟨f1, f2⟩ := ofNat_exact hle
  have hsps : 0 < fs / sym := Nat.div_pos (Nat.le_of_dvd hfs0 hdvd) hsym
  have hkR : (0 : ℝ) < ((fs / sym : ℕ) : ℝ) := by exact_mod_cast hsps
  have hfc : val (Flt.ofNat (20 * c * sym) : FloatL L) = ((20 * c * sym : ℕ) : ℝ) := f2
  have f1 : F64.Fin (Flt.ofNat (20 * c * sym) : FloatL L) := f1
  have h1 : (1 : ℝ) ≤ ((20 * c * sym : ℕ) : ℝ) := by
    have : 1 ≤ 20 * c * sym := by rw [Nat.mul_assoc]; omega
    exact_mod_cast this
  have hlo : 1 / 2 ^ 90 ≤ val (Flt.ofNat (20 * c * sym) : FloatL L) := by rw [hfc]; exact le_trans (by norm_num) h1
  have hhi : val (Flt.ofNat (20 * c * sym) : FloatL L) ≤ fs / 2 := by
    rw [hfc, le_div_iff₀ (by norm_num)]
    have : 20 * c * sym * 2 ≤ fs := by rw [Nat.mul_assoc 20]; omega
    exact_mod_cast this
  have hnear := near_disturbed (C127_sent_fsk (fc := (Flt.ofNat (20 * c * sym) : FloatL L)) hε hL hm hfs hsps (by omega) f1 hlo hhi ha) hr
  rcases Nat.eq_zero_or_pos msg.length with h0 | hpos
  · have hr0 : r = [] := by
      apply List.eq_nil_of_length_eq_zero
      rw [hnear.1, h0, Nat.zero_mul]
    subst hr0
    obtain ⟨it, e1, e2⟩ := rxFsk_sym hy (fc := (Flt.ofNat (20 * c * sym) : FloatL L)) hsps
    rw [e1, pure_bind, collect_of_yields e2, List.eq_nil_of_length_eq_zero h0]
    simp [blocks]
  have hsz : ∀ x ∈ r, F64.Fin x ∧ |real x| ≤ 1.241 := by
    intro x hx
    obtain ⟨i, hi, rfl⟩ := List.mem_iff_getElem.mp hx
    obtain ⟨y, e1, e2, e3⟩ := hnear.2 i (by rw [← hnear.1]; exact hi)
    rw [List.getElem?_eq_getElem hi, Option.some.injEq] at e1
    rw [e1]
    refine ⟨e2, ?_⟩
    have e3' : |real y - fadedFsk fs (val (Flt.ofNat (20 * c * sym) : FloatL L)) msg (fun _ => 1) (fun _ => 0) (i / (fs / sym)) i|
      ≤ 0.24 + 1 / 2 ^ 11 := e3
    have : |fadedFsk fs (val (Flt.ofNat (20 * c * sym) : FloatL L)) msg (fun _ => 1) (fun _ => 0) (i / (fs / sym)) i| ≤ 1 := by
      unfold fadedFsk
      rw [one_mul]
      exact Real.abs_cos_le_one _
    have h3 := abs_sub_abs_le_abs_sub (real y) (fadedFsk fs (val (Flt.ofNat (20 * c * sym) : FloatL L)) msg (fun _ => 1) (fun _ => 0) (i / (fs / sym)) i)
    norm_num at e3' ⊢
    linarith
  obtain ⟨g1, g2, g3⟩ := real_get hnear.1 hsz
  have hk1 : fs / sym ≤ msg.length * (fs / sym) := Nat.le_mul_of_pos_left _ hpos
  have hk2 : msg.length ≤ msg.length * (fs / sym) := Nat.le_mul_of_pos_right _ hsps
  obtain ⟨x, e1, e2⟩ := C127_fsk (fc := (Flt.ofNat (20 * c * sym) : FloatL L)) (hε.trans (by norm_num)) hL hfs hsps (by omega) f1 hlo hhi (S := 1.241)
    (le_trans (one_div_le_one_div_of_le one_pos (one_le_pow₀ (by norm_num))) (by norm_num))
    (le_trans (by norm_num) (show (2 : ℝ) ^ 1 ≤ 2 ^ 400 from pow_le_pow_right₀ (by norm_num) (by norm_num))) g1 g3 hy
  rw [e1]
  congr 1
  have hid : msg = msg.mapIdx (fun _ b => b) := (mapIdx_eq_self (fun _ _ _ => rfl)).symm
  conv_rhs => rw [hid, ← range_map_getD]
  apply List.map_congr_left
  intro n hn
  have hn := List.mem_range.mp hn
  -- the exact energies of the recorded samples
  have hclose : ∀ j < fs / sym, |(r.map real).getD (n * (fs / sym) + j) 0
      - fadedFsk fs ((20 * c * sym : ℕ) : ℝ) msg (fun _ => 1) (fun _ => 0) n (n * (fs / sym) + j)| ≤ 0.24 + 1 / 2 ^ 11 := by
    intro j hj
    have h := (hnear.ap hn hj).2
    rw [hfc] at h
    have hi : n * (fs / sym) + j < r.length := by
      rw [hnear.1]
      calc n * (fs / sym) + j < n * (fs / sym) + fs / sym := by omega
        _ = (n + 1) * (fs / sym) := by ring
        _ ≤ msg.length * (fs / sym) := Nat.mul_le_mul_right _ hn
    rw [List.getD_eq_getElem?_getD, List.getElem?_eq_getElem hi, Option.getD_some] at h
    rw [List.getD_eq_getElem?_getD, List.getElem?_map, List.getElem?_eq_getElem hi, Option.map_some, Option.getD_some]
    exact h
  have he : ∀ w, toneEnergy w (fs / sym) (fun j => fadedFsk fs ((20 * c * sym : ℕ) : ℝ) msg (fun _ => 1) (fun _ => 0) n (n * (fs / sym) + j))
      = toneEnergy w (fs / sym) (fun j => 1 * Real.cos (tone fs ((20 * c * sym : ℕ) : ℝ) (msg.getD n false)
          * (n * (fs / sym) + j : ℕ) + 0)) := by
    intro w
    congr 1
    funext j
    rw [fadedFsk, angle, tone]
    congr 3
    ring
  obtain ⟨a1, a2⟩ := fsk_energies hsym hc hdvd hny 1 0 (n * (fs / sym)) (msg.getD n false)
  have c1 := toneEnergy_close (w := tone fs ((20 * c * sym : ℕ) : ℝ) (msg.getD n false)) hclose
  have c2 := toneEnergy_close (w := tone fs ((20 * c * sym : ℕ) : ℝ) (!msg.getD n false)) hclose
  rw [he, a1, one_mul, Real.sqrt_sq (by positivity)] at c1
  rw [he, a2, Real.sqrt_zero, sub_zero] at c2
  have e2 := e2 n hn
  rw [hfc] at e2
  have nn : ∀ w, 0 ≤ toneEnergy w (fs / sym) (fun j => (r.map real).getD (n * (fs / sym) + j) 0) := fun w => by
    unfold toneEnergy; positivity
  have q1 := Real.sq_sqrt (nn (tone fs ((20 * c * sym : ℕ) : ℝ) (msg.getD n false)))
  have q2 := Real.sq_sqrt (nn (tone fs ((20 * c * sym : ℕ) : ℝ) (!msg.getD n false)))
  have p1 := Real.sqrt_nonneg (toneEnergy (tone fs ((20 * c * sym : ℕ) : ℝ) (msg.getD n false)) (fs / sym) (fun j => (r.map real).getD (n * (fs / sym) + j) 0))
  have p2 := Real.sqrt_nonneg (toneEnergy (tone fs ((20 * c * sym : ℕ) : ℝ) (!msg.getD n false)) (fs / sym) (fun j => (r.map real).getD (n * (fs / sym) + j) 0))
  generalize √(toneEnergy (tone fs ((20 * c * sym : ℕ) : ℝ) (msg.getD n false)) (fs / sym) (fun j => (r.map real).getD (n * (fs / sym) + j) 0)) = u at *
  generalize √(toneEnergy (tone fs ((20 * c * sym : ℕ) : ℝ) (!msg.getD n false)) (fs / sym) (fun j => (r.map real).getD (n * (fs / sym) + j) 0)) = v at *
  have hu : (0.2595 : ℝ) * ((fs / sym : ℕ) : ℝ) ≤ u := by
    have := (abs_le.mp c1).1
    norm_num at this ⊢
    linarith
  have hv : v ≤ 0.2405 * ((fs / sym : ℕ) : ℝ) := by
    have := (abs_le.mp c2).2
    norm_num at this ⊢
    linarith
  have hgap : 0.0094 * ((fs / sym : ℕ) : ℝ) ^ 2 ≤ u ^ 2 - v ^ 2 := by
    have h1 : (0.2595 * ((fs / sym : ℕ) : ℝ)) ^ 2 ≤ u ^ 2 := pow_le_pow_left₀ (by positivity) hu 2
    have h2 : v ^ 2 ≤ (0.2405 * ((fs / sym : ℕ) : ℝ)) ^ 2 := pow_le_pow_left₀ p2 hv 2
    norm_num at h1 h2 ⊢
    nlinarith
  have hmar : 16 * ((fs / sym : ℕ) : ℝ) ^ 2 * (1.241 * (0 + 1.241 * (ε + 1 / 2 ^ 13))) < u ^ 2 - v ^ 2 := by
    refine lt_of_lt_of_le ?_ hgap
    have hK : 0 < ((fs / sym : ℕ) : ℝ) ^ 2 := by positivity
    have : 16 * (1.241 * (0 + 1.241 * (ε + 1 / 2 ^ 13))) < 0.0094 := by norm_num at hε ⊢; linarith
    nlinarith
  have hd : 0 < u ^ 2 - v ^ 2 := lt_of_lt_of_le (by positivity) hgap
  cases hb : msg.getD n false
  · rw [hb] at q1 q2
    rw [Bool.not_false] at q2
    rw [← q1, ← q2] at e2
    rw [e2 (by rw [abs_sub_comm, abs_of_pos hd]; exact hmar), decide_eq_false_iff_not]; linarith
  · rw [hb] at q1 q2
    rw [Bool.not_true] at q2
    rw [← q1, ← q2] at e2
    rw [e2 (by rw [abs_of_pos hd]; exact hmar), decide_eq_true_eq]; linarith


/-- What the hopping modulator produces in double precision is within `2^-9` of the exact signal. -/
theorem C127_sent_hopping [RIter ι Bool] {L : Libm} {ε : ℝ} (hε : ε ≤ 1 / 2 ^ 10) (hL : Accurate L ε (2 ^ 40)) {m : ι} {msg : List Bool}
    (hm : Yields m msg) {low high : FloatL L} (fl : F64.Fin low) (fh : F64.Fin high) (h1 : 1 / 2 ^ 100 ≤ val low)
    (h2 : val low ≤ val high) {nf fs sym : ℕ} (hnf : 2 ≤ nf) (hnf' : nf ≤ 2 ^ 50) (hfs : fs < 2 ^ 53) (hsps0 : 0 < fs / sym)
    (hhigh : val high ≤ fs / 2) (hsps : fs / sym ≤ 2 ^ 32) {a : List (FloatL L)}
    (ha : (do let tx ← txFhBpsk ρ m low high nf fs sym; collect tx) = pure a) :
    ∃ t hop, hopTable ρ low high nf 64 = pure t ∧ Gives t hop ∧ (∀ n, val low ≤ val (hop n) ∧ val (hop n) ≤ val high) ∧
      NearRecording (1 / 2 ^ 9) a msg.length (fs / sym)
        (fun n i => 1 * pm (msg.getD n false) * Real.cos (angle fs (val (hop n)) (i - n * (fs / sym)))) := by
  have hfs0 : 0 < fs := by
    rcases Nat.eq_zero_or_pos fs with h | h
    · subst h; simp at hsps0
    · exact h
  have hfsR : (fs : ℝ) < 2 ^ 53 := by exact_mod_cast hfs
  have h3 : val high ≤ 2 ^ 100 := by
    refine hhigh.trans ?_
    have : (2 : ℝ) ^ 53 ≤ 2 ^ 100 := by norm_num
    have : (0 : ℝ) ≤ fs := by positivity
    linarith
  obtain ⟨t, g, k1, k2, k3, -⟩ := C36_range_ieee (ρ := ρ) fl fh h1 h2 h3 hnf hnf' 64
  have hg : hopOf ρ low high nf = g := by
    have hg := hopTable_gives (ρ := ρ) (hopFreqs low high nf) (Rng.seed SEED) (by rw [hopFreqs_length]; exact hnf)
    have k1' : hopTable ρ low high nf SEED = pure t := k1
    rw [hopTable_ok, RM.ok_inj] at k1'
    rw [k1'] at hg
    exact hg.unique k2
  refine ⟨t, g, k1, k2, fun n => (k3 n).2, ?_⟩
  rw [txFhBpsk_collected hm hnf hsps0 ha, hg]
  apply wave_near hsps0
  intro n b j hb hj
  rw [List.getD_eq_getElem?_getD, hb, Option.getD_some, one_mul, Nat.add_sub_cancel_left, angle_dphi]
  have hm : ε + 1 / 2 ^ 15 ≤ 1 / 2 ^ 9 := by norm_num at hε ⊢; linarith
  obtain ⟨c, -⟩ := carrier_near (L := L) (fc := g n) hL (i := j) hfs0 hfs (by omega) (k3 n).1 (h1.trans (k3 n).2.1) ((k3 n).2.2.trans hhigh)
  exact ap_signed (c.mono hm) b

/-- Hopped BPSK: if a carrier of any frequency between `low` and `high` has an energy of more than `k (τ + 1/200)` over the `k`
samples of a bit, every sample may be disturbed by up to `τ` between modulator and receiver. -/
theorem C127_noise_hopping [RIter ι Bool] {L : Libm} [RIter κ (FloatL L)] {ε τ : ℝ} (hε : ε ≤ 1 / 2 ^ 10) (hL : Accurate L ε (2 ^ 40))
    {low high : FloatL L} (fl : F64.Fin low) (fh : F64.Fin high) (h1 : 1 / 2 ^ 100 ≤ val low) (h2 : val low ≤ val high)
    {nf fs sym : ℕ} (hnf : 2 ≤ nf) (hnf' : nf ≤ 2 ^ 50) (hfs : fs < 2 ^ 53) (hsym : 0 < sym) (hdvd : sym ∣ fs)
    (hhigh : val high ≤ fs / 2) (hsps : fs / sym ≤ 2 ^ 32)
    (hE : ∀ f, val low ≤ f → f ≤ val high →
      ((fs / sym : ℕ) : ℝ) * (τ + 1 / 200) < ∑ j ∈ Finset.range (fs / sym), Real.cos (angle fs f j) ^ 2)
    {m : ι} {msg : List Bool} (hm : Yields m msg) {a r : List (FloatL L)}
    (ha : (do let tx ← txFhBpsk ρ m low high nf fs sym; collect tx) = pure a) (hr : Disturbed τ a r)
    {rcv : κ} (hy : Yields rcv r) :
    (do let rx ← rxFhBpsk ρ rcv low high nf fs sym; collect rx) = pure msg := by
  have hfs0 : 0 < fs := by
    rcases Nat.eq_zero_or_pos fs with h | h
    · subst h
      have : (0 : ℝ) < val low := lt_of_lt_of_le (by positivity) h1
      norm_num at hhigh
      linarith
    · exact h
  have hk : 0 < fs / sym := Nat.div_pos (Nat.le_of_dvd hfs0 hdvd) hsym
  have hkR : (0 : ℝ) < ((fs / sym : ℕ) : ℝ) := by exact_mod_cast hk
  obtain ⟨t, hop, k1, k2, k3, hn⟩ := C127_sent_hopping (ρ := ρ) hε hL hm fl fh h1 h2 hnf hnf' hfs hk hhigh hsps ha
  have hτ : τ ≤ 199 / 200 := by
    have h := hE _ h2 le_rfl
    have : ∑ j ∈ Finset.range (fs / sym), Real.cos (angle fs (val high) j) ^ 2 ≤ ((fs / sym : ℕ) : ℝ) * 1 := by
      refine (Finset.sum_le_sum (g := fun _ => (1 : ℝ)) fun j _ => Real.cos_sq_le_one _).trans (by simp)
    have := lt_of_mul_lt_mul_left (h.trans_le this) hkR.le
    linarith
  refine C127_hopping_signal (ρ := ρ) (S := 2) hε hL fl fh h1 h2 hnf hnf' hfs hsym hdvd hhigh hsps
    (le_trans (one_div_le_one_div_of_le one_pos (one_le_pow₀ (by norm_num))) (by norm_num))
    (show (2 : ℝ) ≤ 2 ^ 900 from le_trans (by norm_num) (show (2 : ℝ) ^ 1 ≤ 2 ^ 900 from pow_le_pow_right₀ (by norm_num) (by norm_num)))
    k1 k2 (g := fun _ => 1) (fun n _ => ⟨one_pos, ?_⟩) (fun n _ => ?_) (near_disturbed hn hr) hy
  · norm_num; linarith
  · rw [one_mul]
    refine lt_of_le_of_lt ?_ (hE _ (k3 n).1 (k3 n).2)
    apply mul_le_mul_of_nonneg_left _ hkR.le
    norm_num at hε ⊢
    linarith

/-! ## Instances -/
set_option warn.classDefReducibility false
attribute [local instance] toyRng

theorem hop_1000 : F64.Fin (Flt.ofNat 1000 : FloatL Libm.rounded) ∧ val (Flt.ofNat 1000 : FloatL Libm.rounded) = 1000 ∧
    F64.Fin (Flt.ofNat 2000 : FloatL Libm.rounded) ∧ val (Flt.ofNat 2000 : FloatL Libm.rounded) = 2000 := by
  obtain ⟨a1, a2⟩ := ofNat_exact (n := 1000) (by norm_num)
  obtain ⟨b1, b2⟩ := ofNat_exact (n := 2000) (by norm_num)
  exact ⟨a1, a2.trans (by norm_num), b1, b2.trans (by norm_num)⟩

/-- Any carrier between 1 and 2 kHz has nearly half its samples as energy over 49 samples at 44.1 kHz. -/
theorem hop_energy {f : ℝ} (h1 : 1000 ≤ f) (h2 : f ≤ 2000) :
    ((44100 / 900 : ℕ) : ℝ) * (0.4 + 1 / 200) < ∑ j ∈ Finset.range (44100 / 900), Real.cos (angle 44100 f j) ^ 2 := by
  have hd : dphi 44100 f = 2 * Real.pi * f / 44100 := by unfold dphi; push_cast; ring
  have hpi := Real.pi_gt_d2
  have hpi' := Real.pi_lt_d2
  have hx0 : 0.142 ≤ dphi 44100 f := by rw [hd]; nlinarith
  have hx1 : dphi 44100 f ≤ 0.286 := by rw [hd]; nlinarith
  have hs : 0.138 ≤ Real.sin (dphi 44100 f) := by
    have := Real.sin_gt_sub_cube (x := dphi 44100 f) (by linarith)
    nlinarith [sq_nonneg (dphi 44100 f), mul_nonneg (sub_nonneg.mpr hx0) (sub_nonneg.mpr hx1)]
  have h := (abs_le.mp (cos_sq_near (d := dphi 44100 f) (by linarith) 0 (44100 / 900))).1
  rw [abs_of_pos (by linarith)] at h
  simp only [Nat.zero_add] at h
  simp only [angle_dphi]
  have h3 : 1 / (2 * Real.sin (dphi 44100 f)) ≤ 4 := by
    rw [div_le_iff₀ (by linarith)]; linarith
  norm_num at h h3 ⊢
  linarith

/-- A hopped signal of any length, every sample disturbed by up to 0.4. -/
example (msg : List Bool) : ∃ a : List (FloatL Libm.rounded),
    (do let tx ← txFhBpsk ℕ (ofList msg) (Flt.ofNat 1000 : FloatL Libm.rounded) (Flt.ofNat 2000) 16 44100 900; collect tx) = pure a ∧
    a.length = msg.length * 49 ∧ ∀ r, Disturbed 0.4 a r →
    (do let rx ← rxFhBpsk ℕ (ofList r) (Flt.ofNat 1000 : FloatL Libm.rounded) (Flt.ofNat 2000) 16 44100 900; collect rx) = pure msg := by
  obtain ⟨a1, a2, b1, b2⟩ := hop_1000
  have hin : ∀ x ∈ hopFreqs (Flt.ofNat 1000 : FloatL Libm.rounded) (Flt.ofNat 2000) 16, Flt.toNat x ≤ 44100 / 2 := by
    intro x hx
    obtain ⟨c1, c2, c3⟩ := hopFreqs_ieee a1 b1 (by rw [a2]; norm_num) (by rw [a2, b2]; norm_num) (by rw [b2]; norm_num) (by norm_num) hx
    have : Flt.toNat x = min ⌊val x⌋₊ (2 ^ 64 - 1) := toNat_val c1
    rw [this]
    exact floor_le_half (c3.trans (by rw [b2]; norm_num))
  obtain ⟨it, h1, h2⟩ := txFhBpsk_ok (ρ := ℕ) (yields_ofList msg) (low := (Flt.ofNat 1000 : FloatL Libm.rounded)) (high := Flt.ofNat 2000)
    (n := 16) (fs := 44100) (sym := 900) (by norm_num) (by norm_num) (by decide +kernel) (by decide +kernel) hin
  obtain ⟨a, ha⟩ : ∃ a, (do let tx ← txFhBpsk ℕ (ofList msg) (Flt.ofNat 1000 : FloatL Libm.rounded) (Flt.ofNat 2000) 16 44100 900; collect tx)
      = pure a := ⟨_, by rw [h1, pure_bind, collect_of_yields h2]⟩
  refine ⟨a, ha, ?_, fun r hr => C127_noise_hopping (ε := 1 / 2 ^ 52) (by norm_num) (accurate_rounded _) a1 b1 (by rw [a2]; norm_num)
    (by rw [a2, b2]; norm_num) (by norm_num) (by norm_num) (by norm_num) (by norm_num) (by norm_num) (by rw [b2]; norm_num)
    (by norm_num) (fun f k1 k2 => hop_energy (by rw [a2] at k1; exact k1) (by rw [b2] at k2; exact k2)) (yields_ofList msg) ha hr
    (yields_ofList r)⟩
  obtain ⟨t, hop, -, -, -, hn⟩ := C127_sent_hopping (ρ := ℕ) (ε := 1 / 2 ^ 52) (by norm_num) (accurate_rounded _) (yields_ofList msg) a1 b1
    (by rw [a2]; norm_num) (by rw [a2, b2]; norm_num) (by norm_num) (by norm_num) (by norm_num) (by norm_num) (by rw [b2]; norm_num)
    (by norm_num) ha
  exact hn.1

/-- An FSK signal of any length, every sample disturbed by up to 0.24. -/
example {msg : List Bool} (hmsg : msg.length ≤ 2000000) : ∃ a : List (FloatL Libm.rounded),
    (do let tx ← txFsk (ofList msg) 44100 100 (Flt.ofNat (20 * 1 * 100) : FloatL Libm.rounded); collect tx) = pure a ∧
    a.length = msg.length * 441 ∧ ∀ r, Disturbed 0.24 a r →
    (do let rx ← rxFsk (ofList r) 44100 100 (Flt.ofNat (20 * 1 * 100) : FloatL Libm.rounded); collect rx) = pure msg := by
  obtain ⟨it, h1, h2⟩ := txFsk_ok (yields_ofList msg) (fs := 44100) (sym := 100) (fc := (Flt.ofNat (20 * 1 * 100) : FloatL Libm.rounded)) (by norm_num)
  have ha := congrArg (· >>= fun tx => collect tx) h1
  simp only [pure_bind] at ha
  rw [collect_of_yields h2] at ha
  exact ⟨_, ha, wave_length _ _ _, fun r hr => C127_noise_fsk (ε := 1 / 2 ^ 52) (by norm_num) (accurate_rounded _) (by norm_num) (by norm_num)
    (by norm_num) (by norm_num) (by norm_num) (yields_ofList msg) (by norm_num; omega) ha hr (yields_ofList r)⟩

/-- A recording of ones: both FSK receivers, in double precision and exact, answer three bits. -/
example : ∃ x y : ℕ → Bool,
    (do let rx ← rxFsk (ofList (List.replicate 48 (Flt.ofNat 1 : FloatL Libm.rounded))) 16000 1000 (Flt.ofNat 2000); collect rx)
      = pure ((List.range 3).map x) ∧
    (do let rx ← rxFsk (ofList ((List.replicate 48 (Flt.ofNat 1 : FloatL Libm.rounded)).map real)) 16000 1000 (real (Flt.ofNat 2000 : FloatL Libm.rounded)); collect rx) = pure ((List.range 3).map y) := by
  have h1 := ofNat_exact (n := 1) (by norm_num)
  obtain ⟨-, -, b1, b2⟩ := hop_1000
  obtain ⟨x, y, h, h', -⟩ := C127_agree_fsk (ε := 1 / 2 ^ 52) (by norm_num) (accurate_rounded _) (fs := 16000) (sym := 1000) (N := 3)
    (by norm_num) (by norm_num) (by norm_num) b1 (by rw [b2]; norm_num) (by rw [b2]; norm_num) (S := 1)
    (by rw [div_le_one (by positivity)]; exact one_le_pow₀ (by norm_num)) (one_le_pow₀ (by norm_num))
    (r := List.replicate 48 (Flt.ofNat 1)) (by simp) (fun z hz => by
      rw [List.eq_of_mem_replicate hz]
      exact ⟨h1.1, by rw [show real (Flt.ofNat 1 : FloatL Libm.rounded) = 1 from h1.2.trans (by norm_num)]; norm_num⟩)
  exact ⟨x, y, h, h'⟩

end Verif.Props
