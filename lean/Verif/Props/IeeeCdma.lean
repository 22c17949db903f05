import Verif.Lemmas.IeeeCdma
import Verif.Props.Cdma

/-!
# Property C30 in IEEE arithmetic, with noise
-/
namespace Verif.Props
open Verif Spec F64

variable {κ : Type}

/-- What user `(key, message)` transmits, in double precision. -/
def TransmitsL {L : Libm} (fs sym : ℕ) (fc : FloatL L) (u : List Bool × List Bool) (signal : List (FloatL L)) : Prop :=
  (do let tx ← txCdmaBpsk (ofList u.2) fs sym fc u.1; collect tx) = pure signal

/-- A noisy channel: each received sample is finite and within `η` of the exact sum of the transmitted ones. -/
def NoisySum {L : Libm} (η : ℝ) (signals : List (List (FloatL L))) (channel : List (FloatL L)) : Prop :=
  ∀ i, i < channel.length → ∃ c : FloatL L, channel[i]? = some c ∧ Fin c ∧
    |val c - (signals.map (fun s => val (s.getD i 0))).sum| ≤ η

/-- The first `n` samples of the sum of the signals, added in double precision one user after the other. -/
def addUp {L : Libm} (n : ℕ) (signals : List (List (FloatL L))) : List (FloatL L) :=
  (List.range n).map (fun i => (signals.map (fun s => s.getD i 0)).foldl (· + ·) 0)

/-- Up to 64 users with pairwise orthogonal keys, a whole number of carrier half-periods per chip, any sine and cosine within
`2^-15` of the exact ones, and a channel that disturbs each sample by up to an eighth of the amplitude of one user: every
user's message is received. -/
theorem C30_noisy_ieee {L : Libm} [RIter κ (FloatL L)] {ε : ℝ} (hε : ε ≤ 1 / 2 ^ 15) (hL : Accurate L ε (2 ^ 40))
    {users : List (List Bool × List Bool)} {N K fs sym : ℕ} {fc : FloatL L}
    (hfs : fs < 2 ^ 53) (hsym : 0 < sym) (hK : 0 < K) (hdvd : sym * K ∣ fs) (hnyq : 2 * (sym * K) ≤ fs)
    (hlen : N * (fs / sym) ≤ 2 ^ 32) (hf : Fin fc) (hlo : 1 / 2 ^ 100 ≤ val fc) (hhi : val fc < fs / 2)
    (hnum : users.length ≤ 64) (hkey : ∀ u ∈ users, u.1.length = K) (hmsg : ∀ u ∈ users, u.2.length = N)
    (horth : users.Pairwise (fun u v => 2 * agreements u.1 v.1 = K))
    {p : ℤ} (hp : ((fs / sym / K : ℕ) : ℝ) * (2 * val fc) = p * fs)
    {signals : List (List (FloatL L))} (htx : List.Forall₂ (TransmitsL fs sym fc) users signals)
    {channel : List (FloatL L)} (hclen : channel.length = N * (fs / sym)) {η : ℝ} (hη : η ≤ 1 / 8)
    (hch : NoisySum η signals channel) {rcv : κ} (hrcv : Yields rcv channel) :
    ∀ v ∈ users, (do let rx ← rxCdmaBpsk rcv fs sym fc v.1; collect rx) = pure v.2 := by
  intro v hv
  have hfs0 : 0 < fs := by
    have := Nat.mul_pos hsym hK
    omega
  have hfsR : (0 : ℝ) < fs := by exact_mod_cast hfs0
  have hok : CdmaOk fs sym fc K := (cdmaOk_ieee hfs hf).mpr ⟨hsym, hK, hdvd, hnyq, by
    have h1 : ⌊val fc⌋₊ ≤ ⌊(fs : ℝ) / 2⌋₊ := Nat.floor_mono hhi.le
    have h2 : ⌊(fs : ℝ) / 2⌋₊ = fs / 2 := by simpa using Nat.floor_div_natCast (fs : ℝ) 2
    omega⟩
  have h1 := hok.sps
  have h2 := hok.spc
  have hsps : 0 < fs / sym := by omega
  have hdiv : fs / sym = K * (fs / sym / K) := by
    have : K ∣ fs / sym := by
      obtain ⟨q, rfl⟩ := hdvd
      rw [Nat.mul_assoc, Nat.mul_div_cancel_left _ hsym]
      exact Dvd.intro _ rfl
    exact (Nat.mul_div_cancel' this).symm
  -- the transmitted signals
  have hsig : signals = users.map (fun u => (wave (fs / sym) (fun n b j =>
      bitToNrz b * Flt.cos (phase fs fc (n * (fs / sym) + j))) u.2).mapIdx
        (fun i x => x * bitToNrz (keyBit u.1 (fs / sym / K) i))) := by
    clear hch hmsg horth hv hnum
    induction htx with
    | nil => rfl
    | @cons u s us ss ht _ ih =>
      rw [List.map_cons, ← ih (fun v hv => hkey v (by simp [hv]))]
      congr 1
      have hl := hkey u (by simp)
      obtain ⟨it, e1, e2⟩ := txCdmaBpsk_ok (yields_ofList u.2) (key := u.1) (hl ▸ hok)
      unfold TransmitsL at ht
      rw [e1, pure_bind, collect_of_yields e2, RM.ok_inj] at ht
      rw [← ht, hl]
  -- the received waveform
  have hvl := hmsg v hv
  have hwave : channel = wave (fs / sym) (fun n (_ : Bool) j => channel.getD (n * (fs / sym) + j) 0) v.2 := by
    apply List.ext_getElem?
    intro i
    rw [wave_getElem? hsps]
    by_cases hi : i < channel.length
    · have hin : i / (fs / sym) < v.2.length := by rw [hvl, Nat.div_lt_iff_lt_mul hsps]; omega
      rw [List.getElem?_eq_getElem hin, Option.map_some, Nat.mul_comm, Nat.div_add_mod, List.getD_eq_getElem?_getD,
        List.getElem?_eq_getElem hi, Option.getD_some]
    · rw [List.getElem?_eq_none (by omega), List.getElem?_eq_none]
      · rfl
      · rw [hvl, Nat.le_div_iff_mul_le hsps]; omega
  have hkv := hkey v hv
  have hr := (hrcv.spread (key := v.1) (by omega) (show 0 < fs / sym / K by omega)).of_eq (by rw [hwave, mapIdx_wave])
  obtain ⟨it', e4, e5⟩ := rxBpsk_wave (fc := fc) hsps hr
  rw [rxCdmaBpsk, hkv, hok.guards, pure_bind, e4, pure_bind, collect_of_yields e5]
  congr 1
  apply mapIdx_eq_self
  intro n b hb
  have hlt : n < N := by
    rw [← hvl]
    by_contra hcon
    rw [List.getElem?_eq_none (by omega)] at hb; cases hb
  have hle : n * (fs / sym) + fs / sym ≤ N * (fs / sym) := by
    have : (n + 1) * (fs / sym) ≤ N * (fs / sym) := Nat.mul_le_mul_right _ hlt
    rwa [Nat.add_mul, Nat.one_mul] at this
  have hbn : v.2.getD n false = b := by rw [List.getD_eq_getElem?_getD, hb]; rfl
  set k := fs / sym with hkdef
  set spc := k / K with hspc
  set d := dphi fs (val fc) with hdd
  have hδ : ε + 1 / 2 ^ 15 ≤ 1 / 2 ^ 14 := by norm_num at hε ⊢; linarith
  have near : ∀ j < k, Ap (L.cos (phase fs fc (n * k + j))) (Real.cos ((n * k + j : ℕ) * d)) (1 / 2 ^ 14) := fun j hj =>
    (carrier_near hL (i := n * k + j) hfs0 hfs (by omega) hf hlo hhi.le).1.mono hδ
  have hd : (spc : ℝ) * d = p * Real.pi := by
    rw [hdd]; unfold dphi; field_simp; linear_combination hp
  have hv0 : 0 < val fc := lt_of_lt_of_le (by norm_num) hlo
  have hs : Real.sin d ≠ 0 := by
    have hπ := Real.pi_pos
    refine (Real.sin_pos_of_pos_of_lt_pi ?_ ?_).ne'
    · rw [hdd]; unfold dphi; positivity
    · rw [hdd]; unfold dphi; rw [div_lt_iff₀ hfsR]; nlinarith
  -- one user's samples
  have huser : ∀ u ∈ users, ∀ j < k, Ap (((wave k (fun n b j => (bitToNrz b * Flt.cos (phase fs fc (n * k + j)) : FloatL L)) u.2).mapIdx
        (fun i x => x * bitToNrz (keyBit u.1 spc i))).getD (n * k + j) 0)
      (sg (u.2.getD n false) * Real.cos ((n * k + j : ℕ) * d) * sg (keyBit u.1 spc (n * k + j))) (1 / 2 ^ 14) := by
    intro u hu j hj
    have hmu := hmsg u hu
    have hq : (n * k + j) / k = n := by
      rw [Nat.add_comm, Nat.add_mul_div_right _ _ hsps, Nat.div_eq_of_lt hj, Nat.zero_add]
    have hm : (n * k + j) % k = j := by rw [Nat.add_comm, Nat.add_mul_mod_self_right, Nat.mod_eq_of_lt hj]
    rw [List.getD_eq_getElem?_getD, List.getElem?_mapIdx, wave_getElem? hsps, hq, hm,
      List.getElem?_eq_getElem (show n < u.2.length by omega)]
    simp only [Option.map_some, Option.getD_some]
    rw [List.getD_eq_getElem?_getD, List.getElem?_eq_getElem (show n < u.2.length by omega), Option.getD_some]
    exact ((near j hj).nrz_mul _).mul_nrz _
  have hchan : ∀ j < k, Ap (channel.getD (n * k + j) 0)
      (users.map (fun u => sg (u.2.getD n false) * Real.cos ((n * k + j : ℕ) * d) * sg (keyBit u.1 spc (n * k + j)))).sum (5 / 32) ∧
      |(users.map (fun u => sg (u.2.getD n false) * Real.cos ((n * k + j : ℕ) * d) * sg (keyBit u.1 spc (n * k + j)))).sum| ≤ 64 := by
    intro j hj
    have hnumR : (users.length : ℝ) ≤ 64 := by exact_mod_cast hnum
    obtain ⟨c, hc1, hc2, hc3⟩ := hch (n * k + j) (by omega)
    constructor
    · rw [List.getD_eq_getElem?_getD, hc1, Option.getD_some]
      refine ⟨hc2, ?_⟩
      rw [hsig, List.map_map] at hc3
      have h3 := abs_list_sum_sub_le users
        ((fun s : List (FloatL L) => val (s.getD (n * k + j) 0)) ∘ fun u => (wave k (fun n b j =>
          (bitToNrz b * Flt.cos (phase fs fc (n * k + j)) : FloatL L)) u.2).mapIdx (fun i x => x * bitToNrz (keyBit u.1 spc i)))
        (fun u => sg (u.2.getD n false) * Real.cos ((n * k + j : ℕ) * d) * sg (keyBit u.1 spc (n * k + j)))
        (fun u hu => (huser u hu j hj).2)
      have h4 : (users.length : ℝ) * (1 / 2 ^ 14) ≤ 1 / 32 := by
        calc (users.length : ℝ) * (1 / 2 ^ 14) ≤ 64 * (1 / 2 ^ 14) := mul_le_mul_of_nonneg_right hnumR (by norm_num)
          _ ≤ 1 / 32 := by norm_num
      have h5 := abs_sub_le (val c) _ _ |>.trans (add_le_add hc3 h3)
      exact h5.trans (by linarith)
    · refine (abs_list_sum_le users _ (B := 1) (fun u _ => ?_)).trans (by linarith)
      rw [abs_mul, abs_mul, abs_sg, abs_sg, one_mul, mul_one]
      exact Real.abs_cos_le_one _
  have hrx : ∀ j < k, Ap (channel.getD (n * k + j) 0 * (bitToNrz (keyBit v.1 spc (n * k + j)) : FloatL L))
      ((users.map (fun u => sg (u.2.getD n false) * Real.cos ((n * k + j : ℕ) * d) * sg (keyBit u.1 spc (n * k + j)))).sum
        * sg (keyBit v.1 spc (n * k + j))) (5 / 32) ∧
      |(users.map (fun u => sg (u.2.getD n false) * Real.cos ((n * k + j : ℕ) * d) * sg (keyBit u.1 spc (n * k + j)))).sum
        * sg (keyBit v.1 spc (n * k + j))| ≤ 64 := by
    intro j hj
    refine ⟨(hchan j hj).1.mul_nrz _, ?_⟩
    rw [abs_mul, abs_sg, mul_one]
    exact (hchan j hj).2
  have hk32 : k ≤ 2 ^ 32 := by omega
  have hcor := corr_noisy (x := fun j => channel.getD (n * k + j) 0 * (bitToNrz (keyBit v.1 spc (n * k + j)) : FloatL L))
    (c := fun j => L.cos (phase fs fc (n * k + j)))
    (X := fun j => (users.map (fun u => sg (u.2.getD n false) * Real.cos ((n * k + j : ℕ) * d) * sg (keyBit u.1 spc (n * k + j)))).sum
        * sg (keyBit v.1 spc (n * k + j))) (C := fun j => Real.cos ((n * k + j : ℕ) * d))
    hk32 hrx (fun j hj => ⟨near j hj, Real.abs_cos_le_one _⟩)
  rw [cdma_corr hdiv hkey hv horth hd hs, hbn] at hcor
  have hkR : (0 : ℝ) < k := by exact_mod_cast hsps
  cases b
  · exact hcor.not_pos (by simp only [sg, Bool.false_eq_true, if_false]; linarith)
  · exact hcor.pos (by simp only [sg, if_true]; linarith)


/-- A transmitted sample is finite, and at most `1 + 2^-14` in absolute value. -/
private theorem transmits_bound {L : Libm} {ε : ℝ} (hε : ε ≤ 1 / 2 ^ 15) (hL : Accurate L ε (2 ^ 40))
    {N K fs sym : ℕ} {fc : FloatL L} (hfs : fs < 2 ^ 53) (hfs0 : 0 < fs) (hok : CdmaOk fs sym fc K)
    (hlen : N * (fs / sym) ≤ 2 ^ 32) (hf : Fin fc) (hlo : 1 / 2 ^ 100 ≤ val fc) (hhi : val fc < fs / 2)
    {u : List Bool × List Bool} (hkey : u.1.length = K) (hmsg : u.2.length = N) {s : List (FloatL L)}
    (ht : TransmitsL fs sym fc u s) {i : ℕ} (hi : i < N * (fs / sym)) :
    Fin (s.getD i 0) ∧ |val (s.getD i 0)| ≤ 1 + 1 / 2 ^ 14 := by
  have hsps : 0 < fs / sym := by
    rcases Nat.eq_zero_or_pos (fs / sym) with h | h
    · rw [h, Nat.mul_zero] at hi; omega
    · exact h
  obtain ⟨it, e1, e2⟩ := txCdmaBpsk_ok (yields_ofList u.2) (key := u.1) (hkey ▸ hok)
  unfold TransmitsL at ht
  rw [e1, pure_bind, collect_of_yields e2, RM.ok_inj] at ht
  have hδ : ε + 1 / 2 ^ 15 ≤ 1 / 2 ^ 14 := by norm_num at hε ⊢; linarith
  have hq : i / (fs / sym) < u.2.length := by rw [hmsg, Nat.div_lt_iff_lt_mul hsps]; omega
  have near : Ap (L.cos (phase fs fc i)) (Real.cos (i * dphi fs (val fc))) (1 / 2 ^ 14) :=
    (carrier_near hL (i := i) hfs0 hfs (by omega) hf hlo hhi.le).1.mono hδ
  have key : Ap (s.getD i 0) (sg (u.2[i / (fs / sym)]) * Real.cos (i * dphi fs (val fc)) *
      sg (keyBit u.1 (fs / sym / u.1.length) i)) (1 / 2 ^ 14) := by
    rw [← ht, List.getD_eq_getElem?_getD, List.getElem?_mapIdx, wave_getElem? hsps, List.getElem?_eq_getElem hq]
    simp only [Option.map_some, Option.getD_some]
    rw [Nat.mul_comm (i / (fs / sym)), Nat.div_add_mod]
    exact (near.nrz_mul _).mul_nrz _
  refine ⟨key.1, ?_⟩
  have hr : |sg (u.2[i / (fs / sym)]) * Real.cos (i * dphi fs (val fc)) * sg (keyBit u.1 (fs / sym / u.1.length) i)| ≤ 1 := by
    rw [abs_mul, abs_mul, abs_sg, abs_sg, one_mul, mul_one]
    exact Real.abs_cos_le_one _
  exact key.abs_le hr

/-- Adding the transmitted signals sample by sample in double precision, one user after the other, is such a channel. -/
theorem C30_adder_ieee {L : Libm} {ε : ℝ} (hε : ε ≤ 1 / 2 ^ 15) (hL : Accurate L ε (2 ^ 40))
    {users : List (List Bool × List Bool)} {N K fs sym : ℕ} {fc : FloatL L}
    (hfs : fs < 2 ^ 53) (hsym : 0 < sym) (hK : 0 < K) (hdvd : sym * K ∣ fs) (hnyq : 2 * (sym * K) ≤ fs)
    (hlen : N * (fs / sym) ≤ 2 ^ 32) (hf : Fin fc) (hlo : 1 / 2 ^ 100 ≤ val fc) (hhi : val fc < fs / 2)
    (hnum : users.length ≤ 64) (hkey : ∀ u ∈ users, u.1.length = K) (hmsg : ∀ u ∈ users, u.2.length = N)
    {signals : List (List (FloatL L))} (htx : List.Forall₂ (TransmitsL fs sym fc) users signals) :
    NoisySum (1 / 8) signals (addUp (N * (fs / sym)) signals) := by
  intro i hi
  rw [addUp, List.length_map, List.length_range] at hi
  have hfs0 : 0 < fs := by
    have := Nat.mul_pos hsym hK
    omega
  have hok : CdmaOk fs sym fc K := (cdmaOk_ieee hfs hf).mpr ⟨hsym, hK, hdvd, hnyq, by
    have h1 : ⌊val fc⌋₊ ≤ ⌊(fs : ℝ) / 2⌋₊ := Nat.floor_mono hhi.le
    have h2 : ⌊(fs : ℝ) / 2⌋₊ = fs / 2 := by simpa using Nat.floor_div_natCast (fs : ℝ) 2
    omega⟩
  have hb : ∀ s ∈ signals, Fin (s.getD i 0) ∧ |val (s.getD i 0)| ≤ 1 + 1 / 2 ^ 14 := by
    intro s hs
    obtain ⟨m, hm, rfl⟩ := List.mem_iff_getElem.mp hs
    obtain ⟨hl, hget⟩ := List.forall₂_iff_get.mp htx
    have hmu : users[m] ∈ users := List.getElem_mem _
    exact transmits_bound hε hL hfs hfs0 hok hlen hf hlo hhi (hkey _ hmu) (hmsg _ hmu) (hget m (by omega) hm) hi
  have hsl : signals.length ≤ 64 := by rw [← htx.length_eq]; exact hnum
  refine ⟨_, by rw [addUp, List.getElem?_map, List.getElem?_range hi]; rfl, ?_⟩
  have key := sum_ap (l := List.map (β := FloatL L) (fun s => s.getD i 0) signals) ((List.length_map _).trans_le hsl) (by
    intro x hx
    obtain ⟨s, hs, rfl⟩ := List.mem_map.mp hx
    exact hb s hs)
  have e : List.map val (List.map (β := FloatL L) (fun s => s.getD i 0) signals) = signals.map (fun s => val (s.getD i 0)) :=
    List.map_map
  rw [← e]
  exact key

/-- The messages of up to 64 users with orthogonal keys, added in double precision, are all received. -/
theorem C30_separation_ieee {L : Libm} {ε : ℝ} (hε : ε ≤ 1 / 2 ^ 15) (hL : Accurate L ε (2 ^ 40))
    {users : List (List Bool × List Bool)} {N K fs sym : ℕ} {fc : FloatL L}
    (hfs : fs < 2 ^ 53) (hsym : 0 < sym) (hK : 0 < K) (hdvd : sym * K ∣ fs) (hnyq : 2 * (sym * K) ≤ fs)
    (hlen : N * (fs / sym) ≤ 2 ^ 32) (hf : Fin fc) (hlo : 1 / 2 ^ 100 ≤ val fc) (hhi : val fc < fs / 2)
    (hnum : users.length ≤ 64) (hkey : ∀ u ∈ users, u.1.length = K) (hmsg : ∀ u ∈ users, u.2.length = N)
    (horth : users.Pairwise (fun u v => 2 * agreements u.1 v.1 = K))
    {p : ℤ} (hp : ((fs / sym / K : ℕ) : ℝ) * (2 * val fc) = p * fs) :
    ∃ signals : List (List (FloatL L)), List.Forall₂ (TransmitsL fs sym fc) users signals ∧
      (∀ s ∈ signals, s.length = N * (fs / sym)) ∧
      ∀ v ∈ users, (do
        let rx ← rxCdmaBpsk (ofList (addUp (N * (fs / sym)) signals)) fs sym fc v.1
        collect rx) = pure v.2 := by
  have hok : CdmaOk fs sym fc K := (cdmaOk_ieee hfs hf).mpr ⟨hsym, hK, hdvd, hnyq, by
    have h1 : ⌊val fc⌋₊ ≤ ⌊(fs : ℝ) / 2⌋₊ := Nat.floor_mono hhi.le
    have h2 : ⌊(fs : ℝ) / 2⌋₊ = fs / 2 := by simpa using Nat.floor_div_natCast (fs : ℝ) 2
    omega⟩
  have htr : ∀ u ∈ users, ∃ s, TransmitsL fs sym fc u s ∧ s.length = N * (fs / sym) := by
    intro u hu
    have hl := hkey u hu
    obtain ⟨it, e1, e2⟩ := txCdmaBpsk_ok (yields_ofList u.2) (key := u.1) (hl ▸ hok)
    refine ⟨_, by unfold TransmitsL; rw [e1, pure_bind, collect_of_yields e2], ?_⟩
    rw [List.length_mapIdx, wave_length, hmsg u hu]
  obtain ⟨signals, hs⟩ := forall₂_exists htr
  have htx := hs.imp (fun _ _ h => h.1)
  refine ⟨signals, htx, ?_, ?_⟩
  · intro s hsm
    obtain ⟨hlen, hget⟩ := List.forall₂_iff_get.mp hs
    obtain ⟨i, hi, rfl⟩ := List.mem_iff_getElem.mp hsm
    exact (hget i (by omega) hi).2
  · exact C30_noisy_ieee hε hL hfs hsym hK hdvd hnyq hlen hf hlo hhi hnum hkey hmsg horth hp htx (by simp [addUp]) le_rfl
      (C30_adder_ieee hε hL hfs hsym hK hdvd hnyq hlen hf hlo hhi hnum hkey hmsg htx) (yields_ofList _)

/-- Two users with the keys `11` and `10`, eight samples per bit, a carrier at an eighth of the sampling rate. -/
example (m₁ m₂ : List Bool) (hm : m₁.length = m₂.length) (hl : m₁.length * 8 ≤ 2 ^ 32) :
    ∃ signals : List (List (FloatL Libm.rounded)),
      List.Forall₂ (TransmitsL 8 1 (Flt.ofNat 1)) [([true, true], m₁), ([true, false], m₂)] signals ∧
      (∀ s ∈ signals, s.length = m₁.length * (8 / 1)) ∧
      ∀ v ∈ [([true, true], m₁), ([true, false], m₂)], (do
        let rx ← rxCdmaBpsk (ofList (addUp (m₁.length * (8 / 1)) signals)) 8 1 (Flt.ofNat 1) v.1
        collect rx) = pure v.2 := by
  obtain ⟨a1, a2⟩ := ofNat_exact (n := 1) (by norm_num)
  refine C30_separation_ieee (L := Libm.rounded) (ε := 1 / 2 ^ 52) (by norm_num) (accurate_rounded _) (K := 2) (p := 1)
    (by norm_num) (by norm_num) (by norm_num) (by norm_num) (by norm_num) (by simpa using hl) a1 ?_ ?_ (by simp) (by simp)
    (by simp [hm]) (by simp [agreements]) ?_
  · exact a2.symm ▸ (by norm_num)
  · exact a2.symm ▸ (by norm_num)
  · exact a2.symm ▸ (by norm_num)

end Verif.Props
