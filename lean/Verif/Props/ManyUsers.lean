import Verif.Props.Cdma
import Verif.Props.Fading
import Verif.Props.Offset
import Verif.Lemmas.EnergyClt
import Verif.Lemmas.FskTones
import Verif.Lemmas.WalshCos
import Mathlib.SetTheory.Cardinal.Finite

/-!
# Property C129: many CDMA-BPSK users on a carrier that does not fit the chips

C30 and C79 assume that a chip lasts a whole number of half carrier periods.  The multi-user tests of the library do not: a chip of
theirs is 10 samples or fewer of a carrier of 32 or more samples.  The keys are then not orthogonal on the carrier.
-/
namespace Verif.Props
open Verif Spec

variable {κ : Type}

/-- The energy of the carrier in symbol `n`, chip by chip with the product of the signs of two keys. -/
noncomputable def overlap (fs k : ℕ) (fc : ℝ) (a b : List Bool) (n : ℕ) : ℝ :=
  ∑ j ∈ Finset.range k, pm (a.getD (j / (k / a.length)) false) * pm (b.getD (j / (k / a.length)) false)
    * Real.cos (angle fs fc (n * k + j)) ^ 2

/-- The sum of what all users transmit, sample by sample. -/
def OnAir {U : ℕ} (fs sym : ℕ) (fc : ℝ) (key msg : Fin U → List Bool) (channel : List ℝ) : Prop :=
  ∃ signal : Fin U → List ℝ, (∀ u, (do let tx ← txCdmaBpsk (ofList (msg u)) fs sym fc (key u); collect tx) = pure (signal u)) ∧
    (∀ u, (signal u).length = channel.length) ∧ ∀ i < channel.length, channel[i]? = some (∑ u, (signal u).getD i 0)

/-- The rates and the keys are accepted: `L` chips per symbol. -/
structure Cell {U : ℕ} (fs sym L : ℕ) (fc : ℝ) (key : Fin U → List Bool) : Prop where
  hfs : fs < 2 ^ 64
  hsym : 0 < sym
  hL : 0 < L
  hdvd : sym * L ∣ fs
  hnyq : 2 * (sym * L) ≤ fs
  hfc : ⌊fc⌋₊ ≤ fs / 2
  hkey : ∀ u, (key u).length = L

theorem overlap_chips {fs sym L : ℕ} {fc : ℝ} (hsym : 0 < sym) (hL : 0 < L) (hdvd : sym * L ∣ fs) (hnyq : 2 * (sym * L) ≤ fs)
    {a b : List Bool} (ha : a.length = L) (n : ℕ) :
    overlap fs (fs / sym) fc a b n
      = ∑ c ∈ Finset.range L, chipEnergy fs (fs / sym) (fs / sym / L) fc n c * (pm (a.getD c false) * pm (b.getD c false)) := by
  obtain ⟨q, hq⟩ := hdvd
  have hk : fs / sym = L * q := by rw [hq, Nat.mul_assoc, Nat.mul_div_cancel_left _ hsym]
  have hq2 : 0 < q := by
    rcases Nat.eq_zero_or_pos q with h | h
    · subst h; have := Nat.mul_pos hsym hL; omega
    · exact h
  have hkL : fs / sym / L = q := by rw [hk, Nat.mul_div_cancel_left _ hL]
  unfold overlap
  rw [ha, hkL, hk, ← sum_blocks]
  refine Finset.sum_congr rfl fun c _ => ?_
  unfold chipEnergy
  rw [Finset.sum_range, Finset.sum_mul]
  refine Finset.sum_congr rfl fun j _ => ?_
  have hd : (c * q + j.val) / q = c := by
    rw [Nat.mul_comm c q, Nat.mul_add_div hq2, Nat.div_eq_of_lt j.isLt, Nat.add_zero]
  rw [hd, angle]
  ring

/-- What the receiver with key `a` decides: the signs of the users' bits, weighted with the overlaps of the keys. -/
theorem C129_decision [RIter κ ℝ] {U fs sym L N : ℕ} {fc : ℝ} {key msg : Fin U → List Bool} (h : Cell fs sym L fc key) (hmsg : ∀ u, (msg u).length = N)
    {channel : List ℝ} (hlen : channel.length = N * (fs / sym)) (hair : OnAir fs sym fc key msg channel)
    {rcv : κ} (hr : Yields rcv channel) {a : List Bool} (ha : a.length = L) :
    (do let rx ← rxCdmaBpsk rcv fs sym fc a; collect rx)
      = pure ((List.range N).map (fun n => decide (0 < ∑ u, pm ((msg u).getD n false) * overlap fs (fs / sym) fc a (key u) n))) := by
  obtain ⟨signal, h1, h2, h3⟩ := hair
  rw [C30_decision (users := List.ofFn (fun u => (key u, msg u))) (signals := List.ofFn signal) h.hfs h.hsym h.hL h.hdvd h.hnyq h.hfc
    (by
      intro u hu
      obtain ⟨i, rfl⟩ := (List.mem_ofFn' _ _).mp hu
      exact h.hkey i)
    (by
      intro u hu
      obtain ⟨i, rfl⟩ := (List.mem_ofFn' _ _).mp hu
      exact hmsg i)
    (by
      rw [List.forall₂_iff_get]
      refine ⟨by simp, fun i hi _ => ?_⟩
      simpa [Transmits] using h1 ⟨i, by simpa using hi⟩) hlen
    ⟨by
      intro s hs
      obtain ⟨i, rfl⟩ := (List.mem_ofFn' _ _).mp hs
      exact h2 i,
     by
      intro i hi
      rw [h3 i hi, List.map_ofFn, List.sum_ofFn]
      rfl⟩ hr ha]
  congr 1
  refine List.map_congr_left fun n _ => ?_
  congr 2
  simp only [overlap_chips h.hsym h.hL h.hdvd h.hnyq ha, List.map_ofFn, List.sum_ofFn, Finset.mul_sum]
  rw [Finset.sum_comm]
  refine Finset.sum_congr rfl fun u _ => Finset.sum_congr rfl fun c _ => ?_
  simp only [Function.comp_apply, pm]
  ring

/-- Every set of messages can be on the air. -/
theorem C129_on_air {U fs sym L N : ℕ} {fc : ℝ} {key msg : Fin U → List Bool} (h : Cell fs sym L fc key) (hmsg : ∀ u, (msg u).length = N) :
    ∃ channel, channel.length = N * (fs / sym) ∧ OnAir fs sym fc key msg channel := by
  have hok := (cdmaOk_real (fc := fc) h.hfs).mpr ⟨h.hsym, h.hL, h.hdvd, h.hnyq, h.hfc⟩
  have htr : ∀ u, ∃ s, (do let tx ← txCdmaBpsk (ofList (msg u)) fs sym fc (key u); collect tx) = pure s ∧ s.length = N * (fs / sym) := by
    intro u
    obtain ⟨it, e1, e2⟩ := txCdmaBpsk_ok (yields_ofList (msg u)) (key := key u) (h.hkey u ▸ hok)
    refine ⟨_, by rw [e1, pure_bind, collect_of_yields e2], ?_⟩
    rw [List.length_mapIdx, wave_length, hmsg u]
  choose s h1 h2 using htr
  refine ⟨(List.range (N * (fs / sym))).map (fun i => ∑ u, (s u).getD i 0), by simp, s, h1, fun u => by rw [h2 u]; simp, fun i hi => ?_⟩
  rw [List.length_map, List.length_range] at hi
  rw [List.getElem?_map, List.getElem?_range hi, Option.map_some]

theorem pm_not (b : Bool) : pm (!b) = -pm b := by cases b <;> simp [pm]

/-- Own and other users' parts of the decision. -/
theorem weights_split {U : ℕ} (g : Fin U → ℝ) (x : Fin U → Bool) (u : Fin U) :
    ∑ v, pm (x v) * g v = pm (x u) * g u + ∑ v ∈ Finset.univ.erase u, pm (x v) * g v :=
  (Finset.add_sum_erase _ _ (Finset.mem_univ u)).symm

theorem own_message [RIter κ ℝ] {U fs sym L N : ℕ} {fc : ℝ} {key msg : Fin U → List Bool} (h : Cell fs sym L fc key)
    (hmsg : ∀ u, (msg u).length = N) {channel : List ℝ} (hlen : channel.length = N * (fs / sym)) (hair : OnAir fs sym fc key msg channel)
    {rcv : κ} (hr : Yields rcv channel) (u : Fin U)
    (hu : ∀ n < N, |∑ v ∈ Finset.univ.erase u, pm ((msg v).getD n false) * overlap fs (fs / sym) fc (key u) (key v) n|
      < overlap fs (fs / sym) fc (key u) (key u) n) :
    (do let rx ← rxCdmaBpsk rcv fs sym fc (key u); collect rx) = pure (msg u) := by
  rw [C129_decision h hmsg hlen hair hr (h.hkey u)]
  congr 1
  have hid : msg u = (msg u).mapIdx (fun _ b => b) := (mapIdx_eq_self (fun _ _ _ => rfl)).symm
  conv_rhs => rw [hid, ← range_map_getD, hmsg u]
  refine List.map_congr_left fun n hn => ?_
  have hn := List.mem_range.mp hn
  have hlt := hu n hn
  rw [abs_lt] at hlt
  rw [weights_split _ (fun v => (msg v).getD n false) u]
  cases hm : (msg u).getD n false
  · rw [decide_eq_false_iff_not]
    have : pm false = -1 := by simp [pm]
    rw [this]; linarith [hlt.2]
  · rw [decide_eq_true_eq]
    have : pm true = 1 := by simp [pm]
    rw [this]; linarith [hlt.1]

/-- A receiver whose own energy exceeds the sum of the overlaps with all others returns its user's message, whatever is sent. -/
theorem C129_separates [RIter κ ℝ] {U fs sym L N : ℕ} {fc : ℝ} {key msg : Fin U → List Bool} (h : Cell fs sym L fc key)
    (hmsg : ∀ u, (msg u).length = N) {channel : List ℝ} (hlen : channel.length = N * (fs / sym)) (hair : OnAir fs sym fc key msg channel)
    {rcv : κ} (hr : Yields rcv channel) (u : Fin U)
    (hu : ∀ n < N, ∑ v ∈ Finset.univ.erase u, |overlap fs (fs / sym) fc (key u) (key v) n| < overlap fs (fs / sym) fc (key u) (key u) n) :
    (do let rx ← rxCdmaBpsk rcv fs sym fc (key u); collect rx) = pure (msg u) := by
  refine own_message h hmsg hlen hair hr u fun n hn => lt_of_le_of_lt ?_ (hu n hn)
  refine (Finset.abs_sum_le_sum_abs _ _).trans (Finset.sum_le_sum fun v _ => ?_)
  rw [abs_mul, pm_abs, one_mul]

/-- … and only such a receiver: otherwise there are messages of which its own is not returned. -/
theorem C129_only {U fs sym L N : ℕ} {fc : ℝ} {key : Fin U → List Bool} (h : Cell fs sym L fc key) (u : Fin U) {n : ℕ} (hn : n < N)
    (hu : overlap fs (fs / sym) fc (key u) (key u) n ≤ ∑ v ∈ Finset.univ.erase u, |overlap fs (fs / sym) fc (key u) (key v) n|) :
    ∃ msg : Fin U → List Bool, (∀ v, (msg v).length = N) ∧ ∀ channel : List ℝ, channel.length = N * (fs / sym) →
      OnAir fs sym fc key msg channel → (do let rx ← rxCdmaBpsk (ofList channel) fs sym fc (key u); collect rx) ≠ pure (msg u) := by
  refine ⟨fun v => List.replicate N (decide (v = u ∨ overlap fs (fs / sym) fc (key u) (key v) n < 0)), fun v => by simp,
    fun channel hlen hair => ?_⟩
  rw [C129_decision h (fun v => by simp) hlen hair (yields_ofList channel) (h.hkey u)]
  intro he
  rw [RM.ok_inj] at he
  have he := congrArg (fun l => l[n]?) he
  simp only [List.getElem?_map, List.getElem?_range hn, Option.map_some, List.getElem?_replicate, if_pos hn, true_or, decide_true,
    Option.some_inj, decide_eq_true_eq] at he
  rw [weights_split _ _ u] at he
  have hsum : ∑ v ∈ Finset.univ.erase u, pm ((List.replicate N (decide (v = u ∨ overlap fs (fs / sym) fc (key u) (key v) n < 0))).getD n false)
      * overlap fs (fs / sym) fc (key u) (key v) n = -∑ v ∈ Finset.univ.erase u, |overlap fs (fs / sym) fc (key u) (key v) n| := by
    rw [← Finset.sum_neg_distrib]
    refine Finset.sum_congr rfl fun v hv => ?_
    have hne := Finset.ne_of_mem_erase hv
    rw [List.getD_eq_getElem?_getD, List.getElem?_replicate, if_pos hn, Option.getD_some]
    by_cases h0 : overlap fs (fs / sym) fc (key u) (key v) n < 0
    · rw [decide_eq_true (Or.inr h0), abs_of_neg h0]; simp [pm]
    · rw [decide_eq_false (by tauto), abs_of_nonneg (not_lt.mp h0)]; simp [pm]
  rw [hsum, List.getD_eq_getElem?_getD, List.getElem?_replicate, if_pos hn, Option.getD_some, decide_eq_true (Or.inl rfl)] at he
  simp only [pm, if_true] at he
  linarith

/-! ## Enough room -/

theorem key_product {L : ℕ} {a b : List Bool} (ha : a.length = L) (hb : b.length = L) (h : 2 * agreements a b = L) :
    ∑ c ∈ Finset.range L, pm (a.getD c false) * pm (b.getD c false) = 0 := by
  have := key_inner ha hb
  have h2 : (2 : ℝ) * (agreements a b : ℝ) = L := by exact_mod_cast h
  rw [h2, sub_self] at this
  rw [← this]
  refine Finset.sum_congr rfl fun c _ => ?_
  rw [bitToNrz_real, bitToNrz_real]
  rfl

/-- The energy of a chip. -/
theorem chipEnergy_closed {fs sps spc : ℕ} {fc : ℝ} (h : Real.sin (dphi fs fc) ≠ 0) (n c : ℕ) :
    chipEnergy fs sps spc fc n c = spc / 2 + Real.sin (spc * dphi fs fc) / Real.sin (dphi fs fc) / 2
      * Real.cos ((2 * (n * sps : ℕ) * dphi fs fc + (spc - 1) * dphi fs fc) + c * (2 * spc * dphi fs fc)) := by
  unfold chipEnergy
  have hx : Real.sin (2 * dphi fs fc / 2) ≠ 0 := by rwa [show 2 * dphi fs fc / 2 = dphi fs fc by ring]
  have e := sum_cos_block hx (2 * ((n * sps + c * spc : ℕ) : ℝ) * dphi fs fc) spc
  rw [show (spc : ℝ) * (2 * dphi fs fc) / 2 = spc * dphi fs fc by ring, show 2 * dphi fs fc / 2 = dphi fs fc by ring] at e
  have e1 : ∀ t : ℕ, Real.cos (2 * Real.pi * fc * ((n * sps + (c * spc + t) : ℕ) : ℝ) / fs) ^ 2
      = 1 / 2 + 1 / 2 * Real.cos (2 * ((n * sps + c * spc : ℕ) : ℝ) * dphi fs fc + t * (2 * dphi fs fc)) := by
    intro t
    rw [Real.cos_sq, show 2 * (2 * Real.pi * fc * ((n * sps + (c * spc + t) : ℕ) : ℝ) / fs)
      = 2 * ((n * sps + c * spc : ℕ) : ℝ) * dphi fs fc + t * (2 * dphi fs fc) by unfold dphi; push_cast; ring]
    ring
  simp only [e1]
  rw [Finset.sum_add_distrib, ← Finset.mul_sum, e, Finset.sum_const, Finset.card_range, nsmul_eq_mul,
    show 2 * ((n * sps + c * spc : ℕ) : ℝ) * dphi fs fc + (spc - 1) * (2 * dphi fs fc) / 2
      = (2 * ((n * sps : ℕ) : ℝ) * dphi fs fc + (spc - 1) * dphi fs fc) + c * (2 * spc * dphi fs fc) by push_cast; ring]
  ring

theorem sum_cos_zero {x : ℝ} {L : ℕ} (h : Real.sin (x / 2) ≠ 0) (hL : Real.sin (L * x / 2) = 0) (a : ℝ) :
    ∑ c ∈ Finset.range L, Real.cos (a + c * x) = 0 := by
  rw [sum_cos_block h, hL]; simp

/-- Signed sums of orthogonal rows. -/
theorem rows_square {U L : ℕ} (s : Finset (Fin U)) (x : Fin U → ℝ) (hx : ∀ v, x v * x v = 1) (k : Fin U → ℕ → ℝ) (hk : ∀ v c, k v c * k v c = 1)
    (ho : ∀ u v, u ≠ v → ∑ c ∈ Finset.range L, k u c * k v c = 0) :
    ∑ c ∈ Finset.range L, (∑ v ∈ s, x v * k v c) ^ 2 = L * s.card := by
  have e : ∀ c, (∑ v ∈ s, x v * k v c) ^ 2 = ∑ v ∈ s, ∑ w ∈ s, x v * x w * (k v c * k w c) := by
    intro c
    rw [pow_two, Finset.sum_mul_sum]
    refine Finset.sum_congr rfl fun v _ => Finset.sum_congr rfl fun w _ => ?_
    ring
  simp only [e]
  rw [Finset.sum_comm]
  have e2 : ∀ v ∈ s, ∑ c ∈ Finset.range L, ∑ w ∈ s, x v * x w * (k v c * k w c) = L := by
    intro v hv
    rw [Finset.sum_comm]
    rw [Finset.sum_eq_single v]
    · simp [hx, hk]
    · intro w _ hne
      rw [← Finset.mul_sum, ho v w (Ne.symm hne), mul_zero]
    · intro h; exact absurd hv h
  rw [Finset.sum_congr rfl e2, Finset.sum_const, nsmul_eq_mul, mul_comm]

/-- The own part of the decision, and a bound for that of the other users, if the keys are orthogonal and symbols last whole half carrier periods. -/
theorem room_parts {U fs sym L : ℕ} {fc : ℝ} {key : Fin U → List Bool} (hsym : 0 < sym) (hL : 0 < L) (hdvd : sym * L ∣ fs) (hnyq : 2 * (sym * L) ≤ fs)
    (hkey : ∀ u, (key u).length = L) (horth : ∀ u v, u ≠ v → 2 * agreements (key u) (key v) = L)
    {p : ℤ} (hp : 2 * fc * ((fs / sym : ℕ) : ℝ) = p * fs) (hq : ∀ q : ℤ, 4 * fc * ((fs / sym / L : ℕ) : ℝ) ≠ q * fs)
    (hsw : Real.sin (2 * Real.pi * fc / fs) ≠ 0) (u : Fin U) (x : Fin U → Bool) (n : ℕ) :
    overlap fs (fs / sym) fc (key u) (key u) n = L * ((fs / sym / L : ℕ) : ℝ) / 2 ∧
    8 * Real.sin (2 * Real.pi * fc / fs) ^ 2 * (∑ v ∈ Finset.univ.erase u, pm (x v) * overlap fs (fs / sym) fc (key u) (key v) n) ^ 2
      ≤ (L : ℝ) ^ 2 * (((U : ℝ) - 1) * Real.sin (2 * Real.pi * fc / fs * ((fs / sym / L : ℕ) : ℝ)) ^ 2) := by
  have hfs0 : 0 < fs := by have := Nat.mul_pos hsym hL; omega
  have hfsR : (fs : ℝ) ≠ 0 := by exact_mod_cast hfs0.ne'
  have hspc : fs / sym = L * (fs / sym / L) := by
    obtain ⟨q, hq⟩ := hdvd
    rw [hq, Nat.mul_assoc, Nat.mul_div_cancel_left _ hsym, Nat.mul_div_cancel_left _ hL]
  have hspcR : ((fs / sym : ℕ) : ℝ) = L * ((fs / sym / L : ℕ) : ℝ) := by exact_mod_cast hspc
  rw [show 2 * Real.pi * fc / fs = dphi fs fc by unfold dphi; ring] at hsw ⊢
  rw [hspcR] at hp
  generalize hw : dphi fs fc = w at *
  have hw' : w * fs = 2 * Real.pi * fc := by
    rw [← hw, dphi]; field_simp
  have hs2 : Real.sin (2 * ((fs / sym / L : ℕ) : ℝ) * w) ≠ 0 := by
    intro h0
    obtain ⟨q, hq'⟩ := Real.sin_eq_zero_iff.mp h0
    apply hq q
    have hpi := Real.pi_pos
    have : (q : ℝ) * Real.pi * fs = 2 * ((fs / sym / L : ℕ) : ℝ) * (w * fs) := by rw [hq']; ring
    rw [hw'] at this
    have h3 : Real.pi * (4 * fc * ((fs / sym / L : ℕ) : ℝ)) = Real.pi * (q * fs) := by linarith
    exact mul_left_cancel₀ hpi.ne' h3
  have hs1 : Real.sin (((fs / sym / L : ℕ) : ℝ) * w) ≠ 0 := by
    intro h0
    apply hs2
    rw [show 2 * ((fs / sym / L : ℕ) : ℝ) * w = 2 * (((fs / sym / L : ℕ) : ℝ) * w) by ring, Real.sin_two_mul, h0]
    ring
  have hkw : (L : ℝ) * ((fs / sym / L : ℕ) : ℝ) * w = p * Real.pi := by
    have h3 : (L : ℝ) * ((fs / sym / L : ℕ) : ℝ) * w * fs = p * Real.pi * fs := by
      rw [mul_assoc, hw']
      linear_combination Real.pi * hp
    exact mul_right_cancel₀ hfsR h3
  have hE := fun c => chipEnergy_closed (fs := fs) (sps := fs / sym) (spc := fs / sym / L) (fc := fc) (hw ▸ hsw) n c
  rw [hw] at hE
  rw [mul_comm w]
  generalize hA : 2 * ((n * (fs / sym) : ℕ) : ℝ) * w + (((fs / sym / L : ℕ) : ℝ) - 1) * w = A at hE
  generalize hq0 : ((fs / sym / L : ℕ) : ℝ) = q at *
  -- the sums over the chips of a symbol
  have hc1 : ∑ c ∈ Finset.range L, Real.cos (A + c * (2 * q * w)) = 0 := by
    refine sum_cos_zero ?_ ?_ A
    · rwa [show 2 * q * w / 2 = q * w by ring]
    · rw [show (L : ℝ) * (2 * q * w) / 2 = p * Real.pi by linarith]; exact Real.sin_int_mul_pi p
  have hc2 : ∑ c ∈ Finset.range L, Real.cos (A + c * (2 * q * w)) ^ 2 = L / 2 := by
    have h1 : ∑ c ∈ Finset.range L, Real.cos (2 * A + c * (4 * q * w)) = 0 := by
      refine sum_cos_zero ?_ ?_ (2 * A)
      · rwa [show 4 * q * w / 2 = 2 * q * w by ring]
      · rw [show (L : ℝ) * (4 * q * w) / 2 = ((2 * p : ℤ) : ℝ) * Real.pi by push_cast; linarith]; exact Real.sin_int_mul_pi _
    have h2 : ∀ c : ℕ, Real.cos (A + c * (2 * q * w)) ^ 2 = 1 / 2 + 1 / 2 * Real.cos (2 * A + c * (4 * q * w)) := by
      intro c
      rw [Real.cos_sq, show 2 * (A + c * (2 * q * w)) = 2 * A + c * (4 * q * w) by ring]
      ring
    simp only [h2]
    rw [Finset.sum_add_distrib, ← Finset.mul_sum, h1]
    simp
    ring
  have hov := fun v => overlap_chips (fc := fc) hsym hL hdvd hnyq (b := key v) (hkey u) n
  simp only [hE] at hov
  generalize hR : Real.sin (q * w) / Real.sin w / 2 = R at *
  -- the own energy
  have hown : overlap fs (fs / sym) fc (key u) (key u) n = L * q / 2 := by
    rw [hov]
    simp only [pm_sq, mul_one]
    rw [Finset.sum_add_distrib, ← Finset.mul_sum, hc1]
    simp
    ring
  have horth' : ∀ a b, a ≠ b → ∑ c ∈ Finset.range L, pm ((key a).getD c false) * pm ((key b).getD c false) = 0 :=
    fun a b hab => key_product (hkey a) (hkey b) (horth a b hab)
  -- the others
  have hoth : ∑ v ∈ Finset.univ.erase u, pm (x v) * overlap fs (fs / sym) fc (key u) (key v) n
      = ∑ c ∈ Finset.range L, R * Real.cos (A + c * (2 * q * w)) * pm ((key u).getD c false)
        * ∑ v ∈ Finset.univ.erase u, pm (x v) * pm ((key v).getD c false) := by
    simp only [Finset.mul_sum]
    rw [Finset.sum_comm]
    refine Finset.sum_congr rfl fun v hv => ?_
    have hne : u ≠ v := (Finset.ne_of_mem_erase hv).symm
    rw [hov v]
    have e : ∀ c : ℕ, (q / 2 + R * Real.cos (A + c * (2 * q * w))) * (pm ((key u).getD c false) * pm ((key v).getD c false))
        = q / 2 * (pm ((key u).getD c false) * pm ((key v).getD c false))
          + R * Real.cos (A + c * (2 * q * w)) * (pm ((key u).getD c false) * pm ((key v).getD c false)) := fun c => by ring
    simp only [e]
    rw [Finset.sum_add_distrib, ← Finset.mul_sum, horth' u v hne, mul_zero, zero_add, Finset.mul_sum]
    refine Finset.sum_congr rfl fun c _ => ?_
    ring
  have hcs := Finset.sum_mul_sq_le_sq_mul_sq (Finset.range L) (fun c : ℕ => R * Real.cos (A + c * (2 * q * w)) * pm ((key u).getD c false))
    (fun c => ∑ v ∈ Finset.univ.erase u, pm (x v) * pm ((key v).getD c false))
  rw [rows_square (Finset.univ.erase u) (fun v => pm (x v)) (fun v => pm_sq _) (fun v c => pm ((key v).getD c false))
    (fun v c => pm_sq _) horth', Finset.card_erase_of_mem (Finset.mem_univ u), Finset.card_univ, Fintype.card_fin] at hcs
  have e1 : ∀ c : ℕ, (R * Real.cos (A + c * (2 * q * w)) * pm ((key u).getD c false)) ^ 2 = R ^ 2 * Real.cos (A + c * (2 * q * w)) ^ 2 := by
    intro c
    rw [mul_pow, mul_pow, pow_two (pm _), pm_sq, mul_one]
  simp only [e1] at hcs
  rw [← Finset.mul_sum, hc2, ← hoth, Nat.cast_sub u.pos, Nat.cast_one] at hcs
  refine ⟨hown, ?_⟩
  have hR2 : 4 * R ^ 2 * Real.sin w ^ 2 = Real.sin (q * w) ^ 2 := by
    rw [← hR]; field_simp; ring
  rw [← hR2]
  have hsw2 : 0 ≤ 8 * Real.sin w ^ 2 := by positivity
  calc _ ≤ 8 * Real.sin w ^ 2 * _ := mul_le_mul_of_nonneg_left hcs hsw2
    _ = _ := by ring

/-- Orthogonal keys, symbols of whole half carrier periods: enough room for all `U` users if the carrier turns enough within a chip. -/
theorem C129_room [RIter κ ℝ] {U fs sym L N : ℕ} {fc : ℝ} {key msg : Fin U → List Bool} (h : Cell fs sym L fc key)
    (hmsg : ∀ u, (msg u).length = N) {channel : List ℝ} (hlen : channel.length = N * (fs / sym)) (hair : OnAir fs sym fc key msg channel)
    {rcv : κ} (hr : Yields rcv channel) (horth : ∀ u v, u ≠ v → 2 * agreements (key u) (key v) = L)
    {p : ℤ} (hp : 2 * fc * ((fs / sym : ℕ) : ℝ) = p * fs) (hq : ∀ q : ℤ, 4 * fc * ((fs / sym / L : ℕ) : ℝ) ≠ q * fs)
    (hroom : ((U : ℝ) - 1) * Real.sin (2 * Real.pi * fc / fs * ((fs / sym / L : ℕ) : ℝ)) ^ 2
      < 2 * (((fs / sym / L : ℕ) : ℝ) * Real.sin (2 * Real.pi * fc / fs)) ^ 2) (u : Fin U) :
    (do let rx ← rxCdmaBpsk rcv fs sym fc (key u); collect rx) = pure (msg u) := by
  have hok := (cdmaOk_real (fc := fc) h.hfs).mpr ⟨h.hsym, h.hL, h.hdvd, h.hnyq, h.hfc⟩
  have hLR : (0 : ℝ) < L := by exact_mod_cast h.hL
  have hU : (1 : ℝ) ≤ U := by exact_mod_cast u.pos
  have hq0 : (0 : ℝ) < ((fs / sym / L : ℕ) : ℝ) := by
    have := hok.spc
    exact_mod_cast (by omega : 0 < fs / sym / L)
  have hsw : Real.sin (2 * Real.pi * fc / fs) ≠ 0 := by
    intro h0
    rw [h0, mul_zero, zero_pow (by norm_num), mul_zero] at hroom
    nlinarith [sq_nonneg (Real.sin (2 * Real.pi * fc / fs * ((fs / sym / L : ℕ) : ℝ)))]
  refine own_message h hmsg hlen hair hr u fun n hn => ?_
  obtain ⟨h1, h2⟩ := room_parts h.hsym h.hL h.hdvd h.hnyq h.hkey horth hp hq hsw u (fun v => (msg v).getD n false) n
  rw [h1]
  have hs2 : 0 < 8 * Real.sin (2 * Real.pi * fc / fs) ^ 2 := by positivity
  apply abs_lt_of_sq_lt_sq _ (by positivity)
  refine lt_of_mul_lt_mul_left (lt_of_le_of_lt h2 ?_) hs2.le
  have hL2 : 0 < (L : ℝ) ^ 2 := by positivity
  refine (mul_lt_mul_of_pos_left hroom hL2).trans_eq ?_
  ring

/-! ## Too little room -/

/-- If the overlaps of `S` outweigh the own energy, in one of `2^(|S|+1)` patterns of bits at least the sum has the wrong sign. -/
theorem against_count {U : ℕ} {g : Fin U → ℝ} {u : Fin U} {S : Finset (Fin U)} {e : ℝ} (hu : u ∉ S) (hS : g u + e < ∑ v ∈ S, |g v|)
    {W : (Fin U → Bool) → Prop} (hW : ∀ x, pm (x u) * ∑ v, pm (x v) * g v < -e → W x) :
    2 ^ U ≤ 2 ^ (S.card + 1) * Nat.card {x : Fin U → Bool // W x} := by
  classical
  -- `S` set against the own bit, the others as they are or all turned
  let y : Bool → (Fin U → Bool) → Fin U → Bool := fun t x v =>
    if v = u then x u else if v ∈ S then (if g v < 0 then x u else !(x u)) else (x v ^^ t)
  have hdec : ∀ t x, ∑ v, pm (y t x v) * g v
      = pm (x u) * (g u - ∑ v ∈ S, |g v|) + (if t then -1 else 1) * ∑ v ∈ Finset.univ \ insert u S, pm (x v) * g v := by
    intro t x
    rw [← Finset.sum_sdiff (Finset.subset_univ (insert u S)), Finset.sum_insert hu, add_comm]
    congr 1
    · have h1 : y t x u = x u := by simp [y]
      have h2 : ∀ v ∈ S, pm (y t x v) * g v = -(pm (x u) * |g v|) := by
        intro v hv
        have hne : v ≠ u := fun h => hu (h ▸ hv)
        by_cases h0 : g v < 0
        · have : y t x v = x u := by simp [y, hne, hv, h0]
          rw [this, abs_of_neg h0]; ring
        · have : y t x v = !(x u) := by simp [y, hne, hv, h0]
          rw [this, pm_not, abs_of_nonneg (not_lt.mp h0)]; ring
      rw [h1, Finset.sum_congr rfl h2, Finset.sum_neg_distrib, ← Finset.mul_sum]
      ring
    · rw [Finset.mul_sum]
      refine Finset.sum_congr rfl fun v hv => ?_
      rw [Finset.mem_sdiff, Finset.mem_insert, not_or] at hv
      have h1 : y t x v = (x v ^^ t) := by simp [y, hv.2.1, hv.2.2]
      rw [h1]
      cases t
      · simp
      · rw [Bool.xor_true, pm_not]; simp
  have hbad : ∀ x, ∃ t, W (y t x) := by
    intro x
    have hy : ∀ t, y t x u = x u := fun t => by simp [y]
    have key : ∃ t : Bool, pm (x u) * ((if t then -1 else 1) * ∑ v ∈ Finset.univ \ insert u S, pm (x v) * g v) ≤ 0 := by
      rcases le_total (pm (x u) * ∑ v ∈ Finset.univ \ insert u S, pm (x v) * g v) 0 with h | h
      · exact ⟨false, by simpa using h⟩
      · exact ⟨true, by simp only [if_true]; linarith⟩
    obtain ⟨t, ht⟩ := key
    refine ⟨t, hW _ ?_⟩
    rw [hdec, hy, mul_add, ← mul_assoc, pm_sq, one_mul]
    linarith
  choose t ht using hbad
  let f : (Fin U → Bool) → (S → Bool) × Bool × {x // W x} := fun x => (fun v => x v, t x, ⟨y (t x) x, ht x⟩)
  have hf : Function.Injective f := by
    intro a b hab
    simp only [f, Prod.mk.injEq, Subtype.mk.injEq] at hab
    obtain ⟨h1, h2, h3⟩ := hab
    funext v
    have h4 := congrFun h3 v
    by_cases hv : v = u
    · subst hv; simpa [y] using h4
    by_cases hvS : v ∈ S
    · exact congrFun h1 ⟨v, hvS⟩
    · rw [h2] at h4
      simp only [y, hv, hvS, if_false] at h4
      simpa using h4
  have := Fintype.card_le_of_injective f hf
  rw [Nat.card_eq_fintype_card]
  simpa [pow_succ, mul_assoc] using this

/-- Data sets of which no symbol is among the patterns `W`. -/
theorem pattern_count {U N C : ℕ} {P : (Fin U → Fin N → Bool) → Prop} {W : Fin N → (Fin U → Bool) → Prop}
    (hP : ∀ data, P data → ∀ n, ¬ W n (fun v => data v n)) (hC : 1 ≤ C)
    (hW : ∀ n, 2 ^ U ≤ C * Nat.card {x : Fin U → Bool // W n x}) :
    Nat.card {data : Fin U → Fin N → Bool // P data} * C ^ N ≤ (C - 1) ^ N * Nat.card (Fin U → Fin N → Bool) := by
  classical
  have h2 : Nat.card {data : Fin U → Fin N → Bool // P data} ≤ Nat.card {d : Fin N → Fin U → Bool // ∀ n, ¬ W n (d n)} := by
    refine Nat.card_le_card_of_injective (fun d => ⟨fun n v => d.1 v n, hP d.1 d.2⟩) ?_
    intro a b hab
    rw [Subtype.mk.injEq] at hab
    apply Subtype.ext
    funext v n
    exact congrFun (congrFun hab n) v
  rw [Nat.card_congr (Equiv.subtypePiEquivPi (p := fun (n : Fin N) (x : Fin U → Bool) => ¬ W n x)), Nat.card_pi] at h2
  have h3 : ∀ n : Fin N, Nat.card {x : Fin U → Bool // ¬ W n x} * C ≤ (C - 1) * 2 ^ U := by
    intro n
    have hc := hW n
    rw [Nat.card_eq_fintype_card, Fintype.card_subtype] at hc ⊢
    have hsum := Finset.card_filter_add_card_filter_not (s := (Finset.univ : Finset (Fin U → Bool))) (W n)
    have hall : (Finset.univ : Finset (Fin U → Bool)).card = 2 ^ U := by simp
    rw [hall] at hsum
    change 2 ^ U ≤ C * (Finset.univ.filter (W n)).card at hc
    generalize (Finset.univ.filter (W n)).card = B at *
    generalize (Finset.univ.filter (fun x => ¬ W n x)).card = G at *
    obtain ⟨C', rfl⟩ : ∃ C', C = C' + 1 := ⟨C - 1, by omega⟩
    rw [Nat.add_sub_cancel]
    nlinarith
  have h4 : Nat.card (Fin U → Fin N → Bool) = (2 ^ U) ^ N := by
    simp [← pow_mul, mul_comm]
  rw [h4, ← mul_pow]
  calc _ ≤ (∏ n : Fin N, Nat.card {x : Fin U → Bool // ¬ W n x}) * C ^ N := Nat.mul_le_mul_right _ h2
    _ = ∏ n : Fin N, (Nat.card {x : Fin U → Bool // ¬ W n x} * C) := by
        rw [Finset.prod_mul_distrib, Finset.prod_const, Finset.card_univ, Fintype.card_fin]
    _ ≤ ∏ _n : Fin N, ((C - 1) * 2 ^ U) := Finset.prod_le_prod' fun n _ => h3 n
    _ = _ := by rw [Finset.prod_const, Finset.card_univ, Fintype.card_fin]

/-- A data set of `N` bits for each of `U` users of which user `u` gets their own back. -/
def Recovered {U N : ℕ} (fs sym : ℕ) (fc : ℝ) (key : Fin U → List Bool) (u : Fin U) (data : Fin U → Fin N → Bool) : Prop :=
  ∃ channel : List ℝ, channel.length = N * (fs / sym) ∧ OnAir fs sym fc key (fun v => List.ofFn (data v)) channel ∧
    (do let rx ← rxCdmaBpsk (ofList channel) fs sym fc (key u); collect rx) = pure (List.ofFn (data u))

/-- If the overlaps with the users `S` outweigh the own energy, at most `(1 - 1/2^(|S|+1))^N` of the data sets are recovered. -/
theorem C129_count {U fs sym L : ℕ} {fc : ℝ} {key : Fin U → List Bool} (h : Cell fs sym L fc key) (N : ℕ) (u : Fin U)
    {S : Finset (Fin U)} (hu : u ∉ S)
    (hS : ∀ n < N, overlap fs (fs / sym) fc (key u) (key u) n < ∑ v ∈ S, |overlap fs (fs / sym) fc (key u) (key v) n|) :
    Nat.card {data : Fin U → Fin N → Bool // Recovered fs sym fc key u data} * (2 ^ (S.card + 1)) ^ N
      ≤ (2 ^ (S.card + 1) - 1) ^ N * Nat.card (Fin U → Fin N → Bool) := by
  classical
  refine pattern_count (W := fun n x => decide (0 < ∑ v, pm (x v) * overlap fs (fs / sym) fc (key u) (key v) n) ≠ x u) ?_ Nat.one_le_two_pow ?_
  · rintro data ⟨channel, hlen, hair, hrx⟩ n
    rw [C129_decision h (fun v => List.length_ofFn ..) hlen hair (yields_ofList channel) (h.hkey u), RM.ok_inj] at hrx
    have := congrArg (fun l => l[n.val]?) hrx
    simp only [List.getElem?_map, List.getElem?_range n.isLt, Option.map_some, List.getElem?_ofFn, n.isLt, dif_pos,
      Option.some_inj, List.getD_eq_getElem?_getD, Option.getD_some] at this
    exact fun hm => hm this
  · intro n
    refine against_count (g := fun v => overlap fs (fs / sym) fc (key u) (key v) n) (e := 0) hu (by rw [add_zero]; exact hS n n.isLt) (fun x hx => ?_)
    rw [neg_zero] at hx
    cases hxu : x u
    · rw [hxu] at hx
      simp only [pm, Bool.false_eq_true, if_false] at hx
      rw [decide_eq_true (by simp only [pm]; linarith)]
      simp
    · rw [hxu] at hx
      simp only [pm, if_true] at hx
      rw [decide_eq_false (by simp only [pm]; linarith)]
      simp

/-! ## The settings of the unit tests -/

/-- Row `r` of the Walsh matrix of size `L`. -/
def walshRow (L r : ℕ) : List Bool := (List.range L).map (walsh r)

theorem walshRow_getD {L r c : ℕ} (h : c < L) : (walshRow L r).getD c false = walsh r c := by
  simp [walshRow, List.getD_eq_getElem?_getD, h]

theorem walshRow_length (L r : ℕ) : (walshRow L r).length = L := by simp [walshRow]

/-- The keys that the matrix of size `2^k` hands out. -/
theorem matrix_keys {k U : ℕ} (hU : U < 2 ^ k) {m : BMat} (hm : hadamardNew (2 ^ k) = pure m) {key : Fin U → List Bool}
    (hkey : ∀ u : Fin U, hadamardKey m u = pure (key u)) (u : Fin U) : key u = walshRow (2 ^ k) (u + 1) := by
  have hu : u.val % 2 ^ k = u.val := Nat.mod_eq_of_lt (by have := u.isLt; omega)
  obtain ⟨r, h1, h2, -, -⟩ := C20_key_partial k hm u (by rw [hu]; have := u.isLt; omega)
  rw [hkey u, RM.ok_inj] at h1
  rw [hadamardNew_ok, RM.ok_inj] at hm
  subst hm
  rw [h1]
  rw [hu, List.getElem?_map, List.getElem?_range (by have := u.isLt; omega), Option.map_some, Option.some_inj] at h2
  exact h2.symm

theorem matrix_orth {k U : ℕ} (hU : U < 2 ^ k) {m : BMat} (hm : hadamardNew (2 ^ k) = pure m) {key : Fin U → List Bool}
    (hkey : ∀ u : Fin U, hadamardKey m u = pure (key u)) (u v : Fin U) (huv : u ≠ v) : 2 * agreements (key u) (key v) = 2 ^ k := by
  have e : ∀ w : Fin U, m[w.val + 1]? = some (key w) := by
    intro w
    rw [matrix_keys hU hm hkey w]
    rw [hadamardNew_ok, RM.ok_inj] at hm
    subst hm
    rw [List.getElem?_map, List.getElem?_range (by have := w.isLt; omega)]
    rfl
  exact C19_orthogonal k hm (by intro h; apply huv; exact Fin.ext (by omega)) (e u) (e v)

theorem pm_walsh (r s c : ℕ) : pm (walsh r c) * pm (walsh s c) = (walshSign r s c : ℝ) := by
  unfold walshSign
  cases walsh r c <;> cases walsh s c <;> simp [pm]

/-- 16 keys at 80 000 samples per second. -/
theorem overlap16 (r s n : ℕ) : overlap 80000 (80000 / 1000) 2500 (walshRow 16 r) (walshRow 16 s) n
    = 5 / 2 * (∑ c ∈ Finset.range 16, walshSign r s c : ℤ)
      + Real.sin (5 * (Real.pi / 16)) / Real.sin (Real.pi / 16) / 2
        * ∑ c ∈ Finset.range 16, (walshSign r s c : ℝ) * Real.cos (((4 + 10 * c : ℕ) : ℝ) * (Real.pi / 16)) := by
  have hw : dphi 80000 (2500 : ℝ) = Real.pi / 16 := by unfold dphi; push_cast; ring
  have h0 := sin_sixteenth_lo
  rw [overlap_chips (sym := 1000) (L := 16) (by norm_num) (by norm_num) (by norm_num) (by norm_num) (walshRow_length ..), Finset.mul_sum,
    Int.cast_sum, Finset.mul_sum, ← Finset.sum_add_distrib]
  refine Finset.sum_congr rfl fun c hc => ?_
  have hc := Finset.mem_range.mp hc
  rw [chipEnergy_closed (by rw [hw]; linarith), walshRow_getD hc, walshRow_getD hc, pm_walsh, hw]
  have e : Real.cos (2 * ((n * (80000 / 1000) : ℕ) : ℝ) * (Real.pi / 16) + (((80000 / 1000 / 16 : ℕ) : ℝ) - 1) * (Real.pi / 16)
      + c * (2 * ((80000 / 1000 / 16 : ℕ) : ℝ) * (Real.pi / 16))) = Real.cos (((4 + 10 * c : ℕ) : ℝ) * (Real.pi / 16)) := by
    rw [← Real.cos_add_nat_mul_two_pi (((4 + 10 * c : ℕ) : ℝ) * (Real.pi / 16)) (5 * n)]
    congr 1
    norm_num
    ring
  rw [e]
  norm_num
  ring

/-- The users of rows 14, 11, 8 and 13 outweigh the user of row 1. -/
theorem outweighed16 (n : ℕ) : overlap 80000 (80000 / 1000) 2500 (walshRow 16 1) (walshRow 16 1) n + 1 / 2
    < |overlap 80000 (80000 / 1000) 2500 (walshRow 16 1) (walshRow 16 14) n| + |overlap 80000 (80000 / 1000) 2500 (walshRow 16 1) (walshRow 16 11) n|
      + |overlap 80000 (80000 / 1000) 2500 (walshRow 16 1) (walshRow 16 8) n| + |overlap 80000 (80000 / 1000) 2500 (walshRow 16 1) (walshRow 16 13) n| := by
  have z : ∀ s ∈ [14, 11, 8, 13], ∑ c ∈ Finset.range 16, walshSign 1 s c = 0 := by decide +kernel
  have hown : ∀ i < 8, ∑ c ∈ Finset.range 16, walshSign 1 1 c * cosCoef (4 + 10 * c) i = [0, 0, 0, 0, 0, 0, 0, 0].getD i 0 := by decide +kernel
  have zown : ∑ c ∈ Finset.range 16, walshSign 1 1 c = 16 := by decide +kernel
  have o1 := overlap16 1 1 n
  have o14 := overlap16 1 14 n
  have o11 := overlap16 1 11 n
  have o8 := overlap16 1 8 n
  have o13 := overlap16 1 13 n
  rw [zown, cos_signs _ _ _ hown] at o1
  rw [z 14 (by simp), cos_signs _ _ _ walsh16_14] at o14
  rw [z 11 (by simp), cos_signs _ _ _ walsh16_11] at o11
  rw [z 8 (by simp), cos_signs _ _ _ walsh16_8] at o8
  rw [z 13 (by simp), cos_signs _ _ _ walsh16_13] at o13
  have hR := ratio16
  generalize Real.sin (5 * (Real.pi / 16)) / Real.sin (Real.pi / 16) = R at *
  simp [Finset.sum_range_succ] at o1 o14 o11 o8 o13
  have h2 := cos2_lo
  have h4 := cos4_lo
  have h6 := cos6_lo
  have a14 := le_abs_self (overlap 80000 (80000 / 1000) 2500 (walshRow 16 1) (walshRow 16 14) n)
  have a11 := neg_le_abs (overlap 80000 (80000 / 1000) 2500 (walshRow 16 1) (walshRow 16 11) n)
  have a8 := le_abs_self (overlap 80000 (80000 / 1000) 2500 (walshRow 16 1) (walshRow 16 8) n)
  have a13 := le_abs_self (overlap 80000 (80000 / 1000) 2500 (walshRow 16 1) (walshRow 16 13) n)
  have hT : (19.8 : ℝ) ≤ 4 + 8 * Real.cos (2 * (Real.pi / 16)) + 8 * Real.cos (4 * (Real.pi / 16)) + 8 * Real.cos (6 * (Real.pi / 16)) := by
    linarith
  have hprod := mul_le_mul hR hT (by norm_num) (by linarith)
  norm_num at o1
  linarith

/-- 32 keys at 256 000 samples per second. -/
theorem overlap32 (r s n : ℕ) : overlap 256000 (256000 / 1000) 2500 (walshRow 32 r) (walshRow 32 s) n
    = 4 * (∑ c ∈ Finset.range 32, walshSign r s c : ℤ)
      + Real.sin (8 * (5 * Real.pi / 256)) / Real.sin (5 * Real.pi / 256) / 2
        * ((∑ c ∈ Finset.range 32, (walshSign r s c : ℝ) * Real.cos (((5 * c : ℕ) : ℝ) * (Real.pi / 16))) * Real.cos (35 * Real.pi / 256)
          - (∑ c ∈ Finset.range 32, (walshSign r s c : ℝ) * Real.cos (((5 * c + 24 : ℕ) : ℝ) * (Real.pi / 16))) * Real.sin (35 * Real.pi / 256)) := by
  have hw : dphi 256000 (2500 : ℝ) = 5 * Real.pi / 256 := by unfold dphi; push_cast; ring
  have hpi := Real.pi_pos
  have h0 : 0 < Real.sin (5 * Real.pi / 256) := Real.sin_pos_of_pos_of_lt_pi (by positivity) (by linarith)
  rw [overlap_chips (sym := 1000) (L := 32) (by norm_num) (by norm_num) (by norm_num) (by norm_num) (walshRow_length ..), Finset.sum_mul,
    Finset.sum_mul, ← Finset.sum_sub_distrib, Finset.mul_sum, Int.cast_sum, Finset.mul_sum, ← Finset.sum_add_distrib]
  refine Finset.sum_congr rfl fun c hc => ?_
  have hc := Finset.mem_range.mp hc
  rw [chipEnergy_closed (by rw [hw]; exact h0.ne'), walshRow_getD hc, walshRow_getD hc, pm_walsh, hw]
  have e : Real.cos (2 * ((n * (256000 / 1000) : ℕ) : ℝ) * (5 * Real.pi / 256) + (((256000 / 1000 / 32 : ℕ) : ℝ) - 1) * (5 * Real.pi / 256)
      + c * (2 * ((256000 / 1000 / 32 : ℕ) : ℝ) * (5 * Real.pi / 256)))
      = Real.cos (((5 * c : ℕ) : ℝ) * (Real.pi / 16)) * Real.cos (35 * Real.pi / 256)
        - Real.cos (((5 * c + 24 : ℕ) : ℝ) * (Real.pi / 16)) * Real.sin (35 * Real.pi / 256) := by
    have e1 : Real.cos (((5 * c + 24 : ℕ) : ℝ) * (Real.pi / 16)) = Real.sin (((5 * c : ℕ) : ℝ) * (Real.pi / 16)) := by
      rw [← Real.cos_sub_pi_div_two, ← Real.cos_add_two_pi (((5 * c : ℕ) : ℝ) * (Real.pi / 16) - Real.pi / 2)]
      congr 1; push_cast; ring
    rw [e1, ← Real.cos_add, ← Real.cos_add_nat_mul_two_pi (((5 * c : ℕ) : ℝ) * (Real.pi / 16) + 35 * Real.pi / 256) (5 * n)]
    congr 1
    norm_num
    ring
  rw [e]
  norm_num
  ring

/-- The users of rows 31, 21 and 22 outweigh the user of row 1. -/
theorem outweighed32 (n : ℕ) : overlap 256000 (256000 / 1000) 2500 (walshRow 32 1) (walshRow 32 1) n
    < |overlap 256000 (256000 / 1000) 2500 (walshRow 32 1) (walshRow 32 31) n| + |overlap 256000 (256000 / 1000) 2500 (walshRow 32 1) (walshRow 32 21) n|
      + |overlap 256000 (256000 / 1000) 2500 (walshRow 32 1) (walshRow 32 22) n| := by
  have z : ∀ s ∈ [31, 21, 22], ∑ c ∈ Finset.range 32, walshSign 1 s c = 0 := by decide +kernel
  have hown : ∀ i < 8, ∑ c ∈ Finset.range 32, walshSign 1 1 c * cosCoef (5 * c) i = [0, 0, 0, 0, 0, 0, 0, 0].getD i 0 := by decide +kernel
  have hown' : ∀ i < 8, ∑ c ∈ Finset.range 32, walshSign 1 1 c * cosCoef (5 * c + 24) i = [0, 0, 0, 0, 0, 0, 0, 0].getD i 0 := by decide +kernel
  have zown : ∑ c ∈ Finset.range 32, walshSign 1 1 c = 32 := by decide +kernel
  have o1 := overlap32 1 1 n
  have o31 := overlap32 1 31 n
  have o21 := overlap32 1 21 n
  have o22 := overlap32 1 22 n
  rw [zown, cos_signs _ _ _ hown, cos_signs _ _ _ hown'] at o1
  rw [z 31 (by simp), cos_signs _ _ _ walsh32_31, cos_signs _ _ _ walsh32_31'] at o31
  rw [z 21 (by simp), cos_signs _ _ _ walsh32_21, cos_signs _ _ _ walsh32_21'] at o21
  rw [z 22 (by simp), cos_signs _ _ _ walsh32_22, cos_signs _ _ _ walsh32_22'] at o22
  have hR := ratio32
  generalize Real.sin (8 * (5 * Real.pi / 256)) / Real.sin (5 * Real.pi / 256) = R at *
  simp [Finset.sum_range_succ, -Real.cos_pi_div_sixteen] at o1 o31 o21 o22
  have h1 := cos1_lo
  rw [one_mul] at h1
  have h2 := cos2_lo
  have h3 := cos3_lo
  have h4 := cos4_lo
  have h5 := cos5_lo
  have h6 := cos6_lo
  have h7 := cos7_hi
  have a31 := le_abs_self (overlap 256000 (256000 / 1000) 2500 (walshRow 32 1) (walshRow 32 31) n)
  have a21 := neg_le_abs (overlap 256000 (256000 / 1000) 2500 (walshRow 32 1) (walshRow 32 21) n)
  have a22 := le_abs_self (overlap 256000 (256000 / 1000) 2500 (walshRow 32 1) (walshRow 32 22) n)
  have hco := cos35_lo
  have hsi := sin35_lo
  have hR2 : (0 : ℝ) ≤ R := by linarith
  generalize Real.cos (35 * Real.pi / 256) = p at *
  generalize Real.sin (35 * Real.pi / 256) = q at *
  generalize Real.cos (Real.pi / 16) = c1 at *
  generalize Real.cos (2 * (Real.pi / 16)) = c2 at *
  generalize Real.cos (3 * (Real.pi / 16)) = c3 at *
  generalize Real.cos (4 * (Real.pi / 16)) = c4 at *
  generalize Real.cos (5 * (Real.pi / 16)) = c5 at *
  generalize Real.cos (6 * (Real.pi / 16)) = c6 at *
  generalize Real.cos (7 * (Real.pi / 16)) = c7 at *
  have hP : (2971 / 100 : ℝ) ≤ 2 + 8 * c1 + 8 * c2 + 8 * c3 + 4 * c4 + 8 * c6 := by linarith
  have hQ : (1587 / 100 : ℝ) ≤ 2 + 4 * c1 + 4 * c2 + 4 * c3 + 4 * c5 + 4 * c6 - 4 * c7 := by linarith
  have m1 := mul_le_mul hP hco (by norm_num) (by linarith)
  have m2 := mul_le_mul hQ hsi (by norm_num) (by linarith)
  have m3 := mul_le_mul hR (add_le_add m1 m2) (by norm_num) hR2
  norm_num at o1 m3
  rw [o1]
  rw [o31] at a31
  rw [o21] at a21
  rw [o22] at a22
  rw [o31, o21, o22]
  linarith

theorem walsh_double (r c : ℕ) : walsh (2 * r) c = walsh r (c / 2) := by
  have h : 2 * r &&& c = 2 * (r &&& c / 2) := by
    apply Nat.eq_of_testBit_eq
    intro i
    cases i with
    | zero => simp [Nat.testBit_zero]
    | succ i =>
      rw [Nat.testBit_and, Nat.testBit_succ (2 * r), Nat.testBit_succ c, Nat.testBit_succ (2 * (r &&& c / 2))]
      simp
  have h2 : popcount (2 * (r &&& c / 2)) = popcount (r &&& c / 2) := by
    conv_lhs => rw [popcount]
    by_cases h0 : r &&& c / 2 = 0
    · rw [h0]; simp [popcount]
    · rw [if_neg (by omega)]; simp
  unfold walsh
  rw [h, h2]

/-- 64 keys, even rows: as the rows of half the index of 32 keys. -/
theorem overlap64 (r s n : ℕ) : overlap 256000 (256000 / 1000) 2500 (walshRow 64 (2 * r)) (walshRow 64 (2 * s)) n
    = overlap 256000 (256000 / 1000) 2500 (walshRow 32 r) (walshRow 32 s) n := by
  unfold overlap
  refine Finset.sum_congr rfl fun j hj => ?_
  have hj := Finset.mem_range.mp hj
  norm_num at hj
  rw [walshRow_length, walshRow_length]
  norm_num only
  have e : j / 4 / 2 = j / 8 := by omega
  rw [walshRow_getD (by omega), walshRow_getD (by omega), walshRow_getD (by omega), walshRow_getD (by omega), walsh_double, walsh_double, e]

/-- The data sets of `N` bits for each of `U` users that all users get back, as the unit test asserts (src/cdma.rs:346-404). -/
def Passes {U N : ℕ} (fs sym : ℕ) (fc : ℝ) (key : Fin U → List Bool) (data : Fin U → Fin N → Bool) : Prop :=
  ∀ u, Recovered fs sym fc key u data

theorem passes_count {U fs sym L : ℕ} {fc : ℝ} {key : Fin U → List Bool} (h : Cell fs sym L fc key) (N : ℕ) (u : Fin U)
    {S : Finset (Fin U)} (hu : u ∉ S)
    (hS : ∀ n < N, overlap fs (fs / sym) fc (key u) (key u) n < ∑ v ∈ S, |overlap fs (fs / sym) fc (key u) (key v) n|) :
    Nat.card {data : Fin U → Fin N → Bool // Passes fs sym fc key data} * (2 ^ (S.card + 1)) ^ N
      ≤ (2 ^ (S.card + 1) - 1) ^ N * Nat.card (Fin U → Fin N → Bool) :=
  (Nat.mul_le_mul_right _ (Nat.card_le_card_of_injective (fun d => ⟨d.1, d.2 u⟩)
    (fun a b hab => Subtype.ext (by simpa using hab)))).trans (C129_count h N u hu hS)

/-- 16 keys, 15 users at 80 000 samples per second: at most `31^N` of every `32^N` data sets of `N` bits per user pass. -/
theorem C129_sixteen {m : BMat} (hm : hadamardNew 16 = pure m) {key : Fin 15 → List Bool} (hkey : ∀ u : Fin 15, hadamardKey m u = pure (key u)) (N : ℕ) :
    Nat.card {data : Fin 15 → Fin N → Bool // Passes 80000 1000 2500 key data} * 32 ^ N
      ≤ 31 ^ N * Nat.card (Fin 15 → Fin N → Bool) := by
  have hk := matrix_keys (k := 4) (by norm_num) hm hkey
  have := passes_count (fs := 80000) (sym := 1000) (L := 16) (fc := 2500) (key := key)
    ⟨by norm_num, by norm_num, by norm_num, by norm_num, by norm_num, by norm_num, fun u => by rw [hk u]; exact walshRow_length ..⟩ N 0
    (S := {13, 10, 7, 12}) (by decide) (fun n _ => by
      have := lt_trans (lt_add_of_pos_right _ (by norm_num)) (outweighed16 n)
      simp only [hk]
      rw [Finset.sum_insert (by decide), Finset.sum_insert (by decide), Finset.sum_insert (by decide), Finset.sum_singleton]
      exact this.trans_eq (by norm_num [add_assoc]))
  simpa using this

/-- 32 keys, 31 users at 256 000 samples per second: at most `15^N` of every `16^N`. -/
theorem C129_thirtytwo {m : BMat} (hm : hadamardNew 32 = pure m) {key : Fin 31 → List Bool} (hkey : ∀ u : Fin 31, hadamardKey m u = pure (key u)) (N : ℕ) :
    Nat.card {data : Fin 31 → Fin N → Bool // Passes 256000 1000 2500 key data} * 16 ^ N
      ≤ 15 ^ N * Nat.card (Fin 31 → Fin N → Bool) := by
  have hk := matrix_keys (k := 5) (by norm_num) hm hkey
  have := passes_count (fs := 256000) (sym := 1000) (L := 32) (fc := 2500) (key := key)
    ⟨by norm_num, by norm_num, by norm_num, by norm_num, by norm_num, by norm_num, fun u => by rw [hk u]; exact walshRow_length ..⟩ N 0
    (S := {30, 20, 21}) (by decide) (fun n _ => by
      have := outweighed32 n
      simp only [hk]
      rw [Finset.sum_insert (by decide), Finset.sum_insert (by decide), Finset.sum_singleton]
      exact this.trans_eq (by norm_num [add_assoc]))
  simpa using this

/-- 64 keys, 63 users at 256 000 samples per second: at most `15^N` of every `16^N`. -/
theorem C129_sixtyfour {m : BMat} (hm : hadamardNew 64 = pure m) {key : Fin 63 → List Bool} (hkey : ∀ u : Fin 63, hadamardKey m u = pure (key u)) (N : ℕ) :
    Nat.card {data : Fin 63 → Fin N → Bool // Passes 256000 1000 2500 key data} * 16 ^ N
      ≤ 15 ^ N * Nat.card (Fin 63 → Fin N → Bool) := by
  have hk := matrix_keys (k := 6) (by norm_num) hm hkey
  have := passes_count (fs := 256000) (sym := 1000) (L := 64) (fc := 2500) (key := key)
    ⟨by norm_num, by norm_num, by norm_num, by norm_num, by norm_num, by norm_num, fun u => by rw [hk u]; exact walshRow_length ..⟩ N 1
    (S := {61, 41, 43}) (by decide) (fun n _ => by
      have := outweighed32 n
      rw [← overlap64, ← overlap64, ← overlap64, ← overlap64] at this
      simp only [hk]
      rw [Finset.sum_insert (by decide), Finset.sum_insert (by decide), Finset.sum_singleton]
      exact this.trans_eq (by norm_num [add_assoc]))
  simpa using this

/-- 4 keys, 3 users and 8 keys, 7 users at 80 000 samples per second: every data set passes. -/
theorem C129_few {k : ℕ} (hk : k = 2 ∨ k = 3) {U : ℕ} (hU : U < 2 ^ k) {m : BMat} (hm : hadamardNew (2 ^ k) = pure m) {key : Fin U → List Bool}
    (hkey : ∀ u : Fin U, hadamardKey m u = pure (key u)) {N : ℕ} (data : Fin U → Fin N → Bool) : Passes 80000 1000 2500 key data := by
  have hkeys := matrix_keys hU hm hkey
  have hcell : Cell 80000 1000 (2 ^ k) 2500 key := by
    refine ⟨by norm_num, by norm_num, by positivity, ?_, ?_, by norm_num, fun u => by rw [hkeys u]; exact walshRow_length ..⟩
    · rcases hk with rfl | rfl <;> norm_num
    · rcases hk with rfl | rfl <;> norm_num
  have hmsg : ∀ u, (List.ofFn (data u)).length = N := fun u => List.length_ofFn ..
  obtain ⟨channel, hlen, hair⟩ := C129_on_air hcell hmsg
  intro u
  refine ⟨channel, hlen, hair, ?_⟩
  refine C129_room hcell hmsg hlen hair (yields_ofList channel) (matrix_orth hU hm hkey) (p := 5) (by norm_num) ?_ ?_ u
  · intro q hq
    rcases hk with rfl | rfl
    · norm_num at hq
      have : (200000 : ℤ) = q * 80000 := by exact_mod_cast hq
      omega
    · norm_num at hq
      have : (100000 : ℤ) = q * 80000 := by exact_mod_cast hq
      omega
  · have hs := sin_sixteenth_lo
    rw [show 2 * Real.pi * 2500 / ((80000 : ℕ) : ℝ) = Real.pi / 16 by push_cast; ring]
    have h1 := Real.sin_sq_le_one (Real.pi / 16 * ((80000 / 1000 / 2 ^ k : ℕ) : ℝ))
    have hU1 : (1 : ℝ) ≤ U := by exact_mod_cast u.pos
    have hU2 : (U : ℝ) ≤ 7 := by
      have : U ≤ 7 := by rcases hk with rfl | rfl <;> omega
      exact_mod_cast this
    have hspc : (10 : ℝ) ≤ ((80000 / 1000 / 2 ^ k : ℕ) : ℝ) := by
      rcases hk with rfl | rfl <;> norm_num
    have h2 : ((U : ℝ) - 1) * Real.sin (Real.pi / 16 * ((80000 / 1000 / 2 ^ k : ℕ) : ℝ)) ^ 2 ≤ 6 * 1 :=
      mul_le_mul (by linarith) h1 (sq_nonneg _) (by norm_num)
    have h3 := mul_le_mul hspc hs (by norm_num) (by linarith)
    nlinarith

/-! ## Examples -/

/-- Keys for the tests exist. -/
theorem keys_exist {k U n : ℕ} (hn : n = 2 ^ k) (hU : U < n) : ∃ (m : BMat) (key : Fin U → List Bool), hadamardNew n = pure m ∧
    (∀ u : Fin U, hadamardKey m u = pure (key u)) ∧ ∀ u : Fin U, key u = walshRow n (u + 1) := by
  subst hn
  have h : ∀ u : Fin U, ∃ r, hadamardKey _ u.val = pure r := fun u => by
    obtain ⟨r, h1, -⟩ := C20_key_partial k (hadamardNew_ok k) u.val (by rw [Nat.mod_eq_of_lt (by omega)]; omega)
    exact ⟨r, h1⟩
  choose key hkey using h
  exact ⟨_, key, hadamardNew_ok k, hkey, matrix_keys hU (hadamardNew_ok k) hkey⟩

theorem cell16 : Cell 80000 1000 16 2500 (fun u : Fin 15 => walshRow 16 (u + 1)) :=
  ⟨by norm_num, by norm_num, by norm_num, by norm_num, by norm_num, by norm_num, fun _ => walshRow_length ..⟩

theorem cell4 : Cell 80000 1000 4 2500 (fun u : Fin 3 => walshRow 4 (u + 1)) :=
  ⟨by norm_num, by norm_num, by norm_num, by norm_num, by norm_num, by norm_num, fun _ => walshRow_length ..⟩

/-- `C129_decision` and `C129_on_air` with 15 users. -/
example (msg : Fin 15 → List Bool) (hmsg : ∀ u, (msg u).length = 2) : ∃ channel, channel.length = 2 * (80000 / 1000) ∧
    OnAir 80000 1000 2500 (fun u : Fin 15 => walshRow 16 (u + 1)) msg channel ∧
    (do let rx ← rxCdmaBpsk (ofList channel) 80000 1000 (2500 : ℝ) (walshRow 16 5); collect rx)
      = pure ((List.range 2).map (fun n => decide (0 < ∑ u : Fin 15, pm ((msg u).getD n false)
        * overlap 80000 (80000 / 1000) 2500 (walshRow 16 5) (walshRow 16 (u + 1)) n))) := by
  obtain ⟨channel, h1, h2⟩ := C129_on_air cell16 hmsg
  exact ⟨channel, h1, h2, C129_decision cell16 hmsg h1 h2 (yields_ofList channel) (walshRow_length ..)⟩

/-- `C129_few` with 4 keys. -/
example (data : Fin 3 → Fin 1000 → Bool) : ∃ (m : BMat) (key : Fin 3 → List Bool), hadamardNew 4 = pure m ∧
    (∀ u : Fin 3, hadamardKey m u = pure (key u)) ∧ Passes 80000 1000 2500 key data := by
  obtain ⟨m, key, h1, h2, -⟩ := keys_exist (k := 2) (U := 3) (n := 4) (by norm_num) (by norm_num)
  exact ⟨m, key, h1, h2, C129_few (Or.inl rfl) (by norm_num) h1 h2 data⟩

/-- `C129_separates` with one user. -/
example : ∃ channel, channel.length = 2 * (80000 / 1000) ∧
    OnAir 80000 1000 2500 (fun _ : Fin 1 => walshRow 16 3) (fun _ => [true, false]) channel ∧
    (do let rx ← rxCdmaBpsk (ofList channel) 80000 1000 (2500 : ℝ) (walshRow 16 3); collect rx) = pure [true, false] := by
  have hc : Cell 80000 1000 16 2500 (fun _ : Fin 1 => walshRow 16 3) :=
    ⟨by norm_num, by norm_num, by norm_num, by norm_num, by norm_num, by norm_num, fun _ => walshRow_length ..⟩
  obtain ⟨channel, h1, h2⟩ := C129_on_air hc (msg := fun _ => [true, false]) (N := 2) (fun _ => rfl)
  refine ⟨channel, h1, h2, C129_separates hc (fun _ => rfl) h1 h2 (yields_ofList channel) 0 fun n _ => ?_⟩
  have h0 : overlap 80000 (80000 / 1000) 2500 (walshRow 16 3) (walshRow 16 3) n = 40 := by
    have hown : ∀ i < 8, ∑ c ∈ Finset.range 16, walshSign 3 3 c * cosCoef (4 + 10 * c) i = [0, 0, 0, 0, 0, 0, 0, 0].getD i 0 := by decide +kernel
    have zown : ∑ c ∈ Finset.range 16, walshSign 3 3 c = 16 := by decide +kernel
    rw [overlap16, cos_signs _ _ _ hown, zown]
    simp [Finset.sum_range_succ]
    norm_num
  rw [h0]
  simp

/-- `C129_only`: the user of row 1 among 15. -/
example : ∃ msg : Fin 15 → List Bool, (∀ v, (msg v).length = 1) ∧ ∀ channel : List ℝ, channel.length = 1 * (80000 / 1000) →
    OnAir 80000 1000 2500 (fun u : Fin 15 => walshRow 16 (u + 1)) msg channel →
      (do let rx ← rxCdmaBpsk (ofList channel) 80000 1000 (2500 : ℝ) (walshRow 16 1); collect rx) ≠ pure (msg 0) := by
  refine C129_only cell16 0 (n := 0) (by norm_num) ?_
  have h := lt_trans (lt_add_of_pos_right _ (by norm_num)) (outweighed16 0)
  have hsub : ({13, 10, 7, 12} : Finset (Fin 15)) ⊆ Finset.univ.erase 0 := by decide
  refine le_trans (le_of_lt ?_) (Finset.sum_le_sum_of_subset_of_nonneg hsub (fun _ _ _ => abs_nonneg _))
  rw [Finset.sum_insert (by decide), Finset.sum_insert (by decide), Finset.sum_insert (by decide), Finset.sum_singleton]
  exact h.trans_eq (by norm_num [add_assoc])

/-- `C129_sixteen`; the unit test has `N = 1000`. -/
example (N : ℕ) : ∃ (m : BMat) (key : Fin 15 → List Bool), hadamardNew 16 = pure m ∧ (∀ u : Fin 15, hadamardKey m u = pure (key u)) ∧
    Nat.card {data : Fin 15 → Fin N → Bool // Passes 80000 1000 2500 key data} * 32 ^ N ≤ 31 ^ N * Nat.card (Fin 15 → Fin N → Bool) := by
  obtain ⟨m, key, h1, h2, -⟩ := keys_exist (k := 4) (U := 15) (n := 16) (by norm_num) (by norm_num)
  exact ⟨m, key, h1, h2, C129_sixteen h1 h2 N⟩

/-- `C129_thirtytwo`; the unit test has `N = 1000`. -/
example (N : ℕ) : ∃ (m : BMat) (key : Fin 31 → List Bool), hadamardNew 32 = pure m ∧ (∀ u : Fin 31, hadamardKey m u = pure (key u)) ∧
    Nat.card {data : Fin 31 → Fin N → Bool // Passes 256000 1000 2500 key data} * 16 ^ N ≤ 15 ^ N * Nat.card (Fin 31 → Fin N → Bool) := by
  obtain ⟨m, key, h1, h2, -⟩ := keys_exist (k := 5) (U := 31) (n := 32) (by norm_num) (by norm_num)
  exact ⟨m, key, h1, h2, C129_thirtytwo h1 h2 N⟩

/-- `C129_sixtyfour`; the unit test has `N = 1000`. -/
example (N : ℕ) : ∃ (m : BMat) (key : Fin 63 → List Bool), hadamardNew 64 = pure m ∧ (∀ u : Fin 63, hadamardKey m u = pure (key u)) ∧
    Nat.card {data : Fin 63 → Fin N → Bool // Passes 256000 1000 2500 key data} * 16 ^ N ≤ 15 ^ N * Nat.card (Fin 63 → Fin N → Bool) := by
  obtain ⟨m, key, h1, h2, -⟩ := keys_exist (k := 6) (U := 63) (n := 64) (by norm_num) (by norm_num)
  exact ⟨m, key, h1, h2, C129_sixtyfour h1 h2 N⟩

end Verif.Props
