import Verif.Props.ManyUsers
import Verif.Props.IeeeCdma
import Verif.Props.IeeeRx

/-!
# Property C129 in double precision

Fifteen users on 16 keys with the settings of the unit test: the samples added in double precision, one user after the other.
-/
namespace Verif.Props
open Verif Spec F64

/-- User `u` gets their data back: transmitters, sum and receiver in double precision. -/
def RecoveredL {L : Libm} {U N : ℕ} (fs sym : ℕ) (fc : FloatL L) (key : _root_.Fin U → List Bool) (u : _root_.Fin U)
    (data : _root_.Fin U → _root_.Fin N → Bool) : Prop :=
  ∃ signal : _root_.Fin U → List (FloatL L),
    (∀ v, (do let tx ← txCdmaBpsk (ofList (List.ofFn (data v))) fs sym fc (key v); collect tx) = pure (signal v)) ∧
    (do let rx ← rxCdmaBpsk (ofList (addUp (N * (fs / sym)) (List.ofFn signal))) fs sym fc (key u); collect rx) = pure (List.ofFn (data u))

/-- A transmitted sample. -/
theorem sent_chip {L : Libm} {ε : ℝ} (hL : Accurate L ε (2 ^ 40)) {N fs sym : ℕ} {fc : FloatL L} {key : List Bool} (hfs : fs < 2 ^ 53) (hfs0 : 0 < fs)
    (hok : CdmaOk fs sym fc key.length) (hlen : N * (fs / sym) ≤ 2 ^ 32) (hf : F64.Fin fc) (hlo : 1 / 2 ^ 100 ≤ val fc) (hhi : val fc ≤ fs / 2)
    {msg : List Bool} (hmsg : msg.length = N) {s : List (FloatL L)}
    (ht : (do let tx ← txCdmaBpsk (ofList msg) fs sym fc key; collect tx) = pure s) {i : ℕ} (hi : i < N * (fs / sym)) :
    Ap (s.getD i 0) (pm (msg.getD (i / (fs / sym)) false) * Real.cos (angle fs (val fc) i) * chip key (fs / sym) i) (ε + 1 / 2 ^ 15) := by
  have hsps : 0 < fs / sym := by
    rcases Nat.eq_zero_or_pos (fs / sym) with h | h
    · rw [h, Nat.mul_zero] at hi; omega
    · exact h
  obtain ⟨it, e1, e2⟩ := txCdmaBpsk_ok (yields_ofList msg) hok
  rw [e1, pure_bind, collect_of_yields e2, RM.ok_inj] at ht
  have hq : i / (fs / sym) < msg.length := by rw [hmsg, Nat.div_lt_iff_lt_mul hsps]; omega
  have near : Ap (L.cos (phase fs fc i)) (Real.cos (i * dphi fs (val fc))) (ε + 1 / 2 ^ 15) :=
    (carrier_near hL (i := i) hfs0 hfs (by omega) hf hlo hhi).1
  rw [← ht, List.getD_eq_getElem?_getD, List.getElem?_mapIdx, wave_getElem? hsps, List.getElem?_eq_getElem hq]
  simp only [Option.map_some, Option.getD_some]
  rw [Nat.mul_comm (i / (fs / sym)), Nat.div_add_mod, List.getD_eq_getElem?_getD, List.getElem?_eq_getElem hq, Option.getD_some, angle_dphi]
  exact (near.nrz_mul _).mul_nrz _

/-- The sum over all users, added from left to right. -/
theorem summed_chip {U : ℕ} (hU : U ≤ 64) {a : _root_.Fin U → Float} {r : _root_.Fin U → ℝ} {e : ℝ} (he : e ≤ 1 / 2 ^ 14) (h : ∀ v, Ap (a v) (r v) e)
    (hr : ∀ v, |r v| ≤ 1) : Ap (rsum (List.ofFn a)) (∑ v, r v) (U * (e + 1 / 2 ^ 30)) := by
  have hUR : (U : ℝ) ≤ 64 := by exact_mod_cast hU
  have hU0 : (0 : ℝ) ≤ U := by positivity
  have ht := tiny_le (k := 60) (by norm_num)
  rcases Nat.eq_zero_or_pos U with h0 | hpos
  · subst h0
    simp [rsum]
    exact ⟨fin_zero, by show |val 0 - _| ≤ _; rw [val_zero]; simp⟩
  have he0 : 0 ≤ e := (h ⟨0, hpos⟩).nonneg
  have main := Ap.rsum (a := fun j => if hj : j < U then a ⟨j, hj⟩ else 0) (r := fun j => if hj : j < U then r ⟨j, hj⟩ else 0) (n := U) (B := 1)
    (e := e) (t := 1 / 2 ^ 30) (fun j hj => by simp only [hj, dif_pos]; exact h _) (fun j hj => by simp only [hj, dif_pos]; exact hr _) (by norm_num)
    (le_big (k := 40) (by norm_num) (by norm_num at he ⊢; nlinarith)) (by rw [uu_eq]; norm_num at ht he ⊢; nlinarith)
  rw [Finset.sum_range] at main
  simp only [Fin.is_lt, dif_pos, Fin.eta] at main
  convert main using 2
  rw [List.ofFn_eq_map, ← List.map_coe_finRange_eq_range, List.map_map]
  refine List.map_congr_left fun v _ => ?_
  simp

theorem chip_sq (key : List Bool) (k i : ℕ) : chip key k i * chip key k i = 1 := pm_sq _

/-- Symbol `n`, sample `n k + j`: the chip is the chip of sample `j`. -/
theorem chip_inside {key : List Bool} {k q : ℕ} (hk : k = key.length * q) (hq : 0 < q) (hl : 0 < key.length) {n j : ℕ} (hj : j < k) :
    chip key k (n * k + j) = pm (key.getD (j / (k / key.length)) false) := by
  unfold chip
  have e : k / key.length = q := by rw [hk, Nat.mul_div_cancel_left _ hl]
  rw [e]
  have h1 : (n * k + j) / q = n * key.length + j / q := by
    rw [hk, ← Nat.mul_assoc, Nat.add_comm, Nat.add_mul_div_right _ _ hq, Nat.add_comm]
  have h2 : j / q < key.length := by
    rw [Nat.div_lt_iff_lt_mul hq, ← hk]; exact hj
  rw [h1, Nat.mul_comm n, Nat.mul_add_mod, Nat.mod_eq_of_lt h2]

/-- What a receiver in double precision decides, where the exact sum is not too close to zero. -/
theorem C129_decision_ieee {L : Libm} {ε : ℝ} (hε : ε ≤ 1 / 2 ^ 16) (hL : Accurate L ε (2 ^ 40)) {U fs sym K N : ℕ} {fc : FloatL L}
    {key msg : _root_.Fin U → List Bool} (hU : 0 < U ∧ U ≤ 64) (hfs : fs < 2 ^ 53) (hsym : 0 < sym) (hK : 0 < K) (hdvd : sym * K ∣ fs)
    (hnyq : 2 * (sym * K) ≤ fs) (hlen : N * (fs / sym) ≤ 2 ^ 32) (hf : F64.Fin fc) (hlo : 1 / 2 ^ 100 ≤ val fc) (hhi : val fc ≤ fs / 2)
    (hkey : ∀ u, (key u).length = K) (hmsg : ∀ u, (msg u).length = N) {signal : _root_.Fin U → List (FloatL L)}
    (htx : ∀ u, (do let tx ← txCdmaBpsk (ofList (msg u)) fs sym fc (key u); collect tx) = pure (signal u)) (u : _root_.Fin U) :
    ∃ x : ℕ → Bool, (do let rx ← rxCdmaBpsk (ofList (addUp (N * (fs / sym)) (List.ofFn signal))) fs sym fc (key u); collect rx)
        = pure ((List.range N).map x) ∧
      ∀ n < N, ((fs / sym : ℕ) : ℝ) * (U * (3 / 2 ^ 14)) < |∑ v, pm ((msg v).getD n false) * overlap fs (fs / sym) (val fc) (key u) (key v) n| →
        x n = decide (0 < ∑ v, pm ((msg v).getD n false) * overlap fs (fs / sym) (val fc) (key u) (key v) n) := by
  have hfs0 : 0 < fs := by have := Nat.mul_pos hsym hK; omega
  have hok : CdmaOk fs sym fc K := (cdmaOk_ieee hfs hf).mpr ⟨hsym, hK, hdvd, hnyq, by
    have h1 : ⌊val fc⌋₊ ≤ ⌊(fs : ℝ) / 2⌋₊ := Nat.floor_mono hhi
    have h2 : ⌊(fs : ℝ) / 2⌋₊ = fs / 2 := by simpa using Nat.floor_div_natCast (fs : ℝ) 2
    omega⟩
  obtain ⟨q, hq⟩ := hdvd
  have hk : fs / sym = K * q := by rw [hq, Nat.mul_assoc, Nat.mul_div_cancel_left _ hsym]
  have hq0 : 0 < q := by
    rcases Nat.eq_zero_or_pos q with h | h
    · subst h; omega
    · exact h
  have hε0 : 0 ≤ ε := (hL 0 fin_zero (by rw [val_zero]; norm_num)).1.nonneg
  have hsps : 0 < fs / sym := by rw [hk]; exact Nat.mul_pos hK hq0
  have hUR : (1 : ℝ) ≤ U := by exact_mod_cast hU.1
  have hU64 : (U : ℝ) ≤ 64 := by exact_mod_cast hU.2
  set s : ℕ → ℕ → ℝ := fun n i => ∑ v, pm ((msg v).getD n false) * Real.cos (angle fs (val fc) i) * chip (key v) (fs / sym) i * chip (key u) (fs / sym) i
    with hs
  have hone : ∀ v n i, |pm ((msg v).getD n false) * Real.cos (angle fs (val fc) i) * chip (key v) (fs / sym) i| ≤ 1 := by
    intro v n i
    unfold chip
    rw [abs_mul, abs_mul, pm_abs, pm_abs, one_mul, mul_one]
    exact Real.abs_cos_le_one _
  have hnear : NearRecording (U * (1 / 2 ^ 14)) (addUp (N * (fs / sym)) (List.ofFn signal)) N (fs / sym)
      (fun n i => s n i * chip (key u) (fs / sym) i) := by
    refine ⟨by simp [addUp], fun i hi => ?_⟩
    have ha := summed_chip hU.2 (a := fun v => ((signal v).getD i 0 : FloatL L)) (e := ε + 1 / 2 ^ 15) (by norm_num at hε ⊢; linarith)
      (fun v => sent_chip hL hfs hfs0 ((hkey v).symm ▸ hok) hlen hf hlo hhi (hmsg v) (htx v) hi) (fun v => hone v _ i)
    have ha := ha.mono (e' := U * (1 / 2 ^ 14)) (by
      refine mul_le_mul_of_nonneg_left ?_ (by linarith)
      norm_num at hε ⊢; linarith)
    refine ⟨_, by rw [addUp, List.getElem?_map, List.getElem?_range hi]; rfl, ?_⟩
    have e1 : (List.ofFn signal).map (fun s => (s.getD i 0 : FloatL L)) = List.ofFn (fun v => ((signal v).getD i 0 : FloatL L)) := by
      rw [List.map_ofFn]; rfl
    have e2 : s (i / (fs / sym)) i * chip (key u) (fs / sym) i
        = ∑ v, pm ((msg v).getD (i / (fs / sym)) false) * Real.cos (angle fs (val fc) i) * chip (key v) (fs / sym) i := by
      rw [hs, Finset.sum_mul]
      refine Finset.sum_congr rfl fun v _ => ?_
      rw [mul_assoc, chip_sq, mul_one]
    beta_reduce
    rw [e2, e1]
    exact ha
  have hsb : ∀ n i, |s n i| ≤ U := by
    intro n i
    rw [hs]
    refine (Finset.abs_sum_le_sum_abs _ _).trans ?_
    calc _ ≤ ∑ _v : _root_.Fin U, (1 : ℝ) := Finset.sum_le_sum fun v _ => by
            rw [abs_mul, show |chip (key u) (fs / sym) i| = 1 from pm_abs _, mul_one]; exact hone v n i
      _ = U := by simp
  obtain ⟨x, hx1, hx2⟩ := C86_cdma_bpsk (ε := ε) (τ := U * (1 / 2 ^ 14)) (S := U * (1 + 1 / 2 ^ 14)) (s := s) hsym ((hkey u).symm ▸ hK)
    ((hkey u).symm ▸ ⟨q, hq⟩) ((hkey u).symm ▸ hnyq)
    ⟨hε.trans (by norm_num), hL, hfs, hsps, hlen, hf, hlo, hhi, by
      refine le_trans (b := (1 : ℝ)) ?_ ?_
      · rw [div_le_one (by positivity)]; exact one_le_pow₀ (by norm_num)
      · nlinarith, by
      refine le_trans (b := (2 : ℝ) ^ 7) ?_ (pow_le_pow_right₀ (by norm_num) (by norm_num))
      norm_num; nlinarith⟩ hnear (fun i _ => by have := hsb (i / (fs / sym)) i; linarith) (yields_ofList _)
  refine ⟨x, hx1, fun n hn hlt => ?_⟩
  have hin : inPhase fs (fs / sym) (val fc) s n = ∑ v, pm ((msg v).getD n false) * overlap fs (fs / sym) (val fc) (key u) (key v) n := by
    unfold inPhase overlap
    simp only [Finset.mul_sum]
    rw [Finset.sum_comm]
    refine Finset.sum_congr rfl fun j hj => ?_
    have hj := Finset.mem_range.mp hj
    rw [hs]
    beta_reduce
    rw [Finset.sum_mul]
    refine Finset.sum_congr rfl fun v _ => ?_
    rw [chip_inside (q := q) (by rw [hkey v, hk]) hq0 (by rw [hkey v]; exact hK) hj,
      chip_inside (q := q) (by rw [hkey u, hk]) hq0 (by rw [hkey u]; exact hK) hj, hkey u, hkey v]
    ring
  rw [← hin] at hlt ⊢
  refine hx2 n hn (lt_of_le_of_lt ?_ hlt)
  refine mul_le_mul_of_nonneg_left ?_ (by positivity)
  rw [mul_assoc, ← mul_add]
  refine mul_le_mul_of_nonneg_left ?_ (by linarith)
  norm_num at hε ⊢
  nlinarith

/-- If the overlaps with the users `S` clearly outweigh the own energy, few data sets are recovered in double precision, too. -/
theorem C129_count_ieee {L : Libm} {ε : ℝ} (hε : ε ≤ 1 / 2 ^ 16) (hL : Accurate L ε (2 ^ 40)) {U fs sym K N : ℕ} {fc : FloatL L}
    {key : _root_.Fin U → List Bool} (hU : U ≤ 64) (hfs : fs < 2 ^ 53) (hsym : 0 < sym) (hK : 0 < K) (hdvd : sym * K ∣ fs)
    (hnyq : 2 * (sym * K) ≤ fs) (hlen : N * (fs / sym) ≤ 2 ^ 32) (hf : F64.Fin fc) (hlo : 1 / 2 ^ 100 ≤ val fc) (hhi : val fc ≤ fs / 2)
    (hkey : ∀ u, (key u).length = K) (u : _root_.Fin U) {S : Finset (_root_.Fin U)} (hu : u ∉ S)
    (hS : ∀ n < N, overlap fs (fs / sym) (val fc) (key u) (key u) n + ((fs / sym : ℕ) : ℝ) * (U * (3 / 2 ^ 14))
      < ∑ v ∈ S, |overlap fs (fs / sym) (val fc) (key u) (key v) n|) :
    Nat.card {data : _root_.Fin U → _root_.Fin N → Bool // RecoveredL fs sym fc key u data} * (2 ^ (S.card + 1)) ^ N
      ≤ (2 ^ (S.card + 1) - 1) ^ N * Nat.card (_root_.Fin U → _root_.Fin N → Bool) := by
  have hE : (0 : ℝ) ≤ ((fs / sym : ℕ) : ℝ) * (U * (3 / 2 ^ 14)) := by positivity
  refine pattern_count (W := fun n x => pm (x u) * ∑ v, pm (x v) * overlap fs (fs / sym) (val fc) (key u) (key v) n
    < -(((fs / sym : ℕ) : ℝ) * (U * (3 / 2 ^ 14)))) ?_ Nat.one_le_two_pow ?_
  · rintro data ⟨signal, htx, hrx⟩ n hW
    obtain ⟨x, h1, h2⟩ := C129_decision_ieee hε hL ⟨u.pos, hU⟩ hfs hsym hK hdvd hnyq hlen hf hlo hhi hkey
      (fun v => List.length_ofFn ..) htx u
    rw [h1, RM.ok_inj] at hrx
    have hx := congrArg (fun l => l[n.val]?) hrx
    simp only [List.getElem?_map, List.getElem?_range n.isLt, Option.map_some, List.getElem?_ofFn, n.isLt, dif_pos,
      Option.some_inj] at hx
    have h3 := h2 n n.isLt
    simp only [List.getElem?_ofFn, n.isLt, dif_pos, List.getD_eq_getElem?_getD, Option.getD_some] at h3
    rw [hx] at h3
    generalize ∑ v, pm (data v n) * overlap fs (fs / sym) (val fc) (key u) (key v) n = D at *
    cases hd : data u n
    · simp only [hd, pm, Bool.false_eq_true, if_false] at hW h3
      have := h3 (by rw [abs_of_pos (by linarith)]; linarith)
      exact absurd this.symm (by rw [decide_eq_true (by linarith)]; simp)
    · simp only [hd, pm, if_true] at hW h3
      have := h3 (by rw [abs_of_neg (by linarith)]; linarith)
      exact absurd this.symm (by rw [decide_eq_false (by linarith)]; simp)
  · intro n
    exact against_count (g := fun v => overlap fs (fs / sym) (val fc) (key u) (key v) n) hu (hS n n.isLt) (fun x hx => hx)

/-- Enough room, in double precision: orthogonal keys, symbols of whole half carrier periods. -/
theorem C129_room_ieee {L : Libm} {ε : ℝ} (hε : ε ≤ 1 / 2 ^ 16) (hL : Accurate L ε (2 ^ 40)) {U fs sym K N : ℕ} {fc : FloatL L}
    {key : _root_.Fin U → List Bool} (hU : U ≤ 64) (hfs : fs < 2 ^ 53) (hsym : 0 < sym) (hK : 0 < K) (hdvd : sym * K ∣ fs)
    (hnyq : 2 * (sym * K) ≤ fs) (hlen : N * (fs / sym) ≤ 2 ^ 32) (hf : F64.Fin fc) (hlo : 1 / 2 ^ 100 ≤ val fc) (hhi : val fc ≤ fs / 2)
    (hkey : ∀ u, (key u).length = K) (horth : ∀ u v, u ≠ v → 2 * agreements (key u) (key v) = K)
    {p : ℤ} (hp : 2 * val fc * ((fs / sym : ℕ) : ℝ) = p * fs) (hq : ∀ q : ℤ, 4 * val fc * ((fs / sym / K : ℕ) : ℝ) ≠ q * fs)
    (hsw : Real.sin (2 * Real.pi * val fc / fs) ≠ 0)
    (hroom : ((U : ℝ) - 1) * Real.sin (2 * Real.pi * val fc / fs * ((fs / sym / K : ℕ) : ℝ)) ^ 2
      ≤ 19 / 10 * (((fs / sym / K : ℕ) : ℝ) * Real.sin (2 * Real.pi * val fc / fs)) ^ 2)
    (data : _root_.Fin U → _root_.Fin N → Bool) (u : _root_.Fin U) : RecoveredL fs sym fc key u data := by
  have hok : CdmaOk fs sym fc K := (cdmaOk_ieee hfs hf).mpr ⟨hsym, hK, hdvd, hnyq, by
    have h1 : ⌊val fc⌋₊ ≤ ⌊(fs : ℝ) / 2⌋₊ := Nat.floor_mono hhi
    have h2 : ⌊(fs : ℝ) / 2⌋₊ = fs / 2 := by simpa using Nat.floor_div_natCast (fs : ℝ) 2
    omega⟩
  have htr : ∀ v, ∃ s, (do let tx ← txCdmaBpsk (ofList (List.ofFn (data v))) fs sym fc (key v); collect tx) = pure s := by
    intro v
    obtain ⟨it, e1, e2⟩ := txCdmaBpsk_ok (yields_ofList (List.ofFn (data v))) (key := key v) ((hkey v).symm ▸ hok)
    exact ⟨_, by rw [e1, pure_bind, collect_of_yields e2]⟩
  choose signal htx using htr
  refine ⟨signal, htx, ?_⟩
  obtain ⟨x, h1, h2⟩ := C129_decision_ieee hε hL ⟨u.pos, hU⟩ hfs hsym hK hdvd hnyq hlen hf hlo hhi hkey (fun v => List.length_ofFn ..) htx u
  rw [h1]
  congr 1
  apply List.ext_getElem
  · simp
  intro n hn1 hn2
  have hn : n < N := by simpa using hn1
  rw [List.getElem_map, List.getElem_range, List.getElem_ofFn]
  obtain ⟨o1, o2⟩ := room_parts hsym hK hdvd hnyq hkey horth hp hq hsw u (fun v => data v ⟨n, hn⟩) n
  have h3 := h2 n hn
  simp only [List.getElem?_ofFn, hn, dif_pos, List.getD_eq_getElem?_getD, Option.getD_some] at h3
  rw [weights_split _ (fun v => data v ⟨n, hn⟩) u, o1] at h3
  have hs2 : 0 < 8 * Real.sin (2 * Real.pi * val fc / fs) ^ 2 := by positivity
  have hKR : (0 : ℝ) < K := by exact_mod_cast hK
  have hq0 : (0 : ℝ) < ((fs / sym / K : ℕ) : ℝ) := by
    have := hok.spc
    exact_mod_cast (by omega : 0 < fs / sym / K)
  have hkR : ((fs / sym : ℕ) : ℝ) = K * ((fs / sym / K : ℕ) : ℝ) := by
    have : fs / sym = K * (fs / sym / K) := by
      obtain ⟨q, hq⟩ := hdvd
      rw [hq, Nat.mul_assoc, Nat.mul_div_cancel_left _ hsym, Nat.mul_div_cancel_left _ hK]
    exact_mod_cast this
  have hUR : (U : ℝ) ≤ 64 := by exact_mod_cast hU
  have hU0 : (0 : ℝ) ≤ U := by positivity
  have hI : |∑ v ∈ Finset.univ.erase u, pm (data v ⟨n, hn⟩) * overlap fs (fs / sym) (val fc) (key u) (key v) n|
      ≤ K * ((fs / sym / K : ℕ) : ℝ) / 2 * (975 / 1000) := by
    apply abs_le_of_sq_le_sq _ (by positivity)
    refine le_of_mul_le_mul_left (o2.trans ?_) hs2
    have hK2 : 0 ≤ (K : ℝ) ^ 2 := by positivity
    refine (mul_le_mul_of_nonneg_left hroom hK2).trans ?_
    have h5 : 0 ≤ (K : ℝ) ^ 2 * ((fs / sym / K : ℕ) : ℝ) ^ 2 * Real.sin (2 * Real.pi * val fc / fs) ^ 2 := by positivity
    calc _ = 19 / 10 * ((K : ℝ) ^ 2 * ((fs / sym / K : ℕ) : ℝ) ^ 2 * Real.sin (2 * Real.pi * val fc / fs) ^ 2) := by ring
      _ ≤ 2 * (975 / 1000) ^ 2 * ((K : ℝ) ^ 2 * ((fs / sym / K : ℕ) : ℝ) ^ 2 * Real.sin (2 * Real.pi * val fc / fs) ^ 2) :=
          mul_le_mul_of_nonneg_right (by norm_num) h5
      _ = _ := by ring
  have hKq : 0 < (K : ℝ) * ((fs / sym / K : ℕ) : ℝ) := by positivity
  rw [hkR] at h3
  generalize (K : ℝ) * ((fs / sym / K : ℕ) : ℝ) = P at *
  generalize ∑ v ∈ Finset.univ.erase u, pm (data v ⟨n, hn⟩) * overlap fs (fs / sym) (val fc) (key u) (key v) n = I at *
  have hE : P * (U * (3 / 2 ^ 14)) ≤ P * (12 / 1000) := mul_le_mul_of_nonneg_left (by norm_num; linarith) hKq.le
  rw [abs_le] at hI
  cases hd : data u ⟨n, hn⟩
  · simp only [hd, pm, Bool.false_eq_true, if_false] at h3
    rw [h3 (by rw [abs_of_neg (by linarith)]; linarith), decide_eq_false (by linarith)]
  · simp only [hd, pm, if_true] at h3
    rw [h3 (by rw [abs_of_pos (by linarith)]; linarith), decide_eq_true (by linarith)]

/-! ## The unit test -/

/-- All users get their data back, in double precision, as the unit test asserts (src/cdma.rs:346-404). -/
def PassesL {L : Libm} {U N : ℕ} (fs sym : ℕ) (fc : FloatL L) (key : _root_.Fin U → List Bool) (data : _root_.Fin U → _root_.Fin N → Bool) : Prop :=
  ∀ u, RecoveredL fs sym fc key u data

/-- 16 keys, 15 users: at most `31^N` of every `32^N` data sets of `N` bits per user pass (the test has `N = 1000`). -/
theorem C129_sixteen_ieee {L : Libm} {ε : ℝ} (hε : ε ≤ 1 / 2 ^ 16) (hL : Accurate L ε (2 ^ 40)) {m : BMat} (hm : hadamardNew 16 = pure m)
    {key : _root_.Fin 15 → List Bool} (hkey : ∀ u : _root_.Fin 15, hadamardKey m u = pure (key u)) {N : ℕ} (hN : N ≤ 2 ^ 25) :
    Nat.card {data : _root_.Fin 15 → _root_.Fin N → Bool // PassesL 80000 1000 (Flt.ofNat 2500 : FloatL L) key data} * 32 ^ N
      ≤ 31 ^ N * Nat.card (_root_.Fin 15 → _root_.Fin N → Bool) := by
  obtain ⟨f1, f2⟩ := ofNat_exact (n := 2500) (by norm_num)
  have hfc : val (Flt.ofNat 2500 : FloatL L) = 2500 := f2.trans (by norm_num)
  have f1 : F64.Fin (Flt.ofNat 2500 : FloatL L) := f1
  have hk := matrix_keys (k := 4) (by norm_num) hm hkey
  have := C129_count_ieee (fs := 80000) (sym := 1000) (K := 16) (fc := (Flt.ofNat 2500 : FloatL L)) (key := key) (N := N) hε hL (by norm_num)
    (by norm_num) (by norm_num) (by norm_num) (by norm_num) (by norm_num) (by omega) f1 (by rw [hfc]; norm_num) (by rw [hfc]; norm_num)
    (fun u => by rw [hk u]; exact walshRow_length ..) 0 (S := {13, 10, 7, 12}) (by decide) (fun n _ => by
      have := outweighed16 n
      rw [hfc]
      simp only [hk]
      rw [Finset.sum_insert (by decide), Finset.sum_insert (by decide), Finset.sum_insert (by decide), Finset.sum_singleton]
      refine lt_of_le_of_lt ?_ (this.trans_eq (by norm_num [add_assoc]))
      refine add_le_add (le_of_eq rfl) ?_
      norm_num)
  have hle : Nat.card {data : _root_.Fin 15 → _root_.Fin N → Bool // PassesL 80000 1000 (Flt.ofNat 2500 : FloatL L) key data}
      ≤ Nat.card {data : _root_.Fin 15 → _root_.Fin N → Bool // RecoveredL 80000 1000 (Flt.ofNat 2500 : FloatL L) key 0 data} :=
    Nat.card_le_card_of_injective (fun d => ⟨d.1, d.2 0⟩) (fun a b hab => Subtype.ext (by simpa using hab))
  exact (Nat.mul_le_mul_right _ hle).trans (by simpa using this)

/-- 4 keys, 3 users and 8 keys, 7 users: every data set passes. -/
theorem C129_few_ieee {L : Libm} {ε : ℝ} (hε : ε ≤ 1 / 2 ^ 16) (hL : Accurate L ε (2 ^ 40)) {k : ℕ} (hk : k = 2 ∨ k = 3) {U : ℕ} (hU : U < 2 ^ k)
    {m : BMat} (hm : hadamardNew (2 ^ k) = pure m) {key : _root_.Fin U → List Bool} (hkey : ∀ u : _root_.Fin U, hadamardKey m u = pure (key u))
    {N : ℕ} (hN : N ≤ 2 ^ 25) (data : _root_.Fin U → _root_.Fin N → Bool) : PassesL 80000 1000 (Flt.ofNat 2500 : FloatL L) key data := by
  obtain ⟨f1, f2⟩ := ofNat_exact (n := 2500) (by norm_num)
  have hfc : val (Flt.ofNat 2500 : FloatL L) = 2500 := f2.trans (by norm_num)
  have f1 : F64.Fin (Flt.ofNat 2500 : FloatL L) := f1
  have hkeys := matrix_keys hU hm hkey
  have hU7 : U ≤ 7 := by rcases hk with rfl | rfl <;> omega
  intro u
  have hs := sin_sixteenth_lo
  have e : 2 * Real.pi * 2500 / ((80000 : ℕ) : ℝ) = Real.pi / 16 := by push_cast; ring
  refine C129_room_ieee (fs := 80000) (sym := 1000) (K := 2 ^ k) (p := 5) hε hL (by omega) (by norm_num) (by norm_num) (by positivity) ?_ ?_ (by omega) f1
    (by rw [hfc]; norm_num) (by rw [hfc]; norm_num) (fun u => by rw [hkeys u]; exact walshRow_length ..) (matrix_orth hU hm hkey)
    (by rw [hfc]; norm_num) ?_ (by rw [hfc, e]; linarith) ?_ data u
  · rcases hk with rfl | rfl <;> norm_num
  · rcases hk with rfl | rfl <;> norm_num
  · intro q hq
    rw [hfc] at hq
    rcases hk with rfl | rfl
    · norm_num at hq
      have : (200000 : ℤ) = q * 80000 := by exact_mod_cast hq
      omega
    · norm_num at hq
      have : (100000 : ℤ) = q * 80000 := by exact_mod_cast hq
      omega
  · rw [hfc, e]
    have h1 := Real.sin_sq_le_one (Real.pi / 16 * ((80000 / 1000 / 2 ^ k : ℕ) : ℝ))
    have hU1 : (1 : ℝ) ≤ U := by exact_mod_cast u.pos
    have hU2 : (U : ℝ) ≤ 7 := by exact_mod_cast hU7
    have hspc : (10 : ℝ) ≤ ((80000 / 1000 / 2 ^ k : ℕ) : ℝ) := by
      rcases hk with rfl | rfl <;> norm_num
    have h2 : ((U : ℝ) - 1) * Real.sin (Real.pi / 16 * ((80000 / 1000 / 2 ^ k : ℕ) : ℝ)) ^ 2 ≤ 6 * 1 :=
      mul_le_mul (by linarith) h1 (sq_nonneg _) (by norm_num)
    have h3 := mul_le_mul hspc hs (by norm_num) (by linarith)
    nlinarith

/-- `C129_sixteen_ieee` with correctly rounded sine and cosine. -/
example : ∃ (m : BMat) (key : _root_.Fin 15 → List Bool), hadamardNew 16 = pure m ∧ (∀ u : _root_.Fin 15, hadamardKey m u = pure (key u)) ∧
    ∀ N ≤ 2 ^ 25, Nat.card {data : _root_.Fin 15 → _root_.Fin N → Bool // PassesL 80000 1000 (Flt.ofNat 2500 : FloatL Libm.rounded) key data} * 32 ^ N
      ≤ 31 ^ N * Nat.card (_root_.Fin 15 → _root_.Fin N → Bool) := by
  obtain ⟨m, key, h1, h2, -⟩ := keys_exist (k := 4) (U := 15) (n := 16) (by norm_num) (by norm_num)
  exact ⟨m, key, h1, h2, fun N hN => C129_sixteen_ieee (ε := 1 / 2 ^ 52) (by norm_num) (accurate_rounded _) h1 h2 hN⟩

/-- `C129_few_ieee` (and with it `C129_room_ieee`) with 8 keys and 7 users. -/
example (data : _root_.Fin 7 → _root_.Fin 1000 → Bool) : ∃ (m : BMat) (key : _root_.Fin 7 → List Bool), hadamardNew 8 = pure m ∧
    (∀ u : _root_.Fin 7, hadamardKey m u = pure (key u)) ∧ PassesL 80000 1000 (Flt.ofNat 2500 : FloatL Libm.rounded) key data := by
  obtain ⟨m, key, h1, h2, -⟩ := keys_exist (k := 3) (U := 7) (n := 8) (by norm_num) (by norm_num)
  exact ⟨m, key, h1, h2, C129_few_ieee (ε := 1 / 2 ^ 52) (by norm_num) (accurate_rounded _) (Or.inr rfl) (by norm_num) h1 h2 (by norm_num) data⟩

end Verif.Props
