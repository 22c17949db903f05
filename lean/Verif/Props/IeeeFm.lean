import Verif.Lemmas.IeeeFm
import Verif.Props.IeeeOfdmPass

/-!
# C155: frequency modulation and the tone transmitters in double precision
-/

namespace Verif.Props
open F64
variable {L : Libm} {ι : Type}

/-- Frequency modulation in double precision: one symbol period of samples per value, each within
`ε + N·S·(N + 512)/2⁵⁶` of the exact modulation, for at most `N` samples of a message not above `S`. -/
theorem C155_fm [RIter ι (FloatL L)] {ε : ℝ} (hL : Accurate L ε (2 ^ 40)) {m : ι} {msg : List (FloatL L)} (h : Yields m msg)
    {fs sym : ℕ} {fc : FloatL L} {S : ℝ} (hsps : 0 < fs / sym) (hfs : fs ≤ 2 ^ 53) (hf : F64.Fin fc)
    (hlo : val fc = 0 ∨ 1 / 2 ^ 100 ≤ |val fc|) (hhi : |val fc| ≤ fs / 2) (hS : 1 ≤ S)
    (hN : msg.length * (fs / sym) ≤ 2 ^ 24) (hS' : S ≤ 2 ^ 10)
    (hm : ∀ x ∈ msg, F64.Fin x ∧ |val x| ≤ S) :
    ∃ it l, txFm m fs sym fc = pure it ∧ Yields it l ∧ l.length = msg.length * (fs / sym) ∧
      ∀ i, i < msg.length * (fs / sym) → ∃ x : FloatL L, l[i]? = some x ∧ F64.Fin x ∧
        |val x - Real.cos (2 * Real.pi * val fc * i / fs
          + 0.05 * ∑ t ∈ Finset.range (i + 1), val (msg.getD (t / (fs / sym)) 0))|
          ≤ ε + (msg.length * (fs / sym) : ℕ) * S * ((msg.length * (fs / sym) : ℕ) + 512) / 2 ^ 56 := by
  obtain ⟨it, e1, e2⟩ := txFm_ok h (fc := fc) hsps
  have hlen : (msg.flatMap (List.replicate (fs / sym))).length = msg.length * (fs / sym) := by
    rw [flatMap_replicate_eq_wave, wave_length]
  refine ⟨it, _, e1, e2, by rw [List.length_mapIdx, runSums_length, hlen], fun i hi => ?_⟩
  rw [List.getElem?_mapIdx, runSums_getElem?, if_pos (by rw [hlen]; exact hi), Option.map_some, fm_sum_list hsps hi]
  set N : ℕ := msg.length * (fs / sym) with hNdef
  have N1 : (1 : ℝ) ≤ N := by exact_mod_cast (by omega : 1 ≤ N)
  have N2 : (N : ℝ) ≤ 2 ^ 24 := by exact_mod_cast hN
  have hiN : ((i + 1 : ℕ) : ℝ) ≤ N := by exact_mod_cast hi
  have hNS : (N : ℝ) * S ≤ 2 ^ 34 := by
    calc (N : ℝ) * S ≤ 2 ^ 24 * 2 ^ 10 := mul_le_mul N2 hS' (by linarith) (by norm_num)
      _ = 2 ^ 34 := by norm_num
  have hA : 1 ≤ (N : ℝ) * S := one_le_mul_of_one_le_of_one_le N1 hS
  have hu := uu_eq
  have hx : ∀ j < i + 1, Ap (msg.getD (j / (fs / sym)) 0) (val (msg.getD (j / (fs / sym)) 0)) 0 ∧
      |val (msg.getD (j / (fs / sym)) 0)| ≤ S := by
    intro j hj
    have hlt : j / (fs / sym) < msg.length := by rw [Nat.div_lt_iff_lt_mul hsps]; omega
    rw [List.getD_eq_getElem?_getD, List.getElem?_eq_getElem hlt]
    obtain ⟨f1, f2⟩ := hm _ (List.getElem_mem hlt)
    exact ⟨Ap.exact f1, f2⟩
  set t : ℝ := 2 * (N * S) / 2 ^ 53 with htdef
  have ht0 : 0 ≤ t := by positivity
  have ht1 : t ≤ 1 / 4 := by
    rw [htdef, div_le_iff₀ (by positivity)]; norm_num at hNS ⊢; linarith
  have hsum := Ap.rsum (a := fun j => msg.getD (j / (fs / sym)) 0) (r := fun j => val (msg.getD (j / (fs / sym)) 0)) (n := i + 1)
    (B := S) (e := 0) (t := t) (fun j hj => (hx j hj).1) (fun j hj => (hx j hj).2) ht0
    (le_big (k := 40) (by norm_num) (by
      calc ((i + 1 : ℕ) : ℝ) * (S + (0 + t)) ≤ N * (S + S) := mul_le_mul hiN (by linarith) (by linarith) (by linarith)
        _ = 2 * (N * S) := by ring
        _ ≤ 2 ^ 40 := by norm_num at hNS ⊢; linarith))
    (by
      have q1 : ((i + 1 : ℕ) : ℝ) * (S + (0 + t)) ≤ N * (5 / 4 * S) :=
        mul_le_mul hiN (by linarith) (by linarith) (by linarith)
      have q2 : ((i + 1 : ℕ) : ℝ) * (S + (0 + t)) * uu ≤ N * (5 / 4 * S) * (1 / 2 ^ 53) := by
        rw [hu]; exact mul_le_mul_of_nonneg_right q1 (by positivity)
      have q3 : tiny ≤ 1 / 4 * (N * S) * (1 / 2 ^ 53) := by
        refine (tiny_le (k := 55) (by norm_num)).trans ?_
        have : (1 : ℝ) / 2 ^ 55 = 1 / 4 * 1 * (1 / 2 ^ 53) := by norm_num
        rw [this]
        exact mul_le_mul_of_nonneg_right (by linarith) (by positivity)
      have q4 : t = 2 * (N * S) * (1 / 2 ^ 53) := by rw [htdef]; ring
      have q5 : 0 ≤ (N : ℝ) * S * (1 / 2 ^ 53) := by positivity
      refine le_trans ?_ q4.ge
      linarith)
  have hδ : ((i + 1 : ℕ) : ℝ) * (0 + t) ≤ N * t := by
    rw [zero_add]; exact mul_le_mul_of_nonneg_right hiN ht0
  have hδ' : (N : ℝ) * t ≤ N * S := mul_le_mul_of_nonneg_left (by linarith) (by linarith)
  have hs : |∑ j ∈ Finset.range (i + 1), val (msg.getD (j / (fs / sym)) 0)| ≤ N * S := by
    refine (Finset.abs_sum_le_sum_abs _ _).trans ((Finset.sum_le_card_nsmul _ _ S fun j hj => (hx j (Finset.mem_range.mp hj)).2).trans ?_)
    rw [Finset.card_range, nsmul_eq_mul]
    exact mul_le_mul_of_nonneg_right hiN (by linarith)
  have hfs0 : 0 < fs := by
    rcases Nat.eq_zero_or_pos fs with h0 | h0
    · rw [h0] at hsps; simp at hsps
    · exact h0
  obtain ⟨g1, g2⟩ := fm_sample hL hfs0 hfs (i := i) (N := N) (S := S) (by push_cast at hiN; linarith) N1 hS
    (hNS.trans (by norm_num)) hf hlo hhi (hsum.mono hδ) hs hδ'
  refine ⟨_, rfl, g1, ?_⟩
  rw [show (0.05 : ℝ) = 5 / 100 by norm_num]
  refine g2.trans ?_
  refine le_of_eq ?_
  rw [htdef]; ring

example : ∃ it l, txFm (ofList [(1 : FloatL libm0), Flt.lit 5 2]) 8000 1000 (Flt.ofNat 1000 : FloatL libm0) = pure it ∧ Yields it l ∧
    l.length = 2 * 8 := by
  have a := ofNat_exact (n := 1000) (by norm_num)
  have va : val (Flt.ofNat 1000 : FloatL libm0) = 1000 := a.2
  obtain ⟨it, l, h1, h2, h3, -⟩ := C155_fm (ε := 1 / 2 ^ 52) accurate_libm0 (yields_ofList [(1 : FloatL libm0), Flt.lit 5 2])
    (fs := 8000) (sym := 1000) (fc := Flt.ofNat 1000) (S := 1) (by norm_num) (by norm_num) a.1 (.inr (by rw [va]; norm_num))
    (by rw [va]; norm_num) le_rfl (by simp) (by norm_num) (by
      have one : F64.Fin (1 : Float) ∧ val (1 : Float) = 1 := ⟨fin_one, val_one⟩
      have lt : |val (F64.lit 5 2)| ≤ 1 := by
        have h := lit05_rel.2
        rw [uu_eq, abs_of_pos (by norm_num : (0 : ℝ) < 5 / 100)] at h
        have := abs_sub_abs_le_abs_sub (val (F64.lit 5 2)) (5 / 100)
        rw [abs_of_pos (by norm_num : (0 : ℝ) < 5 / 100)] at this
        norm_num at h this ⊢
        linarith
      intro x hx
      simp only [List.mem_cons, List.not_mem_nil, or_false] at hx
      rcases hx with rfl | rfl
      · exact ⟨one.1, by rw [show val (1 : FloatL libm0) = 1 from one.2]; simp⟩
      · exact ⟨lit05_rel.1, lt⟩)
  exact ⟨it, l, h1, h2, h3⟩

/-- A message of integers, such as ±1: the running sums are exact, and the error stays within `ε + N·S/2⁴⁷`, even for up to `2³⁶`
samples. -/
theorem C155_fm_digital [RIter ι (FloatL L)] {ε : ℝ} (hL : Accurate L ε (2 ^ 40)) {m : ι} {msg : List (FloatL L)} (h : Yields m msg)
    {fs sym : ℕ} {fc : FloatL L} {S : ℕ} (hsps : 0 < fs / sym) (hfs : fs ≤ 2 ^ 53) (hf : F64.Fin fc)
    (hlo : val fc = 0 ∨ 1 / 2 ^ 100 ≤ |val fc|) (hhi : |val fc| ≤ fs / 2) (hS : 1 ≤ S)
    (hN : msg.length * (fs / sym) * S ≤ 2 ^ 36)
    (hm : ∀ x ∈ msg, F64.Fin x ∧ ∃ z : ℤ, val x = z ∧ |z| ≤ S) :
    ∃ it l, txFm m fs sym fc = pure it ∧ Yields it l ∧ l.length = msg.length * (fs / sym) ∧
      ∀ i, i < msg.length * (fs / sym) → ∃ x : FloatL L, l[i]? = some x ∧ F64.Fin x ∧
        |val x - Real.cos (2 * Real.pi * val fc * i / fs
          + 0.05 * ∑ t ∈ Finset.range (i + 1), val (msg.getD (t / (fs / sym)) 0))|
          ≤ ε + (msg.length * (fs / sym) : ℕ) * S / 2 ^ 47 := by
  obtain ⟨it, e1, e2⟩ := txFm_ok h (fc := fc) hsps
  have hlen : (msg.flatMap (List.replicate (fs / sym))).length = msg.length * (fs / sym) := by
    rw [flatMap_replicate_eq_wave, wave_length]
  refine ⟨it, _, e1, e2, by rw [List.length_mapIdx, runSums_length, hlen], fun i hi => ?_⟩
  rw [List.getElem?_mapIdx, runSums_getElem?, if_pos (by rw [hlen]; exact hi), Option.map_some, fm_sum_list hsps hi]
  set N : ℕ := msg.length * (fs / sym) with hNdef
  have N1 : (1 : ℝ) ≤ N := by exact_mod_cast (by omega : 1 ≤ N)
  have S1 : (1 : ℝ) ≤ S := by exact_mod_cast hS
  have hiN : ((i + 1 : ℕ) : ℝ) ≤ N := by exact_mod_cast hi
  have hNS : (N : ℝ) * S ≤ 2 ^ 36 := by exact_mod_cast hN
  have hx : ∀ j, ∃ z : ℤ, j < i + 1 → (F64.Fin (msg.getD (j / (fs / sym)) 0) ∧ val (msg.getD (j / (fs / sym)) 0) = z) ∧ |z| ≤ S := by
    intro j
    by_cases hj : j < i + 1
    · have hlt : j / (fs / sym) < msg.length := by rw [Nat.div_lt_iff_lt_mul hsps]; omega
      rw [List.getD_eq_getElem?_getD, List.getElem?_eq_getElem hlt]
      obtain ⟨f1, z, f2, f3⟩ := hm _ (List.getElem_mem hlt)
      exact ⟨z, fun _ => ⟨⟨f1, f2⟩, f3⟩⟩
    · exact ⟨0, fun h => absurd h hj⟩
  choose z hz using hx
  have hsum := rsum_int (a := fun j => msg.getD (j / (fs / sym)) 0) (n := i + 1) (z := z) (S := S) (fun j hj => (hz j hj).1)
    (fun j hj => (hz j hj).2) (by
      have : (i + 1) * S ≤ N * S := Nat.mul_le_mul_right _ hi
      omega)
  have esum : ∑ j ∈ Finset.range (i + 1), (z j : ℝ) = ∑ t ∈ Finset.range (i + 1), val (msg.getD (t / (fs / sym)) 0) :=
    Finset.sum_congr rfl fun j hj => (hz j (Finset.mem_range.mp hj)).1.2.symm
  have hs : |∑ j ∈ Finset.range (i + 1), (z j : ℝ)| ≤ N * S := by
    refine (Finset.abs_sum_le_sum_abs _ _).trans ((Finset.sum_le_card_nsmul _ _ (S : ℝ) fun j hj => ?_).trans ?_)
    · exact_mod_cast (hz j (Finset.mem_range.mp hj)).2
    · rw [Finset.card_range, nsmul_eq_mul]
      exact mul_le_mul_of_nonneg_right hiN (by linarith)
  have hfs0 : 0 < fs := by
    rcases Nat.eq_zero_or_pos fs with h0 | h0
    · rw [h0] at hsps; simp at hsps
    · exact h0
  obtain ⟨g1, g2⟩ := fm_sample hL hfs0 hfs (i := i) (N := N) (S := S) (by push_cast at hiN; linarith) N1 S1
    hNS hf hlo hhi hsum hs (by positivity)
  rw [esum] at g2
  refine ⟨_, rfl, g1, ?_⟩
  rw [show (0.05 : ℝ) = 5 / 100 by norm_num]
  refine g2.trans (le_of_eq ?_)
  ring

example : ∃ it l, txFm (ofList [(1 : FloatL libm0), -1, 1]) 8000 1000 (Flt.ofNat 1000 : FloatL libm0) = pure it ∧ Yields it l ∧
    l.length = 3 * 8 := by
  have a := ofNat_exact (n := 1000) (by norm_num)
  have va : val (Flt.ofNat 1000 : FloatL libm0) = 1000 := a.2
  obtain ⟨it, l, h1, h2, h3, -⟩ := C155_fm_digital (ε := 1 / 2 ^ 52) accurate_libm0 (yields_ofList [(1 : FloatL libm0), -1, 1])
    (fs := 8000) (sym := 1000) (fc := Flt.ofNat 1000) (S := 1) (by norm_num) (by norm_num) a.1 (.inr (by rw [va]; norm_num))
    (by rw [va]; norm_num) le_rfl (by simp) (by
      have one : F64.Fin (1 : Float) ∧ val (1 : Float) = 1 := ⟨fin_one, val_one⟩
      have neg : F64.Fin (-1 : Float) ∧ val (-1 : Float) = -1 := ⟨neg_fin.mpr fin_one, by rw [neg_val, val_one]⟩
      intro x hx
      simp only [List.mem_cons, List.not_mem_nil, or_false] at hx
      rcases hx with rfl | rfl | rfl
      · exact ⟨one.1, 1, by rw [show val (1 : FloatL libm0) = 1 from one.2]; simp, by simp⟩
      · exact ⟨neg.1, -1, by rw [show val (-1 : FloatL libm0) = -1 from neg.2]; simp, by simp⟩
      · exact ⟨one.1, 1, by rw [show val (1 : FloatL libm0) = 1 from one.2]; simp, by simp⟩)
  exact ⟨it, l, h1, h2, h3⟩

/-- The two-tone transmitter (and, by C40, the transmitters with a number or a list of tones): no panic, one symbol period of samples
per bit, each within `ε + i/2⁴⁸` of the high tone for true and of the low tone for false. -/
theorem C155_tones [RIter ι Bool] {ε : ℝ} (hL : Accurate L ε (2 ^ 40)) {m : ι} {msg : List Bool} (h : Yields m msg) {fs sym : ℕ}
    (hfs0 : 0 < fs) (hfs : fs < 2 ^ 53) (hdvd : sym ∣ fs) (hN : msg.length * (fs / sym) ≤ 2 ^ 36) {lo hi : FloatL L}
    (fl : F64.Fin lo) (fh : F64.Fin hi) (hl0 : val lo = 0 ∨ 1 / 2 ^ 100 ≤ |val lo|) (hh0 : val hi = 0 ∨ 1 / 2 ^ 100 ≤ |val hi|)
    (hl : |val lo| ≤ fs / 2) (hh : |val hi| ≤ fs / 2) :
    ∃ it l, txBfsk m fs sym lo hi = pure it ∧ Yields it l ∧ l.length = msg.length * (fs / sym) ∧
      ∀ i b, msg[i / (fs / sym)]? = some b → ∃ x : FloatL L, l[i]? = some x ∧ F64.Fin x ∧
        |val x - Real.cos (2 * Real.pi * (if b then val hi else val lo) * i / fs)| ≤ ε + (i : ℝ) / 2 ^ 48 := by
  have hsym : 0 < sym := Nat.pos_of_dvd_of_pos hdvd hfs0
  have hle := Nat.le_of_dvd hfs0 hdvd
  have hsps : 0 < fs / sym := Nat.div_pos hle hsym
  have hfsR : (0 : ℝ) < fs := by exact_mod_cast hfs0
  have hfs53 : (fs : ℝ) < 2 ^ 53 := by exact_mod_cast hfs
  have htn : Flt.toNat hi ≤ fs / 2 := by
    have : Flt.toNat hi = min ⌊val hi⌋₊ (2 ^ 64 - 1) := toNat_val fh
    rw [this]
    exact floor_le_half ((le_abs_self _).trans hh)
  have hint : isInt (Flt.ofNat fs / Flt.ofNat sym : FloatL L) = true :=
    (guard_iff hfs (by omega)).mpr ⟨hsym.ne', hdvd⟩
  obtain ⟨it, e1, e2⟩ := txBfsk_ok h (lo := lo) (hi := hi) hsps htn hint
  refine ⟨it, _, e1, e2, wave_length _ _ _, fun i b hb => ?_⟩
  have hi : i < msg.length * (fs / sym) := by
    rw [← Nat.div_lt_iff_lt_mul hsps]
    exact (List.getElem?_eq_some_iff.mp hb).1
  have hi36 : (i : ℝ) ≤ 2 ^ 36 := by exact_mod_cast (by omega : i ≤ 2 ^ 36)
  rw [wave_getElem? hsps, hb, Option.map_some, Nat.mul_comm, Nat.div_add_mod]
  have key : ∀ f : FloatL L, F64.Fin f → (val f = 0 ∨ 1 / 2 ^ 100 ≤ |val f|) → |val f| ≤ fs / 2 →
      Ap (L.cos (phase fs f i)) (Real.cos (2 * Real.pi * val f * i / fs)) (ε + (i : ℝ) / 2 ^ 48) := by
    intro f k1 k2 k3
    have hrel := phase_rel (L := L) (i := i) hfs0 hfs.le (by omega) k1 k2 (by
      have : (2 : ℝ) ^ 53 ≤ 2 ^ 100 := by norm_num
      linarith)
    have hd : |dphi fs (val f)| ≤ 4 := by
      unfold dphi
      rw [abs_div, abs_of_pos hfsR, div_le_iff₀ hfsR, abs_mul, abs_of_pos (by positivity)]
      have := Real.pi_le_four
      calc 2 * Real.pi * |val f| ≤ 2 * 4 * (fs / 2) := mul_le_mul (by linarith) k3 (abs_nonneg _) (by norm_num)
        _ = 4 * fs := by ring
    have hp : |(i : ℝ) * dphi fs (val f)| ≤ 4 * i := by
      rw [abs_mul, abs_of_nonneg (by positivity), mul_comm]
      exact mul_le_mul_of_nonneg_right hd (by positivity)
    have h2 := (carrier_ap hL (hrel.ap (e := (i : ℝ) / 2 ^ 48) (by
      calc 1 / 2 ^ 50 * |(i : ℝ) * dphi fs (val f)| ≤ 1 / 2 ^ 50 * (4 * i) := mul_le_mul_of_nonneg_left hp (by positivity)
        _ = (i : ℝ) / 2 ^ 48 := by ring)) (by
      have : (i : ℝ) / 2 ^ 48 ≤ 2 ^ 36 := (div_le_self (by positivity) (by norm_num)).trans hi36
      have : (2 : ℝ) ^ 36 * 8 ≤ 2 ^ 40 := by norm_num
      linarith)).1
    have e : (i : ℝ) * dphi fs (val f) = 2 * Real.pi * val f * i / fs := by unfold dphi; ring
    rwa [e] at h2
  cases b with
  | true => obtain ⟨q1, q2⟩ := key _ fh hh0 hh; exact ⟨_, rfl, q1, q2⟩
  | false => obtain ⟨q1, q2⟩ := key _ fl hl0 hl; exact ⟨_, rfl, q1, q2⟩

example : ∃ it l, txBfsk (ofList [true, false]) 8000 1000 (Flt.ofNat 1000 : FloatL libm0) (Flt.ofNat 2000) = pure it ∧ Yields it l ∧
    l.length = 2 * 8 := by
  have a := ofNat_exact (n := 1000) (by norm_num)
  have b := ofNat_exact (n := 2000) (by norm_num)
  have va : val (Flt.ofNat 1000 : FloatL libm0) = 1000 := a.2
  have vb : val (Flt.ofNat 2000 : FloatL libm0) = 2000 := b.2
  obtain ⟨it, l, h1, h2, h3, -⟩ := C155_tones (ε := 1 / 2 ^ 52) accurate_libm0 (yields_ofList [true, false]) (fs := 8000)
    (sym := 1000) (lo := Flt.ofNat 1000) (hi := Flt.ofNat 2000) (by norm_num) (by norm_num) (by norm_num) (by simp) a.1 b.1
    (.inr (by rw [va]; norm_num)) (.inr (by rw [vb]; norm_num)) (by rw [va]; norm_num) (by rw [vb]; norm_num)
  exact ⟨it, l, h1, h2, h3⟩

end Verif.Props
