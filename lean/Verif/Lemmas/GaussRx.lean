import Verif.Lemmas.Gauss
import Verif.Lemmas.Noise
import Verif.Lemmas.Ofdm

/-! # Symbol-by-symbol linear receivers in white Gaussian noise -/
namespace Verif
open Spec MeasureTheory ProbabilityTheory

theorem sum_block {N k n : ℕ} (hn : n < N) (f : ℕ → ℝ) :
    ∑ i ∈ Finset.range (N * k), (if i / k = n then f i else 0) = ∑ j ∈ Finset.range k, f (n * k + j) := by
  rw [← Finset.sum_filter]
  refine (Finset.sum_bij (fun j _ => n * k + j) ?_ ?_ ?_ ?_).symm
  · intro j hj
    have hj := Finset.mem_range.mp hj
    rw [Finset.mem_filter, Finset.mem_range]
    refine ⟨?_, ?_⟩
    · have : (n + 1) * k ≤ N * k := Nat.mul_le_mul_right _ hn
      rw [Nat.add_mul] at this; omega
    · rw [Nat.mul_comm, Nat.mul_add_div (by omega), Nat.div_eq_of_lt hj, Nat.add_zero]
  · intro a _ b _ h; omega
  · intro i hi
    obtain ⟨h1, h2⟩ := Finset.mem_filter.mp hi
    have hk : 0 < k := by
      rcases Nat.eq_zero_or_pos k with rfl | h
      · simp at h1
      · exact h
    refine ⟨i % k, Finset.mem_range.mpr (Nat.mod_lt _ hk), ?_⟩
    rw [← h2, Nat.mul_comm, Nat.div_add_mod]
  · intro _ _; rfl

variable {Ω : Type} [MeasurableSpace Ω] {P : Measure Ω} {σ : ℝ} {w : ℕ → Ω → ℝ}

/-- A receiver that reads symbols of `k` samples and decides `m` bits per symbol by the signs of `m` orthogonal
correlations, on any signal `tx` with noise. -/
theorem gauss_gen (hw : White P σ w) (hσ : 0 < σ) {k m N : ℕ} (hk : 0 < k) (hm : 0 < m) (c : ℕ → ℕ → ℕ → ℝ)
    (dec : ℕ → List ℝ → List Bool) (hlen : ∀ n b, (dec n b).length = m)
    (hpos : ∀ n b t, b.length = k → t < m → 0 < ∑ j ∈ Finset.range k, b.getD j 0 * c n t j → (dec n b)[t]? = some true)
    (hneg : ∀ n b t, b.length = k → t < m → ∑ j ∈ Finset.range k, b.getD j 0 * c n t j < 0 → (dec n b)[t]? = some false)
    {msg : List Bool} (hmsg : msg.length = N * m) {tx : List ℝ} (htx : tx.length = N * k)
    (hc : ∀ n < N, ∀ t < m, 0 < ∑ j ∈ Finset.range k, c n t j ^ 2)
    (ho : ∀ n < N, ∀ t < m, ∀ u < m, t ≠ u → ∑ j ∈ Finset.range k, c n t j * c n u j = 0) (D : ℕ → ℝ)
    (hD : ∀ q (hq : q < msg.length), ∑ j ∈ Finset.range k, tx.getD (q / m * k + j) 0 * c (q / m) (q % m) j
      = (if msg[q] then 1 else -1) * D q) :
    Flips P msg (fun ω => ((fullBlocks k (tx.mapIdx (fun i x => x + w i ω))).mapIdx dec).flatten)
      (fun q => Erfc (D q / √(2 * (σ ^ 2 * ∑ j ∈ Finset.range k, c (q / m) (q % m) j ^ 2))) / 2) := by
  let a : ℕ → ℕ → ℝ := fun q i => if i / k = q / m then c (q / m) (q % m) (i % k) else 0
  have hqm : ∀ q, q < msg.length → q / m < N := fun q hq => by
    rw [hmsg] at hq
    exact Nat.div_lt_of_lt_mul (by rw [Nat.mul_comm]; exact hq)
  have hdm : ∀ n j, j < k → (n * k + j) / k = n ∧ (n * k + j) % k = j := fun n j hj => by
    constructor
    · rw [Nat.mul_comm, Nat.mul_add_div hk, Nat.div_eq_of_lt hj, Nat.add_zero]
    · rw [Nat.mul_comm, Nat.mul_add_mod, Nat.mod_eq_of_lt hj]
  -- sums against `a q`
  have hsum : ∀ q, q < msg.length → ∀ f : ℕ → ℝ, ∑ i ∈ Finset.range (N * k), a q i * f i
      = ∑ j ∈ Finset.range k, c (q / m) (q % m) j * f (q / m * k + j) := by
    intro q hq f
    have : ∀ i, a q i * f i = if i / k = q / m then c (q / m) (q % m) (i % k) * f i else 0 := by
      intro i; simp only [a, ite_mul, zero_mul]
    simp only [this]
    rw [sum_block (hqm q hq) (fun i => c (q / m) (q % m) (i % k) * f i)]
    refine Finset.sum_congr rfl fun j hj => ?_
    rw [(hdm (q / m) j (Finset.mem_range.mp hj)).2]
  have ha_at : ∀ q n j, j < k → a q (n * k + j) = if n = q / m then c (q / m) (q % m) j else 0 := by
    intro q n j hj
    simp only [a, (hdm n j hj).1, (hdm n j hj).2]
  have hsq : ∀ q, q < msg.length → ∑ i ∈ Finset.range (N * k), a q i ^ 2 = ∑ j ∈ Finset.range k, c (q / m) (q % m) j ^ 2 := by
    intro q hq
    simp only [pow_two]
    rw [hsum q hq (a q)]
    refine Finset.sum_congr rfl fun j hj => ?_
    rw [ha_at q _ j (Finset.mem_range.mp hj), if_pos rfl]
  have hS : Signs (fun ω => ((fullBlocks k (tx.mapIdx (fun i x => x + w i ω))).mapIdx dec).flatten) msg.length (N * k) a
      (fun i => tx.getD i 0) w := by
    have hfb : ∀ ω, (fullBlocks k (tx.mapIdx (fun i x => x + w i ω))).length = N := by
      intro ω
      rw [fullBlocks, List.length_map, List.length_range, List.length_mapIdx, htx, Nat.mul_div_cancel _ hk]
    have hget : ∀ ω q, q < msg.length → ∃ b : List ℝ, b.length = k ∧
        (((fullBlocks k (tx.mapIdx (fun i x => x + w i ω))).mapIdx dec).flatten)[q]? = (dec (q / m) b)[q % m]? ∧
        stat (N * k) a (fun i => tx.getD i 0) w q ω = ∑ j ∈ Finset.range k, b.getD j 0 * c (q / m) (q % m) j := by
      intro ω q hq
      have hn := hqm q hq
      have hn' : (q / m + 1) * k ≤ N * k := Nat.mul_le_mul_right _ hn
      set noisy := tx.mapIdx (fun i x => x + w i ω) with hnoisy
      have hnl : noisy.length = N * k := by rw [hnoisy, List.length_mapIdx, htx]
      refine ⟨(noisy.drop (q / m * k)).take k, ?_, ?_, ?_⟩
      · rw [List.length_take, List.length_drop, hnl]; rw [Nat.add_mul] at hn'; omega
      · rw [← List.flatMap_id, getElem?_flatMap_const (k := m) hm _ _ (by
          intro x hx
          obtain ⟨i, hi, rfl⟩ := List.mem_mapIdx.mp hx
          exact hlen _ _), List.getElem?_mapIdx, fullBlocks_getElem? hk, if_pos (by rw [hnl]; exact hn')]
        rfl
      · rw [stat, hsum q hq]
        refine Finset.sum_congr rfl fun j hj => ?_
        have hj := Finset.mem_range.mp hj
        have hi : q / m * k + j < tx.length := by rw [htx]; rw [Nat.add_mul] at hn'; omega
        rw [mul_comm]
        congr 1
        rw [List.getD_eq_getElem?_getD, List.getD_eq_getElem?_getD, List.getElem?_take, if_pos hj, List.getElem?_drop,
          hnoisy, List.getElem?_mapIdx, List.getElem?_eq_getElem hi]
        rfl
    refine ⟨?_, ?_, ?_⟩
    · intro ω
      rw [← List.flatMap_id, length_flatMap_const (k := m) _ _ (by
          intro x hx
          obtain ⟨i, hi, rfl⟩ := List.mem_mapIdx.mp hx
          exact hlen _ _), List.length_mapIdx, hfb, hmsg]
    · intro ω q hq h0
      obtain ⟨b, h1, h2, h3⟩ := hget ω q hq
      rw [h2]; exact hpos _ _ _ h1 (Nat.mod_lt _ hm) (by rw [← h3]; exact h0)
    · intro ω q hq h0
      obtain ⟨b, h1, h2, h3⟩ := hget ω q hq
      rw [h2]; exact hneg _ _ _ h1 (Nat.mod_lt _ hm) (by rw [← h3]; exact h0)
  have := hS.flips hw hσ (fun q hq => by rw [hsq q hq]; exact hc _ (hqm q hq) _ (Nat.mod_lt _ hm)) ?_ D ?_
  · refine ⟨this.length, this.event, fun e he => ?_⟩
    rw [this.pattern e he]
    refine Finset.prod_congr rfl fun q hq => ?_
    simp only [hsq q (Finset.mem_range.mp hq)]
  · intro q hq r hr hqr
    rw [hsum q hq (a r)]
    by_cases hb : q / m = r / m
    · rw [← ho (q / m) (hqm q hq) (q % m) (Nat.mod_lt _ hm) (r % m) (Nat.mod_lt _ hm) (by
        intro e
        exact hqr (by rw [← Nat.div_add_mod q m, ← Nat.div_add_mod r m, hb, e]))]
      refine Finset.sum_congr rfl fun j hj => ?_
      rw [ha_at r _ j (Finset.mem_range.mp hj), if_pos hb, hb]
    · refine Finset.sum_eq_zero fun j hj => ?_
      rw [ha_at r _ j (Finset.mem_range.mp hj), if_neg hb, mul_zero]
  · intro q hq
    rw [hsum q hq, ← hD q hq]
    exact Finset.sum_congr rfl fun j _ => mul_comm _ _

theorem erfc_arg (hσ : 0 < σ) {E : ℝ} (hE : 0 < E) : E / √(2 * (σ ^ 2 * E)) = √(E / (2 * σ ^ 2)) := by
  have h1 : 0 < 2 * (σ ^ 2 * E) := by positivity
  rw [← Real.sqrt_sq hE.le, ← Real.sqrt_div (sq_nonneg _), Real.sqrt_sq hE.le]
  congr 1
  field_simp

theorem symbol_energy {k : ℕ} (hk : 0 < k) {msg : List Bool} {tx : List ℝ} {c : ℕ → ℕ → ℝ} (hlt : tx.length = msg.length * k)
    (hval : ∀ n (hn : n < msg.length) j, j < k → tx.getD (n * k + j) 0 = bitToNrz msg[n] * c n j) (n : ℕ) (hn : n < msg.length) :
    ((symbol k n tx).map (· ^ 2)).sum = ∑ j ∈ Finset.range k, c n j ^ 2 := by
  have hn' : (n + 1) * k ≤ msg.length * k := Nat.mul_le_mul_right _ hn
  rw [Nat.add_mul] at hn'
  rw [sum_sq_getD (k := k) (by rw [symbol, List.length_take, List.length_drop, hlt]; omega)]
  refine Finset.sum_congr rfl fun j hj => ?_
  have hj := Finset.mem_range.mp hj
  have : (symbol k n tx).getD j 0 = tx.getD (n * k + j) 0 := by
    simp [symbol, List.getD_eq_getElem?_getD, hj]
  rw [this, hval n hn j hj, mul_pow, sq (bitToNrz msg[n]), bitToNrz_sq, one_mul]

/-- One bit per symbol, matched: the receiver correlates with the pattern that carries the bit. -/
theorem gauss_core (hw : White P σ w) (hσ : 0 < σ) {k : ℕ} (hk : 0 < k) (c : ℕ → ℕ → ℝ) (dec : ℕ → List ℝ → Bool)
    (hdec : ∀ n (b : List ℝ), b.length = k → dec n b = decide (0 < ∑ j ∈ Finset.range k, b.getD j 0 * c n j))
    {msg : List Bool} {tx : List ℝ} (htx : tx = wave k (fun n b j => bitToNrz b * c n j) msg)
    (hE : ∀ n < msg.length, 0 < ((symbol k n tx).map (· ^ 2)).sum) :
    Flips P msg (fun ω => (fullBlocks k (tx.mapIdx (fun i x => x + w i ω))).mapIdx dec)
      (fun n => Erfc (√(((symbol k n tx).map (· ^ 2)).sum / (2 * σ ^ 2))) / 2) := by
  have hlt : tx.length = msg.length * k := by rw [htx, wave_length]
  have hval : ∀ n (hn : n < msg.length) j, j < k → tx.getD (n * k + j) 0 = bitToNrz msg[n] * c n j := by
    intro n hn j hj
    rw [List.getD_eq_getElem?_getD, htx, wave_getElem? hk, Nat.mul_comm, Nat.mul_add_div hk, Nat.div_eq_of_lt hj, Nat.add_zero,
      List.getElem?_eq_getElem hn, Nat.mul_add_mod, Nat.mod_eq_of_lt hj]
    rfl
  have hen := symbol_energy hk hlt hval
  have h := gauss_gen hw hσ (N := msg.length) (m := 1) hk one_pos (fun n _ j => c n j) (fun n b => [dec n b]) (fun _ _ => rfl) ?_ ?_
    (msg := msg) (by omega) hlt ?_ ?_ (fun n => ∑ j ∈ Finset.range k, c n j ^ 2) ?_
  · refine ⟨?_, ?_, ?_⟩
    · intro ω
      have := h.length ω
      rwa [flatten_mapIdx_singleton] at this
    · intro e
      have := h.event e
      simpa only [flatten_mapIdx_singleton] using this
    · intro e he
      have := h.pattern e he
      simp only [flatten_mapIdx_singleton] at this
      rw [this]
      refine Finset.prod_congr rfl fun n hn => ?_
      have hn := Finset.mem_range.mp hn
      have hE' := hE n hn
      rw [hen n hn] at hE' ⊢
      simp only [Nat.div_one]
      rw [erfc_arg hσ hE']
  · intro n b t hb ht h0
    have : t = 0 := by omega
    subst this
    rw [hdec n b hb, decide_eq_true h0]; rfl
  · intro n b t hb ht h0
    have : t = 0 := by omega
    subst this
    rw [hdec n b hb, decide_eq_false h0.not_gt]; rfl
  · intro n hn _ _
    rw [← hen n hn]; exact hE n hn
  · intro n hn t ht u hu htu; omega
  · intro n hn
    simp only [Nat.div_one]
    rw [Finset.mul_sum]
    refine Finset.sum_congr rfl fun j hj => ?_
    rw [hval n hn j (Finset.mem_range.mp hj)]
    rw [bitToNrz_real]; ring

/-- Two bits per symbol on two orthogonal patterns of equal energy. -/
theorem gauss_quad (hw : White P σ w) (hσ : 0 < σ) {k : ℕ} (hk : 0 < k) (c s : ℕ → ℕ → ℝ) (dec : ℕ → List ℝ → List Bool)
    (hdec : ∀ n (b : List ℝ), b.length = k → dec n b = [decide (0 ≤ ∑ j ∈ Finset.range k, b.getD j 0 * c n j),
      decide (0 ≤ ∑ j ∈ Finset.range k, b.getD j 0 * s n j)]) (hlen : ∀ n b, (dec n b).length = 2) {K : ℝ} (hK : 0 < K)
    {msg : List Bool} {tx : List ℝ}
    (htx : tx = wave k (fun n (p : Bool × Bool) j => bitToNrz p.1 * c n j + bitToNrz p.2 * s n j) (pairs msg))
    (hcc : ∀ n, ∑ j ∈ Finset.range k, c n j ^ 2 = K) (hss : ∀ n, ∑ j ∈ Finset.range k, s n j ^ 2 = K)
    (hcs : ∀ n, ∑ j ∈ Finset.range k, c n j * s n j = 0) :
    Flips P (msg.take (2 * (msg.length / 2))) (fun ω => ((fullBlocks k (tx.mapIdx (fun i x => x + w i ω))).mapIdx dec).flatten)
      (fun _ => Erfc (√(K / (2 * σ ^ 2))) / 2) := by
  have hpl := pairs_length msg
  have hlt : tx.length = msg.length / 2 * k := by rw [htx, wave_length, hpl]
  set msg' := msg.take (2 * (msg.length / 2)) with hmsg'
  have hml : msg'.length = msg.length / 2 * 2 := by rw [hmsg', List.length_take]; omega
  have hpair : ∀ q (hq : q < msg'.length), ∃ p : Bool × Bool, (pairs msg)[q / 2]? = some p ∧ msg'[q] = if q % 2 = 0 then p.1 else p.2 := by
    intro q hq
    have hq2 : q / 2 < (pairs msg).length := by rw [hpl]; omega
    refine ⟨(pairs msg)[q / 2], List.getElem?_eq_getElem hq2, ?_⟩
    have h1 : msg'[q]? = [(pairs msg)[q / 2].1, (pairs msg)[q / 2].2][q % 2]? := by
      rw [hmsg', ← pairs_flat, getElem?_flatMap_const (k := 2) (by norm_num) _ _ (fun _ _ => rfl), List.getElem?_eq_getElem hq2]
      rfl
    rw [List.getElem?_eq_getElem hq] at h1
    rcases Nat.mod_two_eq_zero_or_one q with h0 | h0
    · rw [h0] at h1 ⊢; simpa using h1
    · rw [h0] at h1 ⊢; simpa using h1
  have hval : ∀ n p, (pairs msg)[n]? = some p → ∀ j < k, tx.getD (n * k + j) 0 = bitToNrz p.1 * c n j + bitToNrz p.2 * s n j := by
    intro n p hp j hj
    rw [List.getD_eq_getElem?_getD, htx, wave_getElem? hk, Nat.mul_comm, Nat.mul_add_div hk, Nat.div_eq_of_lt hj, Nat.add_zero,
      hp, Nat.mul_add_mod, Nat.mod_eq_of_lt hj]
    rfl
  have h := gauss_gen hw hσ (N := msg.length / 2) (m := 2) hk two_pos (fun n t j => if t = 0 then c n j else s n j) dec hlen ?_ ?_
    (msg := msg') hml hlt ?_ ?_ (fun _ => K) ?_
  · refine ⟨h.length, h.event, fun e he => ?_⟩
    rw [h.pattern e he]
    refine Finset.prod_congr rfl fun q _ => ?_
    have : ∑ j ∈ Finset.range k, (if q % 2 = 0 then c (q / 2) j else s (q / 2) j) ^ 2 = K := by
      split_ifs
      · exact hcc _
      · exact hss _
    simp only [this, erfc_arg hσ hK]
  · intro n b t hb ht h0
    rw [hdec n b hb]
    interval_cases t
    · simp only [if_true] at h0
      rw [decide_eq_true h0.le]; rfl
    · simp only [one_ne_zero, if_false] at h0
      rw [decide_eq_true h0.le (p := 0 ≤ ∑ j ∈ Finset.range k, b.getD j 0 * s n j)]; rfl
  · intro n b t hb ht h0
    rw [hdec n b hb]
    interval_cases t
    · simp only [if_true] at h0
      rw [decide_eq_false h0.not_ge]; rfl
    · simp only [one_ne_zero, if_false] at h0
      rw [decide_eq_false h0.not_ge (p := 0 ≤ ∑ j ∈ Finset.range k, b.getD j 0 * s n j)]; rfl
  · intro n _ t ht
    interval_cases t
    · simp only [if_true]; rw [hcc]; exact hK
    · simp only [one_ne_zero, if_false]; rw [hss]; exact hK
  · intro n _ t ht u hu htu
    interval_cases t <;> interval_cases u
    · omega
    · simpa using hcs n
    · have := hcs n
      simp only [one_ne_zero, if_false, if_true]
      rw [← this]; exact Finset.sum_congr rfl fun j _ => mul_comm _ _
    · omega
  · intro q hq
    obtain ⟨p, hp1, hp2⟩ := hpair q hq
    have e : ∀ j ∈ Finset.range k, tx.getD (q / 2 * k + j) 0 * (if q % 2 = 0 then c (q / 2) j else s (q / 2) j)
        = (bitToNrz p.1 * c (q / 2) j + bitToNrz p.2 * s (q / 2) j) * (if q % 2 = 0 then c (q / 2) j else s (q / 2) j) :=
      fun j hj => by rw [hval _ _ hp1 j (Finset.mem_range.mp hj)]
    rw [Finset.sum_congr rfl e, hp2]
    split_ifs with h0 hb hb
    all_goals
      simp only [add_mul, mul_assoc, Finset.sum_add_distrib, ← Finset.mul_sum]
    · rw [bitToNrz_real, if_pos hb, show ∑ j ∈ Finset.range k, c (q / 2) j * c (q / 2) j = K by simpa only [pow_two] using hcc (q / 2),
        show ∑ j ∈ Finset.range k, s (q / 2) j * c (q / 2) j = 0 by simpa only [mul_comm] using hcs (q / 2)]
      ring
    · rw [bitToNrz_real, if_neg hb, show ∑ j ∈ Finset.range k, c (q / 2) j * c (q / 2) j = K by simpa only [pow_two] using hcc (q / 2),
        show ∑ j ∈ Finset.range k, s (q / 2) j * c (q / 2) j = 0 by simpa only [mul_comm] using hcs (q / 2)]
      ring
    · rw [hcs, bitToNrz_real p.2, if_pos hb, show ∑ j ∈ Finset.range k, s (q / 2) j * s (q / 2) j = K by simpa only [pow_two] using hss (q / 2)]
      ring
    · rw [hcs, bitToNrz_real p.2, if_neg hb, show ∑ j ∈ Finset.range k, s (q / 2) j * s (q / 2) j = K by simpa only [pow_two] using hss (q / 2)]
      ring

end Verif
