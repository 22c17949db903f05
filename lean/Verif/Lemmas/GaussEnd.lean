import Verif.Lemmas.GaussRx
import Verif.Lemmas.Flips
import Verif.Lemmas.Erfc
import Verif.Lemmas.Duo
import Verif.Spec.Energy
import Verif.Props.Helpers
import Verif.Props.Energy
import Mathlib.Probability.Independence.InfinitePi

/-! # Helpers for the properties about Gaussian noise -/
namespace Verif.Props
open Verif Spec MeasureTheory ProbabilityTheory
set_option linter.unusedSectionVars false
variable {Ω : Type} [MeasurableSpace Ω] {P : Measure Ω} {σ : ℝ} {w : ℕ → Ω → ℝ}

/-- The library's `ber` of two messages of the same length. -/
theorem ber_wrongAt {msg l : List Bool} (hl : l.length = msg.length) :
    (ber msg l : ℝ) = (∑ n ∈ Finset.range msg.length, wrongAt msg n l) / msg.length := by
  rw [C16_value, hl, Nat.min_self, Flt.ofNat_real, Flt.ofNat_real]
  congr 1
  induction msg generalizing l with
  | nil => cases l <;> simp_all [diffCount]
  | cons a msg ih =>
    cases l with
    | nil => simp at hl
    | cons b l =>
      rw [List.length_cons, Finset.sum_range_succ']
      have h1 := ih (l := l) (by simpa using hl)
      have h2 : ∀ n, wrongAt (a :: msg) (n + 1) (b :: l) = wrongAt msg n l := fun n => by simp [wrongAt]
      simp only [h2, ← h1]
      unfold diffCount wrongAt
      rw [List.zip_cons_cons, List.countP_cons]
      cases a <;> cases b <;> simp

theorem wrong_filter (msg l : List Bool) (hl : l.length = msg.length) :
    wrong msg l = ((List.range msg.length).filter (fun n => decide (l[n]? ≠ msg[n]?))).length := by
  induction msg generalizing l with
  | nil => simp [wrong]
  | cons a msg ih =>
    cases l with
    | nil => simp at hl
    | cons b l =>
      have h1 := ih l (by simpa using hl)
      unfold wrong at h1 ⊢
      rw [List.zip_cons_cons, List.countP_cons, h1, List.length_cons, List.range_succ_eq_map, List.filter_cons, List.filter_map]
      have : List.countP ((fun n => decide ((b :: l)[n]? ≠ (a :: msg)[n]?)) ∘ Nat.succ) (List.range msg.length)
          = List.countP (fun n => decide (l[n]? ≠ msg[n]?)) (List.range msg.length) := by
        congr 1
      rw [List.countP_eq_length_filter, List.countP_eq_length_filter] at this
      have hab : decide ((b :: l)[0]? ≠ (a :: msg)[0]?) = (a != b) := by cases a <;> cases b <;> simp
      rw [hab]
      by_cases hc : (a != b) = true
      · rw [if_pos hc, if_pos hc, List.length_cons, List.length_map, this]
      · rw [if_neg hc, if_neg hc, List.length_map, this, Nat.add_zero]

theorem blocks_symbol {k : ℕ} (hk : 0 < k) (l : List ℝ) (n : ℕ) (hn : n * k < l.length) : (blocks k l)[n]? = some (symbol k n l) := by
  induction n generalizing l with
  | zero =>
    rw [blocks_cons hk (by rintro rfl; simp at hn)]
    simp [symbol]
  | succ n ih =>
    rw [blocks_cons hk (by rintro rfl; simp at hn), List.getElem?_cons_succ, ih _ (by rw [List.length_drop]; have : (n + 1) * k = n * k + k := Nat.succ_mul n k; omega)]
    simp only [symbol, List.drop_drop, Nat.succ_mul]
    rw [Nat.add_comm]

theorem SymbolEnergy.each {a : List ℝ} {k n : ℕ} {E : ℝ} (hk : 0 < k) (h : SymbolEnergy a k n E) (i : ℕ) (hi : i < n) :
    ((symbol k i a).map (· ^ 2)).sum = E := by
  have hlen : (blocks k a).length = n := by simpa using congrArg List.length h.symbols
  have hia : i * k < a.length := by
    rw [blocks_length k hk] at hlen
    have h1 : i < (a.length + k - 1) / k := by omega
    have h2 := (Nat.le_div_iff_mul_le hk).mp h1
    have := Nat.succ_mul i k
    omega
  have := congrArg (fun l => l[i]?) h.symbols
  simp only [List.getElem?_map, blocks_symbol hk a i hia, List.getElem?_replicate, if_pos hi] at this
  simpa using this

theorem SymbolEnergy.total {a : List ℝ} {k n : ℕ} {E : ℝ} (hk : 0 < k) (h : SymbolEnergy a k n E) : (a.map (· ^ 2)).sum = n * E := by
  have h1 := congrArg List.sum h.symbols
  rw [List.sum_replicate, nsmul_eq_mul] at h1
  rw [← h1]
  conv_lhs => rw [← blocks_flatten k hk a]
  rw [List.map_flatten, List.sum_flatten, List.map_map]
  rfl

/-- The noise level the bit-error tests choose, `sqrt(2 eb / snr) / 2`, is the one that makes the energy of a bit over twice
the noise variance equal to the signal-to-noise ratio. -/
theorem bitError_calibrated {E snr : ℝ} (hE : 0 < E) (hs : 0 < snr) : bitError E (√(2 * E / snr) / 2) = Erfc (√snr) / 2 := by
  unfold bitError
  rw [div_pow, Real.sq_sqrt (by positivity)]
  congr 3
  field_simp

/-- Longer and longer messages through one noise: the measured bit error rate converges almost surely. -/
theorem core_limit (hw : White P σ w) (hσ : 0 < σ) {k : ℕ} (hk : 0 < k) (c : ℕ → ℕ → ℝ) (dec : ℕ → List ℝ → Bool)
    (hdec : ∀ n (b : List ℝ), b.length = k → dec n b = decide (0 < ∑ j ∈ Finset.range k, b.getD j 0 * c n j))
    {K : ℝ} (hK : 0 < K) (hc : ∀ n, ∑ j ∈ Finset.range k, c n j ^ 2 = K) (g : ℕ → Bool) :
    ∀ᵐ ω ∂P, Filter.Tendsto (fun N : ℕ => (ber ((List.range N).map g)
      ((fullBlocks k ((wave k (fun n b j => bitToNrz b * c n j) ((List.range N).map g)).mapIdx (fun i x => x + w i ω))).mapIdx dec) : ℝ))
      Filter.atTop (nhds (bitError K σ)) := by
  have hP := hw.prob
  have hE : ∀ N, SymbolEnergy (wave k (fun n b j => bitToNrz b * c n j) ((List.range N).map g)) k N K := fun N => by
    have := wave_energy (w := fun n b j => bitToNrz b * c n j) (l := (List.range N).map g) (E := K) hk (fun n b _ => by
      rw [← hc n]
      exact Finset.sum_congr rfl fun j _ => by rw [mul_pow, sq (bitToNrz b), bitToNrz_sq, one_mul])
    simpa using this
  have hF : ∀ N, Flips P ((List.range N).map g) (fun ω => (fullBlocks k ((wave k (fun n b j => bitToNrz b * c n j)
      ((List.range N).map g)).mapIdx (fun i x => x + w i ω))).mapIdx dec) (fun _ => bitError K σ) := fun N => by
    have := gauss_core hw hσ hk c dec hdec (msg := (List.range N).map g) rfl (fun n hn => by
      rw [(hE N).each hk n (by simpa using hn)]; exact hK)
    exact this.congr fun n hn => by rw [(hE N).each hk n (by simpa using hn)]; rfl
  have := Flips.strong_law hF (fun N n ω hn => by
    rw [List.getElem?_mapIdx, List.getElem?_mapIdx, fullBlocks_getElem? hk, fullBlocks_getElem? hk, List.length_mapIdx, List.length_mapIdx,
      wave_length, wave_length, List.length_map, List.length_map, List.length_range, List.length_range,
      if_pos (Nat.mul_le_mul_right k hn), if_pos le_rfl]
    congr 2
    apply List.ext_getElem?
    intro j
    by_cases hj : j < k
    · rw [List.getElem?_take_of_lt hj, List.getElem?_take_of_lt hj, List.getElem?_drop, List.getElem?_drop, List.getElem?_mapIdx,
        List.getElem?_mapIdx, wave_getElem? hk, wave_getElem? hk]
      have : (n * k + j) / k = n := by rw [Nat.mul_comm, Nat.mul_add_div hk, Nat.div_eq_of_lt hj, Nat.add_zero]
      rw [this, List.getElem?_map, List.getElem?_map, List.getElem?_range hn, List.getElem?_range (Nat.lt_succ_self n)]
    · rw [List.getElem?_take_eq_none (by omega), List.getElem?_take_eq_none (by omega)])
  filter_upwards [this] with ω hω
  refine hω.congr fun N => ?_
  rw [ber_wrongAt ((hF N).length ω), List.length_map, List.length_range]

/-- Independent Gaussian samples, as a measure on sequences. -/
noncomputable def gaussPath (σ : ℝ) : Measure (ℕ → ℝ) := Measure.infinitePi (fun _ : ℕ => gaussianReal 0 (σ ^ 2).toNNReal)

/-- White noise exists. -/
theorem white_path (σ : ℝ) : White (gaussPath σ) σ (fun i (ω : ℕ → ℝ) => ω i) where
  indep := iIndepFun_infinitePi (X := fun _ x => x) (fun _ => measurable_id)
  law i := ⟨(measurable_pi_apply i).aemeasurable, by
    exact Measure.infinitePi_map_eval _ i⟩

/-- The noise stream of outcome `ω`. -/
def path (ω : ℕ → ℝ) : Map RangeFrom ℕ ℝ := rmap (RangeFrom.mk 0) (fun i => ω i)

theorem path_gives (ω : ℕ → ℝ) : Gives (path ω) (fun i => ω i) := by
  have := (gives_rangeFrom 0).rmap (fun i : ℕ => ω i)
  simpa [path] using this

end Verif.Props
