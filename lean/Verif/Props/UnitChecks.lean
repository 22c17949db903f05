import Verif.Lemmas.FhOfdm
import Verif.Lemmas.Billiam
import Verif.Props.Hadamard
import Verif.Props.Fh
import Verif.Props.Helpers
import Verif.Props.Chaos
import Verif.Props.IeeeChaos
import Verif.Lemmas.IeeeCdma
import Verif.Props.Gauss
import Mathlib.Analysis.Real.Pi.Bounds

/-!
# C132, continued: the unit tests that are not round trips
-/
namespace Verif.Props
open Verif Spec
set_option linter.unusedSectionVars false
set_option warn.classDefReducibility false

/-! ## The hop table -/

section hops
variable {ρ : Type} [Rng ρ]

/-- The loop of the test `hop_table` — src/fh.rs:172-177: shuffle the same vector `k` times, keeping a copy after each. -/
def shuffles {α : Type} (l : List α) (r : ρ) : ℕ → RM (List (List α) × (List α × ρ))
  | 0 => pure ([], (l, r))
  | k + 1 => do
    let (out, st) ← shuffles l r k
    let st' ← shuffle st.1 st.2
    pure (out ++ [st'.1], st')

private theorem shuffles_ok {α : Type} (l : List α) (r : ρ) (k : ℕ) :
    shuffles l r k = pure ((List.range k).map (fun j => (shufN (l, r) (j + 1)).1), shufN (l, r) k) := by
  induction k with
  | zero => rfl
  | succ k ih =>
    rw [shuffles, ih, pure_bind]
    simp only [shuffle_eq, pure_bind, List.range_succ, List.map_append, List.map_cons, List.map_nil]
    rfl

/-- `hop_table` — src/fh.rs:162-181, for any frequencies, any number of them from two on, any number of rounds and any generator: the hops are
the successive shuffles of the table. -/
theorem C132_hop_table {F : Type} [Add F] [Sub F] [Mul F] [Div F] [Neg F] [Zero F] [One F] [Flt F] (low high : F) {n : ℕ} (hn : 2 ≤ n)
    (seed rounds : ℕ) :
    (do let hops ← hopTable ρ low high n seed; collect (chunks (rtake hops (n * rounds)) n))
      = (do let freqs ← collect (linspace low high n)
            let (expected, _) ← shuffles freqs (Rng.seed (ρ := ρ) seed) rounds
            pure expected) := by
  have hl := hopFreqs_length low high n
  rw [hopTable_ok, pure_bind, collect_of_yields (linspace_yields low high n), pure_bind, shuffles_ok, pure_bind]
  have hg := hopTable_gives (ρ := ρ) (hopFreqs low high n) (Rng.seed seed) (by omega)
  rw [collect_of_yields ((hg.rtake (n * rounds)).chunks n)]
  refine congrArg pure ?_
  have hlen : ∀ b ∈ List.range rounds, ((shufN (hopFreqs low high n, Rng.seed (ρ := ρ) seed) (b + 1)).1).length = n := fun b _ => by
    rw [shufN_length, hl]
  rw [← blocks_flatMap (by omega) _ _ hlen]
  congr 1
  apply List.ext_getElem?
  intro i
  rw [getElem?_flatMap_const (by omega) _ _ hlen]
  by_cases hi : i < n * rounds
  · have h1 : i / n < rounds := Nat.div_lt_of_lt_mul hi
    have h2 : i % n < n := Nat.mod_lt _ (by omega)
    rw [List.getElem?_map, List.getElem?_range hi, List.getElem?_range h1, Option.map_some, Option.bind_some]
    unfold hopAt
    simp only [hl]
    rw [List.getD_eq_getElem?_getD, List.getElem?_eq_getElem (by rw [shufN_length, hl]; exact h2)]
    rfl
  · have h1 : ¬ i / n < rounds := fun h => hi (by
      have := Nat.div_add_mod i n
      have := Nat.mod_lt i (show 0 < n by omega)
      calc i < n * (i / n) + n := by omega
        _ = n * (i / n + 1) := by ring
        _ ≤ n * rounds := Nat.mul_le_mul_left _ h)
    rw [List.getElem?_eq_none (by simpa using hi), List.getElem?_eq_none (by simpa using h1), Option.bind_none]

/-- The numbers of the test. -/
example : (do let hops ← hopTable ρ (Flt.ofNat 10000 : Float) (Flt.ofNat 20000) 8 SEED; collect (chunks (rtake hops (8 * 5)) 8))
    = (do let freqs ← collect (linspace (Flt.ofNat 10000 : Float) (Flt.ofNat 20000) 8)
          let (expected, _) ← shuffles freqs (Rng.seed (ρ := ρ) SEED) 5
          pure expected) := C132_hop_table _ _ (by norm_num) SEED 5

/-! ## Frequency scrambling -/

/-- The transmitting half of the test `frequency_scrambling` — src/fh_ofdm_dcsk.rs:179-197, on the vector cut into chunks. -/
def scramble {α : Type} (lim : ℕ) : List (List α) → ρ → RM (List α)
  | [], _ => pure []
  | chunk :: rest, rng => do
    let (ix, rng') ← shuffle (List.range lim) rng
    let symbols ← ix.mapM (fun i => index chunk i)
    pure (symbols ++ (← scramble lim rest rng'))

/-- The receiving half — src/fh_ofdm_dcsk.rs:199-212. -/
def unscramble {α : Type} (lim : ℕ) (blank : α) : List (List α) → ρ → RM (List α)
  | [], _ => pure []
  | chunk :: rest, rng => do
    let (ix, rng') ← shuffle (List.range lim) rng
    let symbols ← (chunk.zip ix).foldlM (fun v p => assignIdx v p.2 p.1) (List.replicate lim blank)
    pure (symbols ++ (← unscramble lim blank rest rng'))

private theorem assign_all {α : Type} (c : List α) (ix : List ℕ) (v : List α) (hv : v.length = c.length) (h : ∀ i ∈ ix, i < c.length)
    (d : α) : ∃ w, (((ix.map (fun i => c.getD i d)).zip ix).foldlM (fun v p => assignIdx v p.2 p.1) v : RM _) = pure w ∧ w.length = c.length ∧
      ∀ j : ℕ, w[j]? = if j ∈ ix then c[j]? else v[j]? := by
  induction ix generalizing v with
  | nil => exact ⟨v, rfl, hv, fun j => by simp⟩
  | cons i ix ih =>
    have hi := h i (by simp)
    obtain ⟨w, e, hw, hg⟩ := ih (v.set i (c.getD i d)) (by simpa using hv) (fun j hj => h j (by simp [hj]))
    refine ⟨w, ?_, hw, fun j => ?_⟩
    · rw [List.map_cons, List.zip_cons_cons, List.foldlM_cons, assignIdx, if_pos (by omega), pure_bind]
      exact e
    · rw [hg]
      by_cases hj : j ∈ ix
      · simp [hj]
      · rw [if_neg hj, List.getElem?_set]
        by_cases hij : i = j
        · subst hij
          simp [hv, hi, List.getD]
        · simp [hij, hj, Ne.symm hij]

/-- `frequency_scrambling` — src/fh_ofdm_dcsk.rs:176-215, for any data, any chunk size the data fill, any filling symbol and any generator: two
generators with the same seed undo each other's shuffles. -/
theorem C132_scrambling {α : Type} {lim : ℕ} (hlim : 0 < lim) (blank : α) (rng : ρ) {data : List α} (hd : lim ∣ data.length) :
    (do let sent ← scramble lim (blocks lim data) rng; unscramble lim blank (blocks lim sent) rng) = pure data := by
  have key : ∀ (cs : List (List α)) (r : ρ), (∀ c ∈ cs, c.length = lim) →
      ∃ out : List (List α), (∀ c ∈ out, c.length = lim) ∧ scramble lim cs r = pure out.flatten ∧
        unscramble lim blank out r = pure cs.flatten := by
    intro cs
    induction cs with
    | nil => exact fun r _ => ⟨[], by simp, rfl, rfl⟩
    | cons c cs ih =>
      intro r hc
      have hcl := hc c (by simp)
      obtain ⟨out, o1, o2, o3⟩ := ih (shuf (List.range lim, r)).2 (fun d hd => hc d (by simp [hd]))
      have hp := shuf_perm (List.range lim, r)
      generalize hix : shuf (List.range lim, r) = st at *
      obtain ⟨ix, r'⟩ := st
      simp only at hp o2 o3
      have hmem : ∀ i, i ∈ ix ↔ i < lim := fun i => by rw [hp.mem_iff, List.mem_range]
      refine ⟨ix.map (fun i => c.getD i blank) :: out, ?_, ?_, ?_⟩
      · rintro d (_ | ⟨_, hd⟩)
        · rw [List.length_map, hp.length_eq, List.length_range]
        · exact o1 _ hd
      · rw [scramble, shuffle_eq, hix, pure_bind]
        simp only
        rw [mapM_ok (g := fun i => c.getD i blank) (fun i hi => by
          have := (hmem i).mp hi
          rw [index_lt (by omega), List.getD_eq_getElem?_getD, List.getElem?_eq_getElem (by omega)]; rfl), pure_bind, o2, pure_bind,
          List.flatten_cons]
      · obtain ⟨w, e, hw, hg⟩ := assign_all c ix (List.replicate lim blank) (by simp [hcl]) (fun i hi => by
          rw [hcl]; exact (hmem i).mp hi) blank
        rw [unscramble, shuffle_eq, hix, pure_bind]
        simp only
        rw [e, pure_bind, o3, pure_bind, List.flatten_cons]
        refine congrArg (fun x => (pure (x ++ cs.flatten) : RM _)) (List.ext_getElem? fun j => ?_)
        rw [hg]
        by_cases hj : j < lim
        · rw [if_pos ((hmem j).mpr hj)]
        · rw [if_neg (fun h => hj ((hmem j).mp h)), List.getElem?_eq_none (by simpa using hj), List.getElem?_eq_none (by omega)]
  obtain ⟨out, o1, o2, o3⟩ := key (blocks lim data) rng (mem_blocks_full hlim data hd)
  rw [o2, pure_bind, blocks_flatten_eq hlim out o1, o3, blocks_flatten _ hlim]

example : (do let sent ← scramble 12 (blocks 12 "Hello World!".toList) (Rng.seed (ρ := ρ) SEED)
              unscramble 12 ' ' (blocks 12 sent) (Rng.seed (ρ := ρ) SEED)) = pure "Hello World!".toList :=
  C132_scrambling (by norm_num) ' ' _ (by decide)

end hops
/-! ## The Hadamard test -/

/-- The checksum of the test `hadamard` — src/hadamard.rs:72-79: the parity of the number of positions where both rows hold a one. -/
def checksum (a b : List Bool) : ℕ := ((a.zip b).map (fun p => if p.1 && p.2 then 1 else 0)).sum % 2

private theorem both_count (a b : List Bool) (h : a.length = b.length) :
    a.countP (fun x => x) + b.countP (fun x => x) + agreements a b
      = 2 * ((a.zip b).map (fun p => if p.1 && p.2 then 1 else 0)).sum + a.length := by
  unfold agreements
  induction a generalizing b with
  | nil => cases b <;> simp_all
  | cons x a ih =>
    cases b with
    | nil => simp at h
    | cons y b =>
      have := ih b (by simpa using h)
      simp only [List.zip_cons_cons, List.map_cons, List.sum_cons, List.countP_cons, List.length_cons]
      generalize ((a.zip b).map (fun p : Bool × Bool => if p.1 && p.2 then 1 else 0)).sum = S at this ⊢
      cases x <;> cases y <;> simp <;> omega

/-- `hadamard` — src/hadamard.rs:57-82, for every size the constructor accepts from two on: the test passes exactly from size eight on (the
cases 2 and 4 are commented out in the source). -/
theorem C132_hadamard {k : ℕ} (hk : 1 ≤ k) {m : BMat} (hm : hadamardNew (2 ^ k) = pure m) :
    (∀ (i j : ℕ) r s, i < j → m[i]? = some r → m[j]? = some s → checksum r s = 0) ↔ 3 ≤ k := by
  obtain ⟨m', hm', hlen, hrow⟩ := C19_entries k
  obtain rfl : m = m' := by rw [hm, RM.ok_inj] at hm'; exact hm'
  have hp := Nat.two_pow_pos k
  have hl : ∀ {i : ℕ} {r : List Bool}, m[i]? = some r → r.length = 2 ^ k := by
    intro i r hr
    have hi : i < 2 ^ k := by
      by_contra hc
      rw [List.getElem?_eq_none (by omega)] at hr
      exact absurd hr (by simp)
    obtain ⟨r', h1, h2, -⟩ := hrow i hi
    rw [hr, Option.some.injEq] at h1
    rw [h1, h2]
  have hones : ∀ {i : ℕ} {r : List Bool}, m[i]? = some r → i ≠ 0 → 2 * r.countP (fun x => x) = 2 ^ k := by
    intro i r hr hi
    have hi' : i < 2 ^ k := by
      by_contra hc
      rw [List.getElem?_eq_none (by omega)] at hr
      exact absurd hr (by simp)
    obtain ⟨r', -, h1, -, h2⟩ := C20_key_partial k hm (i - 1) (by rw [Nat.mod_eq_of_lt (by omega)]; omega)
    rw [Nat.mod_eq_of_lt (by omega), show i - 1 + 1 = i by omega, hr, Option.some.injEq] at h1
    rw [h1, h2]
  have h0 := C19_first_row k hm
  have hzero : ∀ {j : ℕ} {s : List Bool}, m[j]? = some s → 0 < j → 2 * ((((List.replicate (2 ^ k) true).zip s).map (fun p => if p.1 && p.2 then 1 else 0)).sum) = 2 ^ k := by
    intro j s hs hj
    have a1 := both_count _ _ ((hl h0).trans (hl hs).symm)
    have a2 := C19_orthogonal k hm (by omega) h0 hs
    have a3 := hones hs (by omega)
    rw [List.length_replicate, show (List.replicate (2 ^ k) true).countP (fun x => x) = 2 ^ k by rw [List.countP_replicate]; simp] at a1
    omega
  have htwo : ∀ {i j : ℕ} {r s : List Bool}, m[i]? = some r → m[j]? = some s → 0 < i → i < j →
      4 * (((r.zip s).map (fun p => if p.1 && p.2 then 1 else 0)).sum) = 2 ^ k := by
    intro i j r s hr hs hi hj
    have a1 := both_count _ _ ((hl hr).trans (hl hs).symm)
    have a2 := C19_orthogonal k hm (by omega) hr hs
    have a3 := hones hs (by omega)
    have a4 := hones hr (by omega)
    rw [hl hr] at a1
    omega
  constructor
  · intro H
    by_contra hc
    obtain rfl | rfl : k = 1 ∨ k = 2 := by omega
    · obtain ⟨s, h1, -⟩ := hrow 1 (by norm_num)
      have := H 0 1 _ s (by norm_num) h0 h1
      have h2 := hzero h1 (by norm_num)
      unfold checksum at this
      omega
    · obtain ⟨r, h1, -⟩ := hrow 1 (by norm_num)
      obtain ⟨s, h2, -⟩ := hrow 2 (by norm_num)
      have := H 1 2 r s (by norm_num) h1 h2
      have h3 := htwo h1 h2 (by norm_num) (by norm_num)
      unfold checksum at this
      omega
  · intro h3 i j r s hij hr hs
    obtain ⟨q, rfl⟩ := Nat.exists_eq_add_of_le h3
    have h8 : 2 ^ (3 + q) = 8 * 2 ^ q := by rw [pow_add]; norm_num
    unfold checksum
    rcases Nat.eq_zero_or_pos i with rfl | hi
    · rw [h0, Option.some.injEq] at hr
      subst hr
      have := hzero hs hij
      omega
    · have := htwo hr hs hi hij
      omega

example : ∃ m, hadamardNew (2 ^ 8) = pure m ∧ ∀ (i j : ℕ) r s, i < j → m[i]? = some r → m[j]? = some s → checksum r s = 0 :=
  ⟨_, hadamardNew_ok 8, (C132_hadamard (by norm_num) (hadamardNew_ok 8)).mpr (by norm_num)⟩

/-- The checksum is not a test of orthogonality: any number of identical all-ones rows of even length pass it, and agree everywhere. -/
theorem C132_hadamard_weak {n : ℕ} (hn : n % 2 = 0) (rows : ℕ) :
    (∀ r ∈ List.replicate rows (List.replicate n true), ∀ s ∈ List.replicate rows (List.replicate n true), checksum r s = 0) ∧
      agreements (List.replicate n true) (List.replicate n true) = n := by
  refine ⟨fun r hr s hs => ?_, by rw [agreements_self, List.length_replicate]⟩
  rw [List.eq_of_mem_replicate hr, List.eq_of_mem_replicate hs, checksum, List.zip_replicate']
  simpa using hn

/-! ## The energy test -/

private theorem tone_energy {f : ℝ} {N p : ℕ} (hN : 0 < N) (hp : 2 * f = p) (hs : Real.sin (p * Real.pi / N) ≠ 0) :
    (((hopFreqs (0 : ℝ) 1 N).map (fun t => Real.sin (2 * Real.pi * f * t))).map (fun x : ℝ => x ^ 2)).sum = (N : ℝ) / 2 := by
  unfold hopFreqs
  rw [List.map_map, List.map_map, ← rsum_eq_sum, rsum_range]
  have hN' : (N : ℝ) ≠ 0 := by exact_mod_cast hN.ne'
  have h := sum_sin_sq_half (k := N) (d := p * Real.pi / N) (p := p) (by field_simp; simp) hs 0
  rw [← h]
  refine Finset.sum_congr rfl fun i _ => ?_
  simp only [Function.comp, Flt.ofNat_real, Nat.zero_add]
  rw [show 2 * Real.pi * f * (0 + (1 - 0) / (N : ℝ) * i) = i * ((2 * f) * Real.pi / N) by ring, hp]

/-- `energy_test` — src/lib.rs:295-313, in exact arithmetic: energy one half, as asserted; power `500 / 999 / 1000`, which is not the asserted
`5e-4`, but within the default tolerance `1e-6` of the macro: the test does not see that the power is divided by one sample too few. -/
theorem C132_energy :
    ∃ t, collect (linspace (0 : ℝ) 1 1000) = pure t ∧
      energy (ofList (t.map (fun t => Real.sin (2 * Real.pi * 100 * t)))) (1000 / (1 - 0)) = pure (1 / 2) ∧
      power (ofList (t.map (fun t => Real.sin (2 * Real.pi * 100 * t)))) (1000 / (1 - 0)) = pure (500 / 999 / 1000) ∧
      (500 / 999 / 1000 : ℝ) ≠ 5 / 10 ^ 4 ∧ |(500 / 999 / 1000 : ℝ) - 5 / 10 ^ 4| < 1 / 10 ^ 6 := by
  have hsum : (((hopFreqs (0 : ℝ) 1 1000).map (fun t => Real.sin (2 * Real.pi * 100 * t))).map (fun x : ℝ => x ^ 2)).sum = 500 := by
    rw [tone_energy (f := 100) (N := 1000) (p := 200) (by norm_num) (by norm_num) (ne_of_gt (Real.sin_pos_of_pos_of_lt_pi (by positivity)
      (by push_cast; linarith [Real.pi_pos])))]
    norm_num
  refine ⟨_, collect_of_yields (linspace_yields 0 1 1000), ?_, ?_, by norm_num, by rw [abs_lt]; norm_num⟩
  · rw [energy_real (yields_ofList _), hsum]
    norm_num
  · rw [power_real (yields_ofList _), hsum, List.length_map, hopFreqs_length]
    norm_num

/-! ## The Chebyshev test -/

/-- The ignored `no_nans_test` — src/chaos/chebyshev.rs:35-42: its assertion `!no_nans` holds, because `is_nan` counts infinities and the map
diverges; no value is a NaN. -/
theorem C132_chebyshev : ∃ it nums, Chebyshev.new (0.5 : Float) = pure it ∧ collect (rtake it 10000) = pure nums ∧ noNans nums = false ∧
    ∀ x ∈ nums, x.isNaN = false := by
  have h1 : Chebyshev.new (0.5 : Float) = pure ⟨0.5⟩ := by unfold Chebyshev.new; rw [rassert_pos (by decide +kernel), pure_bind]
  have key : ∀ k, orbit chebyshev (0.5 : Float) (7 + k) = F64.inf := by
    intro k
    induction k with
    | zero => decide +kernel
    | succ k ih => rw [show 7 + (k + 1) = (7 + k) + 1 from rfl, orbit, ih]; decide +kernel
  have early : ∀ n, n < 7 → (orbit chebyshev (0.5 : Float) n).isNaN = false := by decide +kernel
  refine ⟨_, _, h1, collect_of_yields ((gives_chebyshev _).rtake 10000), ?_, ?_⟩
  · unfold noNans
    rw [Bool.not_eq_false', List.any_eq_true]
    exact ⟨_, List.mem_map_of_mem (List.mem_range.mpr (show 7 < 10000 by norm_num)), by rw [key 0]; decide +kernel⟩
  · intro x hx
    obtain ⟨n, -, rfl⟩ := List.mem_map.mp hx
    by_cases hn : n < 7
    · exact early n hn
    · obtain ⟨k, rfl⟩ := Nat.exists_eq_add_of_le (not_lt.mp hn)
      rw [key]; decide +kernel

/-! ## The energy detector test -/

section noise
open MeasureTheory
variable {ν Ω : Type} [MeasurableSpace Ω] {P : Measure Ω} {z : ℕ → Ω → ℝ} [RIter ν ℝ] {noise : Ω → ν}

omit [RIter ν ℝ] in
private theorem rms_far {l : List ℝ} (h : ¬ |√((l.map (· ^ 2)).sum / l.length) - 6| < 1) : (11 : ℝ) ≤ |avgEnergy l - (0 + 6 ^ 2)| := by
  have hnn : 0 ≤ (l.map (· ^ 2)).sum / (l.length : ℝ) := div_nonneg (sum_sq_nonneg _) (Nat.cast_nonneg _)
  rw [Billiam.avg_real]
  generalize (l.map (· ^ 2)).sum / (l.length : ℝ) = a at *
  have hs := Real.sq_sqrt hnn
  have hs0 := Real.sqrt_nonneg a
  rw [not_lt, le_abs] at h
  rw [le_abs]
  rcases h with h | h
  · left; nlinarith
  · right; nlinarith

omit [RIter ν ℝ] in
private theorem rms_count (hz : White P 1 z) {n : ℕ} (hn : 0 < n) :
    P.real {ω | ¬ |√(((((List.range n).map (fun i => 0 + 6 * z i ω)).map (· ^ 2)).sum) /
      ((List.range n).map (fun i => 0 + 6 * z i ω)).length) - 6| < 1} ≤ (2 * 6 ^ 4 + 4 * 6 ^ 2 * 0) / (n * 11 ^ 2) := by
  have hP := hz.prob
  have hfar := Billiam.avg_far hz 6 (l := List.replicate n 0) (by rw [Ne, List.replicate_eq_nil_iff]; omega) (d := 11) (by norm_num)
  have h0 : avgEnergy (List.replicate n (0 : ℝ)) = 0 := by
    rw [Billiam.avg_real, List.map_replicate, List.sum_replicate, zero_pow two_ne_zero, smul_zero, zero_div]
  rw [h0, List.length_replicate] at hfar
  refine le_trans (measureReal_mono (fun ω hω => ?_) (measure_ne_top _ _)) hfar
  have e : (List.replicate n (0 : ℝ)).mapIdx (fun i s => s + (0 + 6 * z i ω)) = (List.range n).map (fun i => 0 + 6 * z i ω) := by
    rw [mapIdx_range, List.length_replicate]
    refine List.map_congr_left fun i hi => ?_
    rw [List.getD_replicate _ (List.mem_range.mp hi), zero_add]
  have := rms_far hω
  rw [← e] at this
  exact this

/-- `energy_detector_test_awgn` — src/willie.rs:58-73: over the draws of the noise, the assertion fails with probability below `1/4000`. -/
theorem C132_rms (hz : White P 1 z) (hg : ∀ ω, Gives (noise ω) (fun i => z i ω)) :
    ∃ sig : Ω → List ℝ, (∀ ω, pureAwgn 100000 (6 : ℝ) (noise ω) = pure (sig ω)) ∧
      P.real {ω | ¬ |√((((sig ω).map (· ^ 2)).sum) / (sig ω).length) - 6| < 1} ≤ 1 / 4000 :=
  ⟨_, fun ω => C56_pure_awgn 100000 (hg ω) 6 rfl, (rms_count hz (n := 100000) (by norm_num)).trans (by norm_num)⟩

example : ∃ sig : (ℕ → ℝ) → List ℝ, (∀ ω, pureAwgn 100000 (6 : ℝ) (path ω) = pure (sig ω)) ∧
    (gaussPath 1).real {ω | ¬ |√((((sig ω).map (· ^ 2)).sum) / (sig ω).length) - 6| < 1} ≤ 1 / 4000 := C132_rms (white_path 1) path_gives

end noise

/-! ## The "sine" of the normality test -/

/-- `normtest_sine` — src/willie.rs:47-56: the signal handed to the normality test is sampled at whole cycles, so it is no sine wave: in exact
arithmetic it is silent … -/
theorem C132_sine_silent (i : ℕ) : Real.sin (2 * Real.pi * 1000 * i) = 0 := by
  rw [show 2 * Real.pi * 1000 * (i : ℝ) = ((2000 * i : ℕ) : ℝ) * Real.pi by push_cast; ring]
  exact Real.sin_nat_mul_pi _

/-- … and in double precision no sample exceeds the error of the library's sine by more than `2⁻²⁴`. -/
theorem C132_sine_quiet {L : Libm} {ε : ℝ} (hL : F64.Accurate L ε (2 ^ 40)) {i : ℕ} (hi : i < 10000) :
    ∃ x : Float, (Flt.sin (Flt.ofNat 2 * Flt.pi * Flt.ofNat 1000 * Flt.ofNat i : FloatL L) : FloatL L) = x ∧ F64.Fin x ∧
      |F64.val x| ≤ ε + 1 / 2 ^ 24 := by
  have hu := F64.uu_eq
  have hpi := Real.pi_gt_three
  have hpi4 := Real.pi_lt_four
  have big : ∀ {y : ℝ}, 1 ≤ y → y ≤ 2 ^ 40 → (2 : ℝ) ^ (-1000 : ℤ) ≤ |y| ∧ |y| ≤ 2 ^ (1000 : ℤ) := fun {y} h1 h2 => by
    rw [abs_of_pos (by linarith)]
    exact ⟨(F64.small_le (k := 0) (by norm_num)).trans (by simpa using h1), F64.le_thousand (k := 40) (by norm_num) h2⟩
  have r1 := (F64.ofNat_rel (n := 2) (by norm_num)).mul F64.pi_rel (by rw [hu]; norm_num)
    (.inr (big (by push_cast; linarith) (by push_cast; linarith)).1) (big (by push_cast; linarith) (by push_cast; linarith)).2
  have r1 := r1.mono (η' := 3 / 2 ^ 53) (by rw [hu]; norm_num)
  have r2 := r1.mul (F64.ofNat_rel (n := 1000) (by norm_num)) (by norm_num)
    (.inr (big (by push_cast; linarith) (by push_cast; linarith)).1) (big (by push_cast; linarith) (by push_cast; linarith)).2
  have r2 := r2.mono (η' := 5 / 2 ^ 53) (by rw [hu]; norm_num)
  have hi' : (i : ℝ) ≤ 10000 := by exact_mod_cast hi.le
  have hi0 : (0 : ℝ) ≤ i := Nat.cast_nonneg i
  have hlim : ((2 : ℕ) : ℝ) * Real.pi * (1000 : ℕ) * i ≤ 63 * 10 ^ 6 := by
    push_cast
    calc 2 * Real.pi * 1000 * (i : ℝ) ≤ 2 * 3.15 * 1000 * 10000 := by gcongr; exact Real.pi_lt_d2.le
      _ = 63 * 10 ^ 6 := by norm_num
  have hnn : (0 : ℝ) ≤ ((2 : ℕ) : ℝ) * Real.pi * (1000 : ℕ) * i := by positivity
  have r3 := r2.mul (F64.ofNat_rel (n := i) (by omega)) (by norm_num) (by
      rcases Nat.eq_zero_or_pos i with rfl | hp
      · left; simp
      · right
        have : (1 : ℝ) ≤ i := by exact_mod_cast hp
        refine (big ?_ (hlim.trans (by norm_num))).1
        push_cast
        nlinarith)
    (by rw [abs_of_nonneg hnn]; exact F64.le_thousand (k := 40) (by norm_num) (hlim.trans (by norm_num)))
  have r3 := r3.mono (η' := 7 / 2 ^ 53) (by rw [hu]; norm_num)
  have r4 := r3.ap (e := 1 / 2 ^ 24) (by
    rw [abs_of_nonneg hnn]
    calc 7 / 2 ^ 53 * (((2 : ℕ) : ℝ) * Real.pi * (1000 : ℕ) * i) ≤ 7 / 2 ^ 53 * (63 * 10 ^ 6) := by gcongr
      _ ≤ 1 / 2 ^ 24 := by norm_num)
  obtain ⟨h1, h2⟩ := (F64.carrier_ap hL r4 (by rw [abs_of_nonneg hnn]; exact (add_le_add hlim le_rfl).trans (by norm_num))).2
  refine ⟨_, rfl, h1, ?_⟩
  push_cast at h2
  rw [C132_sine_silent, sub_zero] at h2
  exact h2

end Verif.Props
