import Verif.Model.NoisyTests
import Verif.Props.Gauss
import Verif.Props.Psk
import Verif.Props.Cdma
import Mathlib.Analysis.Complex.ExponentialBounds

/-!
# C156: tests that draw noise fail by chance, and how often
-/

namespace Verif
open MeasureTheory ProbabilityTheory Spec

theorem errorMacro_real (a b : List Bool) : (errorMacro a b : ℝ) = wrong a b / a.length := by
  unfold errorMacro wrong
  rw [Flt.ofNat_real]
  congr 1
  have : ∀ (l : List (Bool × Bool)) (c : ℝ), (l.map (fun p => if p.1 = p.2 then (0 : ℝ) else 1)).foldl (· + ·) c
      = c + (l.countP (fun x => x.1 != x.2) : ℕ) := by
    intro l
    induction l with
    | nil => intro c; simp
    | cons p l ih =>
      intro c
      rw [List.map_cons, List.foldl_cons, ih, List.countP_cons]
      by_cases h : p.1 = p.2
      · simp [h]
      · simp [h]; ring
  simpa [rsum] using this (a.zip b) 0

theorem wrong_self (a : List Bool) : wrong a a = 0 := by
  unfold wrong
  induction a with
  | nil => rfl
  | cons b a ih => simpa [List.countP_cons] using ih

namespace Props
variable {ν : Type} {Ω : Type} [MeasurableSpace Ω] {P : Measure Ω} {z : ℕ → Ω → ℝ} [RIter ν ℝ] {noise : Ω → ν}


theorem wholeHalf_bpsk : WholeHalf 44100 (44100 / 900) (1800 : ℝ) :=
  ⟨⟨4, by norm_num⟩, fun q h => by
    have h' : (3600 : ℝ) = ((q * 44100 : ℤ) : ℝ) := by push_cast; push_cast at h; linarith
    have : (3600 : ℤ) = q * 44100 := by exact_mod_cast h'
    omega⟩

theorem wholeHalf_cdma : WholeHalf 128000 (128000 / 1000) (2500 : ℝ) :=
  ⟨⟨5, by norm_num⟩, fun q h => by
    have h' : (5000 : ℝ) = ((q * 128000 : ℤ) : ℝ) := by push_cast; push_cast at h; linarith
    have : (5000 : ℤ) = q * 128000 := by exact_mod_cast h'
    omega⟩

theorem bpskGraphs_flips (hz : White P 1 z) (hg : ∀ ω, Gives (noise ω) (fun i => z i ω)) (data : List Bool) :
    ∃ bits : Ω → List Bool, (∀ ω, bpskGraphs ℝ data (noise ω) = pure (decide ((wrong data (bits ω) : ℝ) / data.length ≤ 1 / 5))) ∧
      Flips P data bits (fun _ => Erfc (√(49 / 16)) / 2) := by
  have hfc : ⌊(1800 : ℝ)⌋₊ ≤ 44100 / 2 := by norm_num
  have hint : isInt (Flt.ofNat 44100 / Flt.ofNat 900 : ℝ) = true := (isInt_real (by norm_num) (by norm_num)).mpr (by norm_num)
  obtain ⟨s, t1, t2⟩ := txBpsk_ok (yields_ofList data) (fs := 44100) (sym := 900) (fc := (1800 : ℝ)) (by norm_num)
    (by rw [Flt.toNat_real]; exact (min_le_left _ _).trans hfc) hint
  obtain ⟨tx, htx'⟩ : ∃ tx, collect s = pure tx := ⟨_, collect_of_yields t2⟩
  have htx : (do let it ← txBpsk (ofList data) 44100 900 (1800 : ℝ); collect it) = pure tx := by rw [t1, pure_bind, htx']
  have hy : Yields s tx := t2.of_eq (by rw [collect_of_yields t2, RM.ok_inj] at htx'; exact htx')
  have hE := C78_bpsk (yields_ofList data) (by norm_num) wholeHalf_bpsk htx
  obtain ⟨bits, b1, b2⟩ := C101_bpsk (σ := 2) hz (by norm_num) hg (yields_ofList data) (by norm_num) (by norm_num) (by norm_num) hfc htx
    (fun n hn => by rw [hE.each (by norm_num) n hn]; norm_num)
  refine ⟨bits, fun ω => ?_, b2.congr fun n hn => ?_⟩
  · have hclean := C25_roundtrip (yields_ofList data) (fs := 44100) (sym := 900) (fc := 1800) (by norm_num) (by norm_num) (by norm_num) hfc
    rw [t1, pure_bind] at hclean
    obtain ⟨r, r1, r2⟩ := rxBpsk_sym hy (fs := 44100) (sym := 900) (fc := 1800) (by norm_num)
    rw [r1, pure_bind, collect_of_yields r2] at hclean
    obtain ⟨r', r1', r2'⟩ := rxBpsk_sym (yields_ofList tx) (fs := 44100) (sym := 900) (fc := 1800) (by norm_num)
    obtain ⟨w, hw, hn⟩ := hz.driven hg 2
    obtain ⟨ch, c1, c2⟩ := awgn_driven hy (hn ω)
    obtain ⟨ch', c1', c2'⟩ := awgn_driven (yields_ofList tx) (hn ω)
    obtain ⟨d, d1, d2⟩ := rxBpsk_sym c2 (fs := 44100) (sym := 900) (fc := 1800) (by norm_num)
    obtain ⟨d', d1', d2'⟩ := rxBpsk_sym (yields_ofList (tx.mapIdx (fun i x => x + w i ω))) (fs := 44100) (sym := 900) (fc := 1800)
      (by norm_num)
    have hb := b1 ω
    rw [t1, pure_bind, c1, pure_bind, d1, pure_bind, collect_of_yields d2] at hb
    unfold bpskGraphs
    simp only [Flt.ofNat_real, Nat.cast_ofNat]
    rw [t1, pure_bind, htx', pure_bind, r1', pure_bind, collect_of_yields r2', hclean, pure_bind, c1', pure_bind,
      collect_of_yields c2', pure_bind, d1', pure_bind, collect_of_yields d2', hb, pure_bind, errorMacro_real, Flt.le_real,
      Flt.lit_real]
    norm_num
  · rw [hE.each (by norm_num) n hn]
    unfold bitError
    norm_num

theorem cdmaGraphs_flips (hz : White P 1 z) (hg : ∀ ω, Gives (noise ω) (fun i => z i ω)) (data : List Bool) {key : List Bool}
    (hkey : key.length = 32) :
    ∃ bits : Ω → List Bool, (∀ ω, cdmaGraphs ℝ data key (noise ω) = pure (decide (bits ω = data))) ∧
      Flips P data bits (fun _ => Erfc (√8) / 2) := by
  have hfc : ⌊(2500 : ℝ)⌋₊ ≤ 128000 / 2 := by norm_num
  have hk : key ≠ [] := by rintro rfl; simp at hkey
  have hok := (cdmaOk_real (fc := 2500) (fs := 128000) (sym := 1000) (L := key.length) (by norm_num)).mpr
    ⟨by norm_num, by omega, by rw [hkey]; norm_num, by rw [hkey]; norm_num, hfc⟩
  obtain ⟨s, t1, t2⟩ := txCdmaBpsk_ok (yields_ofList data) hok
  obtain ⟨tx, htx'⟩ : ∃ tx, collect s = pure tx := ⟨_, collect_of_yields t2⟩
  have htx : (do let it ← txCdmaBpsk (ofList data) 128000 1000 (2500 : ℝ) key; collect it) = pure tx := by rw [t1, pure_bind, htx']
  have hy : Yields s tx := t2.of_eq (by rw [collect_of_yields t2, RM.ok_inj] at htx'; exact htx')
  have hE := C78_cdma_bpsk (yields_ofList data) wholeHalf_cdma htx
  obtain ⟨bits, b1, b2⟩ := C101_cdma (σ := 2) hz (by norm_num) hg (yields_ofList data) (by norm_num) (by norm_num) hk
    (by rw [hkey]; norm_num) (by rw [hkey]; norm_num) hfc htx (fun n hn => by rw [hE.each (by norm_num) n hn]; norm_num)
  refine ⟨bits, fun ω => ?_, b2.congr fun n hn => ?_⟩
  · have hclean := C29_roundtrip (yields_ofList data) (fs := 128000) (sym := 1000) (fc := 2500) (by norm_num) (by norm_num) hk
      (by rw [hkey]; norm_num) (by rw [hkey]; norm_num) hfc
    rw [t1, pure_bind] at hclean
    obtain ⟨r, r1, r2⟩ := rxCdmaBpsk_sym hy hok
    rw [r1, pure_bind, collect_of_yields r2] at hclean
    obtain ⟨r', r1', r2'⟩ := rxCdmaBpsk_sym (yields_ofList tx) hok
    obtain ⟨w, hw, hn⟩ := hz.driven hg 2
    obtain ⟨ch, c1, c2⟩ := awgn_driven hy (hn ω)
    obtain ⟨ch', c1', c2'⟩ := awgn_driven (yields_ofList tx) (hn ω)
    obtain ⟨d, d1, d2⟩ := rxCdmaBpsk_sym c2 hok
    obtain ⟨d', d1', d2'⟩ := rxCdmaBpsk_sym (yields_ofList (tx.mapIdx (fun i x => x + w i ω))) hok
    have hb := b1 ω
    rw [t1, pure_bind, c1, pure_bind, d1, pure_bind, collect_of_yields d2] at hb
    unfold cdmaGraphs
    simp only [Flt.ofNat_real, Nat.cast_ofNat]
    rw [t1, pure_bind, htx', pure_bind, r1', pure_bind, collect_of_yields r2', hclean, pure_bind, c1', pure_bind,
      collect_of_yields c2', pure_bind, d1', pure_bind, collect_of_yields d2', hb, pure_bind, errorMacro_real, Flt.le_real,
      Flt.lit_real]
    congr 1
    rw [Bool.and_eq_decide, decide_eq_decide]
    constructor
    · intro h; exact (of_decide_eq_true h.2).symm
    · intro h
      rw [h]
      rw [wrong_self]
      norm_num [decide_eq_true_iff]
  · rw [hE.each (by norm_num) n hn]
    unfold bitError
    norm_num


theorem exp_bpsk : Erfc (√(49 / 16)) / 2 ≤ 47 / 2000 := by
  have h := Erfc_le (Real.sqrt_nonneg (49 / 16))
  rw [Real.sq_sqrt (by norm_num)] at h
  have e1 : Real.exp (-(49 / 16)) = Real.exp (-3) * Real.exp (-(1 / 16)) := by rw [← Real.exp_add]; norm_num
  have e2 : Real.exp (-3) = (Real.exp (-1)) ^ 3 := by rw [← Real.exp_nat_mul]; norm_num
  have e3 : Real.exp (-(1 / 16)) ≤ 16 / 17 := by
    rw [Real.exp_neg, inv_le_comm₀ (Real.exp_pos _) (by norm_num)]
    have := Real.add_one_le_exp (1 / 16 : ℝ)
    norm_num at this ⊢
    linarith
  have e4 : (Real.exp (-1)) ^ 3 ≤ (0.36788 : ℝ) ^ 3 := pow_le_pow_left₀ (Real.exp_pos _).le (by
    have := Real.exp_neg_one_lt_d9; linarith) 3
  have e5 : Real.exp (-3) * Real.exp (-(1 / 16)) ≤ 0.36788 ^ 3 * (16 / 17) := by
    rw [e2]; exact mul_le_mul e4 e3 (Real.exp_pos _).le (by norm_num)
  rw [e1] at h
  norm_num at e5
  linarith

theorem exp_cdma : Erfc (√8) / 2 ≤ 1 / 5000 := by
  have h := Erfc_le (Real.sqrt_nonneg 8)
  rw [Real.sq_sqrt (by norm_num)] at h
  have e2 : Real.exp (-8) = (Real.exp (-1)) ^ 8 := by rw [← Real.exp_nat_mul]; norm_num
  have e4 : (Real.exp (-1)) ^ 8 ≤ (0.36788 : ℝ) ^ 8 := pow_le_pow_left₀ (Real.exp_pos _).le (by
    have := Real.exp_neg_one_lt_d9; linarith) 8
  rw [e2] at h
  norm_num at e4
  linarith

/-- `bpsk_graphs` — tests/bpsk.rs:13-52 — with any ten bits: it fails exactly when three or more of ten independent events of probability
`p = erfc(7/4)/2` happen; this is possible, and happens at most once in 600 runs. -/
theorem C156_bpsk (hz : White P 1 z) (hg : ∀ ω, Gives (noise ω) (fun i => z i ω)) {data : List Bool} (hd : data.length = 10) :
    ∃ pass : Ω → Bool, (∀ ω, bpskGraphs ℝ data (noise ω) = pure (pass ω)) ∧
      P.real {ω | pass ω = false} = ∑ j ∈ Finset.Icc 3 10,
        (Nat.choose 10 j : ℝ) * (Erfc (7 / 4) / 2) ^ j * (1 - Erfc (7 / 4) / 2) ^ (10 - j) ∧
      0 < P.real {ω | pass ω = false} ∧ P.real {ω | pass ω = false} ≤ 1 / 600 := by
  have hP := hz.prob
  obtain ⟨bits, b1, b2⟩ := bpskGraphs_flips hz hg data
  have hsq : √(49 / 16 : ℝ) = 7 / 4 := by
    rw [show (49 / 16 : ℝ) = (7 / 4) ^ 2 by norm_num, Real.sqrt_sq (by norm_num)]
  have hp2 := exp_bpsk
  rw [hsq] at b2 hp2
  set p : ℝ := Erfc (7 / 4) / 2 with hp
  have hp0 : 0 < p := by have := Erfc_pos (7 / 4); rw [hp]; linarith
  have hle : ∀ ω, wrong data (bits ω) ≤ 10 := fun ω => by
    unfold wrong
    refine List.countP_le_length.trans ?_
    rw [List.length_zip, hd]
    exact Nat.min_le_left _ _
  have hev : ∀ ω, (decide ((wrong data (bits ω) : ℝ) / data.length ≤ 1 / 5)) = false ↔ 3 ≤ wrong data (bits ω) := fun ω => by
    rw [hd, decide_eq_false_iff_not, not_le]
    constructor
    · intro h
      by_contra hc
      have : (wrong data (bits ω) : ℝ) ≤ 2 := by exact_mod_cast (by omega : wrong data (bits ω) ≤ 2)
      push_cast at h
      linarith
    · intro h
      have : (3 : ℝ) ≤ wrong data (bits ω) := by exact_mod_cast h
      push_cast
      linarith
  have hset : {ω | (decide ((wrong data (bits ω) : ℝ) / data.length ≤ 1 / 5)) = false}
      = ⋃ j ∈ Finset.Icc 3 10, {ω | wrong data (bits ω) = j} := by
    ext ω
    simp only [Set.mem_ofPred_eq, Set.mem_iUnion, Finset.mem_Icc, hev]
    exact ⟨fun h => ⟨_, ⟨h, hle ω⟩, rfl⟩, fun ⟨j, hj, e⟩ => by omega⟩
  have hsum : P.real {ω | (decide ((wrong data (bits ω) : ℝ) / data.length ≤ 1 / 5)) = false} = ∑ j ∈ Finset.Icc 3 10,
      (Nat.choose 10 j : ℝ) * p ^ j * (1 - p) ^ (10 - j) := by
    rw [hset, measureReal_biUnion_finset₀ ?_ ?_]
    · refine Finset.sum_congr rfl fun j _ => ?_
      rw [C101_count b2 j, hd]
    · intro i _ j _ hij
      refine (Set.disjoint_left.mpr fun ω h1 h2 => hij ?_).aedisjoint
      simp only [Set.mem_ofPred_eq] at h1 h2
      omega
    · exact fun j _ => b2.nullMeas (fun l => wrong data l = j)
  refine ⟨_, b1, hsum, ?_, ?_⟩
  · rw [hsum]
    refine Finset.sum_pos (fun j hj => ?_) ⟨3, by simp⟩
    have : 0 < Nat.choose 10 j := Nat.choose_pos (Finset.mem_Icc.mp hj).2
    have : 0 < 1 - p := by linarith
    positivity
  · rw [hsum]
    have h1 : ∑ j ∈ Finset.Icc 3 10, (Nat.choose 10 j : ℝ) * p ^ j * (1 - p) ^ (10 - j)
        ≤ ∑ j ∈ Finset.Icc 3 10, (Nat.choose 10 j : ℝ) * (47 / 2000) ^ j := by
      refine Finset.sum_le_sum fun j _ => ?_
      have a : p ^ j ≤ (47 / 2000) ^ j := pow_le_pow_left₀ hp0.le hp2 j
      have b : (1 - p) ^ (10 - j) ≤ 1 := pow_le_one₀ (by linarith) (by linarith)
      have c : (0 : ℝ) ≤ (1 - p) ^ (10 - j) := pow_nonneg (by linarith) _
      calc (Nat.choose 10 j : ℝ) * p ^ j * (1 - p) ^ (10 - j) ≤ (Nat.choose 10 j : ℝ) * p ^ j * 1 :=
            mul_le_mul_of_nonneg_left b (by positivity)
        _ = (Nat.choose 10 j : ℝ) * p ^ j := mul_one _
        _ ≤ _ := mul_le_mul_of_nonneg_left a (by positivity)
    refine h1.trans ?_
    rw [show Finset.Icc 3 10 = {3, 4, 5, 6, 7, 8, 9, 10} by decide]
    simp [Nat.choose]
    norm_num

/-- `cdma_graphs` — tests/cdma.rs:17-82 — with any five bits and any key of 32 chips: it fails exactly when one of five independent events of
probability `p = erfc(√8)/2` happens; this is possible, and happens at most once in 1000 runs. -/
theorem C156_cdma (hz : White P 1 z) (hg : ∀ ω, Gives (noise ω) (fun i => z i ω)) {data key : List Bool} (hd : data.length = 5)
    (hk : key.length = 32) :
    ∃ pass : Ω → Bool, (∀ ω, cdmaGraphs ℝ data key (noise ω) = pure (pass ω)) ∧
      P.real {ω | pass ω = false} = 1 - (1 - Erfc (√8) / 2) ^ 5 ∧
      0 < P.real {ω | pass ω = false} ∧ P.real {ω | pass ω = false} ≤ 1 / 1000 := by
  have hP := hz.prob
  obtain ⟨bits, b1, b2⟩ := cdmaGraphs_flips hz hg data hk
  have hp2 := exp_cdma
  set p : ℝ := Erfc (√8) / 2 with hp
  have hp0 : 0 < p := by have := Erfc_pos (√8); rw [hp]; linarith
  have hsum : P.real {ω | decide (bits ω = data) = false} = 1 - (1 - p) ^ 5 := by
    have e : {ω | decide (bits ω = data) = false} = {ω | bits ω = data}ᶜ := by
      ext ω; simp
    rw [e, probReal_compl_eq_one_sub₀ (b2.event data), b2.pattern data rfl]
    simp [hd]
  refine ⟨_, b1, hsum, ?_, ?_⟩
  · rw [hsum]
    have : (1 - p) ^ 5 < 1 := pow_lt_one₀ (by linarith) (by linarith) (by norm_num)
    linarith
  · rw [hsum]
    have := one_add_mul_le_pow (a := -p) (by linarith) 5
    have e : (1 + -p) ^ 5 = (1 - p) ^ 5 := by ring
    rw [e] at this
    push_cast at this
    linarith

/-- The tests as written. -/
example : ∃ pass : (ℕ → ℝ) → Bool,
    (∀ ω, bpskGraphs ℝ [false, false, true, false, false, true, false, true, true, true] (path ω) = pure (pass ω)) ∧
    0 < (gaussPath 1).real {ω | pass ω = false} ∧ (gaussPath 1).real {ω | pass ω = false} ≤ 1 / 600 := by
  obtain ⟨pass, h1, -, h2, h3⟩ := C156_bpsk (white_path 1) path_gives
    (data := [false, false, true, false, false, true, false, true, true, true]) rfl
  exact ⟨pass, h1, h2, h3⟩

example : ∃ pass : (ℕ → ℝ) → Bool,
    (∀ ω, cdmaGraphs ℝ [true, true, false, false, true] (List.replicate 32 true) (path ω) = pure (pass ω)) ∧
    0 < (gaussPath 1).real {ω | pass ω = false} ∧ (gaussPath 1).real {ω | pass ω = false} ≤ 1 / 1000 := by
  obtain ⟨pass, h1, -, h2, h3⟩ := C156_cdma (white_path 1) path_gives (data := [true, true, false, false, true])
    (key := List.replicate 32 true) rfl List.length_replicate
  exact ⟨pass, h1, h2, h3⟩

end Props
end Verif
