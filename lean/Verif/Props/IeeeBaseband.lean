import Verif.Props.IeeeNoise2
import Verif.Lemmas.IeeeOfdmPass
import Verif.Props.ChaosRx
/-!
# C145: the error rate of the baseband links in double precision
-/
namespace Verif.Props
open Verif Spec F64 MeasureTheory ProbabilityTheory
variable {Ω : Type} [MeasurableSpace Ω] {P : Measure Ω} {z : ℕ → Ω → ℝ} {ι κ ν ρ : Type}

theorem awgnComplex_yields {F : Type} [Add F] [Sub F] [Mul F] [Div F] [Neg F] [Zero F] [One F] [Flt F] [RIter ι (Cx F)] [RIter ν F] {src : ι}
    {l : List (Cx F)} (h : Yields src l) {std : ν} {d : ℕ → F} (hd : Gives std d) {σ : F} (hσ : Flt.isFinite σ = true) :
    ∃ it, awgnComplex src σ std = pure it ∧ Yields it (l.mapIdx (fun i x => x.addR (0 + σ * d i))) := by
  unfold awgnComplex normalIter
  rw [if_pos hσ, pure_bind]
  refine ⟨_, rfl, ?_⟩
  have := (h.rzip_gives (hd.rmap (fun z => 0 + σ * z))).rmap (fun p : Cx F × F => p.1.addR p.2)
  rwa [map_mapIdx'] at this

/-- A decision at zero in double precision. -/
theorem le_decide {x : Float} {r e D : ℝ} (h : Ap x r e) (he : e ≤ D) (hD : D < |r|) : Flt.le 0 x = decide (0 < r) := by
  have h1 : Flt.le (0 : Float) x = decide ((0 : ℝ) ≤ val x) := by
    have := le_iff (a := (0 : Float)) (b := x) fin_zero h.1
    rw [val_zero] at this
    by_cases hx : (0 : ℝ) ≤ val x
    · rw [decide_eq_true hx]; exact this.mpr hx
    · rw [decide_eq_false hx]
      exact Bool.eq_false_iff.mpr fun hh => hx (this.mp hh)
  rw [h1]
  have h2 := abs_le.mp h.2
  rcases lt_abs.mp hD with hp | hp
  · rw [decide_eq_true (by linarith : (0 : ℝ) < r), decide_eq_true (by linarith : (0 : ℝ) ≤ val x)]
  · rw [decide_eq_false (by linarith : ¬ (0 : ℝ) < r), decide_eq_false (by linarith : ¬ (0 : ℝ) ≤ val x)]

theorem ap_pm_one (b : Bool) : Ap (if b then (1 : Float) else -1) (pm b) 0 := by
  cases b
  · have := (Ap.exact fin_one).neg
    rw [val_one] at this
    simpa [pm] using this
  · have := Ap.exact fin_one
    rw [val_one] at this
    simpa [pm] using this

omit [MeasurableSpace Ω] in
/-- The single sample of a symbol. -/
theorem one_sample (n : ℕ) (a : ℝ) (ω : Ω) : proj (n + 1) (fun i => if i = n then a else 0) z ω = a * z n ω := by
  rw [proj, Finset.sum_range_succ, Finset.sum_eq_zero, zero_add, if_pos rfl]
  intro i hi
  rw [if_neg (by have := Finset.mem_range.mp hi; omega), zero_mul]

theorem one_energy (n : ℕ) (a : ℝ) : ∑ i ∈ Finset.range (n + 1), (if i = n then a else 0) ^ 2 = a ^ 2 := by
  rw [Finset.sum_range_succ, Finset.sum_eq_zero, zero_add, if_pos rfl]
  intro i hi
  rw [if_neg (by have := Finset.mem_range.mp hi; omega)]; norm_num

/-- **C145, baseband BPSK.** Symbols, `awgn_complex` and decisions in double precision: every bit is wrong with the probability of unit
energy, up to a change of the amplitude by the errors of the generator and of two roundings. -/
theorem C145_bpsk (hz : White P 1 z) {L : Libm} {Z η : ℝ} (hZ : 0 ≤ Z) (hη : 0 ≤ η) {d : ℕ → Ω → FloatL L} (hd : Sampled Z η z d)
    [RIter ν (FloatL L)] {noise : Ω → ν} (hg : ∀ ω, Gives (noise ω) (fun i => d i ω)) {σ : FloatL L} (hf : F64.Fin σ) (hσ : 0 < val σ)
    [RIter ι Bool] {m : ι} {msg : List Bool} (hm : Yields m msg) {S : ℝ} (hS : 1 + val σ * (Z + η) ≤ S) (hl : val σ * η + S / 2 ^ 48 ≤ 1) :
    Rates P (fun ω => do
        let ch ← awgnComplex (txBasebandBpsk (F := FloatL L) m) σ (noise ω)
        collect (rxBasebandBpsk (F := FloatL L) ch)) msg (fun _ => 1) (val σ * η + S / 2 ^ 48) (val σ) (msg.length * Real.exp (-Z ^ 2 / 2)) := by
  have hση : 0 ≤ val σ * η := by positivity
  have hb0 : 0 ≤ val σ * (Z + η) := by positivity
  have h1 : 1 ≤ S := by linarith
  have h2 : S ≤ 2 ^ 900 := by
    have : S ≤ 2 ^ 48 := by
      rw [← div_le_one (by positivity)]; linarith
    exact this.trans (pow_le_pow_right₀ (by norm_num) (by norm_num))
  have ht := hm.rmap (fun bit : Bool => if bit then (⟨1, 0⟩ : Cx (FloatL L)) else ⟨-1, 0⟩)
  refine margins_core hz hZ hσ (T := msg.length) (M := fun n => n + 1) (c := fun n i => if i = n then 1 else 0) (by positivity)
    (fun n hn => ⟨one_pos, hl⟩) (fun n _ => (one_energy n 1).trans (one_pow 2)) fun ω hG => ?_
  obtain ⟨ch, c1, c2⟩ := awgnComplex_yields ht (hg ω) (σ := σ) hf
  have h3 := c2.rmap (fun sample : Cx (FloatL L) => Flt.le 0 sample.re)
  refine ⟨fun n => Flt.le (0 : FloatL L) ((if msg.getD n false then (1 : FloatL L) else -1) + (0 + σ * d n ω)), ?_, fun n hn hbig => ?_⟩
  · refine (congrArg (· >>= fun ch => collect (rxBasebandBpsk (F := FloatL L) ch)) c1).trans ?_
    rw [pure_bind]
    refine (collect_of_yields h3).trans (congrArg pure ?_)
    rw [map_mapIdx']
    refine List.ext_getElem (by simp) fun n h5 h6 => ?_
    have hn : n < msg.length := by simpa using h6
    rw [List.getElem_mapIdx, List.getElem_map, List.getElem_map, List.getElem_range]
    have e : msg.getD n false = msg[n] := by rw [List.getD_eq_getElem?_getD, List.getElem?_eq_getElem hn, Option.getD_some]
    rw [e]
    cases msg[n] <;> rfl
  · rw [one_sample, one_mul, one_mul] at hbig ⊢
    have hx := awgn_sample (ap_pm_one (msg.getD n false)) (hd n ω (hG n hn)) hf hσ.le hη le_rfl (S := S) (by
      rw [pm_abs]
      have := mul_le_mul_of_nonneg_left (add_le_add_left (hG n hn) η) hσ.le
      linarith) h1 h2
    exact le_decide hx (by rw [zero_add]) hbig

/-- What baseband QPSK returns, for any noise. -/
theorem qpsk_returned {L : Libm} [RIter ν (FloatL L)] {std : ν} {d : ℕ → FloatL L} (hd : Gives std d) {σ : FloatL L} (hf : F64.Fin σ)
    [RIter ι Bool] {m : ι} {msg : List Bool} (hm : Yields m msg) :
    (do
      let ch ← awgnComplex (txBasebandQpsk (F := FloatL L) m) σ std
      collect (rxBasebandQpsk (F := FloatL L) ch)) = pure ((List.range (msg.length / 2)).flatMap (fun n =>
        [Flt.le (0 : FloatL L) ((if msg.getD (2 * n) false then (Flt.sqrt (Flt.ofNat 2) : FloatL L) else -(Flt.sqrt (Flt.ofNat 2))) + (0 + σ * d n)),
          msg.getD (2 * n + 1) false])) := by
  obtain ⟨ch, c1, c2⟩ := awgnComplex_yields (Yields.txBasebandQpsk (F := FloatL L) hm) hd (σ := σ) hf
  have h2 := c2.rflatMap (f := fun sample : Cx (FloatL L) => (pure (ofList [Flt.le 0 sample.re, Flt.le 0 sample.im]) : RM (VecIter Bool)))
    (out := fun sample : Cx (FloatL L) => [Flt.le 0 sample.re, Flt.le 0 sample.im]) (fun a => ⟨_, rfl, yields_ofList _⟩)
  refine (congrArg (· >>= fun ch => collect (rxBasebandQpsk (F := FloatL L) ch)) c1).trans ?_
  rw [pure_bind]
  refine (collect_of_yields h2).trans (congrArg pure ?_)
  rw [List.flatMap_def, List.flatMap_def]
  congr 1
  apply List.ext_getElem?
  intro i
  rw [List.getElem?_map, List.getElem?_mapIdx, List.getElem?_map, pairs_getElemD msg false, List.getElem?_map]
  by_cases hi : i < msg.length / 2
  · rw [if_pos hi, List.getElem?_range hi]
    have h3 : ∀ b : Bool, Flt.le (0 : FloatL L) (if b then (Flt.sqrt (Flt.ofNat 2) : FloatL L) else -(Flt.sqrt (Flt.ofNat 2))) = b := by
      intro b
      cases b
      · show Float.le 0 (-Float.sqrt (F64.ofNat 2)) = false
        decide +kernel
      · show Float.le 0 (Float.sqrt (F64.ofNat 2)) = true
        decide +kernel
    refine congrArg some (congrArg₂ List.cons rfl (congrArg₂ List.cons ?_ rfl))
    exact h3 _
  · rw [if_neg hi, List.getElem?_eq_none (by simpa using hi)]; rfl

/-- The second bit of a baseband QPSK symbol is right whatever the noise generator gives, NaN and infinities included. -/
theorem C145_qpsk_second {L : Libm} [RIter ν (FloatL L)] {std : ν} {d : ℕ → FloatL L} (hd : Gives std d) {σ : FloatL L} (hf : F64.Fin σ)
    [RIter ι Bool] {m : ι} {msg : List Bool} (hm : Yields m msg) {n : ℕ} (hn : n < msg.length / 2) :
    Right (do
      let ch ← awgnComplex (txBasebandQpsk (F := FloatL L) m) σ std
      collect (rxBasebandQpsk (F := FloatL L) ch)) (msg.take (2 * (msg.length / 2))) (2 * n + 1) := by
  have h2 : 2 * n + 1 < msg.length := by omega
  refine ⟨_, qpsk_returned hd hf hm, ?_, ?_⟩
  · rw [List.length_flatMap, List.length_take]; simp; omega
  · rw [(pair_bits _ _ hn).2.1, List.getElem?_take_of_lt (by omega), List.getD_eq_getElem?_getD, List.getElem?_eq_getElem h2, Option.getD_some]

theorem ap_pm_sqrt2 (b : Bool) : Ap (if b then Float.sqrt (F64.ofNat 2) else -Float.sqrt (F64.ofNat 2)) (√2 * pm b) (1 / 2 ^ 52) := by
  cases b
  · simpa [pm] using sqrt2_near.neg
  · simpa [pm] using sqrt2_near

theorem take_even (msg : List Bool) {n : ℕ} (hn : n < msg.length / 2) :
    (msg.take (2 * (msg.length / 2)))[2 * n]? = some (msg.getD (2 * n) false) ∧ (msg.take (2 * (msg.length / 2))).length = 2 * (msg.length / 2) := by
  have h2 : 2 * n < msg.length := by omega
  refine ⟨?_, by rw [List.length_take]; omega⟩
  rw [List.getElem?_take_of_lt (by omega), List.getD_eq_getElem?_getD, List.getElem?_eq_getElem h2, Option.getD_some]

theorem take_pairs (msg : List Bool) : (List.range (msg.length / 2)).flatMap (fun n => [msg.getD (2 * n) false, msg.getD (2 * n + 1) false])
    = msg.take (2 * (msg.length / 2)) := by
  have : ∀ b, decide (0 ≤ pm b) = b := fun b => by simpa using decide_pm_nonneg one_pos one_pos b
  have h := pos_bit_pairs msg
  simp only [this] at h
  exact h

/-- **C145, baseband QPSK.** The first bit of a symbol is wrong with the probability of energy two, up to the rounding; the message is
returned unchanged except with at most the sum over the symbols, not over the bits. -/
theorem C145_qpsk (hz : White P 1 z) {L : Libm} {Z η : ℝ} (hZ : 0 ≤ Z) (hη : 0 ≤ η) {d : ℕ → Ω → FloatL L} (hd : Sampled Z η z d)
    [RIter ν (FloatL L)] {noise : Ω → ν} (hg : ∀ ω, Gives (noise ω) (fun i => d i ω)) {σ : FloatL L} (hf : F64.Fin σ) (hσ : 0 < val σ)
    [RIter ι Bool] {m : ι} {msg : List Bool} (hm : Yields m msg) {S : ℝ} (hS : 2 + val σ * (Z + η) ≤ S) (hl : val σ * η + S / 2 ^ 47 ≤ 1) :
    (∀ n < msg.length / 2,
      P.real {ω | ¬ Right (do
          let ch ← awgnComplex (txBasebandQpsk (F := FloatL L) m) σ (noise ω)
          collect (rxBasebandQpsk (F := FloatL L) ch)) (msg.take (2 * (msg.length / 2))) (2 * n)} ≤
        bitError ((2 - √2 * (val σ * η + S / 2 ^ 47)) ^ 2 / 2) (val σ) + (msg.length / 2 : ℕ) * Real.exp (-Z ^ 2 / 2) ∧
      bitError ((2 + √2 * (val σ * η + S / 2 ^ 47)) ^ 2 / 2) (val σ) ≤
        P.real {ω | Wrong (do
          let ch ← awgnComplex (txBasebandQpsk (F := FloatL L) m) σ (noise ω)
          collect (rxBasebandQpsk (F := FloatL L) ch)) (msg.take (2 * (msg.length / 2))) (2 * n)} + (msg.length / 2 : ℕ) * Real.exp (-Z ^ 2 / 2)) ∧
    P.real {ω | (do
          let ch ← awgnComplex (txBasebandQpsk (F := FloatL L) m) σ (noise ω)
          collect (rxBasebandQpsk (F := FloatL L) ch)) ≠ pure (msg.take (2 * (msg.length / 2)))} ≤
      (msg.length / 2 : ℕ) * bitError ((2 - √2 * (val σ * η + S / 2 ^ 47)) ^ 2 / 2) (val σ) + (msg.length / 2 : ℕ) * Real.exp (-Z ^ 2 / 2) := by
  have hP := hz.prob
  have hση : 0 ≤ val σ * η := by positivity
  have hb0 : 0 ≤ val σ * (Z + η) := by positivity
  have h1 : 1 ≤ S := by linarith
  have h2 : S ≤ 2 ^ 900 := by
    have : S ≤ 2 ^ 47 := by
      rw [← div_le_one (by positivity)]; linarith
    exact this.trans (pow_le_pow_right₀ (by norm_num) (by norm_num))
  have hs2 : √2 ≤ 1.42 := Real.sqrt_le_iff.mpr (by norm_num)
  have hs0 : 0 < √2 := Real.sqrt_pos.mpr two_pos
  have hss : √2 * √2 = 2 := Real.mul_self_sqrt two_pos.le
  set D : ℝ := val σ * η + S / 2 ^ 47 with hD
  have hD0 : 0 ≤ D := by positivity
  generalize hB : (fun (ω : Ω) (n : ℕ) => Flt.le (0 : FloatL L)
    ((if msg.getD (2 * n) false then (Flt.sqrt (Flt.ofNat 2) : FloatL L) else -(Flt.sqrt (Flt.ofNat 2))) + (0 + σ * d n ω))) = B
  have hret : ∀ ω, (do
          let ch ← awgnComplex (txBasebandQpsk (F := FloatL L) m) σ (noise ω)
          collect (rxBasebandQpsk (F := FloatL L) ch)) = pure ((List.range (msg.length / 2)).flatMap (fun n =>
            [B ω n, msg.getD (2 * n + 1) false])) := by
    intro ω
    subst hB
    exact qpsk_returned (hg ω) hf hm
  have hdec : ∀ ω n, |z n ω| ≤ Z → D < |√2 * pm (msg.getD (2 * n) false) + val σ * z n ω| →
      B ω n = decide (0 < √2 * pm (msg.getD (2 * n) false) + val σ * z n ω) := by
    intro ω n hzn hbig
    subst hB
    have hx := awgn_sample (ap_pm_sqrt2 (msg.getD (2 * n) false)) (hd n ω hzn) hf hσ.le hη (by positivity) (S := S) (by
      rw [abs_mul, pm_abs, mul_one, abs_of_pos hs0]
      have := mul_le_mul_of_nonneg_left (add_le_add_left hzn η) hσ.le
      norm_num at hs2 ⊢
      linarith) h1 h2
    refine le_decide hx ?_ hbig
    rw [hD]
    norm_num
    linarith
  have hlen : ((List.range (msg.length / 2)).map (fun n => msg.getD (2 * n) false)).length = msg.length / 2 := by simp
  have hget : ∀ n < msg.length / 2, ((List.range (msg.length / 2)).map (fun n => msg.getD (2 * n) false)).getD n false = msg.getD (2 * n) false := by
    intro n hn
    rw [List.getD_eq_getElem?_getD, List.getElem?_map, List.getElem?_range hn]; rfl
  obtain ⟨r1, r2⟩ := margins_core hz hZ hσ (T := msg.length / 2) (M := fun n => n + 1) (c := fun n i => if i = n then √2 else 0)
    (E := fun _ => 2) (D := √2 * D) (msg := (List.range (msg.length / 2)).map (fun n => msg.getD (2 * n) false))
    (link := fun ω => pure ((List.range (msg.length / 2)).map (B ω))) (by positivity)
    (fun n _ => ⟨two_pos, by nlinarith⟩) (fun n _ => (one_energy n _).trans (Real.sq_sqrt two_pos.le)) (fun ω hG => by
      refine ⟨B ω, by rw [hlen], fun n hn hbig => ?_⟩
      rw [hlen] at hn
      rw [hget n hn, one_sample] at hbig ⊢
      have e : 2 * pm (msg.getD (2 * n) false) + val σ * (√2 * z n ω) = √2 * (√2 * pm (msg.getD (2 * n) false) + val σ * z n ω) := by
        linear_combination (-pm (msg.getD (2 * n) false)) * hss
      rw [e] at hbig ⊢
      rw [abs_mul, abs_of_pos hs0] at hbig
      rw [hdec ω n (hG n hn) (lt_of_mul_lt_mul_left hbig hs0.le)]
      exact decide_eq_decide.mpr (mul_pos_iff_of_pos_left hs0).symm)
  rw [hlen] at r1 r2
  simp only [hret]
  refine ⟨fun n hn => ?_, ?_⟩
  · obtain ⟨q1, q2⟩ := r1 n hn
    have e1 : ((List.range (msg.length / 2)).map (fun n => msg.getD (2 * n) false))[n]? = some (msg.getD (2 * n) false) := by
      rw [List.getElem?_map, List.getElem?_range hn]; rfl
    have e2 : ∀ ω, ((List.range (msg.length / 2)).map (B ω))[n]? = some (B ω n) := by
      intro ω
      rw [List.getElem?_map, List.getElem?_range hn]; rfl
    refine ⟨le_trans (measureReal_mono (fun ω hω => ?_) (measure_ne_top _ _)) q1, q2.trans (add_le_add_left (measureReal_mono (fun ω hω => ?_)
      (measure_ne_top _ _)) _)⟩
    · rintro ⟨b, hb, -, hb2⟩
      rw [RM.ok_inj] at hb
      subst hb
      rw [e1, e2] at hb2
      exact hω ⟨_, rfl, by rw [(pair_bits _ _ hn).2.2, (take_even msg hn).2], by rw [(pair_bits _ _ hn).1, (take_even msg hn).1, hb2]⟩
    · obtain ⟨b, hb, -, hb2⟩ := hω
      rw [RM.ok_inj] at hb
      subst hb
      rw [e1, e2] at hb2
      exact ⟨_, rfl, by rw [(pair_bits _ _ hn).2.2, (take_even msg hn).2], by rw [(pair_bits _ _ hn).1, (take_even msg hn).1]; exact hb2⟩
  · rw [Finset.sum_const, Finset.card_range, nsmul_eq_mul] at r2
    refine le_trans (measureReal_mono (fun ω hω => ?_) (measure_ne_top _ _)) r2
    intro he
    apply hω
    rw [RM.ok_inj] at he
    rw [← take_pairs]
    congr 1
    rw [List.flatMap_def, List.flatMap_def]
    congr 1
    refine List.map_congr_left fun n hn => ?_
    have := List.map_inj_left.mp he n hn
    rw [this]

/-! ## Unit noise from a generator that rounds to the nearest double -/

example : Rates (gaussPath 1) (fun ω => do
      let ch ← awgnComplex (txBasebandBpsk (F := FloatL Libm.rounded) (ofList [true, false, true])) (1 : FloatL Libm.rounded) (rounded ω)
      collect (rxBasebandBpsk (F := FloatL Libm.rounded) ch)) [true, false, true] (fun _ => 1) (1 * (10 / 2 ^ 52) + 12 / 2 ^ 48) 1
      (3 * Real.exp (-50)) := by
  have := C145_bpsk (white_path 1) (Z := 10) (by norm_num) (by norm_num) sampled_rounded rounded_gives (σ := (1 : FloatL Libm.rounded)) fin_one
    (by rw [val_float_one]; norm_num) (yields_ofList [true, false, true]) (S := 12) (by rw [val_float_one]; norm_num) (by rw [val_float_one]; norm_num)
  rw [val_float_one] at this
  convert this using 2 <;> norm_num

example : (gaussPath 1).real {ω | (do
      let ch ← awgnComplex (txBasebandQpsk (F := FloatL Libm.rounded) (ofList [true, false, true, true])) (1 : FloatL Libm.rounded) (rounded ω)
      collect (rxBasebandQpsk (F := FloatL Libm.rounded) ch)) ≠ pure [true, false, true, true]} ≤
      2 * bitError ((2 - √2 * (1 * (10 / 2 ^ 52) + 13 / 2 ^ 47)) ^ 2 / 2) 1 + 2 * Real.exp (-50) := by
  have := (C145_qpsk (white_path 1) (Z := 10) (by norm_num) (by norm_num) sampled_rounded rounded_gives (σ := (1 : FloatL Libm.rounded)) fin_one
    (by rw [val_float_one]; norm_num) (yields_ofList [true, false, true, true]) (S := 13) (by rw [val_float_one]; norm_num)
    (by rw [val_float_one]; norm_num)).2
  rw [val_float_one] at this
  refine this.trans (le_of_eq ?_)
  norm_num

/-- A generator of nothing but NaN. -/
example : Right (do
      let ch ← awgnComplex (txBasebandQpsk (F := FloatL Libm.rounded) (ofList [true, false, true, true])) (1 : FloatL Libm.rounded)
        (Repeat.mk ((0 : FloatL Libm.rounded) / 0))
      collect (rxBasebandQpsk (F := FloatL Libm.rounded) ch)) [true, false, true, true] 1 :=
  C145_qpsk_second (gives_repeat _) (σ := (1 : FloatL Libm.rounded)) fin_one (yields_ofList [true, false, true, true]) (n := 0) (by simp)
end Verif.Props
