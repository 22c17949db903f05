import Verif.Lemmas.IeeeChaosNoise
import Verif.Props.IeeeChaos
import Verif.Props.IeeeBaseband

/-!
# C151: the error rate of the chaotic links in double precision
-/
namespace Verif.Props
open Verif Spec F64 MeasureTheory ProbabilityTheory
variable {Ω : Type} [MeasurableSpace Ω] {P : Measure Ω} {z : ℕ → Ω → ℝ} {ι κ ν ρ : Type}

theorem pm_self (b : Bool) : pm b * pm b = 1 := by cases b <;> norm_num [pm]

theorem mapIdx_pairs {A B C : Type} (f g : ℕ → A → B) (u : ℕ → B → C) (l : List A) :
    ((l.mapIdx (fun i a => [f i a, g i a])).flatten).mapIdx u
      = (l.mapIdx (fun i a => [u (2 * i) (f i a), u (2 * i + 1) (g i a)])).flatten := by
  induction l generalizing f g u with
  | nil => rfl
  | cons a l ih =>
    rw [List.mapIdx_cons, List.flatten_cons, List.mapIdx_cons, List.flatten_cons]
    simp only [List.cons_append, List.nil_append, List.mapIdx_cons]
    rw [ih (fun i => f (i + 1)) (fun i => g (i + 1)) (fun i => u (i + 1 + 1))]
    rfl

/-- What the receiver answers to the noisy pairs, in double precision. -/
theorem dcsk_bits [RIter ν Float] {noise : ν} {d : ℕ → Float} (hd : Gives noise d) {σ : Float} (hf : F64.Fin σ) [RIter ι Bool] {m : ι}
    {msg : List Bool} (hm : Yields m msg) {ref : LogisticMap Float} {g : ℕ → Float}
    (href : LogisticMap.new (3.9 : Float) 0.1 = pure ref) (hg : Gives ref g) :
    (do let tx ← txDcsk Float m
        let ch ← awgn tx σ noise
        collect (rxDcsk (F := Float) ch)) = pure (msg.mapIdx (fun n b =>
          Flt.lt (0 : Float) ((g n + (0 + σ * d (2 * n))) * (g n * bitToNrz b + (0 + σ * d (2 * n + 1)))))) := by
  have l39 : (3.9 : Float) = Flt.lit 39 1 := by decide +kernel
  have l1 : (0.1 : Float) = Flt.lit 1 1 := by decide +kernel
  rw [l39, l1] at href
  obtain ⟨tx, e1, e2, -⟩ := C45_decision hm href hg
  obtain ⟨ch, c1, c2⟩ := awgn_yields e2 hd (σ := σ) hf
  rw [e1, pure_bind, c1, pure_bind, collect_of_yields (rxDcsk_ok c2)]
  rw [mapIdx_pairs, pairs_mapIdx_flatten, map_mapIdx']
  rfl

theorem logistic_ref {ref : LogisticMap Float} {g : ℕ → Float} (href : LogisticMap.new (3.9 : Float) 0.1 = pure ref) (hg : Gives ref g) (n : ℕ) :
    F64.Fin (g n) ∧ 0.09 ≤ val (g n) ∧ val (g n) ≤ 0.976 := by
  have l39 : (3.9 : Float) = F64.lit 39 1 := by decide +kernel
  have l1 : (0.1 : Float) = F64.lit 1 1 := by decide +kernel
  obtain ⟨-, -, rfl⟩ := logisticNew_ok href
  rw [l39, l1] at hg
  rw [hg.unique (gives_logistic _ _)]
  exact orbit_39_ieee fin_lit1 val_lit1.1 val_lit1.2 n

theorem mul_nrz (x : Float) (hx : F64.Fin x) (b : Bool) : Ap (x * bitToNrz b) (pm b * val x) 0 := by
  cases b
  · have e : x * bitToNrz false = -x := mul_neg_one_eq x
    rw [e]
    have := (Ap.exact hx).neg
    simpa [pm] using this
  · have e : x * bitToNrz true = x := mul_one_eq x
    rw [e]
    have := Ap.exact hx
    simpa [pm] using this

theorem pm_factor (b : Bool) (c t : ℝ) : pm b * c + t = pm b * (c + pm b * t) := by
  rw [mul_add, ← mul_assoc, pm_self, one_mul]

theorem sign_right {b : Bool} {X Y : ℝ} (h : 0 < X * Y) : decide (0 < X * (pm b * Y)) = b := by
  cases b
  · simp only [pm, Bool.false_eq_true, if_false]; exact decide_eq_false (by linarith)
  · simp only [pm, if_true]; exact decide_eq_true (by linarith)

theorem sign_wrong {b : Bool} {X Y : ℝ} (h : X * Y < 0) : decide (0 < X * (pm b * Y)) ≠ b := by
  cases b
  · simp only [pm, Bool.false_eq_true, if_false]; rw [decide_eq_true (by linarith)]; decide
  · simp only [pm, if_true]; rw [decide_eq_false (by linarith)]; decide

/-- **C151, DCSK.** Modulator, `awgn` and receiver in double precision. `g` is the orbit of the logistic map as the doubles compute it
(not the exact orbit, from which it departs after a few dozen steps). Bit `n` is wrong when exactly one sample of its pair
changes sign; its probability is that of the textbook pair with the amplitude `g n`, moved by `D`. -/
theorem C151_dcsk (hz : White P 1 z) {Z η : ℝ} (hZ : 0 ≤ Z) (hη : 0 ≤ η) {d : ℕ → Ω → Float} (hd : Sampled (L := Libm.lean) Z η z d)
    [RIter ν Float] {noise : Ω → ν} (hn : ∀ ω, Gives (noise ω) (fun i => d i ω)) {σ : Float} (hf : F64.Fin σ) (hσ : 0 < val σ)
    [RIter ι Bool] {m : ι} {msg : List Bool} (hm : Yields m msg) {ref : LogisticMap Float} {g : ℕ → Float}
    (href : LogisticMap.new (3.9 : Float) 0.1 = pure ref) (hg : Gives ref g) {S D : ℝ} (hS : 1 + val σ * (Z + η) ≤ S)
    (hD : val σ * η + S / 2 ^ 47 ≤ D) (hD' : D < 0.09) {n : ℕ} (hnm : n < msg.length) :
    P.real {ω | ¬ Right (do
        let tx ← txDcsk Float m
        let ch ← awgn tx σ (noise ω)
        collect (rxDcsk (F := Float) ch)) msg n}
      ≤ 1 - ((1 - bitError ((val (g n) - D) ^ 2) (val σ)) ^ 2 + bitError ((val (g n) + D) ^ 2) (val σ) ^ 2) + 2 * Real.exp (-Z ^ 2 / 2) ∧
    2 * bitError ((val (g n) + D) ^ 2) (val σ) * (1 - bitError ((val (g n) - D) ^ 2) (val σ))
      ≤ P.real {ω | Wrong (do
        let tx ← txDcsk Float m
        let ch ← awgn tx σ (noise ω)
        collect (rxDcsk (F := Float) ch)) msg n} + 2 * Real.exp (-Z ^ 2 / 2) := by
  have hση : 0 ≤ val σ * η := by positivity
  have hb0 : 0 ≤ val σ * (Z + η) := by positivity
  have h1 : 1 ≤ S := by linarith
  have hS47 : S ≤ 2 ^ 47 := by
    rw [← div_le_one (by positivity)]; linarith
  have h2 : S ≤ 2 ^ 900 := hS47.trans (pow_le_pow_right₀ (by norm_num) (by norm_num))
  obtain ⟨gf, g0, g1⟩ := logistic_ref href hg n
  simp only [fun ω => dcsk_bits (hn ω) hf hm href hg]
  have hfar := white_far (hz.shift (2 * n)) hZ 2
  have hb : msg[n]? = some (msg.getD n false) := by
    rw [List.getD_eq_getElem?_getD, List.getElem?_eq_getElem hnm, Option.getD_some]
  generalize msg.getD n false = b at hb
  have hG : ∀ ω, (∀ i < 2, |z (2 * n + i) ω| ≤ Z) →
      D < |val (g n) + val σ * z (2 * n) ω| → D < |pm b * val (g n) + val σ * z (2 * n + 1) ω| →
      Flt.lt (0 : Float) ((g n + (0 + σ * d (2 * n) ω)) * (g n * bitToNrz b + (0 + σ * d (2 * n + 1) ω)))
        = decide (0 < (val (g n) + val σ * z (2 * n) ω) * (pm b * val (g n) + val σ * z (2 * n + 1) ω)) := by
    intro ω hω hA hB
    have z0 := hω 0 (by norm_num)
    have z1 := hω 1 (by norm_num)
    rw [Nat.add_zero] at z0
    have t0 : |val (g n)| + 0 + val σ * (|z (2 * n) ω| + η) ≤ S := by
      rw [abs_of_pos (by linarith)]
      have := mul_le_mul_of_nonneg_left (add_le_add_left z0 η) hσ.le
      linarith
    have t1 : |pm b * val (g n)| + 0 + val σ * (|z (2 * n + 1) ω| + η) ≤ S := by
      rw [abs_mul, pm_abs, one_mul, abs_of_pos (by linarith)]
      have := mul_le_mul_of_nonneg_left (add_le_add_left z1 η) hσ.le
      linarith
    have x0 := awgn_sample (Ap.exact gf) (hd (2 * n) ω z0) hf hσ.le hη le_rfl t0 h1 h2
    have x1 := awgn_sample (mul_nrz (g n) gf b) (hd (2 * n + 1) ω z1) hf hσ.le hη le_rfl t1 h1 h2
    have e47 : S / 2 ^ 47 = S / 2 ^ 48 + S / 2 ^ 48 := by ring
    have h48 : (1 : ℝ) / 2 ^ 48 ≤ S / 2 ^ 48 := div_le_div_of_nonneg_right h1 (by positivity)
    have big : ∀ {c t : ℝ}, |c| + 0 + val σ * (|t| + η) ≤ S → |c + val σ * t| + (0 + val σ * η + S / 2 ^ 48) ≤ 2 ^ 400 := by
      intro c t h
      have a1 : |c + val σ * t| ≤ |c| + val σ * |t| := (abs_add_le _ _).trans (by rw [abs_mul, abs_of_pos hσ])
      have a2 : (2 : ℝ) ^ 47 + 1 ≤ 2 ^ 400 := by
        have : (2 : ℝ) ^ 48 ≤ 2 ^ 400 := pow_le_pow_right₀ (by norm_num) (by norm_num)
        refine le_trans ?_ this
        norm_num
      have a3 : val σ * (|t| + η) = val σ * |t| + val σ * η := by ring
      have a4 : S / 2 ^ 48 ≤ 1 := by linarith
      refine le_trans ?_ a2
      linarith
    exact product_sign x0 x1 (by linarith) hA hB (big t0) (big t1)
  have hw := hz.scale (val σ)
  have key := pair_core hw hσ (i := 2 * n) (j := 2 * n + 1) (by omega) (c := val (g n)) (D := D) (by
      have : 0 ≤ S / 2 ^ 47 := by positivity
      linarith) (by linarith) b
    (G := {ω | ∀ i < 2, |z (2 * n + i) ω| ≤ Z})
    (W := {ω | ¬ Right (pure (msg.mapIdx (fun n b =>
          Flt.lt (0 : Float) ((g n + (0 + σ * d (2 * n) ω)) * (g n * bitToNrz b + (0 + σ * d (2 * n + 1) ω)))))) msg n})
    (V := {ω | Wrong (pure (msg.mapIdx (fun n b =>
          Flt.lt (0 : Float) ((g n + (0 + σ * d (2 * n) ω)) * (g n * bitToNrz b + (0 + σ * d (2 * n + 1) ω)))))) msg n}) ?_ ?_
  · exact ⟨key.1.trans (by gcongr; exact_mod_cast hfar), key.2.trans (by gcongr; exact_mod_cast hfar)⟩
  · intro ω hω hq hw
    refine hw ⟨_, rfl, by simp, ?_⟩
    rw [List.getElem?_mapIdx, hb, Option.map_some, Option.some.injEq]
    have hq' : (D < val (g n) + val σ * z (2 * n) ω ∧ D < val (g n) + pm b * (val σ * z (2 * n + 1) ω)) ∨
        (val (g n) + val σ * z (2 * n) ω < -D ∧ val (g n) + pm b * (val σ * z (2 * n + 1) ω) < -D) := by
      simpa only [pm, if_true, one_mul] using hq
    rw [hG ω hω (by rcases hq' with h | h <;> exact lt_abs.mpr (by first | exact .inl h.1 | exact .inr (by linarith [h.1])))
      (by rw [pm_factor, abs_mul, pm_abs, one_mul]; rcases hq' with h | h <;> exact lt_abs.mpr (by first | exact .inl h.2 | exact .inr (by linarith [h.2]))),
      pm_factor]
    refine sign_right ?_
    rcases hq' with h | h
    · exact mul_pos (by linarith) (by linarith)
    · exact mul_pos_of_neg_of_neg (by linarith) (by linarith)
  · intro ω hω hq
    refine ⟨_, rfl, by simp, ?_⟩
    rw [List.getElem?_mapIdx, hb, Option.map_some, Ne, Option.some.injEq]
    have hq' : (D < val (g n) + val σ * z (2 * n) ω ∧ val (g n) + pm b * (val σ * z (2 * n + 1) ω) < -D) ∨
        (val (g n) + val σ * z (2 * n) ω < -D ∧ D < val (g n) + pm b * (val σ * z (2 * n + 1) ω)) := by
      simpa only [pm, if_true, one_mul] using hq
    rw [hG ω hω (by rcases hq' with h | h <;> exact lt_abs.mpr (by first | exact .inl h.1 | exact .inr (by linarith [h.1])))
      (by rw [pm_factor, abs_mul, pm_abs, one_mul]; rcases hq' with h | h <;> exact lt_abs.mpr (by first | exact .inl h.2 | exact .inr (by linarith [h.2]))),
      pm_factor]
    refine sign_wrong ?_
    rcases hq' with h | h
    · exact mul_neg_of_pos_of_neg (by linarith) (by linarith)
    · exact mul_neg_of_neg_of_pos (by linarith) (by linarith)

/-- A message arrives whole unless one of its bits is wrong. -/
theorem message_le [IsProbabilityMeasure P] {link : Ω → RM (List Bool)} {msg : List Bool} {p : ℕ → ℝ}
    (hl : ∀ ω, ∃ bits, link ω = pure bits ∧ bits.length = msg.length) (hp : ∀ n < msg.length, P.real {ω | ¬ Right (link ω) msg n} ≤ p n) :
    P.real {ω | link ω ≠ pure msg} ≤ ∑ n ∈ Finset.range msg.length, p n := by
  have hsub : {ω | link ω ≠ pure msg} ⊆ ⋃ n ∈ Finset.range msg.length, {ω | ¬ Right (link ω) msg n} := by
    intro ω hω
    by_contra hc
    simp only [Set.mem_iUnion, Finset.mem_range, not_exists] at hc
    obtain ⟨bits, e, hlen⟩ := hl ω
    refine hω (e.trans (congrArg pure ?_))
    apply List.ext_getElem?
    intro n
    by_cases hn : n < msg.length
    · have : Right (link ω) msg n := by
        by_contra hr; exact hc n hn hr
      obtain ⟨bits', e', -, h'⟩ := this
      rw [e, RM.ok_inj] at e'
      rw [e']; exact h'
    · rw [List.getElem?_eq_none (by omega), List.getElem?_eq_none (by omega)]
  refine (measureReal_mono hsub (measure_ne_top _ _)).trans ((measureReal_biUnion_finset_le _ _).trans ?_)
  exact Finset.sum_le_sum fun n hn => hp n (Finset.mem_range.mp hn)

/-- The whole message. -/
theorem C151_dcsk_message (hz : White P 1 z) {Z η : ℝ} (hZ : 0 ≤ Z) (hη : 0 ≤ η) {d : ℕ → Ω → Float} (hd : Sampled (L := Libm.lean) Z η z d)
    [RIter ν Float] {noise : Ω → ν} (hn : ∀ ω, Gives (noise ω) (fun i => d i ω)) {σ : Float} (hf : F64.Fin σ) (hσ : 0 < val σ)
    [RIter ι Bool] {m : ι} {msg : List Bool} (hm : Yields m msg) {ref : LogisticMap Float} {g : ℕ → Float}
    (href : LogisticMap.new (3.9 : Float) 0.1 = pure ref) (hg : Gives ref g) {S D : ℝ} (hS : 1 + val σ * (Z + η) ≤ S)
    (hD : val σ * η + S / 2 ^ 47 ≤ D) (hD' : D < 0.09) :
    P.real {ω | (do
        let tx ← txDcsk Float m
        let ch ← awgn tx σ (noise ω)
        collect (rxDcsk (F := Float) ch)) ≠ pure msg}
      ≤ ∑ n ∈ Finset.range msg.length, (1 - ((1 - bitError ((val (g n) - D) ^ 2) (val σ)) ^ 2
        + bitError ((val (g n) + D) ^ 2) (val σ) ^ 2) + 2 * Real.exp (-Z ^ 2 / 2)) := by
  have := hz.prob
  refine message_le (fun ω => ⟨_, dcsk_bits (hn ω) hf hm href hg, by simp⟩) fun n hnm => ?_
  exact (C151_dcsk hz hZ hη hd hn hf hσ hm href hg hS hD hD' hnm).1

/-- The comparison of two distances in double precision. -/
theorem nearer_decide {x g1 g2 : Float} {r e S D : ℝ} (hx : Ap x r e) (f1 : F64.Fin g1) (f2 : F64.Fin g2) (hg1 : |val g1| ≤ 1)
    (hg2 : |val g2| ≤ 1) (hr : |r| + 1 + e ≤ S) (h1 : 1 ≤ S) (hS : S ≤ 2 ^ 900) (hD : e + S / 2 ^ 50 ≤ D) :
    (|r - val g1| + 2 * D < |r - val g2| → Flt.lt (Flt.abs (x - g1)) (Flt.abs (x - g2)) = true) ∧
    (|r - val g2| + 2 * D < |r - val g1| → Flt.lt (Flt.abs (x - g1)) (Flt.abs (x - g2)) = false) := by
  have he0 : 0 ≤ e := (abs_nonneg _).trans hx.2
  have hbig : S ≤ 2 ^ (1023 : ℤ) := le_big (k := 900) (by norm_num) hS
  have hsm : S * uu + tiny ≤ S / 2 ^ 50 := by
    have ht := tiny_le (k := 100) (by norm_num)
    rw [uu_eq]
    have e1 : S / 2 ^ 50 = 8 * (S * (1 / 2 ^ 53)) := by ring
    have e2 : (1 : ℝ) / 2 ^ 100 ≤ S * (1 / 2 ^ 53) := by
      have : (1 : ℝ) / 2 ^ 100 ≤ 1 / 2 ^ 53 := by norm_num
      nlinarith
    have e3 : 0 ≤ S * (1 / 2 ^ 53) := by positivity
    linarith
  have sub : ∀ g : Float, F64.Fin g → |val g| ≤ 1 → F64.Fin (Flt.abs (x - g)) ∧ |val (Flt.abs (x - g)) - abs (r - val g)| ≤ D := by
    intro g fg hg
    have hR : |r - val g| ≤ |r| + 1 := (abs_sub _ _).trans (by linarith)
    have h2 := hx.sub (Ap.exact fg) hR (le_trans (by linarith) hbig)
    have h3 : F64.Fin (Flt.abs (x - g)) := abs_fin.mpr h2.1
    have h4 : val (Flt.abs (x - g)) = |val (x - g)| := abs_val _
    refine ⟨h3, ?_⟩
    rw [h4]
    refine (abs_abs_sub_abs_le _ _).trans (h2.2.trans ?_)
    have : (|r| + 1 + (e + 0)) * uu ≤ S * uu := mul_le_mul_of_nonneg_right (by linarith) uu_pos.le
    linarith
  obtain ⟨a1, a2⟩ := sub g1 f1 hg1
  obtain ⟨b1, b2⟩ := sub g2 f2 hg2
  have a3 := abs_le.mp a2
  have b3 := abs_le.mp b2
  have hl : Flt.lt (Flt.abs (x - g1)) (Flt.abs (x - g2)) = true ↔ _ := lt_iff a1 b1
  constructor
  · intro h
    rw [hl]; linarith
  · intro h
    rw [Bool.eq_false_iff, Ne, hl]; intro h'; linarith

/-- Which of two values a received number is nearer to, with a margin. -/
theorem nearer_margin {v1 v2 t D : ℝ} (b : Bool) (hne : v1 ≠ v2) (hD0 : 0 ≤ D) (hD : D < |v1 - v2| / 2) :
    let r := (if b then v1 else v2) + t
    let u := |v1 - v2| / 2 + pm (b == decide (v2 < v1)) * t
    (D < u → if b then |r - v1| + 2 * D < |r - v2| else |r - v2| + 2 * D < |r - v1|) ∧
    (u < -D → if b then |r - v2| + 2 * D < |r - v1| else |r - v1| + 2 * D < |r - v2|) := by
  have key : ∀ {a s D : ℝ}, 0 ≤ D → D < a → (D < a + s → |s| + 2 * D < |s + 2 * a|) ∧ (a + s < -D → |s + 2 * a| + 2 * D < |s|) := by
    intro a s D h0 h1
    constructor
    · intro h
      rw [abs_of_pos (by linarith : 0 < s + 2 * a)]
      rcases abs_cases s with ⟨e, _⟩ | ⟨e, _⟩ <;> rw [e] <;> linarith
    · intro h
      rw [abs_of_neg (by linarith : s < 0)]
      rcases abs_cases (s + 2 * a) with ⟨e, _⟩ | ⟨e, _⟩ <;> rw [e] <;> linarith
  rcases lt_or_gt_of_ne hne with h | h
  · have e : |v1 - v2| / 2 = (v2 - v1) / 2 := by rw [abs_of_neg (by linarith)]; ring
    rw [e] at hD ⊢
    rw [decide_eq_false (by linarith : ¬ v2 < v1)]
    cases b
    · have := key (a := (v2 - v1) / 2) (s := t) hD0 hD
      simp only [pm, Bool.false_eq_true, if_false, BEq.rfl, if_true, one_mul]
      rw [show v2 + t - v2 = t by ring, show v2 + t - v1 = t + 2 * ((v2 - v1) / 2) by ring]
      exact this
    · have := key (a := (v2 - v1) / 2) (s := -t) hD0 hD
      simp only [pm, if_true]
      rw [show v1 + t - v1 = t by ring, show v1 + t - v2 = -(-t + 2 * ((v2 - v1) / 2)) by ring, abs_neg]
      rw [abs_neg] at this
      simpa using this
  · have e : |v1 - v2| / 2 = (v1 - v2) / 2 := by rw [abs_of_pos (by linarith)]
    rw [e] at hD ⊢
    rw [decide_eq_true (by linarith : v2 < v1)]
    cases b
    · have := key (a := (v1 - v2) / 2) (s := -t) hD0 hD
      simp only [pm, Bool.false_eq_true, if_false]
      rw [show v2 + t - v2 = t by ring, show v2 + t - v1 = -(-t + 2 * ((v1 - v2) / 2)) by ring, abs_neg]
      rw [abs_neg] at this
      simpa using this
    · have := key (a := (v1 - v2) / 2) (s := t) hD0 hD
      simp only [pm, if_true, BEq.rfl, one_mul]
      rw [show v1 + t - v1 = t by ring, show v1 + t - v2 = t + 2 * ((v1 - v2) / 2) by ring]
      exact this

/-- What the CSK receiver answers to the noisy samples, in double precision. -/
theorem csk_bits [RIter ν Float] {noise : ν} {d : ℕ → Float} (hd : Gives noise d) {σ : Float} (hf : F64.Fin σ) [RIter ι Bool] {m : ι}
    {msg : List Bool} (hm : Yields m msg) {r1 r2 : LogisticMap Float} {g1 g2 : ℕ → Float}
    (h1 : LogisticMap.new (3.9 : Float) 0.1 = pure r1) (h2 : LogisticMap.new (3.9 : Float) 0.15 = pure r2) (hg1 : Gives r1 g1)
    (hg2 : Gives r2 g2) :
    (do let tx ← txCsk Float m
        let ch ← awgn tx σ noise
        let rx ← rxCsk (F := Float) ch
        collect rx) = pure (msg.mapIdx (fun n b =>
          Flt.lt (Flt.abs ((if b then g1 n else g2 n) + (0 + σ * d n) - g1 n)) (Flt.abs ((if b then g1 n else g2 n) + (0 + σ * d n) - g2 n)))) := by
  have l39 : (3.9 : Float) = Flt.lit 39 1 := by decide +kernel
  have l1 : (0.1 : Float) = Flt.lit 1 1 := by decide +kernel
  have l15 : (0.15 : Float) = Flt.lit 15 2 := by decide +kernel
  rw [l39] at h1 h2
  rw [l1] at h1
  rw [l15] at h2
  obtain ⟨tx, rx, e1, -, e2, -⟩ := C46_decision hm h1 h2 hg1 hg2
  obtain ⟨ch, c1, c2⟩ := awgn_yields e2 hd (σ := σ) hf
  have y2 := ((c2.rzip_gives hg1).rzip_gives hg2).rmap
    (fun p : (Float × Float) × Float => Flt.lt (Flt.abs (p.1.1 - p.1.2)) (Flt.abs (p.1.1 - p.2)))
  rw [mapIdx_mapIdx', mapIdx_mapIdx', mapIdx_mapIdx', map_mapIdx'] at y2
  have hr : rxCsk (F := Float) ch = pure (rmap (rzip (rzip ch r1) r2)
      (fun p : (Float × Float) × Float => Flt.lt (Flt.abs (p.1.1 - p.1.2)) (Flt.abs (p.1.1 - p.2)))) := by
    unfold rxCsk; simp only [h1, h2, pure_bind]
  rw [e1, pure_bind, c1, pure_bind, hr, pure_bind, collect_of_yields y2]
  rfl

theorem logistic_ref2 {ref : LogisticMap Float} {g : ℕ → Float} (href : LogisticMap.new (3.9 : Float) 0.15 = pure ref) (hg : Gives ref g) (n : ℕ) :
    F64.Fin (g n) ∧ 0.09 ≤ val (g n) ∧ val (g n) ≤ 0.976 := by
  have l39 : (3.9 : Float) = F64.lit 39 1 := by decide +kernel
  have l1 : (0.15 : Float) = F64.lit 15 2 := by decide +kernel
  obtain ⟨-, -, rfl⟩ := logisticNew_ok href
  rw [l39, l1] at hg
  rw [hg.unique (gives_logistic _ _)]
  exact orbit_39_ieee fin_lit15 val_lit15.1 val_lit15.2 n

/-- **C151, CSK.** The same for the receiver that compares with both chaotic carriers: bit `n` is wrong with the probability of half the
distance of the two carriers (as the doubles compute them) at that bit, moved by `D`, provided they are more than `2 D` apart. -/
theorem C151_csk (hz : White P 1 z) {Z η : ℝ} (hZ : 0 ≤ Z) (hη : 0 ≤ η) {d : ℕ → Ω → Float} (hd : Sampled (L := Libm.lean) Z η z d)
    [RIter ν Float] {noise : Ω → ν} (hn : ∀ ω, Gives (noise ω) (fun i => d i ω)) {σ : Float} (hf : F64.Fin σ) (hσ : 0 < val σ)
    [RIter ι Bool] {m : ι} {msg : List Bool} (hm : Yields m msg) {r1 r2 : LogisticMap Float} {g1 g2 : ℕ → Float}
    (hr1 : LogisticMap.new (3.9 : Float) 0.1 = pure r1) (hr2 : LogisticMap.new (3.9 : Float) 0.15 = pure r2) (hg1 : Gives r1 g1)
    (hg2 : Gives r2 g2) {S D : ℝ} (hS : 3 + val σ * (Z + η) ≤ S) (hD : val σ * η + S / 2 ^ 47 ≤ D) {n : ℕ} (hnm : n < msg.length)
    (hD' : D < |val (g1 n) - val (g2 n)| / 2) :
    P.real {ω | ¬ Right (do
        let tx ← txCsk Float m
        let ch ← awgn tx σ (noise ω)
        let rx ← rxCsk (F := Float) ch
        collect rx) msg n}
      ≤ bitError ((|val (g1 n) - val (g2 n)| / 2 - D) ^ 2) (val σ) + Real.exp (-Z ^ 2 / 2) ∧
    bitError ((|val (g1 n) - val (g2 n)| / 2 + D) ^ 2) (val σ)
      ≤ P.real {ω | Wrong (do
        let tx ← txCsk Float m
        let ch ← awgn tx σ (noise ω)
        let rx ← rxCsk (F := Float) ch
        collect rx) msg n} + Real.exp (-Z ^ 2 / 2) := by
  have hση : 0 ≤ val σ * η := by positivity
  have hb0 : 0 ≤ val σ * (Z + η) := by positivity
  have h1 : 1 ≤ S := by linarith
  obtain ⟨f1, a0, a1⟩ := logistic_ref hr1 hg1 n
  obtain ⟨f2, b0, b1⟩ := logistic_ref2 hr2 hg2 n
  have hv1 : |val (g1 n)| ≤ 1 := abs_le.mpr ⟨by linarith, by linarith⟩
  have hv2 : |val (g2 n)| ≤ 1 := abs_le.mpr ⟨by linarith, by linarith⟩
  have hS0 : 0 ≤ S / 2 ^ 47 := by positivity
  have hD0 : 0 ≤ D := by linarith
  have hne : val (g1 n) ≠ val (g2 n) := by
    intro e
    rw [e, sub_self, abs_zero] at hD'
    linarith
  have hD1 : D ≤ 1 := by
    have : |val (g1 n) - val (g2 n)| ≤ 2 := (abs_sub _ _).trans (by linarith)
    linarith
  have hS47 : S ≤ 2 ^ 47 := by
    rw [← div_le_one (by positivity)]; linarith
  have h2 : S ≤ 2 ^ 900 := hS47.trans (pow_le_pow_right₀ (by norm_num) (by norm_num))
  simp only [fun ω => csk_bits (hn ω) hf hm hr1 hr2 hg1 hg2]
  have hfar := white_far (hz.shift n) hZ 1
  have hb : msg[n]? = some (msg.getD n false) := by
    rw [List.getD_eq_getElem?_getD, List.getElem?_eq_getElem hnm, Option.getD_some]
  generalize msg.getD n false = b at hb
  have hG : ∀ ω, (∀ i < 1, |z (n + i) ω| ≤ Z) → _ := fun ω hω => by
    have z0 := hω 0 (by norm_num)
    rw [Nat.add_zero] at z0
    have hs : |if b then val (g1 n) else val (g2 n)| ≤ 1 := by cases b <;> [exact hv2; exact hv1]
    have hx : Ap (if b then g1 n else g2 n) (if b then val (g1 n) else val (g2 n)) 0 := by
      cases b <;> [exact Ap.exact f2; exact Ap.exact f1]
    have t0 : |if b then val (g1 n) else val (g2 n)| + 0 + val σ * (|z n ω| + η) ≤ S - 2 := by
      have := mul_le_mul_of_nonneg_left (add_le_add_left z0 η) hσ.le
      linarith
    have x0 := awgn_sample hx (hd n ω z0) hf hσ.le hη le_rfl (t0.trans (by linarith)) h1 h2
    have a3 : val σ * (|z n ω| + η) = val σ * |z n ω| + val σ * η := by ring
    have a4 : |(if b then val (g1 n) else val (g2 n)) + val σ * z n ω| ≤ |if b then val (g1 n) else val (g2 n)| + val σ * |z n ω| :=
      (abs_add_le _ _).trans (by rw [abs_mul, abs_of_pos hσ])
    have e47 : S / 2 ^ 47 = S / 2 ^ 48 + S / 2 ^ 48 := by ring
    have e48 : S / 2 ^ 50 ≤ S / 2 ^ 48 := by
      apply div_le_div_of_nonneg_left (by linarith) (by positivity); norm_num
    exact nearer_decide x0 f1 f2 hv1 hv2 (S := S) (D := D) (by linarith) h1 h2 (by linarith)
  have hM := fun ω => nearer_margin (t := val σ * z n ω) b hne hD0 hD'
  have hw := hz.scale (val σ)
  have key := single_core hw hσ n (c := |val (g1 n) - val (g2 n)| / 2) (D := D) hD0 hD' (b == decide (val (g2 n) < val (g1 n)))
    (G := {ω | ∀ i < 1, |z (n + i) ω| ≤ Z})
    (W := {ω | ¬ Right (pure (msg.mapIdx (fun n b =>
          Flt.lt (Flt.abs ((if b then g1 n else g2 n) + (0 + σ * d n ω) - g1 n)) (Flt.abs ((if b then g1 n else g2 n) + (0 + σ * d n ω) - g2 n))))) msg n})
    (V := {ω | Wrong (pure (msg.mapIdx (fun n b =>
          Flt.lt (Flt.abs ((if b then g1 n else g2 n) + (0 + σ * d n ω) - g1 n)) (Flt.abs ((if b then g1 n else g2 n) + (0 + σ * d n ω) - g2 n))))) msg n}) ?_ ?_
  · have e : P.real {ω | ∀ i < 1, |z (n + i) ω| ≤ Z}ᶜ ≤ Real.exp (-Z ^ 2 / 2) := by simpa using hfar
    exact ⟨key.1.trans (by gcongr), key.2.trans (by gcongr)⟩
  · intro ω hω hq hw
    refine hw ⟨_, rfl, by simp, ?_⟩
    rw [List.getElem?_mapIdx, hb, Option.map_some, Option.some.injEq]
    have hq' := (hM ω).1 hq
    have hd' := hG ω hω
    cases b
    · exact hd'.2 hq'
    · exact hd'.1 hq'
  · intro ω hω hq
    refine ⟨_, rfl, by simp, ?_⟩
    rw [List.getElem?_mapIdx, hb, Option.map_some, Ne, Option.some.injEq]
    have hq' := (hM ω).2 hq
    have hd' := hG ω hω
    cases b
    · exact fun e => Bool.noConfusion ((hd'.1 hq').symm.trans e)
    · exact fun e => Bool.noConfusion ((hd'.2 hq').symm.trans e)

/-- A generator that rounds Gaussian samples. -/
noncomputable def roundedPath (ω : ℕ → ℝ) : Map (Map RangeFrom ℕ ℝ) ℝ Float := rmap (path ω) (fun x => near x)

theorem roundedPath_gives (ω : ℕ → ℝ) : Gives (roundedPath ω) (fun i => near (ω i)) := (path_gives ω).rmap _

theorem ref_39 : LogisticMap.new (3.9 : Float) 0.1 = pure ⟨3.9, 0.1⟩ := by
  unfold LogisticMap.new; rw [rassert_pos (by decide +kernel), pure_bind]

theorem ref_39' : LogisticMap.new (3.9 : Float) 0.15 = pure ⟨3.9, 0.15⟩ := by
  unfold LogisticMap.new; rw [rassert_pos (by decide +kernel), pure_bind]

example : ∃ c : ℝ, 0.09 ≤ c ∧ c ≤ 0.976 ∧ (gaussPath 1).real {ω | ¬ Right (do
      let tx ← txDcsk Float (ofList [true, false, true])
      let ch ← awgn tx (1 : Float) (roundedPath ω)
      collect (rxDcsk (F := Float) ch)) [true, false, true] 1}
    ≤ 1 - ((1 - bitError ((c - 1 / 2 ^ 40) ^ 2) 1) ^ 2 + bitError ((c + 1 / 2 ^ 40) ^ 2) 1 ^ 2) + 2 * Real.exp (-50) := by
  have := (C151_dcsk (white_path 1) (Z := 10) (by norm_num) (by norm_num) sampled_rounded roundedPath_gives (σ := 1) fin_one
    (by rw [val_one]; norm_num) (yields_ofList [true, false, true]) ref_39 (gives_logistic _ _) (S := 12) (D := 1 / 2 ^ 40)
    (by rw [val_one]; norm_num) (by rw [val_one]; norm_num) (by norm_num) (n := 1) (by simp)).1
  rw [val_one] at this
  obtain ⟨-, h1, h2⟩ := logistic_ref ref_39 (gives_logistic _ _) 1
  refine ⟨_, h1, h2, this.trans (le_of_eq ?_)⟩
  norm_num

example : ∃ c : ℝ, 0.024 ≤ c ∧ (gaussPath 1).real {ω | ¬ Right (do
      let tx ← txCsk Float (ofList [true, false, true])
      let ch ← awgn tx (1 : Float) (roundedPath ω)
      let rx ← rxCsk (F := Float) ch
      collect rx) [true, false, true] 0}
    ≤ bitError ((c - 1 / 2 ^ 40) ^ 2) 1 + Real.exp (-50) := by
  have hc : (0.024 : ℝ) ≤ |val (orbit (logisticMap (3.9 : Float)) 0.1 0) - val (orbit (logisticMap (3.9 : Float)) 0.15 0)| / 2 := by
    have h1 := _root_.abs_le.mp (ap_lit (m := 36) (e := 2) (by norm_num) (by norm_num) (by norm_num) (by norm_num) (by norm_num)).2
    have h2 := _root_.abs_le.mp (ap_lit (m := 49) (e := 2) (by norm_num) (by norm_num) (by norm_num) (by norm_num) (by norm_num)).2
    have k1 := (le_iff (a := logisticMap (3.9 : Float) 0.1) (b := F64.lit 36 2) (by decide +kernel) (by decide +kernel)).mp (by decide +kernel)
    have k2 := (le_iff (a := F64.lit 49 2) (b := logisticMap (3.9 : Float) 0.15) (by decide +kernel) (by decide +kernel)).mp (by decide +kernel)
    rw [orbit, orbit, abs_sub_comm]
    refine le_trans ?_ (div_le_div_of_nonneg_right (le_abs_self _) (by norm_num))
    norm_num at h1 h2 ⊢
    linarith
  have := (C151_csk (white_path 1) (Z := 10) (by norm_num) (by norm_num) sampled_rounded roundedPath_gives (σ := 1) fin_one
    (by rw [val_one]; norm_num) (yields_ofList [true, false, true]) ref_39 ref_39' (gives_logistic _ _) (gives_logistic _ _) (S := 14) (D := 1 / 2 ^ 40)
    (by rw [val_one]; norm_num) (by rw [val_one]; norm_num) (n := 0) (by simp) (lt_of_lt_of_le (by norm_num) hc)).1
  rw [val_one] at this
  refine ⟨_, hc, this.trans (le_of_eq ?_)⟩
  norm_num

end Verif.Props
