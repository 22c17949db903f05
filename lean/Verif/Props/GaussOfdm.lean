import Verif.Lemmas.OfdmNoise
import Verif.Lemmas.OfdmPass
import Verif.Props.Gauss
import Verif.Props.OfdmRx

/-!
# Property C112: baseband OFDM in the noise of `awgn_complex`

Exact arithmetic; the noise as in Props/Gauss.  `awgn_complex` adds real noise, and the receiver takes the discrete Fourier transform
of it: all data carriers get the same share, but carriers that mirror each other get the same noise.
-/
namespace Verif.Props
open Verif Spec MeasureTheory ProbabilityTheory
set_option linter.unusedSectionVars false
variable {ι ν : Type} {Ω : Type} [MeasurableSpace Ω] {P : Measure Ω} {σ : ℝ} {z : ℕ → Ω → ℝ} [RIter ν ℝ] {noise : Ω → ν}

/-- The chain up to the receiver's symbols. -/
private theorem chain_symbols [RIter ι (Cx ℝ)] {s : ι} {l : List (Cx ℝ)} (h : Yields s l) {n p : ℕ} (h1 : 1 ≤ p) (h2 : p < n) {std : ν}
    {v : ℕ → ℝ} (hv : Drives σ std v) :
    ∃ tx ch rx, txBasebandOfdm (F := ℝ) s n p = pure tx ∧ awgnComplex tx σ std = pure ch ∧ rxBasebandOfdm (F := ℝ) ch n p = pure rx ∧
      Yields rx (deframeAll n p (((blocks (n - p) l).flatMap (frameL (F := ℝ) n p)).mapIdx (fun i c => ⟨c.re + v i, c.im⟩))) := by
  obtain ⟨tx, t1, t2⟩ := txBasebandOfdm_ok h h1 h2.le
  obtain ⟨ch, c1, c2⟩ := awgnComplex_driven t2 hv
  obtain ⟨rx, r1, r2⟩ := rxBasebandOfdm_ok c2 h1 h2.le (by
    rw [List.length_mapIdx, length_flatMap_const (k := n + n / 4) _ _ (fun b _ => frameL_length n p b)]; exact ⟨_, Nat.mul_comm _ _⟩)
  exact ⟨tx, ch, rx, t1, c1, r1, r2⟩

private theorem symbols_length {l : List (Cx ℝ)} {n p : ℕ} (h1 : 1 ≤ p) (h2 : p < n) (v : ℕ → ℝ) :
    (deframeAll n p (((blocks (n - p) l).flatMap (frameL (F := ℝ) n p)).mapIdx (fun i c => ⟨c.re + v i, c.im⟩))).length
      = (n - p) * ((l.length + (n - p) - 1) / (n - p)) := by
  have e : (((blocks (n - p) l).flatMap (frameL (F := ℝ) n p)).mapIdx (fun i c => (⟨c.re + v i, c.im⟩ : Cx ℝ))).length
      = (l.length + (n - p) - 1) / (n - p) * (n + n / 4) := by
    rw [List.length_mapIdx, length_flatMap_const (k := n + n / 4) _ _ (fun b _ => frameL_length n p b), blocks_length _ (by omega)]
  rw [deframeAll_length h1 h2.le _ (by rw [e]; exact ⟨_, Nat.mul_comm _ _⟩), e, Nat.mul_div_cancel _ (by omega)]

private theorem le_pad (a : ℕ) {k : ℕ} (hk : 0 < k) : a ≤ k * ((a + k - 1) / k) := by
  have := Nat.div_add_mod (a + k - 1) k
  have := Nat.mod_lt (a + k - 1) hk
  omega

/-- The received bits of a BPSK message. -/
private noncomputable def bitsBpsk (n p : ℕ) (msg : List Bool) (v : ℕ → ℝ) : List Bool :=
  (deframeAll n p (((blocks (n - p) (msg.map (fun bit : Bool => if bit then (⟨1, 0⟩ : Cx ℝ) else ⟨-1, 0⟩))).flatMap
    (frameL (F := ℝ) n p)).mapIdx (fun i c => ⟨c.re + v i, c.im⟩))).map (fun s : Cx ℝ => Flt.le 0 s.re)

private theorem bitsBpsk_chain [RIter ι Bool] {m : ι} {msg : List Bool} (h : Yields m msg) {n p : ℕ} (h1 : 1 ≤ p) (h2 : p < n) {std : ν}
    {v : ℕ → ℝ} (hv : Drives σ std v) : (do
        let tx ← txBasebandOfdm (F := ℝ) (txBasebandBpsk (F := ℝ) m) n p
        let ch ← awgnComplex tx σ std
        let rx ← rxBasebandOfdm (F := ℝ) ch n p
        collect (rxBasebandBpsk (F := ℝ) rx)) = pure (bitsBpsk n p msg v) ∧
      (bitsBpsk n p msg v).length = (n - p) * ((msg.length + (n - p) - 1) / (n - p)) := by
  constructor
  · obtain ⟨tx, ch, rx, e1, e2, e3, hy⟩ := chain_symbols (h.rmap (fun bit : Bool => if bit then (⟨1, 0⟩ : Cx ℝ) else ⟨-1, 0⟩))
      (n := n) (p := p) h1 h2 hv
    refine (congrArg (· >>= fun tx => awgnComplex tx σ std >>= fun ch => rxBasebandOfdm (F := ℝ) ch n p >>= fun rx =>
      collect (rxBasebandBpsk (F := ℝ) rx)) e1).trans ?_
    rw [pure_bind, e2, pure_bind, e3, pure_bind]
    exact collect_of_yields (hy.rmap (fun s : Cx ℝ => Flt.le 0 s.re))
  · unfold bitsBpsk
    rw [List.length_map, symbols_length h1 h2, List.length_map]

private theorem bitsBpsk_get {n p : ℕ} (h1 : 1 ≤ p) (h2 : p < n) (he : n % 2 = 0) {msg : List Bool} (w : ℕ → Ω → ℝ) :
    ∃ M, (∀ i < msg.length, bodyAt n p i + n ≤ M) ∧ ∀ ω i (hi : i < msg.length), (bitsBpsk n p msg (fun i => w i ω))[i]?
      = some (decide (0 ≤ (if msg[i] then 1 else -1) * 1 + proj M (row n (bodyAt n p i) false (binOf n p i)) w ω)) := by
  set l := msg.map (fun bit : Bool => if bit then (⟨1, 0⟩ : Cx ℝ) else ⟨-1, 0⟩) with hl
  have hli : ∀ i < msg.length, i < l.length := fun i hi => by rw [hl, List.length_map]; exact hi
  refine ⟨_, fun i hi => (noisy_symbol h1 h2 he l (hli i hi) 0).1, fun ω i hi => ?_⟩
  have hr := (noisy_rails h1 h2 he l (hli i hi) w ω).1
  unfold bitsBpsk
  rw [List.getElem?_map]
  have hlen : i < (deframeAll n p (((blocks (n - p) l).flatMap (frameL (F := ℝ) n p)).mapIdx (fun i c => ⟨c.re + w i ω, c.im⟩))).length := by
    rw [symbols_length h1 h2 (fun i => w i ω)]
    exact lt_of_lt_of_le (hli i hi) (le_pad _ (by omega))
  rw [List.getD, List.getElem?_eq_getElem hlen] at hr
  rw [List.getElem?_eq_getElem hlen, Option.map_some]
  simp only [Option.getD_some] at hr
  rw [hr, Flt.le_real]
  congr 3
  rw [List.getD, hl, List.getElem?_map, List.getElem?_eq_getElem hi]
  cases msg[i] <;> simp

/-- BPSK symbols on an even number of carriers, at least two of them without data.  On any positions no two of which mirror each other,
the chain is a memoryless channel, and every bit is flipped with the error probability of energy `2/n`. -/
theorem C112_bpsk (hz : White P 1 z) (hσ : 0 < σ) (hg : ∀ ω, Gives (noise ω) (fun i => z i ω)) [RIter ι Bool] {m : ι}
    {msg : List Bool} (h : Yields m msg) {n p : ℕ} (h1 : 2 ≤ p) (h2 : p < n) (he : n % 2 = 0) :
    ∃ bits : Ω → List Bool, (∀ ω, (do
        let tx ← txBasebandOfdm (F := ℝ) (txBasebandBpsk (F := ℝ) m) n p
        let ch ← awgnComplex tx σ (noise ω)
        let rx ← rxBasebandOfdm (F := ℝ) ch n p
        collect (rxBasebandBpsk (F := ℝ) rx)) = pure (bits ω)) ∧
      (∀ ω, (bits ω).length = (n - p) * ((msg.length + (n - p) - 1) / (n - p))) ∧
      ∀ js : List ℕ, (∀ j ∈ js, j < msg.length) → js.Pairwise (fun i j => i ≠ j ∧ ¬ mirrored n p i j) →
        Flips P (atPositions js msg) (fun ω => atPositions js (bits ω)) (fun _ => bitError (2 / n) σ) := by
  obtain ⟨w, hw, hn⟩ := hz.driven hg σ
  refine ⟨fun ω => bitsBpsk n p msg (fun i => w i ω), fun ω => (bitsBpsk_chain h (by omega) h2 (hn ω)).1,
    fun ω => (bitsBpsk_chain h (by omega) h2 (hn ω)).2, fun js hjs hpw => ?_⟩
  obtain ⟨M, hM, hget⟩ := bitsBpsk_get (n := n) (p := p) (msg := msg) (by omega) h2 he w
  have hn0 : (0 : ℝ) < n := by exact_mod_cast (by omega : 0 < n)
  rw [show (2 : ℝ) / n = 1 ^ 2 / (n / 2) by field_simp]
  exact rails_flips hw hσ h1 h2 he (sym := id) (rl := fun _ => false) one_pos hM hget hjs (hpw.imp fun hh => .inr hh)

/-- Eight carriers, four of them (2, 3, 5, 6) with data; the message takes two frames.  Positions 0, 1 and 4 do not share their noise. -/
example : ∃ bits : (ℕ → ℝ) → List Bool, (∀ ω, (do
        let tx ← txBasebandOfdm (F := ℝ) (txBasebandBpsk (F := ℝ) (ofList [true, false, false, true, true])) 8 4
        let ch ← awgnComplex tx (1 / 2 : ℝ) (path ω)
        let rx ← rxBasebandOfdm (F := ℝ) ch 8 4
        collect (rxBasebandBpsk (F := ℝ) rx)) = pure (bits ω)) ∧
      (∀ ω, (bits ω).length = 8) ∧
      Flips (gaussPath 1) [true, false, true] (fun ω => atPositions [0, 1, 4] (bits ω)) (fun _ => bitError (2 / 8) (1 / 2)) := by
  obtain ⟨bits, b1, b2, b3⟩ := C112_bpsk (σ := 1 / 2) (white_path 1) (by norm_num) path_gives (yields_ofList [true, false, false, true, true]) (n := 8) (p := 4)
    (by norm_num) (by norm_num) (by norm_num)
  refine ⟨bits, b1, fun ω => by rw [b2]; simp, ?_⟩
  have := b3 [0, 1, 4] (by simp) (by simp [mirrored, carrierOf])
  exact_mod_cast this

/-- Mirrored carriers: whatever the noise, two equal bits are received alike, and of two different bits at most one is wrong. -/
theorem C112_mirror [RIter ι Bool] {m : ι} {msg : List Bool} (h : Yields m msg) {n p : ℕ} (h1 : 2 ≤ p) (h2 : p < n) (he : n % 2 = 0)
    {std : ν} {v : ℕ → ℝ} (hv : Gives std v) (σ : ℝ) :
    ∃ out : List Bool, (do
        let tx ← txBasebandOfdm (F := ℝ) (txBasebandBpsk (F := ℝ) m) n p
        let ch ← awgnComplex tx σ std
        let rx ← rxBasebandOfdm (F := ℝ) ch n p
        collect (rxBasebandBpsk (F := ℝ) rx)) = pure out ∧
      ∀ i j, i < msg.length → j < msg.length → mirrored n p i j →
        (msg[i]? = msg[j]? → out[i]? = out[j]?) ∧ (msg[i]? ≠ msg[j]? → out[i]? = msg[i]? ∨ out[j]? = msg[j]?) := by
  refine ⟨_, (bitsBpsk_chain h (by omega) h2 (Drives.of_gives hv σ)).1, fun i j hi hj hm => ?_⟩
  obtain ⟨M, hM, hget⟩ := bitsBpsk_get (Ω := Unit) (n := n) (p := p) (msg := msg) (by omega) h2 he (fun i _ => σ * v i)
  rw [hget () i hi, hget () j hj, (proj_mirrored h1 h2 he hm ()).1, List.getElem?_eq_getElem hi, List.getElem?_eq_getElem hj]
  set N := proj M (row n (bodyAt n p i) false (binOf n p i)) (fun i (_ : Unit) => σ * v i) ()
  simp only [Option.some.injEq]
  constructor
  · intro e; rw [e]
  · intro e
    cases hi' : msg[i] <;> cases hj' : msg[j] <;> simp_all only [not_true, ne_eq, if_true, Bool.false_eq_true, if_false,
      decide_eq_false_iff_not, decide_eq_true_iff, not_le]
    · by_contra hc; push Not at hc; linarith
    · by_contra hc; push Not at hc; linarith

/-- Carriers 2 and 6 carry equal bits, carriers 3 and 5 different ones. -/
example (ω : ℕ → ℝ) : ∃ out : List Bool, (do
        let tx ← txBasebandOfdm (F := ℝ) (txBasebandBpsk (F := ℝ) (ofList [true, false, true, true])) 8 4
        let ch ← awgnComplex tx (3 : ℝ) (path ω)
        let rx ← rxBasebandOfdm (F := ℝ) ch 8 4
        collect (rxBasebandBpsk (F := ℝ) rx)) = pure out ∧ out[0]? = out[3]? ∧ (out[1]? = some false ∨ out[2]? = some true) := by
  obtain ⟨out, o1, o2⟩ := C112_mirror (yields_ofList [true, false, true, true]) (n := 8) (p := 4) (by norm_num) (by norm_num) (by norm_num) (path_gives ω) 3
  exact ⟨out, o1, (o2 0 3 (by simp) (by simp) (by simp [mirrored, carrierOf])).1 (by simp),
    by simpa using (o2 1 2 (by simp) (by simp) (by simp [mirrored, carrierOf])).2 (by simp)⟩

/-- One bit. -/
private theorem flips_one {msg : List Bool} {bits : Ω → List Bool} {q : ℝ} [IsProbabilityMeasure P] {i : ℕ} (hi : i < msg.length)
    (hl : ∀ ω, msg.length ≤ (bits ω).length)
    (h : Flips P (atPositions [i] msg) (fun ω => atPositions [i] (bits ω)) (fun _ => q)) :
    P.real {ω | (bits ω)[i]? ≠ msg[i]?} = q ∧ Integrable (fun ω => wrongAt msg i (bits ω)) P ∧ ∫ ω, wrongAt msg i (bits ω) ∂P = q := by
  have e : ∀ l : List Bool, msg.length ≤ l.length → (atPositions [i] l)[0]? = l[i]? := fun l hl =>
    atPositions_getElem? (js := [i]) (l := l) (fun j hj => by rw [List.mem_singleton.mp hj]; omega) 0 (by simp)
  have h0 : 0 < (atPositions [i] msg).length := by
    rw [atPositions_length (by intro j hj; rw [List.mem_singleton.mp hj]; exact hi)]; simp
  have ew : ∀ ω, wrongAt (atPositions [i] msg) 0 (atPositions [i] (bits ω)) = wrongAt msg i (bits ω) := fun ω => by
    unfold wrongAt; rw [e _ le_rfl, e _ (hl ω)]
  refine ⟨?_, ?_, ?_⟩
  · rw [← h.wrong h0]
    congr 1; ext ω
    rw [Set.mem_ofPred_eq, Set.mem_ofPred_eq, e _ le_rfl, e _ (hl ω)]
  · refine ((h.integral (wrongAt (atPositions [i] msg) 0)).1).congr (.of_forall fun ω => ew ω)
  · rw [← h.wrongAt_mean h0]
    exact integral_congr_ae (.of_forall fun ω => (ew ω).symm)

/-- Two equal bits on mirrored carriers are wrong together, with the probability of one. -/
theorem C112_pair (hz : White P 1 z) (hσ : 0 < σ) (hg : ∀ ω, Gives (noise ω) (fun i => z i ω)) [RIter ι Bool] {m : ι}
    {msg : List Bool} (h : Yields m msg) {n p : ℕ} (h1 : 2 ≤ p) (h2 : p < n) (he : n % 2 = 0) :
    ∃ bits : Ω → List Bool, (∀ ω, (do
        let tx ← txBasebandOfdm (F := ℝ) (txBasebandBpsk (F := ℝ) m) n p
        let ch ← awgnComplex tx σ (noise ω)
        let rx ← rxBasebandOfdm (F := ℝ) ch n p
        collect (rxBasebandBpsk (F := ℝ) rx)) = pure (bits ω)) ∧
      ∀ i j, i < msg.length → j < msg.length → mirrored n p i j →
        P.real {ω | (bits ω)[i]? ≠ msg[i]? ∧ (bits ω)[j]? ≠ msg[j]?} = if msg[i]? = msg[j]? then bitError (2 / n) σ else 0 := by
  obtain ⟨bits, b1, b2, b3⟩ := C112_bpsk hz hσ hg h h1 h2 he
  have hP : IsProbabilityMeasure P := hz.prob
  refine ⟨bits, b1, fun i j hi hj hm => ?_⟩
  have hlen : ∀ ω, msg.length ≤ (bits ω).length := fun ω => by rw [b2]; exact le_pad _ (by omega)
  have hone := (flips_one hi hlen (b3 [i] (by intro j hj; rw [List.mem_singleton.mp hj]; exact hi) (by simp))).1
  have hmir : ∀ ω, (msg[i]? = msg[j]? → (bits ω)[i]? = (bits ω)[j]?) ∧
      (msg[i]? ≠ msg[j]? → (bits ω)[i]? = msg[i]? ∨ (bits ω)[j]? = msg[j]?) := fun ω => by
    obtain ⟨out, o1, o2⟩ := C112_mirror h h1 h2 he (hg ω) σ
    have := (b1 ω).symm.trans o1
    rw [RM.ok_inj] at this
    rw [this]; exact o2 i j hi hj hm
  split_ifs with hc
  · rw [← hone]
    congr 1; ext ω
    simp only [Set.mem_ofPred_eq]
    rw [← (hmir ω).1 hc, ← hc, and_self]
  · have : {ω | (bits ω)[i]? ≠ msg[i]? ∧ (bits ω)[j]? ≠ msg[j]?} = ∅ := by
      ext ω
      simp only [Set.mem_ofPred_eq, Set.mem_empty_iff_false, iff_false, not_and_or, not_not]
      exact (hmir ω).2 hc
    rw [this, measureReal_empty]

example : ∃ bits : (ℕ → ℝ) → List Bool, (∀ ω, (do
        let tx ← txBasebandOfdm (F := ℝ) (txBasebandBpsk (F := ℝ) (ofList [true, false, true, true])) 8 4
        let ch ← awgnComplex tx (1 / 2 : ℝ) (path ω)
        let rx ← rxBasebandOfdm (F := ℝ) ch 8 4
        collect (rxBasebandBpsk (F := ℝ) rx)) = pure (bits ω)) ∧
      (gaussPath 1).real {ω | (bits ω)[0]? ≠ some true ∧ (bits ω)[3]? ≠ some true} = bitError (2 / 8) (1 / 2) ∧
      (gaussPath 1).real {ω | (bits ω)[1]? ≠ some false ∧ (bits ω)[2]? ≠ some true} = 0 := by
  obtain ⟨bits, b1, b2⟩ := C112_pair (σ := 1 / 2) (white_path 1) (by norm_num) path_gives (yields_ofList [true, false, true, true]) (n := 8) (p := 4)
    (by norm_num) (by norm_num) (by norm_num)
  refine ⟨bits, b1, ?_, ?_⟩
  · simpa using b2 0 3 (by simp) (by simp) (by simp [mirrored, carrierOf])
  · simpa using b2 1 2 (by simp) (by simp) (by simp [mirrored, carrierOf])

/-- The library's `ber`, when at least as many bits came back as were sent. -/
theorem ber_wrongAt_le {msg l : List Bool} (hl : msg.length ≤ l.length) :
    (ber msg l : ℝ) = (∑ n ∈ Finset.range msg.length, wrongAt msg n l) / msg.length := by
  have h1 : (ber msg l : ℝ) = ber msg (l.take msg.length) := by
    rw [C16_value, C16_value, List.length_take, Nat.min_eq_left hl, Nat.min_self]
    congr 2
    unfold diffCount
    rw [List.zip_eq_zip_take_min, Nat.min_eq_left hl, List.take_length]
  rw [h1, ber_wrongAt (by rw [List.length_take]; omega)]
  congr 1
  refine Finset.sum_congr rfl fun n hn => ?_
  unfold wrongAt
  rw [List.getElem?_take_of_lt (Finset.mem_range.mp hn)]

private theorem mean_ber [IsProbabilityMeasure P] {msg : List Bool} (hne : msg ≠ []) {bits : Ω → List Bool} {q : ℝ} (hl : ∀ ω, msg.length ≤ (bits ω).length)
    (h : ∀ i < msg.length, Flips P (atPositions [i] msg) (fun ω => atPositions [i] (bits ω)) (fun _ => q)) :
    ∫ ω, (ber msg (bits ω) : ℝ) ∂P = q := by
  have hl0 : (msg.length : ℝ) ≠ 0 := by simpa using hne
  simp only [fun ω => ber_wrongAt_le (hl ω)]
  rw [integral_div, integral_finsetSum _ fun i hi => (flips_one (Finset.mem_range.mp hi) hl (h i (Finset.mem_range.mp hi))).2.1,
    Finset.sum_congr rfl (g := fun _ => q) fun i hi => (flips_one (Finset.mem_range.mp hi) hl (h i (Finset.mem_range.mp hi))).2.2]
  rw [Finset.sum_const, Finset.card_range, nsmul_eq_mul, mul_div_cancel_left₀ _ hl0]

/-- The energy of a transmission, cyclic prefixes included. -/
private theorem tx_energy {n p : ℕ} (h1 : 1 ≤ p) (h2 : p < n) (he : n % 2 = 0) (l : List (Cx ℝ)) :
    cxEnergy l ≤ n * cxEnergy ((blocks (n - p) l).flatMap (frameL (F := ℝ) n p)) ∧
    n * cxEnergy ((blocks (n - p) l).flatMap (frameL (F := ℝ) n p)) ≤ 2 * cxEnergy l := by
  have hn0 : (0 : ℝ) < n := by exact_mod_cast (by omega : 0 < n)
  have key : ∀ L : List (List (Cx ℝ)), (∀ d ∈ L, d.length ≤ n - p) → cxEnergy L.flatten ≤ n * cxEnergy (L.flatMap (frameL (F := ℝ) n p)) ∧
      n * cxEnergy (L.flatMap (frameL (F := ℝ) n p)) ≤ 2 * cxEnergy L.flatten := by
    intro L
    induction L with
    | nil => intro _; simp [cxEnergy]
    | cons d L ih =>
      intro hd
      obtain ⟨i1, i2⟩ := ih fun x hx => hd x (by simp [hx])
      have hb := cxEnergy_frame h1 h2.le he d (hd d (by simp))
      have ht : (frameL (F := ℝ) n p d).take (n / 4) = (frameL (F := ℝ) n p d).drop n := by
        have hb := frameBody_length (F := ℝ) n p d
        rw [frameL, ← List.map_take, ← List.map_drop]
        congr 1
        rw [List.take_left' (by rw [List.length_drop, hb]; omega), List.drop_append, List.drop_drop,
          List.drop_of_length_le (i := n - n / 4 + n) (by rw [hb]; omega), List.nil_append, List.length_drop, hb]
        congr 1; omega
      have hs : cxEnergy (frameL (F := ℝ) n p d) = cxEnergy ((frameL (F := ℝ) n p d).take (n / 4)) + cxEnergy ((frameL (F := ℝ) n p d).drop (n / 4)) := by
        rw [← cxEnergy_append, List.take_append_drop]
      have hp : cxEnergy ((frameL (F := ℝ) n p d).take (n / 4)) ≤ cxEnergy ((frameL (F := ℝ) n p d).drop (n / 4)) := by
        rw [ht]
        have := cxEnergy_drop_le ((frameL (F := ℝ) n p d).drop (n / 4)) (n - n / 4)
        rwa [List.drop_drop, show n / 4 + (n - n / 4) = n by omega] at this
      have hp0 := cxEnergy_nonneg ((frameL (F := ℝ) n p d).take (n / 4))
      rw [List.flatten_cons, List.flatMap_cons, cxEnergy_append, cxEnergy_append]
      constructor <;> nlinarith
  have := key (blocks (n - p) l) (fun d hd => mem_blocks_length hd)
  rwa [blocks_flatten _ (by omega)] at this

/-- Calibrated noise. -/
private theorem bitError_shift {A e snr : ℝ} (he : 0 < e) (hs : 0 < snr) : bitError A (√(e / (2 * snr))) = Erfc (√(A * snr / e)) / 2 := by
  unfold bitError
  rw [Real.sq_sqrt (by positivity)]
  congr 3
  field_simp

/-- The curve that the integration tests plot: noise calibrated to the energy per bit of the transmission, cyclic prefix included.  The
mean bit error rate is the textbook rate at a signal to noise ratio between one and two times the nominal one. -/
theorem C112_curve [RIter ι Bool] {m : ι} {msg : List Bool} (h : Yields m msg) (hne : msg ≠ []) {n p : ℕ} (h1 : 2 ≤ p) (h2 : p < n)
    (he : n % 2 = 0) {snr : ℝ} (hs : 0 < snr) {tx : List (Cx ℝ)}
    (htx : (do let it ← txBasebandOfdm (F := ℝ) (txBasebandBpsk (F := ℝ) m) n p; collect it) = pure tx)
    (hσ : σ = √(cxEnergy tx / msg.length / (2 * snr)))
    (hz : White P 1 z) (hg : ∀ ω, Gives (noise ω) (fun i => z i ω)) :
    ∃ (bits : Ω → List Bool) (g : ℝ), (∀ ω, (do
        let tx ← txBasebandOfdm (F := ℝ) (txBasebandBpsk (F := ℝ) m) n p
        let ch ← awgnComplex tx σ (noise ω)
        let rx ← rxBasebandOfdm (F := ℝ) ch n p
        collect (rxBasebandBpsk (F := ℝ) rx)) = pure (bits ω)) ∧
      g = 2 * snr / (n * (cxEnergy tx / msg.length)) ∧ snr ≤ g ∧ g ≤ 2 * snr ∧
      ∫ ω, (ber msg (bits ω) : ℝ) ∂P = Erfc (√g) / 2 := by
  have hP : IsProbabilityMeasure P := hz.prob
  have hl0 : (0 : ℝ) < msg.length := by exact_mod_cast List.length_pos_iff.mpr hne
  have hn0 : (0 : ℝ) < n := by exact_mod_cast (by omega : 0 < n)
  have hsym : Yields (txBasebandBpsk (F := ℝ) m) (msg.map (fun bit : Bool => if bit then (⟨1, 0⟩ : Cx ℝ) else ⟨-1, 0⟩)) :=
    h.rmap (fun bit : Bool => if bit then (⟨1, 0⟩ : Cx ℝ) else ⟨-1, 0⟩)
  obtain ⟨it, e1, e2⟩ := txBasebandOfdm_ok hsym (n := n) (p := p) (by omega) h2.le
  rw [e1, pure_bind, collect_of_yields e2, RM.ok_inj] at htx
  obtain ⟨b1, b2⟩ := tx_energy (p := p) (by omega) h2 he (msg.map (fun bit : Bool => if bit then (⟨1, 0⟩ : Cx ℝ) else ⟨-1, 0⟩))
  have hE : cxEnergy (msg.map (fun bit : Bool => if bit then (⟨1, 0⟩ : Cx ℝ) else ⟨-1, 0⟩)) = msg.length := by
    unfold cxEnergy
    rw [List.map_map, List.map_congr_left (g := fun _ => (1 : ℝ)) (by intro b _; cases b <;> simp)]
    simp
  rw [htx, hE] at b1 b2
  set e := cxEnergy tx / msg.length with hed
  have c1 : 1 ≤ n * e := by rw [hed, ← mul_div_assoc, le_div_iff₀ hl0]; linarith
  have c2 : n * e ≤ 2 := by rw [hed, ← mul_div_assoc, div_le_iff₀ hl0]; linarith
  have he0 : 0 < e := pos_of_mul_pos_right (lt_of_lt_of_le one_pos c1) hn0.le
  have hσ0 : 0 < σ := by rw [hσ]; positivity
  obtain ⟨bits, q1, q2, q3⟩ := C112_bpsk hz hσ0 hg h h1 h2 he
  refine ⟨bits, 2 * snr / (n * e), q1, rfl, ?_, ?_, ?_⟩
  · rw [le_div_iff₀ (by linarith)]; nlinarith
  · rw [div_le_iff₀ (by linarith)]; nlinarith
  · rw [mean_ber hne (fun ω => by rw [q2]; exact le_pad _ (by omega)) (fun i hi => q3 [i] (by intro j hj; rw [List.mem_singleton.mp hj]; exact hi)
      (by simp)), hσ, bitError_shift he0 hs]
    congr 3
    field_simp

/-- The tests' frame: 64 carriers, 12 without data. -/
example {tx : List (Cx ℝ)} {σ : ℝ}
    (htx : (do let it ← txBasebandOfdm (F := ℝ) (txBasebandBpsk (F := ℝ) (ofList [true, false, true])) 64 12; collect it) = pure tx)
    (hσ : σ = √(cxEnergy tx / 3 / (2 * 4))) :
    ∃ (bits : (ℕ → ℝ) → List Bool) (g : ℝ), (∀ ω, (do
        let tx ← txBasebandOfdm (F := ℝ) (txBasebandBpsk (F := ℝ) (ofList [true, false, true])) 64 12
        let ch ← awgnComplex tx σ (path ω)
        let rx ← rxBasebandOfdm (F := ℝ) ch 64 12
        collect (rxBasebandBpsk (F := ℝ) rx)) = pure (bits ω)) ∧ 4 ≤ g ∧ g ≤ 8 ∧
      ∫ ω, (ber [true, false, true] (bits ω) : ℝ) ∂(gaussPath 1) = Erfc (√g) / 2 := by
  obtain ⟨bits, g, b1, -, b2, b3, b4⟩ := C112_curve (yields_ofList [true, false, true]) (by simp) (n := 64) (p := 12) (by norm_num) (by norm_num)
    (by norm_num) (snr := 4) (by norm_num) htx (by simpa using hσ) (white_path 1) path_gives
  exact ⟨bits, g, b1, b2, by linarith, b4⟩

/-- Such a transmission exists. -/
example : ∃ tx, (do let it ← txBasebandOfdm (F := ℝ) (txBasebandBpsk (F := ℝ) (ofList [true, false, true])) 64 12; collect it) = pure tx := by
  have hsym : Yields (txBasebandBpsk (F := ℝ) (ofList [true, false, true])) _ :=
    (yields_ofList [true, false, true]).rmap (fun bit : Bool => if bit then (⟨1, 0⟩ : Cx ℝ) else ⟨-1, 0⟩)
  obtain ⟨it, e1, e2⟩ := txBasebandOfdm_ok hsym (n := 64) (p := 12) (by norm_num) (by norm_num)
  exact ⟨_, by rw [e1, pure_bind, collect_of_yields e2]⟩

/-! ### QPSK -/

/-- The received bits of a QPSK message. -/
private noncomputable def bitsQpsk (n p : ℕ) (msg : List Bool) (v : ℕ → ℝ) : List Bool :=
  (deframeAll n p (((blocks (n - p) ((pairs msg).map (qpskPoint (F := ℝ)))).flatMap
    (frameL (F := ℝ) n p)).mapIdx (fun i c => ⟨c.re + v i, c.im⟩))).flatMap (fun s : Cx ℝ => [Flt.le 0 s.re, Flt.le 0 s.im])

private theorem bitsQpsk_chain [RIter ι Bool] {m : ι} {msg : List Bool} (h : Yields m msg) {n p : ℕ} (h1 : 1 ≤ p) (h2 : p < n) {std : ν}
    {v : ℕ → ℝ} (hv : Drives σ std v) : (do
        let tx ← txBasebandOfdm (F := ℝ) (txBasebandQpsk (F := ℝ) m) n p
        let ch ← awgnComplex tx σ std
        let rx ← rxBasebandOfdm (F := ℝ) ch n p
        collect (rxBasebandQpsk (F := ℝ) rx)) = pure (bitsQpsk n p msg v) ∧
      (bitsQpsk n p msg v).length = 2 * ((n - p) * ((msg.length / 2 + (n - p) - 1) / (n - p))) := by
  constructor
  · obtain ⟨tx, ch, rx, e1, e2, e3, hy⟩ := chain_symbols h.txBasebandQpsk (n := n) (p := p) h1 h2 hv
    rw [e1, pure_bind, e2, pure_bind, e3, pure_bind]
    exact collect_of_yields hy.rxBasebandQpsk
  · unfold bitsQpsk
    rw [length_flatMap_const (k := 2) _ _ (fun _ _ => rfl), symbols_length h1 h2, List.length_map, pairs_length, Nat.mul_comm]

private theorem pairs_get (msg : List Bool) (j : ℕ) (hj : j < 2 * (msg.length / 2)) :
    ∃ q : Bool × Bool, (pairs msg)[j / 2]? = some q ∧ msg[j]? = some (if j % 2 = 1 then q.2 else q.1) := by
  fun_induction pairs msg generalizing j with
  | case1 a b t ih =>
    match j with
    | 0 => exact ⟨(a, b), rfl, rfl⟩
    | 1 => exact ⟨(a, b), rfl, rfl⟩
    | j + 2 =>
      obtain ⟨q, q1, q2⟩ := ih j (by simp only [List.length_cons] at hj; omega)
      refine ⟨q, ?_, ?_⟩
      · rw [show (j + 2) / 2 = j / 2 + 1 by omega, List.getElem?_cons_succ]; exact q1
      · rw [show (j + 2) % 2 = j % 2 by omega, List.getElem?_cons_succ, List.getElem?_cons_succ]; exact q2
  | case2 l hl =>
    match l, hl with
    | [], _ => simp at hj
    | [_], _ => simp at hj
    | a :: b :: t, hl => exact absurd rfl (hl a b t)

private theorem bitsQpsk_get {n p : ℕ} (h1 : 1 ≤ p) (h2 : p < n) (he : n % 2 = 0) {msg : List Bool} (hm : msg.length % 2 = 0) (w : ℕ → Ω → ℝ) :
    ∃ M, (∀ j < msg.length, bodyAt n p (j / 2) + n ≤ M) ∧ ∀ ω j (hj : j < msg.length), (bitsQpsk n p msg (fun i => w i ω))[j]?
      = some (decide (0 ≤ (if msg[j] then 1 else -1) * √2 + proj M (row n (bodyAt n p (j / 2)) (decide (j % 2 = 1)) (binOf n p (j / 2))) w ω)) := by
  set l := (pairs msg).map (qpskPoint (F := ℝ)) with hl
  have hli : ∀ j < msg.length, j / 2 < l.length := fun j hj => by rw [hl, List.length_map, pairs_length]; omega
  refine ⟨_, fun j hj => (noisy_symbol h1 h2 he l (hli j hj) 0).1, fun ω j hj => ?_⟩
  obtain ⟨r1, r2⟩ := noisy_rails h1 h2 he l (hli j hj) w ω
  unfold bitsQpsk
  rw [getElem?_flatMap_const (k := 2) (by decide) _ _ (fun _ _ => rfl)]
  have hlen : j / 2 < (deframeAll n p (((blocks (n - p) l).flatMap (frameL (F := ℝ) n p)).mapIdx (fun i c => ⟨c.re + w i ω, c.im⟩))).length := by
    rw [symbols_length h1 h2 (fun i => w i ω)]
    exact lt_of_lt_of_le (hli j hj) (le_pad _ (by omega))
  rw [List.getD, List.getElem?_eq_getElem hlen] at r1 r2
  rw [List.getElem?_eq_getElem hlen, Option.bind_some]
  simp only [Option.getD_some] at r1 r2
  rw [r1, r2, Flt.le_real, Flt.le_real]
  obtain ⟨q, q1, q2⟩ := pairs_get msg j (by omega)
  rw [List.getElem?_eq_getElem hj, Option.some.injEq] at q2
  have ql : l.getD (j / 2) 0 = qpskPoint q := by rw [List.getD, hl, List.getElem?_map, q1]; rfl
  rw [ql, q2]
  have e2 : ((2 : ℕ) : ℝ) = 2 := by norm_num
  rcases Nat.mod_two_eq_zero_or_one j with hj2 | hj2
  · rw [hj2]
    simp only [List.getElem?_cons_zero, qpskPoint, Flt.sqrt_real, Flt.ofNat_real, e2, zero_ne_one, decide_false, if_false]
    cases q.1 <;> simp
  · rw [hj2]
    simp only [List.getElem?_cons_succ, List.getElem?_cons_zero, qpskPoint, Flt.sqrt_real, Flt.ofNat_real, e2, decide_true, if_true]
    cases q.2 <;> simp

/-- QPSK symbols (two bits on every data carrier): both bits of a symbol are flipped with the error probability of energy `4/n`, and
the chain is memoryless on positions that do not share their noise. -/
theorem C112_qpsk (hz : White P 1 z) (hσ : 0 < σ) (hg : ∀ ω, Gives (noise ω) (fun i => z i ω)) [RIter ι Bool] {m : ι}
    {msg : List Bool} (h : Yields m msg) (hm : msg.length % 2 = 0) {n p : ℕ} (h1 : 2 ≤ p) (h2 : p < n) (he : n % 2 = 0) :
    ∃ bits : Ω → List Bool, (∀ ω, (do
        let tx ← txBasebandOfdm (F := ℝ) (txBasebandQpsk (F := ℝ) m) n p
        let ch ← awgnComplex tx σ (noise ω)
        let rx ← rxBasebandOfdm (F := ℝ) ch n p
        collect (rxBasebandQpsk (F := ℝ) rx)) = pure (bits ω)) ∧
      (∀ ω, (bits ω).length = 2 * ((n - p) * ((msg.length / 2 + (n - p) - 1) / (n - p)))) ∧
      ∀ js : List ℕ, (∀ j ∈ js, j < msg.length) → js.Pairwise (fun i j => i ≠ j ∧ ¬ (i % 2 = j % 2 ∧ mirrored n p (i / 2) (j / 2))) →
        Flips P (atPositions js msg) (fun ω => atPositions js (bits ω)) (fun _ => bitError (4 / n) σ) := by
  obtain ⟨w, hw, hn⟩ := hz.driven hg σ
  refine ⟨fun ω => bitsQpsk n p msg (fun i => w i ω), fun ω => (bitsQpsk_chain h (by omega) h2 (hn ω)).1,
    fun ω => (bitsQpsk_chain h (by omega) h2 (hn ω)).2, fun js hjs hpw => ?_⟩
  obtain ⟨M, hM, hget⟩ := bitsQpsk_get (n := n) (p := p) (msg := msg) (by omega) h2 he hm w
  have hn0 : (0 : ℝ) < n := by exact_mod_cast (by omega : 0 < n)
  rw [show (4 : ℝ) / n = √2 ^ 2 / (n / 2) by rw [Real.sq_sqrt two_pos.le]; field_simp; norm_num]
  refine rails_flips hw hσ h1 h2 he (sym := fun j => j / 2) (rl := fun j => decide (j % 2 = 1)) (Real.sqrt_pos.mpr two_pos) hM hget hjs
    (hpw.imp fun {i j} hh => ?_)
  by_cases hp : i % 2 = j % 2
  · exact .inr ⟨fun e => hh.1 (by omega), fun hm => hh.2 ⟨hp, hm⟩⟩
  · left
    intro e
    rw [decide_eq_decide] at e
    omega

/-- Four symbols on eight carriers: the bits of the first two symbols do not share their noise. -/
example : ∃ bits : (ℕ → ℝ) → List Bool, (∀ ω, (do
        let tx ← txBasebandOfdm (F := ℝ) (txBasebandQpsk (F := ℝ) (ofList [true, false, false, true, true, true, false, false])) 8 4
        let ch ← awgnComplex tx (1 / 2 : ℝ) (path ω)
        let rx ← rxBasebandOfdm (F := ℝ) ch 8 4
        collect (rxBasebandQpsk (F := ℝ) rx)) = pure (bits ω)) ∧
      Flips (gaussPath 1) [true, false, false, true] (fun ω => atPositions [0, 1, 2, 3] (bits ω)) (fun _ => bitError (4 / 8) (1 / 2)) := by
  obtain ⟨bits, b1, b2, b3⟩ := C112_qpsk (σ := 1 / 2) (white_path 1) (by norm_num) path_gives
    (yields_ofList [true, false, false, true, true, true, false, false]) (by simp) (n := 8) (p := 4) (by norm_num) (by norm_num) (by norm_num)
  refine ⟨bits, b1, ?_⟩
  have := b3 [0, 1, 2, 3] (by simp) (by simp [mirrored, carrierOf])
  exact_mod_cast this

/-- Mirrored carriers with QPSK, whatever the noise.  First bits: equal bits are received alike, and of two different ones at most one
is wrong.  Second bits hear opposite noise: of two equal bits at most one is wrong. -/
theorem C112_mirror_qpsk [RIter ι Bool] {m : ι} {msg : List Bool} (h : Yields m msg) (hm : msg.length % 2 = 0) {n p : ℕ} (h1 : 2 ≤ p) (h2 : p < n)
    (he : n % 2 = 0) {std : ν} {v : ℕ → ℝ} (hv : Gives std v) (σ : ℝ) :
    ∃ out : List Bool, (do
        let tx ← txBasebandOfdm (F := ℝ) (txBasebandQpsk (F := ℝ) m) n p
        let ch ← awgnComplex tx σ std
        let rx ← rxBasebandOfdm (F := ℝ) ch n p
        collect (rxBasebandQpsk (F := ℝ) rx)) = pure out ∧
      ∀ i j, i < msg.length → j < msg.length → i % 2 = j % 2 → mirrored n p (i / 2) (j / 2) →
        if i % 2 = 0 then (msg[i]? = msg[j]? → out[i]? = out[j]?) ∧ (msg[i]? ≠ msg[j]? → out[i]? = msg[i]? ∨ out[j]? = msg[j]?)
        else msg[i]? = msg[j]? → out[i]? = msg[i]? ∨ out[j]? = msg[j]? := by
  refine ⟨_, (bitsQpsk_chain h (by omega) h2 (Drives.of_gives hv σ)).1, fun i j hi hj hij hmi => ?_⟩
  obtain ⟨M, hM, hget⟩ := bitsQpsk_get (Ω := Unit) (n := n) (p := p) (msg := msg) (by omega) h2 he hm (fun i _ => σ * v i)
  rw [hget () i hi, hget () j hj, List.getElem?_eq_getElem hi, List.getElem?_eq_getElem hj, ← hij]
  have h2' : (0 : ℝ) < √2 := Real.sqrt_pos.mpr two_pos
  obtain ⟨r1, r2⟩ := proj_mirrored (M := M) (w := fun i (_ : Unit) => σ * v i) h1 h2 he hmi ()
  by_cases hi2 : i % 2 = 0
  · rw [if_pos hi2, hi2]
    simp only [zero_ne_one, decide_false]
    rw [r1]
    set N := proj M (row n (bodyAt n p (i / 2)) false (binOf n p (i / 2))) (fun i (_ : Unit) => σ * v i) ()
    simp only [Option.some.injEq]
    constructor
    · intro e; rw [e]
    · intro e
      cases hi' : msg[i] <;> cases hj' : msg[j] <;> simp_all only [not_true, ne_eq, if_true, Bool.false_eq_true, if_false,
        decide_eq_false_iff_not, decide_eq_true_iff, not_le]
      · by_contra hc; push Not at hc; linarith
      · by_contra hc; push Not at hc; linarith
  · rw [if_neg hi2, show i % 2 = 1 by omega]
    simp only [decide_true]
    rw [r2]
    set N := proj M (row n (bodyAt n p (i / 2)) true (binOf n p (i / 2))) (fun i (_ : Unit) => σ * v i) ()
    simp only [Option.some.injEq]
    intro e
    rw [← e]
    cases hi' : msg[i] <;> simp only [if_true, Bool.false_eq_true, if_false, decide_eq_false_iff_not, decide_eq_true_iff, not_le]
    · by_contra hc; push Not at hc; linarith
    · by_contra hc; push Not at hc; linarith

/-- Symbols 0 and 3 of a frame mirror each other; their second bits are equal, so at most one is wrong. -/
example (ω : ℕ → ℝ) : ∃ out : List Bool, (do
        let tx ← txBasebandOfdm (F := ℝ) (txBasebandQpsk (F := ℝ) (ofList [true, false, false, true, true, true, true, false])) 8 4
        let ch ← awgnComplex tx (3 : ℝ) (path ω)
        let rx ← rxBasebandOfdm (F := ℝ) ch 8 4
        collect (rxBasebandQpsk (F := ℝ) rx)) = pure out ∧ out[0]? = out[6]? ∧ (out[1]? = some false ∨ out[7]? = some false) := by
  obtain ⟨out, o1, o2⟩ := C112_mirror_qpsk (yields_ofList [true, false, false, true, true, true, true, false]) (by simp) (n := 8) (p := 4) (by norm_num)
    (by norm_num) (by norm_num) (path_gives ω) 3
  refine ⟨out, o1, ?_, ?_⟩
  · have := o2 0 6 (by simp) (by simp) rfl (by simp [mirrored, carrierOf])
    rw [if_pos rfl] at this
    exact this.1 (by simp)
  · have := o2 1 7 (by simp) (by simp) rfl (by simp [mirrored, carrierOf])
    rw [if_neg (by decide)] at this
    simpa using this (by simp)

/-- The mean bit error rate with QPSK. -/
theorem C112_ber_qpsk (hz : White P 1 z) (hσ : 0 < σ) (hg : ∀ ω, Gives (noise ω) (fun i => z i ω)) [RIter ι Bool] {m : ι}
    {msg : List Bool} (h : Yields m msg) (hne : msg ≠ []) (hm : msg.length % 2 = 0) {n p : ℕ} (h1 : 2 ≤ p) (h2 : p < n) (he : n % 2 = 0) :
    ∃ bits : Ω → List Bool, (∀ ω, (do
        let tx ← txBasebandOfdm (F := ℝ) (txBasebandQpsk (F := ℝ) m) n p
        let ch ← awgnComplex tx σ (noise ω)
        let rx ← rxBasebandOfdm (F := ℝ) ch n p
        collect (rxBasebandQpsk (F := ℝ) rx)) = pure (bits ω)) ∧
      ∫ ω, (ber msg (bits ω) : ℝ) ∂P = bitError (4 / n) σ := by
  have hP : IsProbabilityMeasure P := hz.prob
  obtain ⟨bits, q1, q2, q3⟩ := C112_qpsk hz hσ hg h hm h1 h2 he
  refine ⟨bits, q1, mean_ber hne (fun ω => ?_) (fun i hi => q3 [i] (by intro j hj; rw [List.mem_singleton.mp hj]; exact hi) (by simp))⟩
  rw [q2]
  have := le_pad (msg.length / 2) (k := n - p) (by omega)
  omega

example : ∃ bits : (ℕ → ℝ) → List Bool, (∀ ω, (do
        let tx ← txBasebandOfdm (F := ℝ) (txBasebandQpsk (F := ℝ) (ofList [true, false, false, true])) 64 12
        let ch ← awgnComplex tx (1 / 8 : ℝ) (path ω)
        let rx ← rxBasebandOfdm (F := ℝ) ch 64 12
        collect (rxBasebandQpsk (F := ℝ) rx)) = pure (bits ω)) ∧
      ∫ ω, (ber [true, false, false, true] (bits ω) : ℝ) ∂(gaussPath 1) = Erfc (√2) / 2 := by
  obtain ⟨bits, b1, b2⟩ := C112_ber_qpsk (σ := 1 / 8) (white_path 1) (by norm_num) path_gives (yields_ofList [true, false, false, true]) (by simp) (by simp)
    (n := 64) (p := 12) (by norm_num) (by norm_num) (by norm_num)
  refine ⟨bits, b1, ?_⟩
  rw [b2, bitError]
  congr 3
  norm_num

end Verif.Props
