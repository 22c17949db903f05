import Verif.Lemmas.IeeeCoded
/-!
# C147: joint errors and the coded link in double precision
-/
namespace Verif.Props
open Verif Spec F64 MeasureTheory ProbabilityTheory
variable {Ω : Type} [MeasurableSpace Ω] {P : Measure Ω} {z : ℕ → Ω → ℝ} {ι κ ν ρ : Type}

theorem real_cover [IsProbabilityMeasure P] {A B C : Set Ω} {a b : ℝ} (hb : P.real B ≤ a) (hc : P.real C ≤ b) (h : A ⊆ B ∪ C) :
    P.real A ≤ a + b :=
  (measureReal_mono h (measure_ne_top _ _)).trans ((measureReal_union_le _ _).trans (add_le_add hb hc))

/-- The link is no worse than a memoryless channel: except with probability `r` it returns a message of the right length that is wrong only
where a channel flipping bit `n` with probability `p n`, independently of the others, is wrong too. -/
def Within (P : Measure Ω) (link : Ω → RM (List Bool)) (msg : List Bool) (p : ℕ → ℝ) (r : ℝ) : Prop :=
  ∃ bits : Ω → List Bool, Flips P msg bits p ∧
    P.real {ω | ¬ ∃ out, link ω = pure out ∧ out.length = msg.length ∧ ∀ n : ℕ, (bits ω)[n]? = msg[n]? → out[n]? = msg[n]?} ≤ r

theorem shaky_covers {k : ℕ} {g E : ℕ → ℝ} {D σ : ℝ} {msg : List Bool} {x : ℕ → Bool} (hD : 0 ≤ D) {y : ℕ → Fin k → ℝ}
    (hx : ∀ n < msg.length, D < |E n * pm (msg.getD n false) + σ * ∑ j : Fin k, g (n * k + j) * y n j| →
      x n = decide (0 < E n * pm (msg.getD n false) + σ * ∑ j : Fin k, g (n * k + j) * y n j)) (n : ℕ)
    (h : ((List.range msg.length).map (fun n => shaky k g E D σ msg n (y n)))[n]? = msg[n]?) :
    ((List.range msg.length).map x)[n]? = msg[n]? := by
  by_cases hn : n < msg.length
  · have hb : msg[n]? = some (msg.getD n false) := by
      rw [List.getD_eq_getElem?_getD, List.getElem?_eq_getElem hn]; rfl
    rw [hb, List.getElem?_map, List.getElem?_range hn, Option.map_some, Option.some.injEq] at h ⊢
    unfold shaky at h
    have hx := hx n hn
    generalize msg.getD n false = b at h hx ⊢
    generalize E n * pm b + σ * ∑ j : Fin k, g (n * k + j) * y n j = V at h hx
    split at h
    · cases b <;> simp at h
    · rename_i hc
      rw [not_le] at hc
      rw [hx (hc.trans_le ((le_abs_self _).trans (by rw [abs_mul, pm_abs, one_mul])))]
      cases b
      · have : V < 0 := by simp only [pm, Bool.false_eq_true, if_false] at hc; linarith
        simp [this.le]
      · have : 0 < V := by simp only [pm, if_true] at hc; linarith
        simp [this]
  · rw [List.getElem?_eq_none (by simpa using hn), List.getElem?_eq_none (by omega)]

theorem within_core (hz : White P 1 z) {Z σ : ℝ} (hZ : 0 ≤ Z) (hσ : 0 < σ) {T k : ℕ} {link : Ω → RM (List Bool)} {msg : List Bool}
    {g E : ℕ → ℝ} {D : ℝ} (hD : 0 ≤ D) (hE : ∀ n < msg.length, 0 < E n ∧ D ≤ E n)
    (hg : ∀ n < msg.length, ∑ j ∈ Finset.range k, g (n * k + j) ^ 2 = E n)
    (h : ∀ ω, (∀ j < T, |z j ω| ≤ Z) → ∃ x : ℕ → Bool, link ω = pure ((List.range msg.length).map x) ∧ ∀ n < msg.length,
      (D < |E n * pm (msg.getD n false) + σ * proj (n * k + k) (fun i => if n * k ≤ i then g i else 0) z ω| →
        x n = decide (0 < E n * pm (msg.getD n false) + σ * proj (n * k + k) (fun i => if n * k ≤ i then g i else 0) z ω))) :
    Within P link msg (fun n => bitError ((E n - D) ^ 2 / E n) σ) (T * Real.exp (-Z ^ 2 / 2)) := by
  have := hz.prob
  refine ⟨_, shaky_flips hz hσ hE hg, (measureReal_mono ?_ (measure_ne_top _ _)).trans (white_far hz hZ T)⟩
  intro ω hω hG
  obtain ⟨x, x1, x2⟩ := h ω hG
  simp only [window_proj] at x2
  exact hω ⟨_, x1, by simp, fun n => shaky_covers hD x2 n⟩

/-- **C147, BPSK.** In double precision the link is no worse than a memoryless channel whose error probabilities belong to the energies of the
symbols, less the margin for rounding, except when a noise sample exceeds `Z`. -/
theorem C147_bpsk (hz : White P 1 z) {L : Libm} {Z η : ℝ} (hZ : 0 ≤ Z) (hη : 0 ≤ η) {d : ℕ → Ω → FloatL L} (hd : Sampled Z η z d)
    [RIter ν (FloatL L)] {noise : Ω → ν} (hg : ∀ ω, Gives (noise ω) (fun i => d i ω)) {σ : FloatL L} (hf : F64.Fin σ) (hσ : 0 < val σ)
    [RIter ι Bool] {m : ι} {msg : List Bool} (hm : Yields m msg) {ε S : ℝ} {fs sym : ℕ} {fc : FloatL L}
    (hr : Radio L ε fs (fs / sym) msg.length fc S) (hdvd : sym ∣ fs)
    (hS : 3 + val σ * (Z + η) ≤ S) (hS2 : S ≤ 2 ^ 40)
    (hl : ∀ n < msg.length, (fs / sym : ℕ) * loss ε η (val σ) S ≤ cosEnergy fs (fs / sym) (val fc) (n * (fs / sym))) :
    Within P (fun ω => do
        let tx ← txBpsk m fs sym fc
        let ch ← awgn tx σ (noise ω)
        let rx ← rxBpsk ch fs sym fc
        collect rx) msg
      (fun n => bitError ((cosEnergy fs (fs / sym) (val fc) (n * (fs / sym)) - (fs / sym : ℕ) * loss ε η (val σ) S) ^ 2
        / cosEnergy fs (fs / sym) (val fc) (n * (fs / sym))) (val σ))
      ((msg.length * (fs / sym) : ℕ) * Real.exp (-Z ^ 2 / 2)) := by
  have hε := radio_eps hr
  have hε2 := hr.small
  have hk := hr.k_pos
  have hk' : (0 : ℝ) < (fs / sym : ℕ) := by exact_mod_cast hk
  have hb0 : 0 ≤ val σ * (Z + η) := by positivity
  have hση : 0 ≤ val σ * η := by positivity
  have h1 : 1 ≤ S := by linarith
  have hl0 : 0 < loss ε η (val σ) S := by unfold loss; positivity
  have hcar : Flt.toNat fc ≤ fs / 2 := by
    have htn : Flt.toNat fc = min ⌊val fc⌋₊ (2 ^ 64 - 1) := toNat_val hr.fin
    have h2 : ⌊val fc⌋₊ ≤ ⌊(fs : ℝ) / 2⌋₊ := Nat.floor_le_floor hr.hi
    have h3 : ⌊(fs : ℝ) / 2⌋₊ = fs / 2 := by simpa using Nat.floor_div_natCast (fs : ℝ) 2
    omega
  obtain ⟨it, e1, e2⟩ := txBpsk_ok hm (fc := fc) hk hcar (isInt_div_float hr.fs_lt hdvd hk)
  refine within_core hz hZ hσ (T := msg.length * (fs / sym)) (k := fs / sym) (g := fun i => Real.cos (angle fs (val fc) i)) (mul_pos hk' hl0).le
    (fun n hn => ⟨(mul_pos hk' hl0).trans_le (hl n hn), hl n hn⟩) (fun n _ => rfl) fun ω hG => ?_
  have hnear := noisy_near (bpsk_wave hr) (fun i _ => ((faded_size fs (val fc) msg _ i).1).trans (by norm_num)) (by positivity)
    (by norm_num at hε2 ⊢; linarith) hη hf hσ.le hS h1 hr.size_hi (d := fun i => d i ω) (t := fun i => z i ω)
    (fun i hi => ⟨hd i ω (hG i hi), hG i hi⟩)
  obtain ⟨ch, c1, c2⟩ := awgn_yields e2 (hg ω) (σ := σ) hf
  obtain ⟨x, x1, x2⟩ := C86_bpsk hr hnear (fun i hi => noisy_size hσ
    ((faded_size fs (val fc) msg (i / (fs / sym)) i).1.trans (by norm_num)) (hG i hi) hε2 hS hS2) c2
  refine ⟨x, ?_, fun n hn hbig => ?_⟩
  · rw [e1, pure_bind, c1, pure_bind]; exact x1
  · have hX : inPhase fs (fs / sym) (val fc) (fun n i => fadedBpsk fs (val fc) msg (fun _ => 1) (fun _ => 0) n i + val σ * z i ω) n
        = cosEnergy fs (fs / sym) (val fc) (n * (fs / sym)) * pm (msg.getD n false) + val σ * proj (n * (fs / sym) + fs / sym)
          (fun i => if n * (fs / sym) ≤ i then Real.cos (angle fs (val fc) i) else 0) z ω := by
      rw [inPhase, corr_split (fun n i => fadedBpsk fs (val fc) msg (fun _ => 1) (fun _ => 0) n i) (fun i => z i ω)
        (fun i => Real.cos (angle fs (val fc) i)), ← faded_window]
      rfl
    have := x2 n hn
    rw [hX] at this
    exact this (lt_of_le_of_lt (mul_le_mul_of_nonneg_left (margin_loss h1 hε) hk'.le) hbig)

theorem cdma_guards {L : Libm} {ε S : ℝ} {fs sym N : ℕ} {fc : FloatL L} {key : List Bool} (hr : Radio L ε fs (fs / sym) N fc S)
    (hsym : 0 < sym) (hL : 0 < key.length) (hdvd : sym * key.length ∣ fs) (hnyq : 2 * (sym * key.length) ≤ fs) :
    CdmaOk fs sym fc key.length :=
  (cdmaOk_ieee hr.fs_lt hr.fin).mpr ⟨hsym, hL, hdvd, hnyq, by
    have h2 : ⌊val fc⌋₊ ≤ ⌊(fs : ℝ) / 2⌋₊ := Nat.floor_le_floor hr.hi
    have h3 : ⌊(fs : ℝ) / 2⌋₊ = fs / 2 := by simpa using Nat.floor_div_natCast (fs : ℝ) 2
    omega⟩

/-- A station with a key. -/
theorem C147_cdma (hz : White P 1 z) {L : Libm} {Z η : ℝ} (hZ : 0 ≤ Z) (hη : 0 ≤ η) {d : ℕ → Ω → FloatL L} (hd : Sampled Z η z d)
    [RIter ν (FloatL L)] {noise : Ω → ν} (hg : ∀ ω, Gives (noise ω) (fun i => d i ω)) {σ : FloatL L} (hf : F64.Fin σ) (hσ : 0 < val σ)
    [RIter ι Bool] {m : ι} {msg key : List Bool} (hm : Yields m msg) {ε S : ℝ} {fs sym : ℕ} {fc : FloatL L}
    (hr : Radio L ε fs (fs / sym) msg.length fc S)
    (hsym : 0 < sym) (hL : 0 < key.length) (hdvd : sym * key.length ∣ fs) (hnyq : 2 * (sym * key.length) ≤ fs)
    (hS : 3 + val σ * (Z + η) ≤ S) (hS2 : S ≤ 2 ^ 40)
    (hl : ∀ n < msg.length, (fs / sym : ℕ) * loss ε η (val σ) S ≤ cosEnergy fs (fs / sym) (val fc) (n * (fs / sym))) :
    Within P (fun ω => do
        let tx ← txCdmaBpsk m fs sym fc key
        let ch ← awgn tx σ (noise ω)
        let rx ← rxCdmaBpsk ch fs sym fc key
        collect rx) msg
      (fun n => bitError ((cosEnergy fs (fs / sym) (val fc) (n * (fs / sym)) - (fs / sym : ℕ) * loss ε η (val σ) S) ^ 2
        / cosEnergy fs (fs / sym) (val fc) (n * (fs / sym))) (val σ))
      ((msg.length * (fs / sym) : ℕ) * Real.exp (-Z ^ 2 / 2)) := by
  have hε := radio_eps hr
  have hε2 := hr.small
  have hk := hr.k_pos
  have hk' : (0 : ℝ) < (fs / sym : ℕ) := by exact_mod_cast hk
  have hb0 : 0 ≤ val σ * (Z + η) := by positivity
  have hση : 0 ≤ val σ * η := by positivity
  have h1 : 1 ≤ S := by linarith
  have hl0 : 0 < loss ε η (val σ) S := by unfold loss; positivity
  have hok := cdma_guards hr hsym hL hdvd hnyq
  obtain ⟨it, e1, e2⟩ := txCdmaBpsk_ok hm (fc := fc) hok
  refine within_core hz hZ hσ (T := msg.length * (fs / sym)) (k := fs / sym)
    (g := fun i => Real.cos (angle fs (val fc) i) * chip key (fs / sym) i) (mul_pos hk' hl0).le
    (fun n hn => ⟨(mul_pos hk' hl0).trans_le (hl n hn), hl n hn⟩)
    (fun n _ => Finset.sum_congr rfl fun j _ => chip_mul_sq _ _ _ _) fun ω hG => ?_
  have hnear := noisy_near (near_spread (key := key) (bpsk_wave hr)) (fun i _ => by
      rw [abs_mul, chip_abs, mul_one]; exact (faded_size fs (val fc) msg _ i).1.trans (by norm_num)) (by positivity)
    (by norm_num at hε2 ⊢; linarith) hη hf hσ.le hS h1 hr.size_hi (d := fun i => d i ω) (t := fun i => z i ω)
    (fun i hi => ⟨hd i ω (hG i hi), hG i hi⟩)
  rw [chip_out] at hnear
  obtain ⟨ch, c1, c2⟩ := awgn_yields e2 (hg ω) (σ := σ) hf
  obtain ⟨x, x1, x2⟩ := C86_cdma_bpsk hsym hL hdvd hnyq hr hnear (fun i hi => noisy_size hσ
    ((faded_size fs (val fc) msg (i / (fs / sym)) i).1.trans (by norm_num)) (by rw [abs_mul, chip_abs, mul_one]; exact hG i hi) hε2 hS hS2) c2
  refine ⟨x, ?_, fun n hn hbig => ?_⟩
  · rw [e1, pure_bind, c1, pure_bind]; exact x1
  · have hX := corr_chip (n := n) (k := fs / sym) (fadedBpsk fs (val fc) msg (fun _ => 1) (fun _ => 0)) (fun i => z i ω)
      (fun i => Real.cos (angle fs (val fc) i)) (val σ) key
    rw [faded_window] at hX
    have := x2 n hn
    rw [inPhase, hX] at this
    exact this (lt_of_le_of_lt (mul_le_mul_of_nonneg_left (margin_loss h1 hε) hk'.le) hbig)

/-- Joint errors: of any set of positions all are wrong with at most the product of the probabilities, and the remainder. -/
theorem C147_joint [IsProbabilityMeasure P] {link : Ω → RM (List Bool)} {msg : List Bool} {p : ℕ → ℝ} {r : ℝ} (h : Within P link msg p r)
    (A : Finset ℕ) (hA : ∀ n ∈ A, n < msg.length) :
    P.real {ω | ∀ n ∈ A, ¬ Right (link ω) msg n} ≤ ∏ n ∈ A, p n + r := by
  obtain ⟨bits, h1, h2⟩ := h
  have e := h1.real_subset A hA (fun n => !(msg.getD n false))
  have hb : ∀ n ∈ A, msg[n]? = some (msg.getD n false) := fun n hn => by
    rw [List.getD_eq_getElem?_getD, List.getElem?_eq_getElem (hA n hn)]; rfl
  rw [Finset.prod_congr rfl (fun n hn => by unfold factor; rw [if_neg (by rw [hb n hn]; simp)] :
    ∀ n ∈ A, factor msg p n (!(msg.getD n false)) = p n)] at e
  rw [← e]
  refine real_cover le_rfl h2 fun ω hω => ?_
  by_cases hc : ∃ out, link ω = pure out ∧ out.length = msg.length ∧ ∀ n : ℕ, (bits ω)[n]? = msg[n]? → out[n]? = msg[n]?
  · refine Or.inl fun n hn => ?_
    obtain ⟨out, o1, o2, o3⟩ := hc
    have hw : (bits ω)[n]? ≠ msg[n]? := fun hh => hω n hn ⟨out, o1, o2, o3 n hh⟩
    have hlt : n < (bits ω).length := by rw [h1.length]; exact hA n hn
    rw [hb n hn, List.getElem?_eq_getElem hlt, ne_eq, Option.some.injEq] at hw
    rw [List.getElem?_eq_getElem hlt, Option.some.injEq]
    revert hw
    cases (bits ω)[n] <;> cases msg.getD n false <;> simp
  · exact Or.inr hc

/-- Behind such a link the code repairs what it repairs on the memoryless channel. -/
theorem C147_code [IsProbabilityMeasure P] [RIter ι Bool] {rs : RS} (hrs : rs.Contract) {src : ι} {msg enc : List Bool}
    (h : Yields src msg) (henc : Yields (bchStreamEncode rs src) enc) {link : Ω → RM (List Bool)} {p : ℕ → ℝ} {q r : ℝ}
    (hw : Within P link enc p r) (hp : ∀ n < enc.length, p n ≤ q) (hq : q ≤ 1) :
    ∃ pad, pad < 8 ∧ (msg.length + pad) % 8 = 0 ∧
      P.real {ω | (do let out ← link ω; collect (bchStreamDecode rs (ofList out))) ≠ pure (msg ++ List.replicate pad false)}
        ≤ 220 * ((msg.length + 55) / 56 : ℕ) * (1 - (1 - q) ^ 8) ^ 3 + r := by
  obtain ⟨h8, hF⟩ := enc_length hrs h henc
  obtain ⟨bits, h1, h2⟩ := hw
  refine ⟨(8 - msg.length % 8) % 8, by omega, by omega, ?_⟩
  rw [← hF]
  refine real_cover (h1.frames h8 hq hp) h2 fun ω hω => ?_
  by_cases hc : ∃ out, link ω = pure out ∧ out.length = enc.length ∧ ∀ n : ℕ, (bits ω)[n]? = enc[n]? → out[n]? = enc[n]?
  · refine Or.inl fun hfe => hω ?_
    obtain ⟨out, o1, o2, o3⟩ := hc
    obtain ⟨pad, p1, p2, p3⟩ := C48_corrects hrs h henc (yields_ofList out) (frameErrors_mono (by norm_num) o2 o3 hfe)
    rw [o1, pure_bind, collect_of_yields p3, show pad = (8 - msg.length % 8) % 8 by omega]
  · exact Or.inr hc

/-- The coded CDMA link, all in double precision; every symbol has at least the energy `q ^ 2 / E` after the margin. -/
theorem C147_coded (hz : White P 1 z) {L : Libm} {Z η : ℝ} (hZ : 0 ≤ Z) (hη : 0 ≤ η) {d : ℕ → Ω → FloatL L} (hd : Sampled Z η z d)
    [RIter ν (FloatL L)] {noise : Ω → ν} (hg : ∀ ω, Gives (noise ω) (fun i => d i ω)) {σ : FloatL L} (hf : F64.Fin σ) (hσ : 0 < val σ)
    [RIter ι Bool] {rs : RS} (hrs : rs.Contract) {m : ι} {msg enc key : List Bool} (h : Yields m msg) (henc : Yields (bchStreamEncode rs m) enc)
    {ε S : ℝ} {fs sym : ℕ} {fc : FloatL L} (hr : Radio L ε fs (fs / sym) enc.length fc S)
    (hsym : 0 < sym) (hL : 0 < key.length) (hdvd : sym * key.length ∣ fs) (hnyq : 2 * (sym * key.length) ≤ fs)
    (hS : 3 + val σ * (Z + η) ≤ S) (hS2 : S ≤ 2 ^ 40)
    (hl : ∀ n < enc.length, (fs / sym : ℕ) * loss ε η (val σ) S ≤ cosEnergy fs (fs / sym) (val fc) (n * (fs / sym))) {q : ℝ} (hq : q ≤ 1)
    (hp : ∀ n < enc.length, bitError ((cosEnergy fs (fs / sym) (val fc) (n * (fs / sym)) - (fs / sym : ℕ) * loss ε η (val σ) S) ^ 2
        / cosEnergy fs (fs / sym) (val fc) (n * (fs / sym))) (val σ) ≤ q) :
    ∃ pad, pad < 8 ∧ (msg.length + pad) % 8 = 0 ∧
      P.real {ω | (do
          let s ← txCodedCdmaBpsk rs m fs sym fc key
          let ch ← awgn s σ (noise ω)
          let rx ← rxCodedCdmaBpsk rs ch fs sym fc key
          collect rx) ≠ pure (msg ++ List.replicate pad false)}
        ≤ 220 * ((msg.length + 55) / 56 : ℕ) * (1 - (1 - q) ^ 8) ^ 3 + (enc.length * (fs / sym) : ℕ) * Real.exp (-Z ^ 2 / 2) := by
  have := hz.prob
  obtain ⟨h8, hF⟩ := enc_length hrs h henc
  have hok := cdma_guards hr hsym hL hdvd hnyq
  obtain ⟨bits, h1, h2⟩ := C147_cdma hz hZ hη hd hg hf hσ henc hr hsym hL hdvd hnyq hS hS2 hl
  refine ⟨(8 - msg.length % 8) % 8, by omega, by omega, ?_⟩
  rw [← hF]
  refine real_cover (h1.frames h8 hq hp) h2 fun ω hω => ?_
  by_cases hc : ∃ out, (do
        let tx ← txCdmaBpsk (bchStreamEncode rs m) fs sym fc key
        let ch ← awgn tx σ (noise ω)
        let rx ← rxCdmaBpsk ch fs sym fc key
        collect rx) = pure out ∧ out.length = enc.length ∧ ∀ n : ℕ, (bits ω)[n]? = enc[n]? → out[n]? = enc[n]?
  · refine Or.inl fun hfe => hω ?_
    obtain ⟨out, o1, o2, o3⟩ := hc
    obtain ⟨it, t1, t2⟩ := txCdmaBpsk_ok henc (fc := fc) hok
    obtain ⟨ch, c1, c2⟩ := awgn_yields t2 (hg ω) (σ := σ) hf
    obtain ⟨rx, r1, r2⟩ := rxCdmaBpsk_sym c2 hok
    rw [t1, pure_bind, c1, pure_bind, r1, pure_bind, collect_of_yields r2, RM.ok_inj] at o1
    obtain ⟨pad, p1, p2, p3⟩ := C48_corrects hrs h henc (r2.of_eq o1) (frameErrors_mono (by norm_num) o2 o3 hfe)
    rw [txCodedCdmaBpsk, t1, pure_bind, c1, pure_bind, rxCodedCdmaBpsk, r1, pure_bind, pure_bind, collect_of_yields p3,
      show pad = (8 - msg.length % 8) % 8 by omega]
  · exact Or.inr hc

theorem whole_margin {k l : ℝ} (hk : 0 < k) : (k / 2 - k * l) ^ 2 / (k / 2) = k / 2 * (1 - 2 * l) ^ 2 := by
  field_simp

/-- With a carrier that fits the symbols: three times the exponent of the uncoded link, up to the margin. -/
theorem C147_exponent (hz : White P 1 z) {L : Libm} {Z η : ℝ} (hZ : 0 ≤ Z) (hη : 0 ≤ η) {d : ℕ → Ω → FloatL L} (hd : Sampled Z η z d)
    [RIter ν (FloatL L)] {noise : Ω → ν} (hg : ∀ ω, Gives (noise ω) (fun i => d i ω)) {σ : FloatL L} (hf : F64.Fin σ) (hσ : 0 < val σ)
    [RIter ι Bool] {rs : RS} (hrs : rs.Contract) {m : ι} {msg enc key : List Bool} (h : Yields m msg) (henc : Yields (bchStreamEncode rs m) enc)
    {ε S : ℝ} {fs sym : ℕ} {fc : FloatL L} (hr : Radio L ε fs (fs / sym) enc.length fc S) (hw : WholeHalf fs (fs / sym) (val fc))
    (hsym : 0 < sym) (hL : 0 < key.length) (hdvd : sym * key.length ∣ fs) (hnyq : 2 * (sym * key.length) ≤ fs)
    (hS : 3 + val σ * (Z + η) ≤ S) (hS2 : S ≤ 2 ^ 40) (hl : loss ε η (val σ) S < 1 / 2) :
    ∃ pad, pad < 8 ∧ (msg.length + pad) % 8 = 0 ∧
      P.real {ω | (do
          let s ← txCodedCdmaBpsk rs m fs sym fc key
          let ch ← awgn s σ (noise ω)
          let rx ← rxCodedCdmaBpsk rs ch fs sym fc key
          collect rx) ≠ pure (msg ++ List.replicate pad false)}
        ≤ 14080 * ((msg.length + 55) / 56 : ℕ) * Real.exp (-3 * ((fs / sym : ℕ) * (1 - 2 * loss ε η (val σ) S) ^ 2 / (4 * val σ ^ 2)))
          + (enc.length * (fs / sym) : ℕ) * Real.exp (-Z ^ 2 / 2) := by
  have hk := hr.k_pos
  have hk' : (0 : ℝ) < (fs / sym : ℕ) := by exact_mod_cast hk
  have hcw : ∀ n, cosEnergy fs (fs / sym) (val fc) (n * (fs / sym)) = (fs / sym : ℕ) / 2 := fun n => (cos_window hk hw n).1
  set l := loss ε η (val σ) S with hldef
  have hE0 : (0 : ℝ) < (fs / sym : ℕ) / 2 * (1 - 2 * l) ^ 2 := by
    have : 0 < 1 - 2 * l := by linarith
    positivity
  have hb := bitError_bounds hE0 hσ
  obtain ⟨pad, p1, p2, p3⟩ := C147_coded hz hZ hη hd hg hf hσ hrs h henc hr hsym hL hdvd hnyq hS hS2
    (fun n _ => by rw [hcw, ← hldef, div_eq_mul_one_div]; exact mul_le_mul_of_nonneg_left hl.le hk'.le)
    (q := bitError ((fs / sym : ℕ) / 2 * (1 - 2 * l) ^ 2) (val σ)) (by linarith [hb.2]) (fun n _ => by rw [hcw, ← hldef, whole_margin hk'])
  refine ⟨pad, p1, p2, p3.trans (add_le_add_left ?_ _)⟩
  generalize ((fs / sym : ℕ) : ℝ) = k at hk' hE0 hb
  have hv : (0 : ℝ) < val σ ^ 2 := by positivity
  have he : k / 2 * (1 - 2 * l) ^ 2 / (2 * val σ ^ 2) = k * (1 - 2 * l) ^ 2 / (4 * val σ ^ 2) := by field_simp; ring
  have hq : bitError (k / 2 * (1 - 2 * l) ^ 2) (val σ) ≤ Real.exp (-(k * (1 - 2 * l) ^ 2 / (4 * val σ ^ 2))) / 2 := by
    unfold bitError
    have := Erfc_le (x := √(k / 2 * (1 - 2 * l) ^ 2 / (2 * val σ ^ 2))) (Real.sqrt_nonneg _)
    rw [Real.sq_sqrt (by positivity), he] at this
    rw [he]
    linarith
  generalize bitError (k / 2 * (1 - 2 * l) ^ 2) (val σ) = q at hb hq
  have hb8 : 1 - (1 - q) ^ 8 ≤ 4 * Real.exp (-(k * (1 - 2 * l) ^ 2 / (4 * val σ ^ 2))) := by
    have := one_add_mul_le_pow (a := -q) (by linarith) 8
    rw [← sub_eq_add_neg] at this
    push_cast at this
    linarith
  have h0 : 0 ≤ 1 - (1 - q) ^ 8 := by
    rw [sub_nonneg]; exact pow_le_one₀ (by linarith) (by linarith)
  calc _ ≤ 220 * ((msg.length + 55) / 56 : ℕ) * (4 * Real.exp (-(k * (1 - 2 * l) ^ 2 / (4 * val σ ^ 2)))) ^ 3 :=
        mul_le_mul_of_nonneg_left (pow_le_pow_left₀ h0 hb8 3) (by positivity)
    _ = _ := by
      rw [mul_pow, ← Real.exp_nat_mul, show ((3 : ℕ) : ℝ) * -(k * (1 - 2 * l) ^ 2 / (4 * val σ ^ 2))
        = -3 * (k * (1 - 2 * l) ^ 2 / (4 * val σ ^ 2)) by push_cast; ring]
      ring

/-- 49 samples of a 1 kHz carrier that does not fit the symbol: the first and the third bit are both wrong with at most the product. -/
example : (gaussPath 1).real {ω | ∀ n ∈ ({0, 2} : Finset ℕ), ¬ Right (do
      let tx ← txBpsk (ofList [true, false, true]) 44100 900 (Flt.ofNat 1000 : FloatL Libm.rounded)
      let ch ← awgn tx (1 : FloatL Libm.rounded) (rounded ω)
      let rx ← rxBpsk ch 44100 900 (Flt.ofNat 1000)
      collect rx) [true, false, true] n} ≤
    ∏ n ∈ ({0, 2} : Finset ℕ), bitError ((cosEnergy 44100 49 1000 (n * 49) - 49 * loss (1 / 2 ^ 52) (10 / 2 ^ 52) 1 16) ^ 2
      / cosEnergy 44100 49 1000 (n * 49)) 1 + 147 * Real.exp (-50) := by
  obtain ⟨-, h4, -⟩ := hop_1000
  have hP := (white_path 1).prob
  have := C147_bpsk (white_path 1) (Z := 10) (by norm_num) (by norm_num) sampled_rounded rounded_gives (σ := (1 : FloatL Libm.rounded)) fin_one
    (by rw [val_float_one]; norm_num) (yields_ofList [true, false, true]) (radio_1000 (N := 3) (by norm_num)) (by norm_num)
    (by rw [val_float_one]; norm_num) (by norm_num) (fun n _ => by
      refine le_trans ?_ (energy_1000 _ (by rw [h4]) (by rw [h4]; norm_num))
      rw [val_float_one]; norm_num [loss])
  have := C147_joint this {0, 2} (by simp)
  rw [val_float_one, h4] at this
  refine this.trans (le_of_eq ?_)
  norm_num

/-- Nine bits over a chip pair at sixteen samples per symbol, noise of deviation one, in doubles: a wrong answer at most once in ten. -/
example : ∃ pad, pad < 8 ∧ ([true, false, true, true, false, true, true, true, true].length + pad) % 8 = 0 ∧
    (gaussPath 1).real {ω | (do
        let s ← txCodedCdmaBpsk rsIdeal (ofList [true, false, true, true, false, true, true, true, true]) 16000 1000
          (Flt.ofNat 2000 : FloatL Libm.rounded) [true, false]
        let ch ← awgn s (1 : FloatL Libm.rounded) (rounded ω)
        let rx ← rxCodedCdmaBpsk rsIdeal ch 16000 1000 (Flt.ofNat 2000) [true, false]
        collect rx) ≠ pure ([true, false, true, true, false, true, true, true, true] ++ List.replicate pad false)} ≤
      14080 * Real.exp (-3 * (16 * (1 - 2 * loss (1 / 2 ^ 52) (10 / 2 ^ 52) 1 16) ^ 2 / 4)) + 1536 * Real.exp (-50) := by
  obtain ⟨enc, henc⟩ : ∃ enc, Yields (bchStreamEncode rsIdeal (ofList [true, false, true, true, false, true, true, true, true])) enc :=
    ⟨_, bchEncode_yields rsIdeal_contract (yields_ofList _)⟩
  obtain ⟨h8, hF⟩ := enc_length rsIdeal_contract (yields_ofList [true, false, true, true, false, true, true, true, true]) henc
  have hlen : enc.length ≤ 96 := by
    simp only [List.length_cons, List.length_nil] at hF
    omega
  obtain ⟨pad, p1, p2, p3⟩ := C147_exponent (white_path 1) (Z := 10) (by norm_num) (by norm_num) sampled_rounded rounded_gives
    (σ := (1 : FloatL Libm.rounded)) fin_one (by rw [val_float_one]; norm_num) rsIdeal_contract (yields_ofList _) henc
    (key := [true, false]) (radio_2000 (N := enc.length) (by omega) (S := 16) (by norm_num) (by norm_num)) whole_2000 (by norm_num) (by simp)
    (by simp) (by simp) (by rw [val_float_one]; norm_num) (by norm_num) (by rw [val_float_one]; norm_num [loss])
  refine ⟨pad, p1, p2, p3.trans ?_⟩
  rw [val_float_one]
  simp only [List.length_cons, List.length_nil]
  refine add_le_add (le_of_eq ?_) ?_
  · norm_num
  · rw [show -(10 : ℝ) ^ 2 / 2 = -50 by norm_num]
    refine mul_le_mul_of_nonneg_right ?_ (Real.exp_pos _).le
    have : enc.length * (16000 / 1000) ≤ 1536 := by omega
    exact_mod_cast this

/-- The code over plain BPSK, and a station with a key without the code. -/
example : ∃ pad, pad < 8 ∧ (8 + pad) % 8 = 0 ∧ (gaussPath 1).real {ω | (do
      let out ← (do
        let tx ← txBpsk (bchStreamEncode rsIdeal (ofList [true, false, true, true, false, true, true, true])) 16000 1000
          (Flt.ofNat 2000 : FloatL Libm.rounded)
        let ch ← awgn tx (1 : FloatL Libm.rounded) (rounded ω)
        let rx ← rxBpsk ch 16000 1000 (Flt.ofNat 2000)
        collect rx)
      collect (bchStreamDecode rsIdeal (ofList out))) ≠ pure ([true, false, true, true, false, true, true, true] ++ List.replicate pad false)} ≤
    220 * (1 - (1 - bitError (8 * (1 - 2 * loss (1 / 2 ^ 52) (10 / 2 ^ 52) 1 16) ^ 2) 1) ^ 8) ^ 3 + 1536 * Real.exp (-50) := by
  have hP := (white_path 1).prob
  obtain ⟨enc, henc⟩ : ∃ enc, Yields (bchStreamEncode rsIdeal (ofList [true, false, true, true, false, true, true, true])) enc :=
    ⟨_, bchEncode_yields rsIdeal_contract (yields_ofList _)⟩
  obtain ⟨h8, hF⟩ := enc_length rsIdeal_contract (yields_ofList [true, false, true, true, false, true, true, true]) henc
  have hlen : enc.length ≤ 96 := by
    simp only [List.length_cons, List.length_nil] at hF
    omega
  have hcw : ∀ n, cosEnergy 16000 (16000 / 1000) (val (Flt.ofNat 2000 : FloatL Libm.rounded)) (n * (16000 / 1000)) = 16 / 2 := fun n =>
    ((cos_window (by norm_num) whole_2000 n).1).trans (by norm_num)
  have hw := C147_bpsk (white_path 1) (Z := 10) (by norm_num) (by norm_num) sampled_rounded rounded_gives (σ := (1 : FloatL Libm.rounded)) fin_one
    (by rw [val_float_one]; norm_num) henc (radio_2000 (N := enc.length) (by omega) (S := 16) (by norm_num) (by norm_num)) (by norm_num)
    (by rw [val_float_one]; norm_num) (by norm_num) (fun n _ => by rw [hcw, val_float_one]; norm_num [loss])
  have hE : (0 : ℝ) < 8 * (1 - 2 * loss (1 / 2 ^ 52) (10 / 2 ^ 52) 1 16) ^ 2 := by norm_num [loss]
  obtain ⟨pad, p1, p2, p3⟩ := C147_code rsIdeal_contract (yields_ofList [true, false, true, true, false, true, true, true]) henc hw
    (q := bitError (8 * (1 - 2 * loss (1 / 2 ^ 52) (10 / 2 ^ 52) 1 16) ^ 2) 1)
    (fun n _ => by
      rw [hcw, val_float_one, show ((16000 / 1000 : ℕ) : ℝ) = 16 by norm_num, whole_margin (by norm_num), show (16 : ℝ) / 2 = 8 by norm_num])
    (by have := (bitError_bounds hE one_pos).2; linarith)
  refine ⟨pad, p1, p2, p3.trans ?_⟩
  simp only [List.length_cons, List.length_nil]
  refine add_le_add (le_of_eq (by norm_num)) ?_
  rw [show -(10 : ℝ) ^ 2 / 2 = -50 by norm_num]
  refine mul_le_mul_of_nonneg_right ?_ (Real.exp_pos _).le
  have : enc.length * (16000 / 1000) ≤ 1536 := by omega
  exact_mod_cast this

example : ∃ p, Within (gaussPath 1) (fun ω => do
      let tx ← txCdmaBpsk (ofList [true, false, true]) 44100 900 (Flt.ofNat 1000 : FloatL Libm.rounded) [true, false, true, true, false, true, true]
      let ch ← awgn tx (1 : FloatL Libm.rounded) (rounded ω)
      let rx ← rxCdmaBpsk ch 44100 900 (Flt.ofNat 1000) [true, false, true, true, false, true, true]
      collect rx) [true, false, true] p (147 * Real.exp (-50)) := by
  obtain ⟨-, h4, -⟩ := hop_1000
  have := C147_cdma (white_path 1) (Z := 10) (by norm_num) (by norm_num) sampled_rounded rounded_gives (σ := (1 : FloatL Libm.rounded)) fin_one
    (by rw [val_float_one]; norm_num) (yields_ofList [true, false, true]) (key := [true, false, true, true, false, true, true])
    (radio_1000 (N := 3) (by norm_num)) (by norm_num) (by simp) (by norm_num) (by simp)
    (by rw [val_float_one]; norm_num) (by norm_num) (fun n _ => by
      refine le_trans ?_ (energy_1000 _ (by rw [h4]) (by rw [h4]; norm_num))
      rw [val_float_one]; norm_num [loss])
  exact ⟨_, by convert this using 2 <;> norm_num⟩
end Verif.Props
