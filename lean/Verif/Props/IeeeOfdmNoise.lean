import Verif.Lemmas.IeeeOfdmNoise
import Verif.Props.IeeeOfdm
import Verif.Lemmas.PassNoise
/-!
# C146: the error rate of baseband OFDM in double precision
-/
namespace Verif.Props
open Verif Spec F64 MeasureTheory ProbabilityTheory
variable {Ω : Type} [MeasurableSpace Ω] {P : Measure Ω} {z : ℕ → Ω → ℝ} {ι κ ν ρ : Type}

/-- What rounding and generator may take from a received symbol of `n` carriers. -/
noncomputable def ofdmLoss (n : ℕ) (δ η σ S : ℝ) : ℝ := n * (3 * S * δ + 2 * (σ * η) + S / 2 ^ 44)

/-- The real or the imaginary part. -/
def part {F : Type} (q : Bool) (c : Cx F) : F := if q then c.im else c.re

theorem decide_scale {K x : ℝ} (hK : 0 < K) : decide (0 < K * x) = decide (0 < x) := decide_eq_decide.mpr (mul_pos_iff_of_pos_left hK)

theorem ofdm_core (hz : White P 1 z) {L : Libm} [Fft (FloatL L)] {δ : ℝ} (hD : AccurateDft (Fft.dft (F := FloatL L)) δ) (hδ0 : 0 ≤ δ)
    (hδ : δ ≤ 1 / 16) {Z η : ℝ} (hZ : 0 ≤ Z) (hη : 0 ≤ η) {d : ℕ → Ω → FloatL L} (hd : Sampled Z η z d) {σ : FloatL L} (hf : F64.Fin σ)
    (hσ : 0 < val σ) {n p : ℕ} (h1 : 2 ≤ p) (h2 : p < n) (he : n % 2 = 0) (hn : n ≤ 2 ^ 40) {l : List (Cx (FloatL L))} {l' : List (Cx ℝ)}
    (hq : CNear L (1 / 2 ^ 52) l l') (hb : ∀ z ∈ l', ‖z.toC‖ ≤ 2) {S : ℝ} (hS : 4 + val σ * (Z + η) ≤ S) (hS2 : S ≤ 2 ^ 40)
    {msg : List Bool} {sym : ℕ → ℕ} {rl : ℕ → Bool} {A : ℝ} (hA : 0 < A)
    (hs : ∀ j < msg.length, sym j < l'.length ∧ part (rl j) (l'.getD (sym j) 0) = A * pm (msg.getD j false))
    (hl : ofdmLoss n δ η (val σ) S ≤ A) {link : Ω → RM (List Bool)}
    (hlink : ∀ ω, link ω = pure ((List.range msg.length).map (fun j => Flt.le (0 : FloatL L) (part (rl j)
      ((deframeAll n p (((blocks (n - p) l).flatMap (frameL n p)).mapIdx (fun i c => c.addR (0 + σ * d i ω)))).getD (sym j) 0))))) :
    Rates P link msg (fun _ => 2 * A ^ 2 / n) (2 * A / n * ofdmLoss n δ η (val σ) S) (val σ)
      (((blocks (n - p) l').flatMap (frameL (F := ℝ) n p)).length * Real.exp (-Z ^ 2 / 2)) := by
  have hnR : (0 : ℝ) < n := by exact_mod_cast (show 0 < n by omega)
  have hb0 : 0 ≤ val σ * (Z + η) := by positivity
  have hS0 : 0 ≤ S := by linarith
  have hl0 : 0 ≤ ofdmLoss n δ η (val σ) S := by unfold ofdmLoss; positivity
  have hK : 0 < 2 * A / n := by positivity
  have hM : ∀ j < msg.length, bodyAt n p (sym j) + n ≤ ((blocks (n - p) l').flatMap (frameL (F := ℝ) n p)).length := fun j hj =>
    (noisy_symbol (by omega) h2 he l' (hs j hj).1 0).1
  refine margins_core hz hZ hσ (M := fun _ => ((blocks (n - p) l').flatMap (frameL (F := ℝ) n p)).length)
    (c := fun j i => 2 * A / n * row n (bodyAt n p (sym j)) (rl j) (binOf n p (sym j)) i) (by positivity) (fun j _ => ⟨by positivity, ?_⟩)
    (fun j hj => ?_) fun ω hG => ?_
  · calc 2 * A / n * ofdmLoss n δ η (val σ) S ≤ 2 * A / n * A := mul_le_mul_of_nonneg_left hl hK.le
      _ = 2 * A ^ 2 / n := by ring
  · simp only [mul_pow]
    rw [← Finset.mul_sum, row_energy h1 h2 he (hM j hj)]
    field_simp
  · refine ⟨_, hlink ω, fun j hj hbig => ?_⟩
    have hr := received_near hD hδ0 hδ (by omega) h2 hn hq hb (d := fun i => d i ω) (t := fun i => z i ω)
      (fun i hi => ⟨hd i ω (hG i hi), hG i hi⟩) hη hf hσ.le hS hS2 hZ
    have e0 : (((blocks (n - p) l').flatMap (frameL (F := ℝ) n p)).mapIdx (fun i c => (⟨c.re + val σ * z i ω, c.im⟩ : Cx ℝ))).length
        = (l'.length + (n - p) - 1) / (n - p) * (n + n / 4) := by
      rw [List.length_mapIdx, length_flatMap_const (k := n + n / 4) _ _ (fun b _ => frameL_length n p b), blocks_length _ (by omega)]
    have hlen : sym j < (deframeAll n p (((blocks (n - p) l').flatMap (frameL (F := ℝ) n p)).mapIdx
        (fun i c => (⟨c.re + val σ * z i ω, c.im⟩ : Cx ℝ)))).length := by
      rw [deframeAll_length (by omega) h2.le _ (by rw [e0]; exact ⟨_, Nat.mul_comm _ _⟩), e0, Nat.mul_div_cancel _ (by omega)]
      have a1 := Nat.div_add_mod (l'.length + (n - p) - 1) (n - p)
      have a2 := Nat.mod_lt (l'.length + (n - p) - 1) (show 0 < n - p by omega)
      have := (hs j hj).1
      omega
    have hc := forall₂_get? hr (List.getElem?_eq_getElem (by rw [hr.length_eq]; exact hlen)) (List.getElem?_eq_getElem hlen)
    have hv := noisy_rails (by omega) h2 he l' (hs j hj).1 (fun i ω => val σ * z i ω) ω
    have hsc : ∀ M (c : ℕ → ℝ), proj M c (fun i ω => val σ * z i ω) ω = val σ * proj M c z ω := by
      intro M c
      simp only [proj, Finset.mul_sum]
      exact Finset.sum_congr rfl fun i _ => by ring
    have hsc2 : ∀ M (c : ℕ → ℝ) (K : ℝ), proj M (fun i => K * c i) z ω = K * proj M c z ω := by
      intro M c K
      simp only [proj, Finset.mul_sum]
      exact Finset.sum_congr rfl fun i _ => by ring
    rw [hsc, hsc, List.getD, List.getElem?_eq_getElem hlen, Option.getD_some] at hv
    rw [hsc2] at hbig ⊢
    have eX : 2 * A ^ 2 / n * pm (msg.getD j false) + val σ * (2 * A / n * proj ((blocks (n - p) l').flatMap (frameL (F := ℝ) n p)).length
        (row n (bodyAt n p (sym j)) (rl j) (binOf n p (sym j))) z ω)
        = 2 * A / n * (A * pm (msg.getD j false) + val σ * proj ((blocks (n - p) l').flatMap (frameL (F := ℝ) n p)).length
        (row n (bodyAt n p (sym j)) (rl j) (binOf n p (sym j))) z ω) := by ring
    rw [eX] at hbig ⊢
    rw [abs_mul, abs_of_pos hK] at hbig
    rw [decide_scale hK]
    have hbig' := lt_of_mul_lt_mul_left hbig hK.le
    rw [List.getD, List.getElem?_eq_getElem (by rw [hr.length_eq]; exact hlen), Option.getD_some]
    have hsj := (hs j hj).2
    cases hrl : rl j
    · rw [hrl] at hbig' hsj
      rw [show (l'.getD (sym j) 0).re = A * pm (msg.getD j false) from hsj] at hv
      have h3 := hc.1
      rw [show ((deframeAll n p (((blocks (n - p) l').flatMap (frameL (F := ℝ) n p)).mapIdx
        (fun i c => (⟨c.re + val σ * z i ω, c.im⟩ : Cx ℝ))))[sym j]'hlen).toC.re = _ from hv.1] at h3
      exact le_decide h3 le_rfl hbig'
    · rw [hrl] at hbig' hsj
      rw [show (l'.getD (sym j) 0).im = A * pm (msg.getD j false) from hsj] at hv
      have h3 := hc.2
      rw [show ((deframeAll n p (((blocks (n - p) l').flatMap (frameL (F := ℝ) n p)).mapIdx
        (fun i c => (⟨c.re + val σ * z i ω, c.im⟩ : Cx ℝ))))[sym j]'hlen).toC.im = _ from hv.2] at h3
      exact le_decide h3 le_rfl hbig'

theorem frames_length {F : Type} [Add F] [Sub F] [Mul F] [Div F] [Neg F] [Zero F] [One F] [Flt F] [Fft F] {n p : ℕ} (h2 : p < n) (l : List (Cx F)) :
    ((blocks (n - p) l).flatMap (frameL n p)).length = (l.length + (n - p) - 1) / (n - p) * (n + n / 4) := by
  rw [length_flatMap_const (k := n + n / 4) _ _ (fun b _ => frameL_length n p b), blocks_length _ (by omega)]

/-- The symbols a baseband OFDM link returns, for any noise. -/
theorem ofdm_returned {L : Libm} [Fft (FloatL L)] [RIter ι (Cx (FloatL L))] {s : ι} {l : List (Cx (FloatL L))} (h : Yields s l) {n p : ℕ}
    (h1 : 1 ≤ p) (h2 : p < n) [RIter ν (FloatL L)] {std : ν} {d : ℕ → FloatL L} (hd : Gives std d) {σ : FloatL L} (hf : F64.Fin σ) :
    ∃ tx ch rx, txBasebandOfdm (F := FloatL L) s n p = pure tx ∧ awgnComplex tx σ std = pure ch ∧ rxBasebandOfdm (F := FloatL L) ch n p = pure rx ∧
      Yields rx (deframeAll n p (((blocks (n - p) l).flatMap (frameL n p)).mapIdx (fun i c => c.addR (0 + σ * d i)))) ∧
      (deframeAll n p (((blocks (n - p) l).flatMap (frameL n p)).mapIdx (fun i c => c.addR (0 + σ * d i)))).length
        = (n - p) * ((l.length + (n - p) - 1) / (n - p)) := by
  obtain ⟨tx, t1, t2⟩ := txBasebandOfdm_ok h h1 h2.le
  obtain ⟨ch, c1, c2⟩ := awgnComplex_yields t2 hd (σ := σ) hf
  have e : (((blocks (n - p) l).flatMap (frameL n p)).mapIdx (fun i c => c.addR (0 + σ * d i))).length
      = (l.length + (n - p) - 1) / (n - p) * (n + n / 4) := by rw [List.length_mapIdx, frames_length h2]
  obtain ⟨rx, r1, r2⟩ := rxBasebandOfdm_ok c2 h1 h2.le (by rw [e]; exact ⟨_, Nat.mul_comm _ _⟩)
  refine ⟨tx, ch, rx, t1, c1, r1, r2, ?_⟩
  rw [deframeAll_length h1 h2.le _ (by rw [e]; exact ⟨_, Nat.mul_comm _ _⟩), e, Nat.mul_div_cancel _ (by omega)]

theorem pad_le (a : ℕ) {k : ℕ} (hk : 0 < k) : a ≤ k * ((a + k - 1) / k) := by
  have := Nat.div_add_mod (a + k - 1) k
  have := Nat.mod_lt (a + k - 1) hk
  omega

/-- **C146, BPSK symbols.** Baseband OFDM through `awgn_complex`, all in double precision: the bits of the message come back with the
error rate of energy `2/n` each, `n` the number of carriers, up to the rounding. -/
theorem C146_bpsk (hz : White P 1 z) {L : Libm} [Fft (FloatL L)] {δ : ℝ} (hD : AccurateDft (Fft.dft (F := FloatL L)) δ) (hδ0 : 0 ≤ δ)
    (hδ : δ ≤ 1 / 16) {Z η : ℝ} (hZ : 0 ≤ Z) (hη : 0 ≤ η) {d : ℕ → Ω → FloatL L} (hd : Sampled Z η z d)
    [RIter ν (FloatL L)] {noise : Ω → ν} (hg : ∀ ω, Gives (noise ω) (fun i => d i ω)) {σ : FloatL L} (hf : F64.Fin σ)
    (hσ : 0 < val σ) [RIter ι Bool] {m : ι} {msg : List Bool} (hm : Yields m msg) {n p : ℕ} (h1 : 2 ≤ p) (h2 : p < n) (he : n % 2 = 0) (hn : n ≤ 2 ^ 40)
    {S : ℝ} (hS : 4 + val σ * (Z + η) ≤ S) (hS2 : S ≤ 2 ^ 40) (hl : ofdmLoss n δ η (val σ) S ≤ 1) :
    Rates P (fun ω => do
        let tx ← txBasebandOfdm (F := FloatL L) (txBasebandBpsk (F := FloatL L) m) n p
        let ch ← awgnComplex tx σ (noise ω)
        let rx ← rxBasebandOfdm (F := FloatL L) ch n p
        let out ← collect (rxBasebandBpsk (F := FloatL L) rx)
        pure (out.take msg.length)) msg (fun _ => 2 / n) (2 / n * ofdmLoss n δ η (val σ) S) (val σ)
      (((msg.length + (n - p) - 1) / (n - p) * (n + n / 4) : ℕ) * Real.exp (-Z ^ 2 / 2)) := by
  have hq : CNear L (1 / 2 ^ 52) (msg.map (fun bit : Bool => if bit then (⟨1, 0⟩ : Cx (FloatL L)) else ⟨-1, 0⟩))
      (msg.map (fun bit : Bool => if bit then (⟨1, 0⟩ : Cx ℝ) else ⟨-1, 0⟩)) := by
    refine List.forall₂_map_left_iff.mpr (List.forall₂_map_right_iff.mpr (List.forall₂_same.mpr fun b _ => ?_))
    have h0 : Ap (0 : Float) 0 (1 / 2 ^ 52) := ⟨fin_zero, by rw [val_zero]; norm_num⟩
    have h1 := (ap_pm_one b).mono (show (0 : ℝ) ≤ 1 / 2 ^ 52 by norm_num)
    cases b
    · have h2 : Ap (-1 : Float) (-1) (1 / 2 ^ 52) := by simpa [pm] using h1
      exact ⟨h2, h0⟩
    · have h2 : Ap (1 : Float) 1 (1 / 2 ^ 52) := by simpa [pm] using h1
      exact ⟨h2, h0⟩
  have hb : ∀ z ∈ msg.map (fun bit : Bool => if bit then (⟨1, 0⟩ : Cx ℝ) else ⟨-1, 0⟩), ‖z.toC‖ ≤ 2 := by
    intro z hz
    obtain ⟨b, -, rfl⟩ := List.mem_map.mp hz
    have : ∀ x : ℝ, ‖((⟨x, 0⟩ : Cx ℝ)).toC‖ = |x| := fun x => by
      rw [show ((⟨x, 0⟩ : Cx ℝ)).toC = (x : ℂ) from rfl, Complex.norm_real, Real.norm_eq_abs]
    cases b
    · simp only [Bool.false_eq_true, if_false]; rw [this]; norm_num
    · simp only [if_true]; rw [this]; norm_num
  have := ofdm_core hz hD hδ0 hδ hZ hη hd hf hσ h1 h2 he hn hq hb hS hS2 (msg := msg) (sym := id) (rl := fun _ => false) (A := 1) one_pos
    (fun j hj => ⟨by rw [List.length_map]; exact hj, by
      rw [List.getD, List.getElem?_map, List.getD_eq_getElem?_getD, List.getElem?_eq_getElem hj]
      simp only [id, List.getElem?_eq_getElem hj, Option.map_some, Option.getD_some, part]
      cases msg[j] <;> simp [pm]⟩) hl (link := fun ω => do
        let tx ← txBasebandOfdm (F := FloatL L) (txBasebandBpsk (F := FloatL L) m) n p
        let ch ← awgnComplex tx σ (noise ω)
        let rx ← rxBasebandOfdm (F := FloatL L) ch n p
        let out ← collect (rxBasebandBpsk (F := FloatL L) rx)
        pure (out.take msg.length)) (fun ω => by
      obtain ⟨tx, ch, rx, e1, e2, e3, e4, e5⟩ := ofdm_returned (hm.rmap (fun bit : Bool => if bit then (⟨1, 0⟩ : Cx (FloatL L)) else ⟨-1, 0⟩))
        (n := n) (p := p) (by omega) h2 (hg ω) hf
      refine (congrArg (· >>= fun tx => awgnComplex tx σ (noise ω) >>= fun ch => rxBasebandOfdm (F := FloatL L) ch n p >>= fun rx =>
        collect (rxBasebandBpsk (F := FloatL L) rx) >>= fun out => pure (out.take msg.length)) e1).trans ?_
      rw [pure_bind, e2, pure_bind, e3, pure_bind]
      rw [show collect (rxBasebandBpsk (F := FloatL L) rx) = _ from collect_of_yields (e4.rmap (fun s : Cx (FloatL L) => Flt.le 0 s.re)), pure_bind]
      refine congrArg pure (List.ext_getElem ?_ fun j k1 k2 => ?_)
      · rw [List.length_take, List.length_map, e5, List.length_map, List.length_map, List.length_range]
        exact min_eq_left (pad_le _ (by omega))
      · rw [List.getElem_take, List.getElem_map, List.getElem_map, List.getElem_range]
        rw [List.length_take, List.length_map] at k1
        rw [List.getD, id, List.getElem?_eq_getElem (by omega), Option.getD_some]; rfl)
  rw [frames_length h2, List.length_map] at this
  simpa using this

theorem flatMap_two_get {A B : Type} (f g : A → B) (l : List A) (j : ℕ) :
    (l.flatMap (fun s => [f s, g s]))[j]? = l[j / 2]?.map (fun s => if j % 2 = 1 then g s else f s) := by
  induction l generalizing j with
  | nil => simp
  | cons a l ih =>
    rw [List.flatMap_cons]
    match j with
    | 0 => rfl
    | 1 => rfl
    | j + 2 =>
      rw [show (j + 2) / 2 = j / 2 + 1 by omega, show (j + 2) % 2 = j % 2 by omega]
      exact ih j

/-- QPSK symbols: both bits of a symbol with the error rate of energy `4/n`. -/
theorem C146_qpsk (hz : White P 1 z) {L : Libm} [Fft (FloatL L)] {δ : ℝ} (hD : AccurateDft (Fft.dft (F := FloatL L)) δ) (hδ0 : 0 ≤ δ)
    (hδ : δ ≤ 1 / 16) {Z η : ℝ} (hZ : 0 ≤ Z) (hη : 0 ≤ η) {d : ℕ → Ω → FloatL L} (hd : Sampled Z η z d)
    [RIter ν (FloatL L)] {noise : Ω → ν} (hg : ∀ ω, Gives (noise ω) (fun i => d i ω)) {σ : FloatL L} (hf : F64.Fin σ)
    (hσ : 0 < val σ) [RIter ι Bool] {m : ι} {msg : List Bool} (hm : Yields m msg) (hev : msg.length % 2 = 0) {n p : ℕ} (h1 : 2 ≤ p) (h2 : p < n)
    (he : n % 2 = 0) (hn : n ≤ 2 ^ 40)
    {S : ℝ} (hS : 4 + val σ * (Z + η) ≤ S) (hS2 : S ≤ 2 ^ 40) (hl : ofdmLoss n δ η (val σ) S ≤ √2) :
    Rates P (fun ω => do
        let tx ← txBasebandOfdm (F := FloatL L) (txBasebandQpsk (F := FloatL L) m) n p
        let ch ← awgnComplex tx σ (noise ω)
        let rx ← rxBasebandOfdm (F := FloatL L) ch n p
        let out ← collect (rxBasebandQpsk (F := FloatL L) rx)
        pure (out.take msg.length)) msg (fun _ => 4 / n) (2 * √2 / n * ofdmLoss n δ η (val σ) S) (val σ)
      (((msg.length / 2 + (n - p) - 1) / (n - p) * (n + n / 4) : ℕ) * Real.exp (-Z ^ 2 / 2)) := by
  have hq : CNear L (1 / 2 ^ 52) ((pairs msg).map qpskPoint) ((pairs msg).map qpskPoint) :=
    List.forall₂_map_left_iff.mpr (List.forall₂_map_right_iff.mpr (List.forall₂_same.mpr fun b _ => qpskPoint_near b))
  have hb : ∀ z ∈ (pairs msg).map (qpskPoint (F := ℝ)), ‖z.toC‖ ≤ 2 := by
    intro z hz
    obtain ⟨b, -, rfl⟩ := List.mem_map.mp hz
    exact norm_qpskPoint b
  have := ofdm_core hz hD hδ0 hδ hZ hη hd hf hσ h1 h2 he hn hq hb hS hS2 (msg := msg) (sym := fun j => j / 2) (rl := fun j => decide (j % 2 = 1))
    (A := √2) (Real.sqrt_pos.mpr two_pos)
    (fun j hj => ⟨by rw [List.length_map, pairs_length]; omega, by
      obtain ⟨q, q1, q2⟩ := pairs_at msg j (by omega)
      rw [List.getD, List.getElem?_map, q1, List.getD_eq_getElem?_getD, q2]
      have e2 : ((2 : ℕ) : ℝ) = 2 := by norm_num
      by_cases hj2 : j % 2 = 1
      · simp only [hj2, if_true, decide_true, Option.map_some, Option.getD_some, part, qpskPoint, Flt.sqrt_real, Flt.ofNat_real, e2]
        cases q.2 <;> simp [pm]
      · simp only [hj2, if_false, decide_false, Option.map_some, Option.getD_some, part, qpskPoint, Flt.sqrt_real, Flt.ofNat_real, e2,
          Bool.false_eq_true]
        cases q.1 <;> simp [pm]⟩) hl (link := fun ω => do
        let tx ← txBasebandOfdm (F := FloatL L) (txBasebandQpsk (F := FloatL L) m) n p
        let ch ← awgnComplex tx σ (noise ω)
        let rx ← rxBasebandOfdm (F := FloatL L) ch n p
        let out ← collect (rxBasebandQpsk (F := FloatL L) rx)
        pure (out.take msg.length)) (fun ω => by
      obtain ⟨tx, ch, rx, e1, e2, e3, e4, e5⟩ := ofdm_returned (Yields.txBasebandQpsk (F := FloatL L) hm)
        (n := n) (p := p) (by omega) h2 (hg ω) hf
      refine (congrArg (· >>= fun tx => awgnComplex tx σ (noise ω) >>= fun ch => rxBasebandOfdm (F := FloatL L) ch n p >>= fun rx =>
        collect (rxBasebandQpsk (F := FloatL L) rx) >>= fun out => pure (out.take msg.length)) e1).trans ?_
      rw [pure_bind, e2, pure_bind, e3, pure_bind]
      have h7 := e4.rflatMap (f := fun sample : Cx (FloatL L) => (pure (ofList [Flt.le 0 sample.re, Flt.le 0 sample.im]) : RM (VecIter Bool)))
        (out := fun sample : Cx (FloatL L) => [Flt.le 0 sample.re, Flt.le 0 sample.im]) (fun a => ⟨_, rfl, yields_ofList _⟩)
      rw [show collect (rxBasebandQpsk (F := FloatL L) rx) = _ from collect_of_yields h7, pure_bind]
      rw [List.length_map, pairs_length] at e5
      have hpad := pad_le (msg.length / 2) (show 0 < n - p by omega)
      refine congrArg pure (List.ext_getElem? fun j => ?_)
      by_cases hj : j < msg.length
      · have hj' : j / 2 < (deframeAll n p (((blocks (n - p) ((pairs msg).map qpskPoint)).flatMap (frameL n p)).mapIdx
            (fun i c => c.addR (0 + σ * d i ω)))).length := by rw [e5]; omega
        rw [List.getElem?_take_of_lt hj, flatMap_two_get, List.getElem?_map, List.getElem?_range hj, Option.map_some, List.getD,
          List.getElem?_eq_getElem hj', Option.map_some, Option.getD_some]
        by_cases hj2 : j % 2 = 1
        · simp only [hj2, if_true, decide_true, part]
        · simp only [hj2, if_false, decide_false, part, Bool.false_eq_true]
      · rw [List.getElem?_eq_none (by rw [List.length_take]; omega), List.getElem?_eq_none (by simpa using hj)])
  rw [frames_length h2, List.length_map, pairs_length] at this
  rw [Real.sq_sqrt two_pos.le, show (2 : ℝ) * 2 = 4 by norm_num] at this
  exact this

/-- Whatever the generator does, NaN included, as many bits come out as the padded message has. -/
theorem C146_length {L : Libm} [Fft (FloatL L)] [RIter ν (FloatL L)] {std : ν} {d : ℕ → FloatL L} (hd : Gives std d) {σ : FloatL L}
    (hf : F64.Fin σ) [RIter ι Bool] {m : ι} {msg : List Bool} (hm : Yields m msg) {n p : ℕ} (h1 : 1 ≤ p) (h2 : p < n) :
    (∃ out, (do
        let tx ← txBasebandOfdm (F := FloatL L) (txBasebandBpsk (F := FloatL L) m) n p
        let ch ← awgnComplex tx σ std
        let rx ← rxBasebandOfdm (F := FloatL L) ch n p
        collect (rxBasebandBpsk (F := FloatL L) rx)) = pure out ∧ out.length = (n - p) * ((msg.length + (n - p) - 1) / (n - p))) ∧
    (∃ out, (do
        let tx ← txBasebandOfdm (F := FloatL L) (txBasebandQpsk (F := FloatL L) m) n p
        let ch ← awgnComplex tx σ std
        let rx ← rxBasebandOfdm (F := FloatL L) ch n p
        collect (rxBasebandQpsk (F := FloatL L) rx)) = pure out ∧
      out.length = 2 * ((n - p) * ((msg.length / 2 + (n - p) - 1) / (n - p)))) := by
  constructor
  · obtain ⟨tx, ch, rx, e1, e2, e3, e4, e5⟩ := ofdm_returned (hm.rmap (fun bit : Bool => if bit then (⟨1, 0⟩ : Cx (FloatL L)) else ⟨-1, 0⟩))
      h1 h2 hd hf
    have h7 := collect_of_yields (e4.rmap (fun s : Cx (FloatL L) => Flt.le 0 s.re))
    refine ⟨_, (congrArg (· >>= fun tx => awgnComplex tx σ std >>= fun ch => rxBasebandOfdm (F := FloatL L) ch n p >>= fun rx =>
        collect (rxBasebandBpsk (F := FloatL L) rx)) e1).trans (Eq.trans ?_ h7), ?_⟩
    · rw [pure_bind, e2, pure_bind, e3, pure_bind]
      rfl
    · rw [List.length_map, e5, List.length_map]
  · obtain ⟨tx, ch, rx, e1, e2, e3, e4, e5⟩ := ofdm_returned (Yields.txBasebandQpsk (F := FloatL L) hm) h1 h2 hd hf
    have h7 := e4.rflatMap (f := fun sample : Cx (FloatL L) => (pure (ofList [Flt.le 0 sample.re, Flt.le 0 sample.im]) : RM (VecIter Bool)))
      (out := fun sample : Cx (FloatL L) => [Flt.le 0 sample.re, Flt.le 0 sample.im]) (fun a => ⟨_, rfl, yields_ofList _⟩)
    replace h7 := collect_of_yields h7
    refine ⟨_, (congrArg (· >>= fun tx => awgnComplex tx σ std >>= fun ch => rxBasebandOfdm (F := FloatL L) ch n p >>= fun rx =>
        collect (rxBasebandQpsk (F := FloatL L) rx)) e1).trans (Eq.trans ?_ h7), ?_⟩
    · rw [pure_bind, e2, pure_bind, e3, pure_bind]
      rfl
    · rw [length_flatMap_const (k := 2) _ _ (fun _ _ => rfl), e5, List.length_map, pairs_length, Nat.mul_comm]

/-- 64 carriers with 12 pilots, 104 bits (two frames of 80 samples), unit noise. -/
example (msg : List Bool) (hm : msg.length = 104) :
    letI := fftRounded Libm.rounded
    Rates (gaussPath 1) (fun ω => do
        let tx ← txBasebandOfdm (F := FloatL Libm.rounded) (txBasebandBpsk (F := FloatL Libm.rounded) (ofList msg)) 64 12
        let ch ← awgnComplex tx (1 : FloatL Libm.rounded) (rounded ω)
        let rx ← rxBasebandOfdm (F := FloatL Libm.rounded) ch 64 12
        let out ← collect (rxBasebandBpsk (F := FloatL Libm.rounded) rx)
        pure (out.take msg.length)) msg (fun _ => 1 / 32) (1 / 32 * ofdmLoss 64 (1 / 2 ^ 51) (10 / 2 ^ 52) 1 16) 1 (160 * Real.exp (-50)) := by
  let := fftRounded Libm.rounded
  have := C146_bpsk (white_path 1) (δ := 1 / 2 ^ 51) accurate_roundedDft (by norm_num) (by norm_num) (Z := 10) (by norm_num) (by norm_num)
    sampled_rounded rounded_gives (σ := (1 : FloatL Libm.rounded)) fin_one (by rw [val_float_one]; norm_num) (yields_ofList msg) (n := 64) (p := 12)
    (by decide) (by decide) (by decide) (by norm_num) (S := 16) (by rw [val_float_one]; norm_num) (by norm_num)
    (by rw [val_float_one, ofdmLoss]; norm_num)
  rw [val_float_one, hm] at this
  rw [hm]
  convert this using 2 <;> norm_num

example (msg : List Bool) (hm : msg.length = 208) :
    letI := fftRounded Libm.rounded
    Rates (gaussPath 1) (fun ω => do
        let tx ← txBasebandOfdm (F := FloatL Libm.rounded) (txBasebandQpsk (F := FloatL Libm.rounded) (ofList msg)) 64 12
        let ch ← awgnComplex tx (1 : FloatL Libm.rounded) (rounded ω)
        let rx ← rxBasebandOfdm (F := FloatL Libm.rounded) ch 64 12
        let out ← collect (rxBasebandQpsk (F := FloatL Libm.rounded) rx)
        pure (out.take msg.length)) msg (fun _ => 1 / 16) (2 * √2 / 64 * ofdmLoss 64 (1 / 2 ^ 51) (10 / 2 ^ 52) 1 16) 1
      (160 * Real.exp (-50)) := by
  let := fftRounded Libm.rounded
  have := C146_qpsk (white_path 1) (δ := 1 / 2 ^ 51) accurate_roundedDft (by norm_num) (by norm_num) (Z := 10) (by norm_num) (by norm_num)
    sampled_rounded rounded_gives (σ := (1 : FloatL Libm.rounded)) fin_one (by rw [val_float_one]; norm_num) (yields_ofList msg) (by rw [hm])
    (n := 64) (p := 12)
    (by decide) (by decide) (by decide) (by norm_num) (S := 16) (by rw [val_float_one]; norm_num) (by norm_num)
    (by rw [val_float_one, ofdmLoss]; exact le_trans (by norm_num) (Real.one_le_sqrt.mpr one_le_two))
  rw [val_float_one, hm] at this
  rw [hm]
  convert this using 2 <;> norm_num

/-- A generator of nothing but NaN. -/
example (msg : List Bool) (hm : msg.length = 100) :
    letI := fftRounded Libm.rounded
    ∃ out, (do
        let tx ← txBasebandOfdm (F := FloatL Libm.rounded) (txBasebandBpsk (F := FloatL Libm.rounded) (ofList msg)) 64 12
        let ch ← awgnComplex tx (1 : FloatL Libm.rounded) (Repeat.mk ((0 : FloatL Libm.rounded) / 0))
        let rx ← rxBasebandOfdm (F := FloatL Libm.rounded) ch 64 12
        collect (rxBasebandBpsk (F := FloatL Libm.rounded) rx)) = pure out ∧ out.length = 104 := by
  let := fftRounded Libm.rounded
  have := (C146_length (gives_repeat ((0 : FloatL Libm.rounded) / 0)) (σ := (1 : FloatL Libm.rounded)) fin_one (yields_ofList msg) (n := 64) (p := 12)
    (by decide) (by decide)).1
  rwa [hm] at this
end Verif.Props
