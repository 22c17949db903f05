import Verif.Props.IeeeBpf
import Verif.Props.BpfFront
import Verif.Props.IeeeRx

/-!
# Property C141: a band-pass filter in front of a receiver, in double precision

The filter of C136 and the receivers of C86 in IEEE arithmetic.  `δ` is the accuracy of the transforms, `ε` that of the library's
sine and cosine, `B` a bound of the recorded samples.  The carrier has to be a multiple of the bin spacing and a symbol a whole
number of blocks; the frequencies of the bins must not lie within one rounding of the band edges.
-/
namespace Verif.Props
open Verif Spec F64

variable {ι κ : Type} {L : Libm}

/-- A filter for a `FloatL L` program: finite edges, block length and sample rate in the range of exact integers, and no bin within
one rounding of an edge. -/
structure BandFilter (L : Libm) (lo hi : FloatL L) (fs n : ℕ) : Prop where
  fin_lo : F64.Fin lo
  fin_hi : F64.Fin hi
  pos : 0 < n
  size : n ≤ 2 ^ 40
  bins : n / 2 * fs ≤ 2 ^ 53
  edges : ∀ k : ℕ, k ≤ n / 2 → (val lo ≤ (k : ℝ) * fs / n ∧ (k : ℝ) * fs / n ≤ val hi) ∨
      (k : ℝ) * fs / n * (1 + 1 / 2 ^ 52) < val lo ∨ val hi < (k : ℝ) * fs / n * (1 - 1 / 2 ^ 52)

/-- The transform of a `FloatL L` program, read as one of doubles: the type does not depend on the sine and cosine. -/
@[instance_reducible] def plain (R : RealFft (FloatL L)) : RealFft Float where
  rfft := R.rfft
  irfft := R.irfft
  length_rfft := R.length_rfft
  length_irfft := R.length_irfft
  rfft_first := R.rfft_first
  rfft_last := R.rfft_last
  zero_eq := R.zero_eq

theorem bpOut_plain [R : RealFft (FloatL L)] (lo hi : FloatL L) (fs n : ℕ) (c : List (FloatL L)) :
    bpOut lo hi fs n c = (let := plain R; bpOut (F := Float) lo hi fs n c) := rfl

/-- What comes out of the filter: finite doubles near the exact filter's output, which in turn is what `Kept` says. -/
theorem filter_near [I : RIter ι (FloatL L)] [R : RealFft (FloatL L)] {δ : ℝ}
    (hR : AccurateRfft (RealFft.rfft (F := FloatL L)) (RealFft.irfft (F := FloatL L)) δ) (hδ0 : 0 ≤ δ) (hδ : δ ≤ 1 / 8)
    {lo hi : FloatL L} {fs n : ℕ} (hf : BandFilter L lo hi fs n) (hfs0 : 0 < fs)
    {src : ι} {r : List (FloatL L)} (h : Yields src r) {q : ℕ} (hq : r.length = q * n) {B : ℝ} (hB0 : 1 / 2 ^ 90 ≤ B) (hB1 : B ≤ 2 ^ 50)
    (hr : ∀ x ∈ r, F64.Fin x ∧ |real x| ≤ B) :
    ∃ (out : List (FloatL L)) (o : List ℝ), Yields (bandpass lo hi src fs n) out ∧ Kept (val lo) (val hi) fs n q (r.map real) o ∧
      (∀ b ∈ o, |b| ≤ n * B) ∧ out.length = q * n ∧
      ∀ i < q * n, ∃ x, out[i]? = some x ∧ F64.Fin x ∧ |val x - o.getD i 0| ≤ n * B * (4 * δ + 1 / 2 ^ 52) := by
  have hd : n ∣ r.length := ⟨q, by rw [hq, Nat.mul_comm]⟩
  have hBp : 0 < B := lt_of_lt_of_le (by norm_num) hB0
  obtain ⟨out, ex, h1, h2, h3⟩ := @C134_filter (VecIter Float) _ (plain R) δ hR hδ0 hδ lo hi hf.fin_lo hf.fin_hi fs n
    hf.pos hf.size hf.bins hf.edges (ofList r) r (yields_ofList r) hd B hB0 hB1 hr
  obtain ⟨o, k1, k2⟩ := bandpass_kept (val lo) (val hi) hfs0 hf.pos (yields_ofList (r.map real)) (q := q) (by rw [List.length_map, hq])
  have hoe : ex = o := h2.unique k1
  subst hoe
  have h1 : Yields (bandpass lo hi src fs n) out := by
    have a1 := h1.unique (@bandpass_ok _ Float _ _ _ _ _ _ _ _ (plain R) _ lo hi _ r (yields_ofList r) fs n hf.pos hd)
    rw [a1]
    exact bandpass_ok lo hi h hf.pos hd
  have hlen : out.length = q * n := by rw [h3.length_eq, k2.1]
  refine ⟨out, ex, h1, k2, ?_, hlen, fun i hi' => ?_⟩
  · rw [h2.unique (bandpass_ok (val lo) (val hi) (yields_ofList (r.map real)) hf.pos (by rwa [List.length_map]))]
    intro b hb
    obtain ⟨c, hc, hb⟩ := List.mem_flatMap.mp hb
    have hcl := mem_blocks_full hf.pos (r.map real) (by rwa [List.length_map]) c hc
    refine bpOut_abs (val lo) (val hi) fs hf.pos hcl hBp.le (fun a ha => ?_) b hb
    obtain ⟨x, hx, rfl⟩ := List.mem_map.mp (mem_of_mem_blocks hc ha)
    exact (hr x hx).2
  · have e1 : i < out.length := by omega
    have e2 : i < ex.length := by rw [k2.1]; exact hi'
    refine ⟨out[i], List.getElem?_eq_getElem e1, ?_⟩
    have := forall₂_get? h3 (List.getElem?_eq_getElem e1) (List.getElem?_eq_getElem e2)
    rw [List.getD_eq_getElem?_getD, List.getElem?_eq_getElem e2, Option.getD_some]
    exact this

/-- The correlations of the filtered recording: those of the recording when the carrier is in the band, and zero otherwise. -/
theorem kept_corr {lo hi : ℝ} {fs n k N d : ℕ} (hk : k = d * n) {l o : List ℝ} (h : Kept lo hi fs n (N * d) l o) {f : ℝ}
    (hf : OnBin fs n f) (A : ℕ → ℝ) (hA : ∀ b j, j < n → A (b * n + j) = A (b * n)) {m : ℕ} (hm : m < N) :
    inPhase fs k f (fun _ i => o.getD i 0 * A i) m
      = (open Classical in if lo ≤ f ∧ f ≤ hi then inPhase fs k f (fun _ i => l.getD i 0 * A i) m else 0) ∧
    quadrature fs k f (fun _ i => o.getD i 0 * A i) m
      = (open Classical in if lo ≤ f ∧ f ≤ hi then quadrature fs k f (fun _ i => l.getD i 0 * A i) m else 0) := by
  classical
  have key := fun φ => h.symbol (d := d) (m := m) (Nat.mul_le_mul_right d hm) hf φ A hA
  rw [← hk] at key
  have e1 : ∀ x : List ℝ, inPhase fs k f (fun _ i => x.getD i 0 * A i) m
      = ∑ j ∈ Finset.range k, x.getD (m * k + j) 0 * A (m * k + j) * Real.cos (2 * Real.pi * f * ((m * k + j : ℕ) : ℝ) / fs + 0) := by
    intro x
    refine Finset.sum_congr rfl fun j _ => ?_
    rw [add_zero]; rfl
  have e2 : ∀ x : List ℝ, quadrature fs k f (fun _ i => x.getD i 0 * A i) m
      = ∑ j ∈ Finset.range k, x.getD (m * k + j) 0 * A (m * k + j)
        * Real.cos (2 * Real.pi * f * ((m * k + j : ℕ) : ℝ) / fs + Real.pi / 2) := by
    intro x
    refine Finset.sum_congr rfl fun j _ => ?_
    rw [Real.cos_add_pi_div_two]; rfl
  rw [e1, e1, e2, e2]
  exact ⟨key 0, key _⟩

/-- The sum of the filter's error and the receiver's. -/
noncomputable def frontMargin (n : ℕ) (B δ S ε : ℝ) : ℝ := n * B * (4 * δ + 1 / 2 ^ 52) + S * (ε + 1 / 2 ^ 14)

/-- The filtered recording as the receivers see it. -/
theorem front [RIter ι (FloatL L)] [RealFft (FloatL L)] {δ ε S : ℝ}
    (hR : AccurateRfft (RealFft.rfft (F := FloatL L)) (RealFft.irfft (F := FloatL L)) δ) (hδ0 : 0 ≤ δ) (hδ : δ ≤ 1 / 8)
    {lo hi fc : FloatL L} {fs n k N d : ℕ} (hf : BandFilter L lo hi fs n) (h : Radio L ε fs k N fc S) (hd : k = d * n)
    {src : ι} {r : List (FloatL L)} (hy : Yields src r) (hlen : r.length = N * k)
    {B : ℝ} (hB0 : 1 / 2 ^ 90 ≤ B) (hB1 : B ≤ 2 ^ 50) (hr : ∀ x ∈ r, F64.Fin x ∧ |real x| ≤ B)
    (hS : n * B * (1 + 4 * δ + 1 / 2 ^ 52) ≤ S) :
    ∃ (out : List (FloatL L)) (o : List ℝ), Yields (bandpass lo hi src fs n) out ∧
      NearRecording (n * B * (4 * δ + 1 / 2 ^ 52)) out N k (fun _ i => o.getD i 0) ∧
      (∀ i < N * k, |o.getD i 0| + n * B * (4 * δ + 1 / 2 ^ 52) ≤ S) ∧
      Kept (val lo) (val hi) fs n (N * d) (r.map real) o := by
  have hq : N * k = N * d * n := by rw [hd, Nat.mul_assoc]
  have hBp : 0 < B := lt_of_lt_of_le (by norm_num) hB0
  obtain ⟨out, o, h1, h2, h3, h4, h5⟩ := filter_near hR hδ0 hδ hf (radio_fs h) hy (hlen.trans hq) hB0 hB1 hr
  refine ⟨out, o, h1, ⟨h4.trans hq.symm, fun i hi => h5 i (by omega)⟩, fun i _ => ?_, h2⟩
  have : |o.getD i 0| ≤ n * B := by
    rw [List.getD_eq_getElem?_getD]
    cases ho : o[i]? with
    | none => simp only [Option.getD_none, abs_zero]; positivity
    | some b => exact h3 b (List.mem_of_getElem? ho)
  calc _ ≤ n * B + n * B * (4 * δ + 1 / 2 ^ 52) := by linarith
    _ = n * B * (1 + 4 * δ + 1 / 2 ^ 52) := by ring
    _ ≤ S := hS

theorem with_one (s : ℕ → ℝ) : (fun (_ i : ℕ) => s i) = fun _ i => s i * (fun _ => 1 : ℕ → ℝ) i := by
  funext _ i; rw [mul_one]

section receivers
variable [RIter ι (FloatL L)] [RealFft (FloatL L)] {δ ε S B : ℝ} {lo hi fc : FloatL L} {fs sym n N : ℕ} {src : ι} {r : List (FloatL L)}

/-- BPSK.  Behind the filter, in double precision, bit `m` is the one that exact arithmetic gives without the filter, whenever the
correlation of symbol `m` exceeds the margin. -/
theorem C141_bpsk (hR : AccurateRfft (RealFft.rfft (F := FloatL L)) (RealFft.irfft (F := FloatL L)) δ) (hδ0 : 0 ≤ δ) (hδ : δ ≤ 1 / 8)
    (hf : BandFilter L lo hi fs n) (h : Radio L ε fs (fs / sym) N fc S) (hn : n ∣ fs / sym) (hbin : OnBin fs n (val fc))
    (hin : val lo ≤ val fc ∧ val fc ≤ val hi) (hy : Yields src r) (hlen : r.length = N * (fs / sym))
    (hB0 : 1 / 2 ^ 90 ≤ B) (hB1 : B ≤ 2 ^ 50) (hr : ∀ x ∈ r, F64.Fin x ∧ |real x| ≤ B) (hS : n * B * (1 + 4 * δ + 1 / 2 ^ 52) ≤ S) :
    ∃ x y : ℕ → Bool, (do let rx ← rxBpsk (bandpass lo hi src fs n) fs sym fc; collect rx) = pure ((List.range N).map x) ∧
      (do let rx ← rxBpsk (ofList (r.map real)) fs sym (real fc); collect rx) = pure ((List.range N).map y) ∧
      ∀ m < N, ((fs / sym : ℕ) : ℝ) * frontMargin n B δ S ε
        < |inPhase fs (fs / sym) (real fc) (fun _ i => (r.map real).getD i 0) m| →
        x m = y m ∧ y m = decide (0 < inPhase fs (fs / sym) (real fc) (fun _ i => (r.map real).getD i 0) m) := by
  obtain ⟨d, hd⟩ := hn
  rw [Nat.mul_comm] at hd
  obtain ⟨out, o, h1, h2, h3, h4⟩ := front hR hδ0 hδ hf h hd hy hlen hB0 hB1 hr hS
  obtain ⟨x, e1, e2⟩ := C86_bpsk h h2 h3 h1
  refine ⟨x, _, e1, rxBpsk_recording h.k_pos (real_get hlen hr).2.1 (yields_ofList _), fun m hm hc => ?_⟩
  have hk := (kept_corr hd h4 hbin (fun _ => 1) (fun _ _ _ => rfl) hm).1
  rw [if_pos hin, ← with_one, ← with_one] at hk
  rw [frontMargin] at hc
  rw [e2 m hm (by rw [hk]; exact hc), hk]
  simp only [inPhase, angle_dphi]
  exact ⟨rfl, trivial⟩

/-- QPSK, each bit with its own correlation. -/
theorem C141_qpsk (hR : AccurateRfft (RealFft.rfft (F := FloatL L)) (RealFft.irfft (F := FloatL L)) δ) (hδ0 : 0 ≤ δ) (hδ : δ ≤ 1 / 8)
    (hf : BandFilter L lo hi fs n) (h : Radio L ε fs (fs / sym) N fc S) (hn : n ∣ fs / sym) (hbin : OnBin fs n (val fc))
    (hin : val lo ≤ val fc ∧ val fc ≤ val hi) (hy : Yields src r) (hlen : r.length = N * (fs / sym))
    (hB0 : 1 / 2 ^ 90 ≤ B) (hB1 : B ≤ 2 ^ 50) (hr : ∀ x ∈ r, F64.Fin x ∧ |real x| ≤ B) (hS : n * B * (1 + 4 * δ + 1 / 2 ^ 52) ≤ S) :
    ∃ x y x' y' : ℕ → Bool,
      (do let rx ← rxQpsk (bandpass lo hi src fs n) fs sym fc; collect rx) = pure ((List.range N).flatMap (fun m => [x m, y m])) ∧
      (do let rx ← rxQpsk (ofList (r.map real)) fs sym (real fc); collect rx)
        = pure ((List.range N).flatMap (fun m => [x' m, y' m])) ∧
      ∀ m < N, (((fs / sym : ℕ) : ℝ) * frontMargin n B δ S ε
        < |inPhase fs (fs / sym) (real fc) (fun _ i => (r.map real).getD i 0) m| →
          x m = x' m ∧ x' m = decide (0 ≤ inPhase fs (fs / sym) (real fc) (fun _ i => (r.map real).getD i 0) m)) ∧
        (((fs / sym : ℕ) : ℝ) * frontMargin n B δ S ε
        < |quadrature fs (fs / sym) (real fc) (fun _ i => (r.map real).getD i 0) m| →
          y m = y' m ∧ y' m = decide (0 ≤ quadrature fs (fs / sym) (real fc) (fun _ i => (r.map real).getD i 0) m)) := by
  obtain ⟨d, hd⟩ := hn
  rw [Nat.mul_comm] at hd
  obtain ⟨out, o, h1, h2, h3, h4⟩ := front hR hδ0 hδ hf h hd hy hlen hB0 hB1 hr hS
  obtain ⟨x, y, e1, e2⟩ := C86_qpsk h h2 h3 h1
  refine ⟨x, y, _, _, e1, rxQpsk_recording h.k_pos (real_get hlen hr).2.1 (yields_ofList _), fun m hm => ?_⟩
  obtain ⟨hk, hk'⟩ := kept_corr hd h4 hbin (fun _ => 1) (fun _ _ _ => rfl) hm
  rw [if_pos hin, ← with_one, ← with_one] at hk hk'
  rw [frontMargin]
  refine ⟨fun hc => ?_, fun hc => ?_⟩
  · rw [(e2 m hm).1 (by rw [hk]; exact hc), hk]
    simp only [inPhase, angle_dphi]
    exact ⟨rfl, trivial⟩
  · rw [(e2 m hm).2 (by rw [hk']; exact hc), hk']
    simp only [quadrature, angle_dphi]
    exact ⟨rfl, trivial⟩

theorem chip_block {key : List Bool} {k n : ℕ} (hn0 : 0 < n) (hn : n ∣ k / key.length) (b j : ℕ) (hj : j < n) :
    chip key k (b * n + j) = chip key k (b * n) := by
  obtain ⟨e, he⟩ := hn
  have : (b * n + j) / (k / key.length) = b * n / (k / key.length) := by
    rw [he, ← Nat.div_div_eq_div_mul, ← Nat.div_div_eq_div_mul, Nat.mul_comm b n, Nat.mul_add_div hn0, Nat.div_eq_of_lt hj,
      Nat.mul_div_cancel_left _ hn0, Nat.add_zero]
  rw [chip, chip, this]

theorem unchip (key : List Bool) (k : ℕ) (o : ℕ → ℝ) :
    (fun (_ i : ℕ) => o i) = fun (m i : ℕ) => (fun (_ i : ℕ) => o i * chip key k i) m i * chip key k i := by
  funext _ i
  show o i = o i * chip key k i * chip key k i
  rw [mul_assoc, chip, pm_sq, mul_one]

/-- With a key, in blocks that fit into the chips: the correlations are those of the recording under the chips. -/
theorem C141_cdma {key : List Bool} (hsym : 0 < sym) (hL : 0 < key.length) (hdvd : sym * key.length ∣ fs) (hnyq : 2 * (sym * key.length) ≤ fs)
    (hR : AccurateRfft (RealFft.rfft (F := FloatL L)) (RealFft.irfft (F := FloatL L)) δ) (hδ0 : 0 ≤ δ) (hδ : δ ≤ 1 / 8)
    (hf : BandFilter L lo hi fs n) (h : Radio L ε fs (fs / sym) N fc S) (hn : n ∣ fs / sym / key.length) (hbin : OnBin fs n (val fc))
    (hin : val lo ≤ val fc ∧ val fc ≤ val hi) (hy : Yields src r) (hlen : r.length = N * (fs / sym))
    (hB0 : 1 / 2 ^ 90 ≤ B) (hB1 : B ≤ 2 ^ 50) (hr : ∀ x ∈ r, F64.Fin x ∧ |real x| ≤ B) (hS : n * B * (1 + 4 * δ + 1 / 2 ^ 52) ≤ S) :
    (∃ x : ℕ → Bool, (do let rx ← rxCdmaBpsk (bandpass lo hi src fs n) fs sym fc key; collect rx) = pure ((List.range N).map x) ∧
      ∀ m < N, ((fs / sym : ℕ) : ℝ) * frontMargin n B δ S ε
        < |inPhase fs (fs / sym) (real fc) (fun _ i => (r.map real).getD i 0 * chip key (fs / sym) i) m| →
        x m = decide (0 < inPhase fs (fs / sym) (real fc) (fun _ i => (r.map real).getD i 0 * chip key (fs / sym) i) m)) ∧
    ∃ x y : ℕ → Bool, (do let rx ← rxCdmaQpsk (bandpass lo hi src fs n) fs sym fc key; collect rx)
        = pure ((List.range N).flatMap (fun m => [x m, y m])) ∧
      ∀ m < N, (((fs / sym : ℕ) : ℝ) * frontMargin n B δ S ε
        < |inPhase fs (fs / sym) (real fc) (fun _ i => (r.map real).getD i 0 * chip key (fs / sym) i) m| →
        x m = decide (0 ≤ inPhase fs (fs / sym) (real fc) (fun _ i => (r.map real).getD i 0 * chip key (fs / sym) i) m)) ∧
        (((fs / sym : ℕ) : ℝ) * frontMargin n B δ S ε
        < |quadrature fs (fs / sym) (real fc) (fun _ i => (r.map real).getD i 0 * chip key (fs / sym) i) m| →
        y m = decide (0 ≤ quadrature fs (fs / sym) (real fc) (fun _ i => (r.map real).getD i 0 * chip key (fs / sym) i) m)) := by
  have hk : fs / sym = fs / sym / key.length * key.length :=
    (Nat.div_mul_cancel (by
      obtain ⟨c, hc⟩ := hdvd
      exact ⟨c, by rw [hc, Nat.mul_assoc, Nat.mul_div_cancel_left _ hsym]⟩)).symm
  obtain ⟨d, hd⟩ : ∃ d, fs / sym = d * n := by
    obtain ⟨e, he⟩ := hn
    exact ⟨e * key.length, by rw [hk, he]; ring⟩
  obtain ⟨out, o, h1, h2, h3, h4⟩ := front hR hδ0 hδ hf h hd hy hlen hB0 hB1 hr hS
  rw [unchip key (fs / sym)] at h2
  have h3' : ∀ i < N * (fs / sym), |o.getD i 0 * chip key (fs / sym) i| + n * B * (4 * δ + 1 / 2 ^ 52) ≤ S := by
    intro i hi
    rw [abs_mul, chip_abs, mul_one]
    exact h3 i hi
  have key' := fun m hm => kept_corr hd h4 hbin (chip key (fs / sym)) (fun b j hj => chip_block hf.pos hn b j hj) (m := m) hm
  simp only [if_pos hin] at key'
  simp only [frontMargin]
  obtain ⟨x, e1, e2⟩ := C86_cdma_bpsk hsym hL hdvd hnyq h h2 h3' h1
  obtain ⟨y, z, g1, g2⟩ := C86_cdma_qpsk hsym hL hdvd hnyq h h2 h3' h1
  refine ⟨⟨x, e1, fun m hm hc => ?_⟩, y, z, g1, fun m hm => ⟨fun hc => ?_, fun hc => ?_⟩⟩
  · rw [e2 m hm (by rw [(key' m hm).1]; exact hc), (key' m hm).1]; rfl
  · rw [(g2 m hm).1 (by rw [(key' m hm).1]; exact hc), (key' m hm).1]; rfl
  · rw [(g2 m hm).2 (by rw [(key' m hm).2]; exact hc), (key' m hm).2]; rfl
end receivers

/-! ## The whole link -/

theorem near_bound {τ A : ℝ} {r : List (FloatL L)} {N k : ℕ} {s : ℕ → ℕ → ℝ} (h : NearRecording τ r N k s)
    (hs : ∀ m i, |s m i| ≤ A) : ∀ x ∈ r, F64.Fin x ∧ |real x| ≤ A + τ := by
  intro x hx
  obtain ⟨i, hi, rfl⟩ := List.mem_iff_getElem.mp hx
  obtain ⟨x, e1, e2, e3⟩ := h.2 i (by rw [← h.1]; exact hi)
  rw [List.getElem?_eq_getElem hi, Option.some.injEq] at e1
  rw [e1]
  refine ⟨e2, ?_⟩
  have e3' : |real x - s (i / k) i| ≤ τ := e3
  calc |real x| = |s (i / k) i + (real x - s (i / k) i)| := by congr 1; ring
    _ ≤ _ := (abs_add_le _ _).trans (add_le_add (hs _ _) e3')

theorem near_corr {τ : ℝ} {r : List (FloatL L)} {N k : ℕ} {s : ℕ → ℕ → ℝ} {A : ℕ → ℝ} (hA : ∀ i, A i * A i = 1)
    (h : NearRecording τ r N k (fun m i => s m i * A i)) (fs : ℕ) (f : ℝ) {m : ℕ} (hm : m < N) :
    |inPhase fs k f (fun _ i => (r.map real).getD i 0 * A i) m - inPhase fs k f s m| ≤ k * τ ∧
    |quadrature fs k f (fun _ i => (r.map real).getD i 0 * A i) m - quadrature fs k f s m| ≤ k * τ := by
  have hs : ∀ j < k, |(r.map real).getD (m * k + j) 0 * A (m * k + j) - s m (m * k + j)| ≤ τ := by
    intro j hj
    have hmk : m * k + k ≤ N * k := by
      calc m * k + k = (m + 1) * k := by ring
        _ ≤ N * k := Nat.mul_le_mul_right k hm
    obtain ⟨x, e1, _, e3⟩ := h.2 (m * k + j) (by omega)
    have hdiv : (m * k + j) / k = m := by
      rw [Nat.mul_comm, Nat.mul_add_div (by omega), Nat.div_eq_of_lt hj, Nat.add_zero]
    rw [hdiv] at e3
    rw [List.getD_eq_getElem?_getD, List.getElem?_map, e1, Option.map_some, Option.getD_some]
    have e4 : |real x - s m (m * k + j) * A (m * k + j)| ≤ τ := e3
    have hA1 : |A (m * k + j)| = 1 := by
      have := hA (m * k + j)
      rw [← abs_mul_abs_self] at this
      nlinarith [abs_nonneg (A (m * k + j))]
    have : real x * A (m * k + j) - s m (m * k + j) = (real x - s m (m * k + j) * A (m * k + j)) * A (m * k + j) := by
      linear_combination (s m (m * k + j)) * hA (m * k + j)
    rw [this, abs_mul, hA1, mul_one]
    exact e4
  constructor
  · rw [inPhase, inPhase, ← Finset.sum_sub_distrib]
    refine (Finset.abs_sum_le_sum_abs _ _).trans ((Finset.sum_le_card_nsmul _ _ τ fun j hj => ?_).trans (by simp))
    rw [← sub_mul, abs_mul]
    have := hs j (Finset.mem_range.mp hj)
    have c := Real.abs_cos_le_one (angle fs f (m * k + j))
    nlinarith [abs_nonneg (Real.cos (angle fs f (m * k + j))), abs_nonneg ((r.map real).getD (m * k + j) 0 * A (m * k + j) - s m (m * k + j))]
  · rw [quadrature, quadrature, ← Finset.sum_sub_distrib]
    refine (Finset.abs_sum_le_sum_abs _ _).trans ((Finset.sum_le_card_nsmul _ _ τ fun j hj => ?_).trans (by simp))
    rw [← sub_mul, abs_mul, abs_neg]
    have := hs j (Finset.mem_range.mp hj)
    have c := Real.abs_sin_le_one (angle fs f (m * k + j))
    nlinarith [abs_nonneg (Real.sin (angle fs f (m * k + j))), abs_nonneg ((r.map real).getD (m * k + j) 0 * A (m * k + j) - s m (m * k + j))]

/-- A correlation within `k τ` of `± k / 2` exceeds every margin below `1 / 2 - τ` and has the right sign. -/
theorem near_half {k : ℕ} (hk : 0 < k) {c τ M : ℝ} (hτM : τ + M < 1 / 2) (hM : 0 ≤ M) (b : Bool) (h : |c - k / 2 * pm b| ≤ k * τ) :
    k * M < |c| ∧ decide (0 < c) = b ∧ decide (0 ≤ c) = b := by
  have hk' : (0 : ℝ) < k := by exact_mod_cast hk
  have h1 := abs_le.mp h
  have h2 : (k : ℝ) * τ + k * M < k / 2 := by nlinarith
  have h3 : 0 ≤ (k : ℝ) * M := by positivity
  cases b with
  | true =>
    simp only [pm, if_true] at h1
    refine ⟨lt_of_lt_of_le ?_ (le_abs_self c), decide_eq_true (by linarith), decide_eq_true (by linarith)⟩
    linarith
  | false =>
    simp only [pm, Bool.false_eq_true, if_false] at h1
    refine ⟨lt_of_lt_of_le ?_ (neg_le_abs c), decide_eq_false (by linarith), decide_eq_false (by linarith)⟩
    linarith

section link
variable [RIter ι Bool] [RIter κ (FloatL L)] [RealFft (FloatL L)] {δ ε τ : ℝ} {lo hi fc : FloatL L} {fs sym n : ℕ} {m : ι}
  {msg : List Bool} {rcv : κ} {a r : List (FloatL L)}

/-- Modulator, disturbance, filter and receiver in double precision.  BPSK returns the message when the disturbance of a sample, the
modulator's error `2^-9` and the margin stay below a half together. -/
theorem C141_link_bpsk (hR : AccurateRfft (RealFft.rfft (F := FloatL L)) (RealFft.irfft (F := FloatL L)) δ) (hδ0 : 0 ≤ δ)
    (hδ : δ ≤ 1 / 16) (hε : 0 ≤ ε) (hf : BandFilter L lo hi fs n) (h : Radio L ε fs (fs / sym) msg.length fc (3 * n))
    (hw : WholeHalf fs (fs / sym) (val fc)) (hn : n ∣ fs / sym) (hbin : OnBin fs n (val fc)) (hin : val lo ≤ val fc ∧ val fc ≤ val hi)
    (hm : Yields m msg) (ha : (do let tx ← txBpsk m fs sym fc; collect tx) = pure a) (hr : Disturbed τ a r) (hy : Yields rcv r)
    (hτ : τ + 1 / 2 ^ 9 + frontMargin n 2 δ (3 * n) ε < 1 / 2) :
    (do let rx ← rxBpsk (bandpass lo hi rcv fs n) fs sym fc; collect rx) = pure msg := by
  have hs := near_disturbed (C86_sent_bpsk h hm ha) hr
  have hM : 0 ≤ frontMargin n 2 δ (3 * n) ε := by unfold frontMargin; positivity
  have hb : ∀ x ∈ r, F64.Fin x ∧ |real x| ≤ 2 := fun x hx => by
    obtain ⟨b1, b2⟩ := near_bound hs (fun m i => (faded_size fs (val fc) msg m i).1) x hx
    exact ⟨b1, by linarith⟩
  have hn0 : (0 : ℝ) ≤ n := Nat.cast_nonneg n
  obtain ⟨x, y, e1, _, e2⟩ := C141_bpsk (B := 2) hR hδ0 (by linarith) hf h hn hbin hin hy hs.1 (by norm_num) (by norm_num) hb
    (by nlinarith)
  refine e1.trans (Eq.trans ?_ (congrArg pure (pos_bits msg)))
  congr 1
  apply List.map_congr_left
  intro j hj
  have hj := List.mem_range.mp hj
  have hc := (near_corr (A := fun _ => 1) (fun _ => by norm_num) (s := fadedBpsk fs (val fc) msg (fun _ => 1) (fun _ => 0))
    (by simpa only [mul_one] using hs) fs (val fc) hj).1
  rw [← with_one, (faded_corr h.k_pos hw msg j).1] at hc
  obtain ⟨k1, k2, _⟩ := near_half h.k_pos hτ hM _ hc
  obtain ⟨g1, g2⟩ := e2 j hj k1
  rw [g1, g2]
  refine k2.trans ?_
  simpa using (decide_pm_pos one_pos one_pos (msg.getD j false)).symm

/-- QPSK, without the last bit of a message of odd length. -/
theorem C141_link_qpsk (hR : AccurateRfft (RealFft.rfft (F := FloatL L)) (RealFft.irfft (F := FloatL L)) δ) (hδ0 : 0 ≤ δ)
    (hδ : δ ≤ 1 / 16) (hε : 0 ≤ ε) (hf : BandFilter L lo hi fs n) (h : Radio L ε fs (fs / sym) (msg.length / 2) fc (4 * n))
    (hw : WholeHalf fs (fs / sym) (val fc)) (hn : n ∣ fs / sym) (hbin : OnBin fs n (val fc)) (hin : val lo ≤ val fc ∧ val fc ≤ val hi)
    (hm : Yields m msg) (ha : (do let tx ← txQpsk m fs sym fc; collect tx) = pure a) (hr : Disturbed τ a r) (hy : Yields rcv r)
    (hτ : τ + 1 / 2 ^ 7 + frontMargin n 3 δ (4 * n) ε < 1 / 2) :
    (do let rx ← rxQpsk (bandpass lo hi rcv fs n) fs sym fc; collect rx) = pure (msg.take (2 * (msg.length / 2))) := by
  have hs := near_disturbed (C86_sent_qpsk h hm ha) hr
  have hM : 0 ≤ frontMargin n 3 δ (4 * n) ε := by unfold frontMargin; positivity
  have hb : ∀ x ∈ r, F64.Fin x ∧ |real x| ≤ 3 := fun x hx => by
    obtain ⟨b1, b2⟩ := near_bound hs (fun m i => (faded_size fs (val fc) msg m i).2) x hx
    exact ⟨b1, by linarith⟩
  have hn0 : (0 : ℝ) ≤ n := Nat.cast_nonneg n
  obtain ⟨x, y, _, _, e1, _, e2⟩ := C141_qpsk (B := 3) hR hδ0 (by linarith) hf h hn hbin hin hy hs.1 (by norm_num) (by norm_num) hb
    (by nlinarith)
  refine e1.trans (Eq.trans ?_ (congrArg pure (pos_bit_pairs msg)))
  rw [List.flatMap_def, List.flatMap_def]
  congr 2
  apply List.map_congr_left
  intro j hj
  have hj := List.mem_range.mp hj
  obtain ⟨hc, hc'⟩ := near_corr (A := fun _ => 1) (fun _ => by norm_num) (s := fadedQpsk fs (val fc) msg (fun _ => 1) (fun _ => 0))
    (by simpa only [mul_one] using hs) fs (val fc) hj
  rw [← with_one, (faded_corr h.k_pos hw msg j).2.2.1] at hc
  rw [← with_one, (faded_corr h.k_pos hw msg j).2.2.2] at hc'
  obtain ⟨k1, _, k2⟩ := near_half h.k_pos hτ hM _ hc
  obtain ⟨k1', _, k2'⟩ := near_half h.k_pos hτ hM _ hc'
  obtain ⟨g1, g2⟩ := (e2 j hj).1 k1
  obtain ⟨g1', g2'⟩ := (e2 j hj).2 k1'
  have hp : ∀ b, decide (0 ≤ pm b) = b := fun b => by simpa using decide_pm_nonneg one_pos one_pos b
  rw [g1, g2, g1', g2', hp, hp]
  exact congrArg₂ (fun a b => [a, b]) k2 k2'

/-- Spread BPSK and QPSK, in blocks that fit into the chips. -/
theorem C141_link_cdma {key : List Bool} (hsym : 0 < sym) (hL : 0 < key.length) (hdvd : sym * key.length ∣ fs)
    (hnyq : 2 * (sym * key.length) ≤ fs)
    (hR : AccurateRfft (RealFft.rfft (F := FloatL L)) (RealFft.irfft (F := FloatL L)) δ) (hδ0 : 0 ≤ δ)
    (hδ : δ ≤ 1 / 16) (hε : 0 ≤ ε) (hf : BandFilter L lo hi fs n) (hw : WholeHalf fs (fs / sym) (val fc))
    (hn : n ∣ fs / sym / key.length) (hbin : OnBin fs n (val fc)) (hin : val lo ≤ val fc ∧ val fc ≤ val hi)
    (hm : Yields m msg) (hr : Disturbed τ a r) (hy : Yields rcv r) :
    (Radio L ε fs (fs / sym) msg.length fc (3 * n) → τ + 1 / 2 ^ 9 + frontMargin n 2 δ (3 * n) ε < 1 / 2 →
      (do let tx ← txCdmaBpsk m fs sym fc key; collect tx) = pure a →
      (do let rx ← rxCdmaBpsk (bandpass lo hi rcv fs n) fs sym fc key; collect rx) = pure msg) ∧
    (Radio L ε fs (fs / sym) (msg.length / 2) fc (4 * n) → τ + 1 / 2 ^ 7 + frontMargin n 3 δ (4 * n) ε < 1 / 2 →
      (do let tx ← txCdmaQpsk m fs sym fc key; collect tx) = pure a →
      (do let rx ← rxCdmaQpsk (bandpass lo hi rcv fs n) fs sym fc key; collect rx) = pure (msg.take (2 * (msg.length / 2)))) := by
  have hn0 : (0 : ℝ) ≤ n := Nat.cast_nonneg n
  have hsq : ∀ i, chip key (fs / sym) i * chip key (fs / sym) i = 1 := fun i => pm_sq _
  have hsz : ∀ (s : ℕ → ℕ → ℝ) (A : ℝ), (∀ j i, |s j i| ≤ A) → ∀ j i, |s j i * chip key (fs / sym) i| ≤ A := by
    intro s A hs j i
    rw [abs_mul, chip_abs, mul_one]
    exact hs j i
  refine ⟨fun h hτ ha => ?_, fun h hτ ha => ?_⟩
  · have hs := near_disturbed (C86_sent_cdma_bpsk h hm ha) hr
    have hM : 0 ≤ frontMargin n 2 δ (3 * n) ε := by unfold frontMargin; positivity
    have hb : ∀ x ∈ r, F64.Fin x ∧ |real x| ≤ 2 := fun x hx => by
      obtain ⟨b1, b2⟩ := near_bound hs (hsz _ 1 fun j i => (faded_size fs (val fc) msg j i).1) x hx
      exact ⟨b1, by linarith⟩
    obtain ⟨⟨x, e1, e2⟩, _⟩ := C141_cdma (B := 2) hsym hL hdvd hnyq hR hδ0 (by linarith) hf h hn hbin hin hy hs.1 (by norm_num)
      (by norm_num) hb (by nlinarith)
    refine e1.trans (Eq.trans ?_ (congrArg pure (pos_bits msg)))
    congr 1
    apply List.map_congr_left
    intro j hj
    have hj := List.mem_range.mp hj
    have hc := (near_corr hsq hs fs (val fc) hj).1
    rw [(faded_corr h.k_pos hw msg j).1] at hc
    obtain ⟨k1, k2, _⟩ := near_half h.k_pos hτ hM _ hc
    rw [e2 j hj k1]
    refine k2.trans ?_
    simpa using (decide_pm_pos one_pos one_pos (msg.getD j false)).symm
  · have hs := near_disturbed (C86_sent_cdma_qpsk h hm ha) hr
    have hM : 0 ≤ frontMargin n 3 δ (4 * n) ε := by unfold frontMargin; positivity
    have hb : ∀ x ∈ r, F64.Fin x ∧ |real x| ≤ 3 := fun x hx => by
      obtain ⟨b1, b2⟩ := near_bound hs (hsz _ 2 fun j i => (faded_size fs (val fc) msg j i).2) x hx
      exact ⟨b1, by linarith⟩
    obtain ⟨_, x, y, e1, e2⟩ := C141_cdma (B := 3) hsym hL hdvd hnyq hR hδ0 (by linarith) hf h hn hbin hin hy hs.1 (by norm_num)
      (by norm_num) hb (by nlinarith)
    refine e1.trans (Eq.trans ?_ (congrArg pure (pos_bit_pairs msg)))
    rw [List.flatMap_def, List.flatMap_def]
    congr 2
    apply List.map_congr_left
    intro j hj
    have hj := List.mem_range.mp hj
    obtain ⟨hc, hc'⟩ := near_corr hsq hs fs (val fc) hj
    rw [(faded_corr h.k_pos hw msg j).2.2.1] at hc
    rw [(faded_corr h.k_pos hw msg j).2.2.2] at hc'
    obtain ⟨k1, _, k2⟩ := near_half h.k_pos hτ hM _ hc
    obtain ⟨k1', _, k2'⟩ := near_half h.k_pos hτ hM _ hc'
    have hp : ∀ b, decide (0 ≤ pm b) = b := fun b => by simpa using decide_pm_nonneg one_pos one_pos b
    rw [(e2 j hj).1 k1, (e2 j hj).2 k1', hp, hp]
    exact congrArg₂ (fun a b => [a, b]) k2 k2'
end link

/-! ## Instances -/

/-- The rounded exact transforms, for a program over the library `L`. -/
@[instance_reducible] noncomputable def rfftRoundedL (L : Libm) : RealFft (FloatL L) where
  rfft := rfftRounded.rfft
  irfft := rfftRounded.irfft
  length_rfft := rfftRounded.length_rfft
  length_irfft := rfftRounded.length_irfft
  rfft_first := rfftRounded.rfft_first
  rfft_last := rfftRounded.rfft_last
  zero_eq := rfftRounded.zero_eq

/-- Blocks of eight samples at 16000 Hz, so bins every 2000 Hz, and a band from 1000 to 3000 Hz. -/
theorem filter_8 : BandFilter Libm.rounded (Flt.ofNat 1000) (Flt.ofNat 3000) 16000 8 := by
  have h1 : F64.Fin (Flt.ofNat 1000 : FloatL Libm.rounded) ∧ val (Flt.ofNat 1000 : FloatL Libm.rounded) = 1000 := by
    obtain ⟨h1, h2⟩ := ofNat_exact (n := 1000) (by norm_num)
    exact ⟨h1, h2.trans (by norm_num)⟩
  have h3 : F64.Fin (Flt.ofNat 3000 : FloatL Libm.rounded) ∧ val (Flt.ofNat 3000 : FloatL Libm.rounded) = 3000 := by
    obtain ⟨h1, h2⟩ := ofNat_exact (n := 3000) (by norm_num)
    exact ⟨h1, h2.trans (by norm_num)⟩
  refine ⟨h1.1, h3.1, by norm_num, by norm_num, by norm_num, fun k hk => ?_⟩
  rw [h1.2, h3.2]
  interval_cases k <;> norm_num

theorem bin_2000 : OnBin 16000 8 (val (Flt.ofNat 2000 : FloatL Libm.rounded)) :=
  ⟨1, by norm_num, by rw [carrier_2000.2]; norm_num⟩

theorem in_2000 : val (Flt.ofNat 1000 : FloatL Libm.rounded) ≤ val (Flt.ofNat 2000 : FloatL Libm.rounded) ∧
    val (Flt.ofNat 2000 : FloatL Libm.rounded) ≤ val (Flt.ofNat 3000 : FloatL Libm.rounded) := by
  obtain ⟨_, h1⟩ := ofNat_exact (n := 1000) (by norm_num)
  obtain ⟨_, h3⟩ := ofNat_exact (n := 3000) (by norm_num)
  rw [carrier_2000.2]
  exact ⟨le_of_eq_of_le h1 (by norm_num), le_of_le_of_eq (by norm_num) h3.symm⟩

/-- Three bits, every sample disturbed by up to 0.48. -/
example : letI := rfftRoundedL Libm.rounded
    ∃ a : List (FloatL Libm.rounded), a.length = 48 ∧
    (do let tx ← txBpsk (ofList [true, false, true]) 16000 1000 (Flt.ofNat 2000 : FloatL Libm.rounded); collect tx) = pure a ∧
    Disturbed 0.48 a a ∧ ∀ r, Disturbed 0.48 a r →
    (do let rx ← rxBpsk (bandpass (Flt.ofNat 1000) (Flt.ofNat 3000) (ofList r) 16000 8) 16000 1000 (Flt.ofNat 2000 : FloatL Libm.rounded)
        collect rx) = pure [true, false, true] := by
  let := rfftRoundedL Libm.rounded
  obtain ⟨it, h1, h2⟩ := txBpsk_ok (yields_ofList [true, false, true]) (fs := 16000) (sym := 1000)
    (fc := (Flt.ofNat 2000 : FloatL Libm.rounded)) (by norm_num) (by decide +kernel) (by decide +kernel)
  obtain ⟨a, ha⟩ : ∃ a, (do let tx ← txBpsk (ofList [true, false, true]) 16000 1000 (Flt.ofNat 2000 : FloatL Libm.rounded); collect tx)
      = pure a := ⟨_, by rw [h1, pure_bind, collect_of_yields h2]⟩
  have hR := radio_2000 (N := 3) (by norm_num) (S := 3 * (8 : ℕ)) (by norm_num) (by norm_num)
  have hs := C86_sent_bpsk hR (yields_ofList [true, false, true]) ha
  refine ⟨a, hs.1, ha, disturbed_self (by norm_num) (fun x hx => ?_), fun r hr =>
    C141_link_bpsk (δ := 1 / 2 ^ 51) accurate_rfft (by norm_num) (by norm_num) (by norm_num) filter_8 hR whole_2000 (by norm_num)
      bin_2000 in_2000 (yields_ofList _) ha hr (yields_ofList _) (by rw [frontMargin]; norm_num)⟩
  obtain ⟨i, hi, rfl⟩ := List.mem_iff_getElem.mp hx
  obtain ⟨x, e1, e2, _⟩ := hs.2 i (by rw [← hs.1]; exact hi)
  rw [List.getElem?_eq_getElem hi, Option.some.injEq] at e1
  rw [e1]; exact e2

/-- QPSK likewise. -/
example {a r : List (FloatL Libm.rounded)}
    (ha : (do let tx ← txQpsk (ofList [true, false, false, true]) 16000 1000 (Flt.ofNat 2000 : FloatL Libm.rounded); collect tx) = pure a)
    (hr : Disturbed 0.4 a r) : letI := rfftRoundedL Libm.rounded
    (do let rx ← rxQpsk (bandpass (Flt.ofNat 1000) (Flt.ofNat 3000) (ofList r) 16000 8) 16000 1000 (Flt.ofNat 2000 : FloatL Libm.rounded)
        collect rx) = pure [true, false, false, true] := by
  let := rfftRoundedL Libm.rounded
  exact C141_link_qpsk (δ := 1 / 2 ^ 51) (msg := [true, false, false, true]) accurate_rfft (by norm_num) (by norm_num) (by norm_num)
    filter_8 (radio_2000 (N := 2) (by norm_num) (S := 4 * (8 : ℕ)) (by norm_num) (by norm_num)) whole_2000 (by norm_num)
    bin_2000 in_2000 (yields_ofList _) ha hr (yields_ofList _) (by rw [frontMargin]; norm_num)

/-- With a key of two chips. -/
example {a r : List (FloatL Libm.rounded)}
    (ha : (do let tx ← txCdmaBpsk (ofList [true, false, true]) 16000 1000 (Flt.ofNat 2000 : FloatL Libm.rounded) [true, false]; collect tx)
      = pure a)
    (hr : Disturbed 0.48 a r) : letI := rfftRoundedL Libm.rounded
    (do let rx ← rxCdmaBpsk (bandpass (Flt.ofNat 1000) (Flt.ofNat 3000) (ofList r) 16000 8) 16000 1000 (Flt.ofNat 2000 : FloatL Libm.rounded) [true, false]
        collect rx) = pure [true, false, true] := by
  let := rfftRoundedL Libm.rounded
  exact (C141_link_cdma (δ := 1 / 2 ^ 51) (key := [true, false]) (by norm_num) (by norm_num) (by norm_num) (by norm_num) accurate_rfft
    (by norm_num) (by norm_num) (ε := 1 / 2 ^ 52) (by norm_num) filter_8 whole_2000 (by norm_num) bin_2000 in_2000 (yields_ofList _) hr
    (yields_ofList r)).1 (radio_2000 (N := 3) (by norm_num) (S := 3 * (8 : ℕ)) (by norm_num) (by norm_num))
    (by rw [frontMargin]; norm_num) ha

/-- An arbitrary recording of two symbols with samples up to 5: the decisions of the exact receiver wherever the mean correlation exceeds 0.01. -/
example {r : List (FloatL Libm.rounded)} (hlen : r.length = 32) (hr : ∀ x ∈ r, F64.Fin x ∧ |real x| ≤ 5) : letI := rfftRoundedL Libm.rounded
    ∃ x y : ℕ → Bool,
      (do let rx ← rxBpsk (bandpass (Flt.ofNat 1000) (Flt.ofNat 3000) (ofList r) 16000 8) 16000 1000 (Flt.ofNat 2000 : FloatL Libm.rounded)
          collect rx) = pure ((List.range 2).map x) ∧
      (do let rx ← rxBpsk (ofList (r.map real)) 16000 1000 (real (Flt.ofNat 2000 : FloatL Libm.rounded)); collect rx)
        = pure ((List.range 2).map y) ∧
      ∀ m < 2, 16 * 0.01 < |inPhase 16000 16 (real (Flt.ofNat 2000 : FloatL Libm.rounded)) (fun _ i => (r.map real).getD i 0) m| →
        x m = y m := by
  let := rfftRoundedL Libm.rounded
  obtain ⟨x, y, e1, e2, e3⟩ := C141_bpsk (δ := 1 / 2 ^ 51) (B := 5) (sym := 1000) (S := 50) accurate_rfft (by norm_num) (by norm_num) filter_8
    (radio_2000 (N := 2) (by norm_num) (by norm_num) (by norm_num)) (by norm_num) bin_2000 in_2000 (yields_ofList r) hlen
    (by norm_num) (by norm_num) hr (by norm_num)
  refine ⟨x, y, e1, e2, fun m hm hc => (e3 m hm (lt_trans ?_ hc)).1⟩
  rw [frontMargin]; norm_num
end Verif.Props
