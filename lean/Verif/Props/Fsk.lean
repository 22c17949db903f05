import Verif.Lemmas.Fsk
import Verif.Props.Psk

/-!
# Properties C40–C42: FSK and FM
-/
namespace Verif.Props
open Verif Spec
set_option linter.unusedSectionVars false

variable {ι : Type}

/-! ## C40 FSK transmitters -/

section anyF
variable {F : Type} [Add F] [Sub F] [Mul F] [Div F] [Neg F] [Zero F] [One F] [Flt F]

/-- Guards, any arithmetic. -/
theorem C40_panics [RIter ι Bool] (m : ι) (fs sym : ℕ) (lo hi : F) :
    (txBfsk m fs sym lo hi).Panics ↔
      sym = 0 ∨ fs / 2 < Flt.toNat hi ∨ isInt (Flt.ofNat fs / Flt.ofNat sym : F) = false := by
  unfold txBfsk
  rcases Nat.eq_zero_or_pos sym with rfl | hs
  · simp
  · rw [udiv_pos hs, pure_bind]
    by_cases h1 : Flt.toNat hi ≤ fs / 2
    · rw [rassert_pos (decide_eq_true h1), pure_bind]
      cases h2 : isInt (Flt.ofNat fs / Flt.ofNat sym : F)
      · simp
      · simp; omega
    · simp [rassert, h1]; omega

/-- The number of tones is ignored by `tx_mfsk_signal`. -/
theorem C40_mfsk [RIter ι Bool] (m : ι) (fs sym : ℕ) (lo hi : F) (k : ℕ) : txMfsk m fs sym lo hi k = txBfsk m fs sym lo hi := rfl

/-- `tx_fsk_signal` uses the first two tones of its list, the first one for true, and ignores the others. -/
theorem C40_list [RIter ι Bool] (m : ι) (fs sym : ℕ) (lo hi : F) (l : List F) :
    txFskSignal m fs sym (hi :: lo :: l) = txBfsk m fs sym lo hi := by
  unfold txFskSignal
  rw [index_lt (v := hi :: lo :: l) (i := 0) (by simp), index_lt (v := hi :: lo :: l) (i := 1) (by simp)]
  simp only [pure_bind, List.getElem_cons_zero, List.getElem_cons_succ]
  rfl

/-- … and panics with fewer than two. -/
theorem C40_list_short [RIter ι Bool] (m : ι) (fs sym : ℕ) (l : List F) (h : l.length < 2) : (txFskSignal m fs sym l).Panics := by
  unfold txFskSignal
  rcases Nat.eq_zero_or_pos sym with rfl | hs
  · simp
  · rw [udiv_pos hs, pure_bind]
    match l, h with
    | [], _ => rw [index_ge (by simp)]; exact RM.panics_panic _
    | [x], _ =>
      rw [index_lt (v := [x]) (i := 0) (by simp), pure_bind, index_ge (by simp)]; exact RM.panics_panic _

example : (txFskSignal (ofList [true]) 8000 1000 [(1000 : ℝ)]).Panics := C40_list_short _ _ _ _ (by decide)

end anyF

/-- The waveform: the oscillator runs through bit boundaries. -/
theorem C40_waveform [RIter ι Bool] {m : ι} {msg : List Bool} (h : Yields m msg) {fs sym : ℕ} {lo hi : ℝ}
    (hfs : fs < 2 ^ 64) (h0 : 0 < fs) (hdvd : sym ∣ fs) (hhi : ⌊hi⌋₊ ≤ fs / 2) :
    ∃ it l, txBfsk m fs sym lo hi = pure it ∧ Yields it l ∧ l.length = msg.length * (fs / sym) ∧
      ∀ i, l[i]? = msg[i / (fs / sym)]?.map (fun b => Real.cos (2 * Real.pi * (if b then hi else lo) * i / fs)) := by
  have hsym : 0 < sym := Nat.pos_of_dvd_of_pos hdvd h0
  have hsps : 0 < fs / sym := Nat.div_pos (Nat.le_of_dvd h0 hdvd) hsym
  obtain ⟨it, h1, h2⟩ := txBfsk_ok h (lo := lo) (hi := hi) hsps (by rw [Flt.toNat_real]; omega) ((isInt_real hfs hsym).mpr hdvd)
  refine ⟨it, _, h1, h2, wave_length _ _ _, ?_⟩
  intro i
  rw [wave_getElem? hsps]
  congr 1
  funext b
  rw [Nat.mul_comm, Nat.div_add_mod, phase_real', Flt.cos_real]

example : ∃ it l, txBfsk (ofList [true, false]) 8000 1000 (1000 : ℝ) 2000 = pure it ∧ Yields it l ∧ l.length = 2 * 8 := by
  obtain ⟨it, l, h1, h2, h3, -⟩ := C40_waveform (yields_ofList [true, false]) (fs := 8000) (sym := 1000) (lo := 1000)
    (hi := 2000) (by norm_num) (by norm_num) (by norm_num) (by norm_num)
  exact ⟨it, l, h1, h2, h3⟩

/-! ## C41 FSK receiver -/

/-- The two angular frequencies per sample: 2.5 % above and below the carrier. -/
noncomputable def tone (fs : ℕ) (fc : ℝ) (b : Bool) : ℝ := 2 * Real.pi * (fc * (if b then 1.025 else 0.975)) / fs

theorem fskChunk_offset (fs : ℕ) (fc : ℝ) (idx : ℕ) (l : List ℝ) :
    rxFskChunk fs fc idx l = decide (toneEnergy (tone fs fc false) l.length (fun j => l.getD j 0)
      ≤ toneEnergy (tone fs fc true) l.length (fun j => l.getD j 0)) := by
  rw [rxFskChunk_real]
  have hm : ∀ j : ℕ, 2 * Real.pi * (fc - 5 / 100 * fc / 2) * ((idx : ℝ) / fs + j / fs)
      = tone fs fc false * idx + tone fs fc false * j := by
    intro j; simp only [tone, Bool.false_eq_true, if_false]; ring
  have hp : ∀ j : ℕ, 2 * Real.pi * (fc + 5 / 100 * fc / 2) * ((idx : ℝ) / fs + j / fs)
      = tone fs fc true * idx + tone fs fc true * j := by
    intro j; simp only [tone, if_true]; ring
  simp only [hm, hp]
  rw [toneEnergy_shift _ _ _ (fun j => l.getD j 0), toneEnergy_shift _ _ _ (fun j => l.getD j 0)]

/-- The decision on a block compares its energies at the two tones, whatever the block number. -/
theorem C41_offset {fs : ℕ} (_hfs : 0 < fs) (fc : ℝ) (idx : ℕ) (l : List ℝ) :
    rxFskChunk fs fc idx l = decide (toneEnergy (tone fs fc false) l.length (fun j => l.getD j 0)
      ≤ toneEnergy (tone fs fc true) l.length (fun j => l.getD j 0)) := fskChunk_offset fs fc idx l

/-- Rotating the correlators of a block by any common time offset `τ` (in samples) does not change either energy. -/
theorem C41_energy_shift (w τ : ℝ) (k : ℕ) (x : ℕ → ℝ) :
    (∑ j ∈ Finset.range k, x j * Real.cos (w * (τ + j))) ^ 2 + (∑ j ∈ Finset.range k, x j * Real.sin (w * (τ + j))) ^ 2
      = (∑ j ∈ Finset.range k, x j * Real.cos (w * j)) ^ 2 + (∑ j ∈ Finset.range k, x j * Real.sin (w * j)) ^ 2 := by
  have := toneEnergy_shift w (w * τ) k x
  simpa only [mul_add, toneEnergy] using this

/-- Round trip: exact criterion. -/
theorem C41_roundtrip_iff [RIter ι Bool] {m : ι} {msg : List Bool} (h : Yields m msg) {fs sym : ℕ} {fc : ℝ}
    (hsps : 0 < fs / sym) :
    (do let tx ← txFsk m fs sym fc; let rx ← rxFsk tx fs sym fc; collect rx) = pure msg ↔
      ∀ n b, msg[n]? = some b →
        (b = true ↔ toneEnergy (tone fs fc false) (fs / sym) (fun j => Real.cos (tone fs fc b * (n * (fs / sym) + j : ℕ)))
          ≤ toneEnergy (tone fs fc true) (fs / sym) (fun j => Real.cos (tone fs fc b * (n * (fs / sym) + j : ℕ)))) := by
  obtain ⟨it, e1, e2⟩ := txFsk_ok h (fc := fc) hsps
  obtain ⟨it', e3, e4⟩ := rxFsk_wave (fc := fc) hsps e2
  rw [e1, pure_bind, e3, pure_bind, collect_of_yields e4, RM.ok_inj]
  have hph : ∀ (b : Bool) (i : ℕ), phase fs (fc + bitToNrz b * (fskSep fc / Flt.ofNat 2)) i = tone fs fc b * i := by
    intro b i
    rw [phase_real', tone, bitToNrz_real, fskSep, Flt.lit_real, Flt.ofNat_real]
    cases b <;> simp <;> ring
  have hd : ∀ (n : ℕ) (b : Bool), rxFskChunk fs fc n ((List.range (fs / sym)).map (fun j =>
      Flt.cos (phase fs (fc + bitToNrz b * (fskSep fc / Flt.ofNat 2)) (n * (fs / sym) + j)))) = decide (
        toneEnergy (tone fs fc false) (fs / sym) (fun j => Real.cos (tone fs fc b * (n * (fs / sym) + j : ℕ)))
          ≤ toneEnergy (tone fs fc true) (fs / sym) (fun j => Real.cos (tone fs fc b * (n * (fs / sym) + j : ℕ)))) := by
    intro n b
    rw [fskChunk_offset]
    have he : ∀ w, toneEnergy w ((List.range (fs / sym)).map (fun j =>
        (Flt.cos (phase fs (fc + bitToNrz b * (fskSep fc / Flt.ofNat 2)) (n * (fs / sym) + j)) : ℝ))).length
        (fun j => ((List.range (fs / sym)).map (fun j =>
        (Flt.cos (phase fs (fc + bitToNrz b * (fskSep fc / Flt.ofNat 2)) (n * (fs / sym) + j)) : ℝ))).getD j 0)
        = toneEnergy w (fs / sym) (fun j => Real.cos (tone fs fc b * (n * (fs / sym) + j : ℕ))) := by
      intro w
      unfold toneEnergy
      rw [List.length_map, List.length_range]
      congr 2 <;> apply Finset.sum_congr rfl <;> intro j hj <;> beta_reduce <;>
        rw [List.getD_eq_getElem?_getD, List.getElem?_map, List.getElem?_range (Finset.mem_range.mp hj)] <;>
        simp only [Option.map_some, Option.getD_some, hph, Flt.cos_real]
    rw [he, he]
  simp only [hd]
  constructor
  · intro hm n b hb
    have := congrArg (fun l => l[n]?) hm
    simp only [List.getElem?_mapIdx, hb, Option.map_some, Option.some.injEq] at this
    rw [← this, decide_eq_true_iff, this]
  · intro hc
    apply mapIdx_eq_self
    intro n b hb
    have := hc n b hb
    rw [Bool.eq_iff_iff, decide_eq_true_iff, this]

/-- Round trip as stated in C41: true bits tolerate ties. -/
theorem C41_roundtrip [RIter ι Bool] {m : ι} {msg : List Bool} (h : Yields m msg) {fs sym : ℕ} {fc : ℝ}
    (hsps : 0 < fs / sym)
    (ht : ∀ n : ℕ, msg[n]? = some true →
      toneEnergy (tone fs fc false) (fs / sym) (fun j => Real.cos (tone fs fc true * (n * (fs / sym) + j : ℕ)))
      ≤ toneEnergy (tone fs fc true) (fs / sym) (fun j => Real.cos (tone fs fc true * (n * (fs / sym) + j : ℕ))))
    (hf : ∀ n : ℕ, msg[n]? = some false →
      toneEnergy (tone fs fc true) (fs / sym) (fun j => Real.cos (tone fs fc false * (n * (fs / sym) + j : ℕ)))
      < toneEnergy (tone fs fc false) (fs / sym) (fun j => Real.cos (tone fs fc false * (n * (fs / sym) + j : ℕ)))) :
    (do let tx ← txFsk m fs sym fc; let rx ← rxFsk tx fs sym fc; collect rx) = pure msg := by
  rw [C41_roundtrip_iff h hsps]
  intro n b hb
  cases b
  · simpa using hf n hb
  · simpa using ht n hb

/-- Parameters in the user's terms for which the round trip is unconditional: the carrier is 20, 40, 60, … cycles per
symbol and the upper tone is below half the sample rate. -/
theorem C41_roundtrip_orthogonal [RIter ι Bool] {m : ι} {msg : List Bool} (h : Yields m msg) {fs sym c : ℕ}
    (hsym : 0 < sym) (hc : 0 < c) (hdvd : sym ∣ fs) (hny : (41 * c * sym : ℕ) < fs) :
    (do let tx ← txFsk m fs sym ((20 * c * sym : ℕ) : ℝ)
        let rx ← rxFsk tx fs sym ((20 * c * sym : ℕ) : ℝ); collect rx) = pure msg := by
  have hfs : 0 < fs := by omega
  have hsps : 0 < fs / sym := Nat.div_pos (Nat.le_of_dvd hfs hdvd) hsym
  have hk : ((fs / sym : ℕ) : ℝ) * sym = fs := by exact_mod_cast Nat.div_mul_cancel hdvd
  have hfsR : (0 : ℝ) < fs := by exact_mod_cast hfs
  have hsymR : (0 : ℝ) < sym := by exact_mod_cast hsym
  have hcR : (0 : ℝ) < c := by exact_mod_cast hc
  have hnyR : (41 : ℝ) * c * sym < fs := by exact_mod_cast hny
  have hkR : (0 : ℝ) < ((fs / sym : ℕ) : ℝ) := by exact_mod_cast hsps
  have hpi := Real.pi_pos
  set w := tone fs ((20 * c * sym : ℕ) : ℝ) with hw
  have hwt : w true = 41 * Real.pi * (c * sym / fs) := by rw [hw]; simp [tone]; ring
  have hwf : w false = 39 * Real.pi * (c * sym / fs) := by rw [hw]; simp [tone]; ring
  have hr0 : 0 < (c : ℝ) * sym / fs := by positivity
  have hr1 : 41 * ((c : ℝ) * sym / fs) < 1 := by
    rw [← mul_div_assoc, div_lt_one hfsR]; linarith
  have hkr : ((fs / sym : ℕ) : ℝ) * (c * sym / fs) = c := by
    rw [show ((fs / sym : ℕ) : ℝ) * (c * sym / fs) = c * (((fs / sym : ℕ) : ℝ) * sym) / fs by ring, hk]
    field_simp
  generalize hrd : (c : ℝ) * sym / fs = r at *
  have hsin : ∀ x : ℝ, 0 < x → x < 1 → Real.sin (x * Real.pi) ≠ 0 := fun x h0 h1 =>
    (Real.sin_pos_of_pos_of_lt_pi (by positivity) (by nlinarith)).ne'
  have s1 : Real.sin (w true) ≠ 0 := by
    rw [hwt, show 41 * Real.pi * r = (41 * r) * Real.pi by ring]; exact hsin _ (by positivity) hr1
  have s2 : Real.sin (w false) ≠ 0 := by
    rw [hwf, show 39 * Real.pi * r = (39 * r) * Real.pi by ring]; exact hsin _ (by positivity) (by linarith)
  have s3 : Real.sin ((w true + w false) / 2) ≠ 0 := by
    rw [hwf, hwt, show (41 * Real.pi * r + 39 * Real.pi * r) / 2 = (40 * r) * Real.pi by ring]
    exact hsin _ (by positivity) (by linarith)
  have s4 : Real.sin ((w true - w false) / 2) ≠ 0 := by
    rw [hwf, hwt, show (41 * Real.pi * r - 39 * Real.pi * r) / 2 = r * Real.pi by ring]
    exact hsin _ (by positivity) (by linarith)
  have s5 : Real.sin ((w false + w true) / 2) ≠ 0 := by rw [add_comm]; exact s3
  have s6 : Real.sin ((w false - w true) / 2) ≠ 0 := by
    rw [show (w false - w true) / 2 = -((w true - w false) / 2) by ring, Real.sin_neg, neg_ne_zero]; exact s4
  have selfT := toneEnergy_self (w := w true) (k := fs / sym) (p := 41 * c) (by
    rw [hwt]; push_cast; linear_combination 41 * Real.pi * hkr) s1
  have selfF := toneEnergy_self (w := w false) (k := fs / sym) (p := 39 * c) (by
    rw [hwf]; push_cast; linear_combination 39 * Real.pi * hkr) s2
  have othT := toneEnergy_other (v := w true) (w := w false) (k := fs / sym) (p := 40 * c) (q := c) (by
    rw [hwt, hwf]; push_cast; linear_combination 80 * Real.pi * hkr) (by
    rw [hwt, hwf]; push_cast; linear_combination 2 * Real.pi * hkr) s3 s4
  have othF := toneEnergy_other (v := w false) (w := w true) (k := fs / sym) (p := 40 * c) (q := -c) (by
    rw [hwt, hwf]; push_cast; linear_combination 80 * Real.pi * hkr) (by
    rw [hwt, hwf]; push_cast; linear_combination -2 * Real.pi * hkr) s5 s6
  apply C41_roundtrip h hsps
  · intro n _
    rw [← hw, selfT, othT]; positivity
  · intro n _
    rw [← hw, selfF, othF]; positivity

example : (do let tx ← txFsk (ofList [true, false, false, true]) 44100 100 ((20 * 1 * 100 : ℕ) : ℝ)
              let rx ← rxFsk tx 44100 100 ((20 * 1 * 100 : ℕ) : ℝ); collect rx) = pure [true, false, false, true] :=
  C41_roundtrip_orthogonal (yields_ofList [true, false, false, true]) (by norm_num) (by norm_num) (by norm_num) (by norm_num)

/-- One sample per symbol cannot carry the tone: both energies are equal, and every bit is decided true. -/
theorem C41_one_sample [RIter ι Bool] {m : ι} {msg : List Bool} (h : Yields m msg) {fs sym : ℕ} {fc : ℝ}
    (hsps : fs / sym = 1) :
    (do let tx ← txFsk m fs sym fc; let rx ← rxFsk tx fs sym fc; collect rx) = pure (msg.map (fun _ => true)) := by
  obtain ⟨it, e1, e2⟩ := txFsk_ok h (fc := fc) (fs := fs) (sym := sym) (by omega)
  obtain ⟨it', e3, e4⟩ := rxFsk_wave (fc := fc) (by omega) e2
  rw [e1, pure_bind, e3, pure_bind, collect_of_yields e4, RM.ok_inj, ← mapIdx_const]
  apply mapIdx_congr'
  intro n b _
  rw [fskChunk_offset, hsps]
  simp [toneEnergy]

example : (do let tx ← txFsk (ofList [true, false, false]) 8000 8000 (1000 : ℝ); let rx ← rxFsk tx 8000 8000 (1000 : ℝ); collect rx)
    = pure [true, true, true] := C41_one_sample (yields_ofList [true, false, false]) (by norm_num)

/-- The condition of `C41_roundtrip_iff` fails there for a false bit. -/
example : ¬ ∀ (n : ℕ) b, [false][n]? = some b →
    (b = true ↔ toneEnergy (tone 8000 1000 false) (8000 / 8000) (fun j => Real.cos (tone 8000 1000 b * (n * (8000 / 8000) + j : ℕ)))
      ≤ toneEnergy (tone 8000 1000 true) (8000 / 8000) (fun j => Real.cos (tone 8000 1000 b * (n * (8000 / 8000) + j : ℕ)))) := by
  rw [← C41_roundtrip_iff (yields_ofList [false]) (by norm_num), C41_one_sample (yields_ofList [false]) (by norm_num), RM.ok_inj]
  decide

/-- The conditions of `C41_roundtrip` for a true bit hold there: both energies are the same. -/
example : (do let tx ← txFsk (ofList [true, true]) 8000 8000 (1000 : ℝ); let rx ← rxFsk tx 8000 8000 (1000 : ℝ); collect rx)
    = pure [true, true] :=
  C41_roundtrip (yields_ofList _) (by norm_num) (fun n _ => by simp [toneEnergy]) (fun n hn => by
    match n with
    | 0 => simp at hn
    | 1 => simp at hn
    | n + 2 => simp at hn)

/-! ## C42 FM -/

/-- Sample `i` is `cos(2π·fc·i/fs + 0.05·S)` with `S` the sum of the message values held for samples `0..i`: each whole
symbol before contributes its value `fs/sym` times, the current one `i mod (fs/sym) + 1` times. -/
theorem C42_waveform [RIter ι ℝ] {m : ι} {msg : List ℝ} (h : Yields m msg) {fs sym : ℕ} {fc : ℝ} (hsps : 0 < fs / sym) :
    ∃ it l, txFm m fs sym fc = pure it ∧ Yields it l ∧ l.length = msg.length * (fs / sym) ∧
      (∀ x ∈ l, -1 ≤ x ∧ x ≤ 1) ∧
      ∀ i, i < msg.length * (fs / sym) → l[i]? = some (Real.cos (2 * Real.pi * fc * i / fs
        + 0.05 * ∑ t ∈ Finset.range (i + 1), msg.getD (t / (fs / sym)) 0)) := by
  obtain ⟨it, e1, e2⟩ := txFm_ok h (fc := fc) hsps
  have hlen : (msg.flatMap (List.replicate (fs / sym))).length = msg.length * (fs / sym) := by
    rw [flatMap_replicate_eq_wave, wave_length]
  refine ⟨it, _, e1, e2, by rw [List.length_mapIdx, runSums_length, hlen], ?_, ?_⟩
  · intro x hx
    obtain ⟨i, hi, rfl⟩ := List.mem_mapIdx.mp hx
    rw [Flt.cos_real]
    exact ⟨Real.neg_one_le_cos _, Real.cos_le_one _⟩
  · intro i hi
    rw [List.getElem?_mapIdx, runSums_getElem?, if_pos (by rw [hlen]; exact hi), Option.map_some]
    have hs : ((msg.flatMap (List.replicate (fs / sym))).take (i + 1)).foldl (· + ·) (0 : ℝ)
        = ∑ t ∈ Finset.range (i + 1), msg.getD (t / (fs / sym)) 0 := by
      rw [← rsum_range]
      unfold rsum
      congr 1
      apply List.ext_getElem?
      intro j
      by_cases hj : j < i + 1
      · rw [List.getElem?_take_of_lt hj, List.getElem?_map, List.getElem?_range hj, flatMap_replicate_eq_wave,
          wave_getElem? hsps, Option.map_some, List.getD_eq_getElem?_getD]
        have : j / (fs / sym) < msg.length := by rw [Nat.div_lt_iff_lt_mul hsps]; omega
        rw [List.getElem?_eq_getElem this]
        rfl
      · rw [List.getElem?_eq_none (by simp; omega), List.getElem?_eq_none (by simp; omega)]
    rw [hs]
    simp only [Flt.cos_real, Flt.ofNat_real, Flt.pi_real, Flt.lit_real, Option.some.injEq]
    congr 2
    · push_cast; ring
    · norm_num

example : ∃ it l, txFm (ofList [(1 : ℝ), -2, 3]) 8000 1000 (1000 : ℝ) = pure it ∧ Yields it l ∧ l.length = 3 * 8 := by
  obtain ⟨it, l, h1, h2, h3, -⟩ := C42_waveform (yields_ofList [(1 : ℝ), -2, 3]) (fs := 8000) (sym := 1000) (fc := 1000)
    (by norm_num)
  exact ⟨it, l, h1, h2, h3⟩

end Verif.Props
