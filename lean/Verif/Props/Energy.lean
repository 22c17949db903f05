import Verif.Lemmas.Energy
import Verif.Lemmas.Ofdm
import Verif.Lemmas.Cases
import Verif.Props.Cdma
import Verif.Props.Fh
import Verif.Props.Fsk

/-!
# C77, C78: what the energy of a transmission reveals

`SignSq F` (Lemmas/Energy) holds of `ℝ` and of IEEE doubles with any `libm` (`FloatL L`), so C77 is bit-exact in the
arithmetic of the program.
-/
namespace Verif.Props
open Verif Spec
set_option linter.unusedSectionVars false

variable {ι κ : Type}

/-! ## C77 energy measurements see neither message nor key -/

section anyF
variable {F : Type} [Add F] [Sub F] [Mul F] [Div F] [Neg F] [Zero F] [One F] [Flt F]

/-- Two recordings no energy measurement of the library can tell apart. -/
structure SameEnergy (a b : List F) : Prop where
  /-- squared samples agree one by one -/
  squares : a.map (fun x => x * x) = b.map (fun x => x * x)
  /-- `avg_energy` -/
  avg : avgEnergy a = avgEnergy b
  /-- `energy`, for every sample rate -/
  energy : ∀ rate : F, energy (ofList a) rate = energy (ofList b) rate
  /-- `power`, for every sample rate -/
  power : ∀ rate : F, power (ofList a) rate = power (ofList b) rate
  /-- `energy_detector` of the Python module -/
  db : energyDetectorDb a = energyDetectorDb b
  /-- `willie::energy_detector`, for every threshold -/
  detector : ∀ n0 : F, energyDetector a n0 = energyDetector b n0

theorem sameEnergy_of_squares {a b : List F} (h : a.map (fun x => x * x) = b.map (fun x => x * x)) : SameEnergy a b := by
  have hl : a.length = b.length := by simpa using congrArg List.length h
  have h2 : a.map (fun s => powi s 2) = b.map (fun s => powi s 2) := h
  have hp : ∀ (l : List F), (l.mapIdx (fun i x => (i, x))).foldl
      (fun (acc : ℕ × F) (p : ℕ × F) => (p.1, acc.2 + powi p.2 2)) (0, 0)
      = ((l.map (fun x => x * x)).mapIdx (fun i x => (i, x))).foldl
        (fun (acc : ℕ × F) (p : ℕ × F) => (p.1, acc.2 + p.2)) (0, 0) := by
    intro l
    rw [← mapIdx_const, mapIdx_mapIdx', ← map_mapIdx' (fun i x => (i, x)) (fun p : ℕ × F => (p.1, p.2 * p.2)), List.foldl_map]
    rfl
  refine ⟨h, by unfold avgEnergy; rw [h2, hl], ?_, ?_, by unfold energyDetectorDb; rw [h2],
    fun n0 => by unfold energyDetector; rw [h2, hl]⟩
  · intro rate
    unfold Verif.energy
    rw [collect_of_yields ((yields_ofList a).rmap _), collect_of_yields ((yields_ofList b).rmap _), h2]
  · intro rate
    unfold Verif.power
    rw [collect_of_yields (yields_ofList a).renumerate, collect_of_yields (yields_ofList b).renumerate]
    simp only [pure_bind]
    rw [hp a, hp b, h]

variable [SignSq F]

theorem C77_bpsk [RIter ι Bool] [RIter κ Bool] {m : ι} {m' : κ} {msg msg' : List Bool} (h : Yields m msg)
    (h' : Yields m' msg') (hlen : msg.length = msg'.length) {fs sym : ℕ} {fc : F} (hsps : 0 < fs / sym) {a b : List F}
    (ha : (do let tx ← txBpsk m fs sym fc; collect tx) = pure a)
    (hb : (do let tx ← txBpsk m' fs sym fc; collect tx) = pure b) : SameEnergy a b := by
  apply sameEnergy_of_squares
  rw [txBpsk_collected h hsps ha, txBpsk_collected h' hsps hb, map_wave, map_wave]
  exact wave_blind hlen (fun n x y j => by rw [SignSq.left, SignSq.left])

/-- Neither the message nor the key, not even the length of the key. -/
theorem C77_cdma [RIter ι Bool] [RIter κ Bool] {m : ι} {m' : κ} {msg msg' : List Bool} (h : Yields m msg)
    (h' : Yields m' msg') (hlen : msg.length = msg'.length) {fs sym : ℕ} {fc : F} {key key' : List Bool} {a b : List F}
    (ha : (do let tx ← txCdmaBpsk m fs sym fc key; collect tx) = pure a)
    (hb : (do let tx ← txCdmaBpsk m' fs sym fc key'; collect tx) = pure b) : SameEnergy a b := by
  apply sameEnergy_of_squares
  rw [(txCdmaBpsk_collected h ha).2, (txCdmaBpsk_collected h' hb).2, mapIdx_wave, mapIdx_wave, map_wave, map_wave]
  exact wave_blind hlen (fun n x y j => by rw [SignSq.right, SignSq.right, SignSq.left, SignSq.left])

/-- Spreading does not change the energy either: a spread transmission and a plain one cannot be told apart. -/
theorem C77_spread [RIter ι Bool] [RIter κ Bool] {m : ι} {m' : κ} {msg msg' : List Bool} (h : Yields m msg)
    (h' : Yields m' msg') (hlen : msg.length = msg'.length) {fs sym : ℕ} {fc : F} {key : List Bool} {a b : List F}
    (ha : (do let tx ← txCdmaBpsk m fs sym fc key; collect tx) = pure a)
    (hb : (do let tx ← txBpsk m' fs sym fc; collect tx) = pure b) : SameEnergy a b := by
  apply sameEnergy_of_squares
  obtain ⟨hsps, e⟩ := txCdmaBpsk_collected h ha
  rw [e, txBpsk_collected h' hsps hb, mapIdx_wave, map_wave, map_wave]
  exact wave_blind hlen (fun n x y j => by rw [SignSq.right, SignSq.left, SignSq.left])

/-- The same message under two keys: CDMA-QPSK. -/
theorem C77_cdma_qpsk_key [RIter ι Bool] [RIter κ Bool] {m : ι} {m' : κ} {msg : List Bool} (h : Yields m msg)
    (h' : Yields m' msg) {fs sym : ℕ} {fc : F} {key key' : List Bool} {a b : List F}
    (ha : (do let tx ← txCdmaQpsk m fs sym fc key; collect tx) = pure a)
    (hb : (do let tx ← txCdmaQpsk m' fs sym fc key'; collect tx) = pure b) : SameEnergy a b := by
  apply sameEnergy_of_squares
  rw [(txCdmaQpsk_collected h ha).2, (txCdmaQpsk_collected h' hb).2, mapIdx_wave, mapIdx_wave, map_wave, map_wave]
  simp only [SignSq.right]

/-- Frequency hopping, for every generator. -/
theorem C77_hopping {ρ : Type} [Rng ρ] [RIter ι Bool] [RIter κ Bool] {m : ι} {m' : κ} {msg msg' : List Bool}
    (h : Yields m msg) (h' : Yields m' msg') (hlen : msg.length = msg'.length) {low high : F} {nf fs sym : ℕ}
    (hn : 2 ≤ nf) (hsps : 0 < fs / sym) {a b : List F}
    (ha : (do let tx ← txFhBpsk ρ m low high nf fs sym; collect tx) = pure a)
    (hb : (do let tx ← txFhBpsk ρ m' low high nf fs sym; collect tx) = pure b) : SameEnergy a b := by
  apply sameEnergy_of_squares
  rw [txFhBpsk_collected h hn hsps ha, txFhBpsk_collected h' hn hsps hb, map_wave, map_wave]
  exact wave_blind hlen (fun n x y j => by rw [SignSq.left, SignSq.left])

end anyF

/-- C77 in the arithmetic of the program, with the accepted parameters spelled out: for every `libm`, two spread
transmissions of messages of the same length exist and agree in every energy measurement, bit for bit. -/
theorem C77_ieee {L : Libm} [RIter ι Bool] [RIter κ Bool] {m : ι} {m' : κ} {msg msg' : List Bool} (h : Yields m msg)
    (h' : Yields m' msg') (hlen : msg.length = msg'.length) {fs sym : ℕ} {fc : FloatL L} {key key' : List Bool}
    (hfs : fs < 2 ^ 53) (hsym : 0 < sym) (hf : F64.Fin fc) (hfc : ⌊F64.val fc⌋₊ ≤ fs / 2)
    (hk : key ≠ []) (hd : sym * key.length ∣ fs) (hn : 2 * (sym * key.length) ≤ fs)
    (hk' : key' ≠ []) (hd' : sym * key'.length ∣ fs) (hn' : 2 * (sym * key'.length) ≤ fs) :
    ∃ a b, (do let tx ← txCdmaBpsk m fs sym fc key; collect tx) = pure a ∧
      (do let tx ← txCdmaBpsk m' fs sym fc key'; collect tx) = pure b ∧ SameEnergy a b := by
  obtain ⟨it, e1, e2⟩ := txCdmaBpsk_ok h (fc := fc) (key := key)
    ((F64.cdmaOk_ieee hfs hf).mpr ⟨hsym, List.length_pos_of_ne_nil hk, hd, hn, hfc⟩)
  obtain ⟨it', e3, e4⟩ := txCdmaBpsk_ok h' (fc := fc) (key := key')
    ((F64.cdmaOk_ieee hfs hf).mpr ⟨hsym, List.length_pos_of_ne_nil hk', hd', hn', hfc⟩)
  have ha := collect_of_yields e2
  rw [← pure_bind it collect, ← e1] at ha
  have hb := collect_of_yields e4
  rw [← pure_bind it' collect, ← e3] at hb
  exact ⟨_, _, ha, hb, C77_cdma h h' hlen ha hb⟩

/-- The same for the other transmitters, at the parameters of `Verif.Cases`. -/
example : ∃ a b : List ℝ, (do let tx ← txCdmaBpsk (ofList [true, false, false]) 16000 1000 (2000 : ℝ) [true, false]; collect tx) = pure a ∧
    (do let tx ← txBpsk (ofList [false, true, true]) 16000 1000 (2000 : ℝ); collect tx) = pure b ∧ SameEnergy a b := by
  obtain ⟨a, ha, -⟩ := Cases.cdmaBpsk [true, false, false] (key := [true, false]) (by decide)
  obtain ⟨b, hb, -⟩ := Cases.bpsk [false, true, true]
  exact ⟨a, b, ha, hb, C77_spread (yields_ofList [true, false, false]) (yields_ofList [false, true, true]) rfl ha hb⟩

example : ∃ a b : List ℝ, (do let tx ← txCdmaBpsk (ofList [true, false]) 16000 1000 (2000 : ℝ) [true, false]; collect tx) = pure a ∧
    (do let tx ← txCdmaBpsk (ofList [false, false]) 16000 1000 (2000 : ℝ) [true, true, false, true]; collect tx) = pure b ∧
    SameEnergy a b := by
  obtain ⟨a, ha, -⟩ := Cases.cdmaBpsk [true, false] (key := [true, false]) (by decide)
  obtain ⟨b, hb, -⟩ := Cases.cdmaBpsk [false, false] (key := [true, true, false, true]) (by decide)
  exact ⟨a, b, ha, hb, C77_cdma (yields_ofList [true, false]) (yields_ofList [false, false]) rfl ha hb⟩

example : ∃ a b : List ℝ, (do let tx ← txCdmaQpsk (ofList [true, false]) 16000 1000 (2000 : ℝ) [true, false]; collect tx) = pure a ∧
    (do let tx ← txCdmaQpsk (ofList [true, false]) 16000 1000 (2000 : ℝ) [true, true, false, true]; collect tx) = pure b ∧
    SameEnergy a b := by
  obtain ⟨a, ha, -⟩ := Cases.cdmaQpsk [true, false] (key := [true, false]) (by decide)
  obtain ⟨b, hb, -⟩ := Cases.cdmaQpsk [true, false] (key := [true, true, false, true]) (by decide)
  exact ⟨a, b, ha, hb, C77_cdma_qpsk_key (yields_ofList _) (yields_ofList _) ha hb⟩

example (ρ : Type) [Rng ρ] : ∃ a b : List ℝ,
    (do let tx ← txFhBpsk ρ (ofList [true, false]) (1000 : ℝ) 3000 4 16000 1000; collect tx) = pure a ∧
    (do let tx ← txFhBpsk ρ (ofList [false, false]) (1000 : ℝ) 3000 4 16000 1000; collect tx) = pure b ∧ SameEnergy a b := by
  obtain ⟨a, ha, -⟩ := Cases.hopping ρ [true, false]
  obtain ⟨b, hb, -⟩ := Cases.hopping ρ [false, false]
  exact ⟨a, b, ha, hb, C77_hopping (yields_ofList [true, false]) (yields_ofList [false, false]) rfl (by norm_num) (by norm_num) ha hb⟩

/-- Different messages, keys of different lengths, any `libm`. -/
example (L : Libm) : ∃ a b,
    (do let tx ← txCdmaBpsk (ofList [true, false, false]) 16000 1000 (Flt.ofNat 2000 : FloatL L) [true, false]; collect tx)
      = pure a ∧
    (do let tx ← txCdmaBpsk (ofList [false, true, true]) 16000 1000 (Flt.ofNat 2000 : FloatL L) [false, true, true, true]
        collect tx) = pure b ∧ avgEnergy a = avgEnergy b := by
  obtain ⟨h1, h2⟩ := F64.ofNat_exact (n := 2000) (by norm_num)
  have h3 : F64.val (Flt.ofNat 2000 : FloatL L) = ((2000 : ℕ) : ℝ) := h2
  obtain ⟨a, b, ha, hb, h⟩ := C77_ieee (L := L) (yields_ofList [true, false, false]) (yields_ofList [false, true, true]) rfl
    (fs := 16000) (sym := 1000) (fc := (Flt.ofNat 2000 : FloatL L)) (key := [true, false]) (key' := [false, true, true, true])
    (by norm_num) (by norm_num) h1 (by rw [h3, Nat.floor_natCast]; norm_num) (by simp) (by simp) (by simp) (by simp)
    (by simp) (by simp)
  exact ⟨a, b, ha, hb, h.avg⟩

/-- The plain transmitter meets the hypotheses of `C77_bpsk` (and those of `C77_spread`, with the example above). -/
example (L : Libm) (msg msg' : List Bool) (hlen : msg.length = msg'.length) : ∃ a b,
    (do let tx ← txBpsk (ofList msg) 16000 1000 (Flt.ofNat 2000 : FloatL L); collect tx) = pure a ∧
    (do let tx ← txBpsk (ofList msg') 16000 1000 (Flt.ofNat 2000 : FloatL L); collect tx) = pure b ∧ SameEnergy a b := by
  obtain ⟨h1, h2⟩ := F64.ofNat_exact (n := 2000) (by norm_num)
  have h3 : F64.val (Flt.ofNat 2000 : FloatL L) = ((2000 : ℕ) : ℝ) := h2
  have g1 : Flt.toNat (Flt.ofNat 2000 : FloatL L) ≤ 16000 / 2 := by
    have : Flt.toNat (Flt.ofNat 2000 : FloatL L) = min ⌊F64.val (Flt.ofNat 2000 : FloatL L)⌋₊ (2 ^ 64 - 1) := F64.toNat_val h1
    rw [this, h3, Nat.floor_natCast]; norm_num
  have g2 : isInt (Flt.ofNat 16000 / Flt.ofNat 1000 : FloatL L) = true :=
    (F64.guard_iff (by norm_num) (by norm_num)).mpr ⟨by norm_num, by norm_num⟩
  obtain ⟨it, e1, e2⟩ := txBpsk_ok (yields_ofList msg) (fs := 16000) (sym := 1000) (by norm_num) g1 g2
  obtain ⟨it', e3, e4⟩ := txBpsk_ok (yields_ofList msg') (fs := 16000) (sym := 1000) (by norm_num) g1 g2
  have ha := collect_of_yields e2
  rw [← pure_bind it collect, ← e1] at ha
  have hb := collect_of_yields e4
  rw [← pure_bind it' collect, ← e3] at hb
  exact ⟨_, _, ha, hb, C77_bpsk (yields_ofList msg) (yields_ofList msg') hlen (by norm_num) ha hb⟩

/-! ## C78 energy per symbol -/

/-- A symbol of `k` samples at rate `fs` holds a whole number of half periods of a carrier at `f`, and the carrier is not a
multiple of half the sample rate. -/
def WholeHalf (fs k : ℕ) (f : ℝ) : Prop := (∃ p : ℤ, k * (2 * f) = p * fs) ∧ ∀ q : ℤ, 2 * f ≠ q * fs

/-- Every symbol (`k` samples) of the recording has energy `E`, there are `n` symbols, the mean energy per sample is `E / k`
and the energy in joules is the number of symbols times `E` over the sample rate. -/
structure SymbolEnergy (a : List ℝ) (k n : ℕ) (E : ℝ) : Prop where
  symbols : (blocks k a).map (fun s => (s.map (fun x => x ^ 2)).sum) = List.replicate n E
  avg : 0 < n → avgEnergy a = E / k
  energy : ∀ rate : ℝ, energy (ofList a) rate = pure (n * E / rate)

theorem wave_energy {A : Type} {k : ℕ} (hk : 0 < k) {w : ℕ → A → ℕ → ℝ} {l : List A} {E : ℝ}
    (h : ∀ n, ∀ a ∈ l, ∑ j ∈ Finset.range k, w n a j ^ 2 = E) : SymbolEnergy (wave k w l) k l.length E := by
  have h1 : (blocks k (wave k w l)).map (fun s => (s.map (fun x => x ^ 2)).sum) = List.replicate l.length E := by
    rw [blocks_wave hk, map_mapIdx']
    apply List.ext_getElem
    · simp
    · intro i hi _
      rw [List.getElem_mapIdx, List.getElem_replicate, ← h i _ (List.getElem_mem (by simpa using hi)), ← rsum_range,
        rsum_eq_sum, List.map_map]
      rfl
  have h2 : ((wave k w l).map (fun x => x ^ 2)).sum = l.length * E := by
    have := congrArg List.sum h1
    rw [List.sum_replicate, nsmul_eq_mul] at this
    rw [← this]
    conv_lhs => rw [← blocks_flatten k hk (wave k w l), List.map_flatten, List.sum_flatten, List.map_map]
    rfl
  have h3 : ((wave k w l).map (fun s => powi s 2)).sum = l.length * E := by
    rw [← h2]; congr 2; funext x; rw [powi_real]
  refine ⟨h1, ?_, ?_⟩
  · intro hn
    unfold avgEnergy
    rw [rsum_eq_sum, wave_length, h3, Flt.ofNat_real]
    have : (0 : ℝ) < l.length := by exact_mod_cast hn
    have : (0 : ℝ) < k := by exact_mod_cast hk
    push_cast
    field_simp
  · intro rate
    unfold Verif.energy
    rw [collect_of_yields ((yields_ofList _).rmap _), pure_bind, rsum_eq_sum, h3]

theorem WholeHalf.dphi {fs k : ℕ} {f : ℝ} (hk : 0 < k) (h : WholeHalf fs k f) :
    ∃ p : ℤ, (k : ℝ) * dphi fs f = p * Real.pi ∧ Real.sin (dphi fs f) ≠ 0 := by
  obtain ⟨⟨p, hp⟩, hne⟩ := h
  have hfs : (fs : ℝ) ≠ 0 := by
    intro h0
    have hk' : (0 : ℝ) < k := by exact_mod_cast hk
    have : f = 0 := by
      rw [h0, mul_zero] at hp
      rcases mul_eq_zero.mp hp with h | h
      · exact absurd h hk'.ne'
      · linarith
    exact hne 0 (by rw [this]; simp)
  refine ⟨p, ?_, ?_⟩
  · unfold Verif.dphi
    field_simp
    linear_combination hp
  · intro h0
    obtain ⟨q, hq⟩ := Real.sin_eq_zero_iff.mp h0
    apply hne q
    unfold Verif.dphi at hq
    field_simp at hq
    exact hq.symm

theorem WholeHalf.cos_energy {fs k : ℕ} {f : ℝ} (hk : 0 < k) (h : WholeHalf fs k f) (m : ℕ) :
    ∑ j ∈ Finset.range k, Flt.cos (phase fs f (m + j)) ^ 2 = (k : ℝ) / 2 := by
  obtain ⟨p, h1, h2⟩ := h.dphi hk
  rw [← sum_cos_sq_half h1 h2 m]
  apply Finset.sum_congr rfl
  intro j _
  rw [phase_real]
  rfl

theorem WholeHalf.qpsk_energy {fs k : ℕ} {f : ℝ} (hk : 0 < k) (h : WholeHalf fs k f) (m : ℕ) (x y : Bool) :
    ∑ j ∈ Finset.range k, (bitToNrz x * Flt.cos (phase fs f (m + j)) + -(bitToNrz y) * Flt.sin (phase fs f (m + j))) ^ 2
      = (k : ℝ) := by
  obtain ⟨p, h1, h2⟩ := h.dphi hk
  have e1 := sum_cos_sq_half h1 h2 m
  have e2 := sum_sin_sq_half h1 h2 m
  have e3 := sum_cos_sin_half h1 h2 m
  have : ∀ j ∈ Finset.range k,
      (bitToNrz x * Flt.cos (phase fs f (m + j)) + -(bitToNrz y) * Flt.sin (phase fs f (m + j))) ^ 2
      = Real.cos ((m + j : ℕ) * Verif.dphi fs f) ^ 2 + Real.sin ((m + j : ℕ) * Verif.dphi fs f) ^ 2
        + (-2 * bitToNrz x * bitToNrz y) * (Real.cos ((m + j : ℕ) * Verif.dphi fs f) * Real.sin ((m + j : ℕ) * Verif.dphi fs f)) := by
    intro j _
    rw [phase_real]
    show (bitToNrz x * Real.cos ((m + j : ℕ) * Verif.dphi fs f) + -(bitToNrz y) * Real.sin ((m + j : ℕ) * Verif.dphi fs f)) ^ 2 = _
    have hx := bitToNrz_sq x
    have hy := bitToNrz_sq y
    linear_combination Real.cos ((m + j : ℕ) * Verif.dphi fs f) ^ 2 * hx + Real.sin ((m + j : ℕ) * Verif.dphi fs f) ^ 2 * hy
  rw [Finset.sum_congr rfl this, Finset.sum_add_distrib, Finset.sum_add_distrib, ← Finset.mul_sum, e1, e2, e3]
  ring

/-- BPSK: half a unit per sample, whatever the message. -/
theorem C78_bpsk [RIter ι Bool] {m : ι} {msg : List Bool} (h : Yields m msg) {fs sym : ℕ} {fc : ℝ} (hsps : 0 < fs / sym)
    (hw : WholeHalf fs (fs / sym) fc) {a : List ℝ} (ha : (do let tx ← txBpsk m fs sym fc; collect tx) = pure a) :
    SymbolEnergy a (fs / sym) msg.length ((fs / sym : ℕ) / 2) := by
  rw [txBpsk_collected h hsps ha]
  apply wave_energy hsps
  intro n b _
  rw [← hw.cos_energy hsps (n * (fs / sym))]
  apply Finset.sum_congr rfl
  intro j _
  rw [mul_pow, sq (bitToNrz b), bitToNrz_sq, one_mul]

/-- CDMA-BPSK: the same, whatever the key. -/
theorem C78_cdma_bpsk [RIter ι Bool] {m : ι} {msg : List Bool} (h : Yields m msg) {fs sym : ℕ} {fc : ℝ} {key : List Bool}
    (hw : WholeHalf fs (fs / sym) fc) {a : List ℝ} (ha : (do let tx ← txCdmaBpsk m fs sym fc key; collect tx) = pure a) :
    SymbolEnergy a (fs / sym) msg.length ((fs / sym : ℕ) / 2) := by
  obtain ⟨hsps, e⟩ := txCdmaBpsk_collected h ha
  rw [e, mapIdx_wave]
  apply wave_energy hsps
  intro n b _
  rw [← hw.cos_energy hsps (n * (fs / sym))]
  apply Finset.sum_congr rfl
  intro j _
  rw [mul_pow, mul_pow, sq (bitToNrz b), bitToNrz_sq, one_mul, sq (bitToNrz _), bitToNrz_sq, mul_one]

/-- QPSK: one unit per sample; a symbol carries two bits, so a bit costs what it costs in BPSK. -/
theorem C78_qpsk [RIter ι Bool] {m : ι} {msg : List Bool} (h : Yields m msg) {fs sym : ℕ} {fc : ℝ} (hsps : 0 < fs / sym)
    (hw : WholeHalf fs (fs / sym) fc) {a : List ℝ} (ha : (do let tx ← txQpsk m fs sym fc; collect tx) = pure a) :
    SymbolEnergy a (fs / sym) (msg.length / 2) (fs / sym : ℕ) := by
  obtain ⟨it, e1, e2⟩ := txQpsk_ok h (fc := fc) hsps
  rw [e1, pure_bind, collect_of_yields e2, RM.ok_inj] at ha
  rw [← ha, ← pairs_length]
  apply wave_energy hsps
  intro n p _
  exact hw.qpsk_energy hsps _ _ _

theorem C78_cdma_qpsk [RIter ι Bool] {m : ι} {msg : List Bool} (h : Yields m msg) {fs sym : ℕ} {fc : ℝ} {key : List Bool}
    (hw : WholeHalf fs (fs / sym) fc) {a : List ℝ} (ha : (do let tx ← txCdmaQpsk m fs sym fc key; collect tx) = pure a) :
    SymbolEnergy a (fs / sym) (msg.length / 2) (fs / sym : ℕ) := by
  obtain ⟨hsps, e⟩ := txCdmaQpsk_collected h ha
  rw [e, mapIdx_wave, ← pairs_length]
  apply wave_energy hsps
  intro n p _
  rw [← hw.qpsk_energy hsps (n * (fs / sym)) p.1 p.2]
  apply Finset.sum_congr rfl
  intro j _
  rw [mul_pow, sq (bitToNrz (keyBit _ _ _)), bitToNrz_sq, mul_one]

/-- Two-tone FSK with chosen tones. -/
theorem C78_bfsk [RIter ι Bool] {m : ι} {msg : List Bool} (h : Yields m msg) {fs sym : ℕ} {lo hi : ℝ} (hsps : 0 < fs / sym)
    (hl : WholeHalf fs (fs / sym) lo) (hh : WholeHalf fs (fs / sym) hi) {a : List ℝ}
    (ha : (do let tx ← txBfsk m fs sym lo hi; collect tx) = pure a) :
    SymbolEnergy a (fs / sym) msg.length ((fs / sym : ℕ) / 2) := by
  rw [txBfsk_collected h hsps ha]
  apply wave_energy hsps
  intro n b _
  cases b
  · exact hl.cos_energy hsps _
  · exact hh.cos_energy hsps _

/-- FSK: the tones are 2.5 % below and above the carrier. -/
theorem C78_fsk [RIter ι Bool] {m : ι} {msg : List Bool} (h : Yields m msg) {fs sym : ℕ} {fc : ℝ} (hsps : 0 < fs / sym)
    (hl : WholeHalf fs (fs / sym) (975 / 1000 * fc)) (hh : WholeHalf fs (fs / sym) (1025 / 1000 * fc)) {a : List ℝ}
    (ha : (do let tx ← txFsk m fs sym fc; collect tx) = pure a) :
    SymbolEnergy a (fs / sym) msg.length ((fs / sym : ℕ) / 2) := by
  obtain ⟨it, e1, e2⟩ := txFsk_ok h (fc := fc) hsps
  rw [e1, pure_bind, collect_of_yields e2, RM.ok_inj] at ha
  rw [← ha]
  apply wave_energy hsps
  intro n b _
  have ht : fc + bitToNrz b * (fskSep fc / Flt.ofNat 2) = if b then 1025 / 1000 * fc else 975 / 1000 * fc := by
    rw [bitToNrz_real, fskSep, Flt.lit_real, Flt.ofNat_real]
    cases b <;> simp <;> ring
  simp only [ht]
  cases b
  · exact hl.cos_energy hsps _
  · exact hh.cos_energy hsps _

/-- Hopping: every hop frequency fits the symbol. -/
theorem C78_hopping {ρ : Type} [Rng ρ] [RIter ι Bool] {m : ι} {msg : List Bool} (h : Yields m msg) {low high : ℝ}
    {nf fs sym : ℕ} (hn : 2 ≤ nf) (hsps : 0 < fs / sym) {freqs : List ℝ} (hf : Yields (linspace low high nf) freqs)
    (hw : ∀ f ∈ freqs, WholeHalf fs (fs / sym) f) {a : List ℝ}
    (ha : (do let tx ← txFhBpsk ρ m low high nf fs sym; collect tx) = pure a) :
    SymbolEnergy a (fs / sym) msg.length ((fs / sym : ℕ) / 2) := by
  obtain rfl := (linspace_yields low high nf).unique hf
  rw [txFhBpsk_collected h hn hsps ha]
  apply wave_energy hsps
  intro n b _
  have := (hw (hopOf ρ low high nf n) (hopAt_mem _ (by simp only [hopFreqs_length]; omega) _)).cos_energy hsps 0
  rw [← this]
  apply Finset.sum_congr rfl
  intro j _
  rw [mul_pow, sq (bitToNrz b), bitToNrz_sq, one_mul, Nat.zero_add]

/-- Whole numbers of half periods, for carriers in whole hertz. -/
theorem WholeHalf.of_nat {fs k f p : ℕ} (h : k * (2 * f) = p * fs) (hq : ¬ fs ∣ 2 * f) : WholeHalf fs k (f : ℝ) := by
  refine ⟨⟨p, by exact_mod_cast h⟩, fun q hq' => hq ?_⟩
  have : (2 * f : ℤ) = q * fs := by exact_mod_cast hq'
  exact Int.natCast_dvd_natCast.mp ⟨q, by push_cast; rw [this]; ring⟩

example : ∃ a : List ℝ, (do let tx ← txBpsk (ofList [true, false, true]) 16000 1000 (2000 : ℝ); collect tx) = pure a ∧
    SymbolEnergy a 16 3 8 := by
  obtain ⟨a, ha, -⟩ := Cases.bpsk [true, false, true]
  have := C78_bpsk (yields_ofList _) (by norm_num) (WholeHalf.of_nat (f := 2000) (p := 4) (by norm_num) (by norm_num)) ha
  exact ⟨a, ha, by norm_num at this; exact this⟩

example : ∃ a : List ℝ, (do let tx ← txCdmaBpsk (ofList [true, false, true]) 16000 1000 (2000 : ℝ) [true, false]; collect tx) = pure a ∧
    SymbolEnergy a 16 3 8 := by
  obtain ⟨a, ha, -⟩ := Cases.cdmaBpsk [true, false, true] (key := [true, false]) (by decide)
  have := C78_cdma_bpsk (yields_ofList _) (WholeHalf.of_nat (f := 2000) (p := 4) (by norm_num) (by norm_num)) ha
  exact ⟨a, ha, by norm_num at this; exact this⟩

example : ∃ a : List ℝ, (do let tx ← txQpsk (ofList [true, false, true, true]) 16000 1000 (2000 : ℝ); collect tx) = pure a ∧
    SymbolEnergy a 16 2 16 := by
  obtain ⟨a, ha, -⟩ := Cases.qpsk [true, false, true, true]
  have := C78_qpsk (yields_ofList _) (by norm_num) (WholeHalf.of_nat (f := 2000) (p := 4) (by norm_num) (by norm_num)) ha
  exact ⟨a, ha, by norm_num at this; exact this⟩

example : ∃ a : List ℝ, (do let tx ← txCdmaQpsk (ofList [true, false, true, true]) 16000 1000 (2000 : ℝ) [true, false]; collect tx) = pure a ∧
    SymbolEnergy a 16 2 16 := by
  obtain ⟨a, ha, -⟩ := Cases.cdmaQpsk [true, false, true, true] (key := [true, false]) (by decide)
  have := C78_cdma_qpsk (yields_ofList _) (WholeHalf.of_nat (f := 2000) (p := 4) (by norm_num) (by norm_num)) ha
  exact ⟨a, ha, by norm_num at this; exact this⟩

example : ∃ a : List ℝ, (do let tx ← txBfsk (ofList [true, false]) 16000 1000 (2000 : ℝ) 3000; collect tx) = pure a ∧
    SymbolEnergy a 16 2 8 := by
  obtain ⟨a, ha, -⟩ := Cases.bfsk [true, false]
  have := C78_bfsk (yields_ofList _) (by norm_num) (WholeHalf.of_nat (f := 2000) (p := 4) (by norm_num) (by norm_num))
    (WholeHalf.of_nat (f := 3000) (p := 6) (by norm_num) (by norm_num)) ha
  exact ⟨a, ha, by norm_num at this; exact this⟩

example : ∃ a : List ℝ, (do let tx ← txFsk (ofList [true, false]) 160000 1000 (20000 : ℝ); collect tx) = pure a ∧
    SymbolEnergy a 160 2 80 := by
  obtain ⟨a, ha, -⟩ := Cases.fsk [true, false]
  have := C78_fsk (yields_ofList _) (by norm_num)
    (by have := WholeHalf.of_nat (fs := 160000) (k := 160) (f := 19500) (p := 39) (by norm_num) (by norm_num)
        norm_num at this ⊢; exact this)
    (by have := WholeHalf.of_nat (fs := 160000) (k := 160) (f := 20500) (p := 41) (by norm_num) (by norm_num)
        norm_num at this ⊢; exact this) ha
  exact ⟨a, ha, by norm_num at this; exact this⟩

example (ρ : Type) [Rng ρ] : ∃ a : List ℝ,
    (do let tx ← txFhBpsk ρ (ofList [true, false]) (1000 : ℝ) 3000 4 16000 1000; collect tx) = pure a ∧
      SymbolEnergy a 16 2 8 := by
  obtain ⟨a, ha, -⟩ := Cases.hopping ρ [true, false]
  have := C78_hopping (yields_ofList _) (by norm_num) (by norm_num) Cases.hop_freqs (fun f hf => by
    simp only [List.mem_cons, List.not_mem_nil, or_false] at hf
    rcases hf with rfl | rfl | rfl | rfl
    · exact WholeHalf.of_nat (f := 1000) (p := 2) (by norm_num) (by norm_num)
    · exact WholeHalf.of_nat (f := 1500) (p := 3) (by norm_num) (by norm_num)
    · exact WholeHalf.of_nat (f := 2000) (p := 4) (by norm_num) (by norm_num)
    · exact WholeHalf.of_nat (f := 2500) (p := 5) (by norm_num) (by norm_num)) ha
  exact ⟨a, ha, by norm_num at this; exact this⟩

/-- 1000 symbols per second at 16 kHz on a 2 kHz carrier: a symbol is four half periods. -/
example : WholeHalf 16000 (16000 / 1000) 2000 := by
  refine ⟨⟨4, by norm_num⟩, fun q hq => ?_⟩
  have h1 : ((1 : ℤ) : ℝ) = ((4 * q : ℤ) : ℝ) := by push_cast; push_cast at hq; linarith
  have h2 : (1 : ℤ) = 4 * q := by exact_mod_cast h1
  omega

/-- The hypothesis matters: with the carrier at zero every sample of BPSK has energy one instead of one half. -/
example : ∃ a : List ℝ, (do let tx ← txBpsk (ofList [true, false]) 8 2 (0 : ℝ); collect tx) = pure a ∧ avgEnergy a = 1 := by
  obtain ⟨it, e1, e2⟩ := txBpsk_ok (yields_ofList [true, false]) (fs := 8) (sym := 2) (fc := (0 : ℝ)) (by norm_num)
    (by simp [Flt.toNat_real]) ((isInt_real (a := 8) (b := 2) (by norm_num) (by norm_num)).mpr ⟨4, by norm_num⟩)
  refine ⟨_, by rw [e1, pure_bind]; exact collect_of_yields e2, ?_⟩
  have := (wave_energy (k := 4) (by norm_num) (w := fun n b j => bitToNrz b * Flt.cos (phase 8 (0 : ℝ) (n * (8 / 2) + j)))
    (l := [true, false]) (E := 4) (by
      intro n b _
      have : ∀ j ∈ Finset.range 4, (bitToNrz b * Flt.cos (phase 8 (0 : ℝ) (n * (8 / 2) + j)) : ℝ) ^ 2 = 1 := by
        intro j _
        rw [phase_real, dphi]
        show (bitToNrz b * Real.cos _) ^ 2 = 1
        rw [mul_pow, sq (bitToNrz b), bitToNrz_sq]
        simp
      rw [Finset.sum_congr rfl this]
      simp)).avg (by simp)
  rw [show (8 / 2 : ℕ) = 4 by norm_num, this]
  norm_num

end Verif.Props
