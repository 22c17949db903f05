import Verif.Spec.Frames
import Verif.Lemmas.Symbols
import Verif.Lemmas.Bpf
import Verif.Lemmas.OfdmPass
import Verif.Lemmas.Cases

/-!
# Messages and recordings in pieces (C94)
-/
namespace Verif.Props
open Verif Spec
set_option linter.unusedSectionVars false
variable {ι κ A B : Type}

/-! ### Helpers -/

theorem wave_append (k : ℕ) (w : ℕ → A → ℕ → B) (a b : List A) :
    wave k w (a ++ b) = wave k w a ++ wave k (fun n => w (n + a.length)) b := by
  induction a generalizing w with
  | nil => rfl
  | cons x a ih =>
    rw [List.cons_append, wave_cons, wave_cons, ih, List.append_assoc]
    simp only [List.length_cons]
    congr 2

theorem fullBlocks_append_dvd {k : ℕ} (hk : 0 < k) {a : List A} (h : k ∣ a.length) (b : List A) :
    fullBlocks k (a ++ b) = fullBlocks k a ++ fullBlocks k b := by
  obtain ⟨n, hn⟩ := h
  induction n generalizing a with
  | zero =>
    rw [Nat.mul_zero, List.length_eq_zero_iff] at hn
    subst hn; simp [fullBlocks]
  | succ n ih =>
    have hl : (a.take k).length = k := by rw [List.length_take, hn, Nat.mul_succ]; omega
    have e : a ++ b = a.take k ++ (a.drop k ++ b) := by rw [← List.append_assoc, List.take_append_drop]
    rw [e, fullBlocks_append hk hl, ih (by rw [List.length_drop, hn, Nat.mul_succ]; omega)]
    conv_rhs => rw [← List.take_append_drop k a, fullBlocks_append hk hl]
    rfl

theorem fullBlocks_count {k n : ℕ} (hk : 0 < k) {a : List A} (h : a.length = n * k) : (fullBlocks k a).length = n := by
  simp [fullBlocks, h, hk]

theorem pairs_append {a : List A} (h : 2 ∣ a.length) (b : List A) : pairs (a ++ b) = pairs a ++ pairs b := by
  induction a using pairs.induct with
  | case1 x y t ih =>
    have : 2 ∣ t.length := by simp only [List.length_cons] at h; omega
    simp only [List.cons_append, pairs, ih this]
  | case2 l hl =>
    rcases l with _ | ⟨x, _ | ⟨y, t⟩⟩
    · simp [pairs]
    · simp at h
    · exact absurd rfl (hl x y t)

/-- The carrier is `q` whole periods further after `M` samples. -/
theorem phase_shift {fs M : ℕ} {fc : ℝ} {q : ℕ} (hfs : 0 < fs) (h : M * fc = q * fs) (i : ℕ) :
    phase fs fc (i + M) = phase fs fc i + q * (2 * Real.pi) := by
  have hf : (fs : ℝ) ≠ 0 := by exact_mod_cast hfs.ne'
  unfold phase
  simp only [Flt.ofNat_real, Flt.pi_real]
  field_simp
  push_cast
  linear_combination 2 * h

theorem cos_phase_shift {fs M : ℕ} {fc : ℝ} {q : ℕ} (hfs : 0 < fs) (h : M * fc = q * fs) (i : ℕ) :
    Flt.cos (phase fs fc (i + M)) = Flt.cos (phase fs fc i) := by
  rw [phase_shift hfs h]
  exact Real.cos_add_nat_mul_two_pi _ q

theorem sin_phase_shift {fs M : ℕ} {fc : ℝ} {q : ℕ} (hfs : 0 < fs) (h : M * fc = q * fs) (i : ℕ) :
    Flt.sin (phase fs fc (i + M)) = Flt.sin (phase fs fc i) := by
  rw [phase_shift hfs h]
  exact Real.sin_add_nat_mul_two_pi _ q

theorem fs_pos {fs sym : ℕ} (h : 0 < fs / sym) : 0 < fs := by
  rcases Nat.eq_zero_or_pos fs with rfl | h'
  · simp at h
  · exact h'

theorem keyBit_shift {key : List Bool} {spc k : ℕ} (hs : 0 < spc) (hk : k = key.length * spc) (n i : ℕ) :
    keyBit key spc (i + n * k) = keyBit key spc i := by
  unfold keyBit
  rw [hk, ← Nat.mul_assoc, Nat.add_mul_div_right _ _ hs, Nat.add_mul_mod_self_right]

theorem chips_whole {fs sym L : ℕ} {fc : ℝ} (hfs : fs < 2 ^ 64) (hok : CdmaOk fs sym fc L) : fs / sym = L * (fs / sym / L) := by
  obtain ⟨h1, h2, ⟨c, rfl⟩, -⟩ := (cdmaOk_real hfs).mp hok
  rw [Nat.mul_assoc, Nat.mul_div_cancel_left _ h1, Nat.mul_div_cancel_left _ h2]

/-! ### Transmitters -/

/-- BPSK: a message sent in two pieces, the first filling whole carrier periods, is sent as one. -/
theorem C94_tx_bpsk [RIter ι Bool] {m m₁ m₂ : ι} {a b : List Bool} (h : Yields m (a ++ b)) (h₁ : Yields m₁ a) (h₂ : Yields m₂ b)
    {fs sym q : ℕ} {fc : ℝ} (hsps : 0 < fs / sym) (hnyq : Flt.toNat fc ≤ fs / 2) (hint : isInt (Flt.ofNat fs / Flt.ofNat sym : ℝ) = true)
    (hper : (a.length * (fs / sym) : ℕ) * fc = q * fs) :
    CutAt (do let tx ← txBpsk m fs sym fc; collect tx) (do let tx ← txBpsk m₁ fs sym fc; collect tx)
      (do let tx ← txBpsk m₂ fs sym fc; collect tx) := by
  obtain ⟨t, e, y⟩ := txBpsk_ok h hsps hnyq hint
  obtain ⟨t₁, e₁, y₁⟩ := txBpsk_ok h₁ hsps hnyq hint
  obtain ⟨t₂, e₂, y₂⟩ := txBpsk_ok h₂ hsps hnyq hint
  refine ⟨_, _, by rw [e₁, pure_bind, collect_of_yields y₁], by rw [e₂, pure_bind, collect_of_yields y₂], ?_⟩
  rw [e, pure_bind, collect_of_yields y, wave_append]
  congr 4
  funext n x j
  rw [show (n + a.length) * (fs / sym) + j = n * (fs / sym) + j + a.length * (fs / sym) by ring,
    cos_phase_shift (fs_pos hsps) hper]

/-- QPSK: the first piece must have an even number of bits. -/
theorem C94_tx_qpsk [RIter ι Bool] {m m₁ m₂ : ι} {a b : List Bool} (h : Yields m (a ++ b)) (h₁ : Yields m₁ a) (h₂ : Yields m₂ b)
    {fs sym q : ℕ} {fc : ℝ} (hsps : 0 < fs / sym) (heven : 2 ∣ a.length)
    (hper : (a.length / 2 * (fs / sym) : ℕ) * fc = q * fs) :
    CutAt (do let tx ← txQpsk m fs sym fc; collect tx) (do let tx ← txQpsk m₁ fs sym fc; collect tx)
      (do let tx ← txQpsk m₂ fs sym fc; collect tx) := by
  obtain ⟨t, e, y⟩ := txQpsk_ok h (fc := fc) hsps
  obtain ⟨t₁, e₁, y₁⟩ := txQpsk_ok h₁ (fc := fc) hsps
  obtain ⟨t₂, e₂, y₂⟩ := txQpsk_ok h₂ (fc := fc) hsps
  refine ⟨_, _, by rw [e₁, pure_bind, collect_of_yields y₁], by rw [e₂, pure_bind, collect_of_yields y₂], ?_⟩
  rw [e, pure_bind, collect_of_yields y, pairs_append heven, wave_append, pairs_length]
  congr 4
  funext n x j
  rw [show (n + a.length / 2) * (fs / sym) + j = n * (fs / sym) + j + a.length / 2 * (fs / sym) by ring,
    cos_phase_shift (fs_pos hsps) hper, sin_phase_shift (fs_pos hsps) hper]

/-- CDMA over BPSK; the code starts anew with every symbol. -/
theorem C94_tx_cdma_bpsk [RIter ι Bool] {m m₁ m₂ : ι} {a b : List Bool} (h : Yields m (a ++ b)) (h₁ : Yields m₁ a)
    (h₂ : Yields m₂ b) {fs sym q : ℕ} {fc : ℝ} {key : List Bool} (hfs : fs < 2 ^ 64) (hsym : 0 < sym) (hkey : 0 < key.length)
    (hdvd : sym * key.length ∣ fs) (hchip : 2 * (sym * key.length) ≤ fs) (hfc : ⌊fc⌋₊ ≤ fs / 2)
    (hper : (a.length * (fs / sym) : ℕ) * fc = q * fs) :
    CutAt (do let tx ← txCdmaBpsk m fs sym fc key; collect tx) (do let tx ← txCdmaBpsk m₁ fs sym fc key; collect tx)
      (do let tx ← txCdmaBpsk m₂ fs sym fc key; collect tx) := by
  have hok := (cdmaOk_real (fc := fc) hfs).mpr ⟨hsym, hkey, hdvd, hchip, hfc⟩
  have hsps : 0 < fs / sym := by have := hok.sps; have := hok.key_pos; omega
  obtain ⟨t, e, y⟩ := txCdmaBpsk_ok h hok
  obtain ⟨t₁, e₁, y₁⟩ := txCdmaBpsk_ok h₁ hok
  obtain ⟨t₂, e₂, y₂⟩ := txCdmaBpsk_ok h₂ hok
  refine ⟨_, _, by rw [e₁, pure_bind, collect_of_yields y₁], by rw [e₂, pure_bind, collect_of_yields y₂], ?_⟩
  rw [e, pure_bind, collect_of_yields y, wave_append, List.mapIdx_append, wave_length]
  simp only [keyBit_shift (by have := hok.spc; omega) (chips_whole hfs hok)]
  congr 5
  funext n x j
  rw [show (n + a.length) * (fs / sym) + j = n * (fs / sym) + j + a.length * (fs / sym) by ring,
    cos_phase_shift (fs_pos hsps) hper]

/-- CDMA over QPSK. -/
theorem C94_tx_cdma_qpsk [RIter ι Bool] {m m₁ m₂ : ι} {a b : List Bool} (h : Yields m (a ++ b)) (h₁ : Yields m₁ a)
    (h₂ : Yields m₂ b) {fs sym q : ℕ} {fc : ℝ} {key : List Bool} (hfs : fs < 2 ^ 64) (hsym : 0 < sym) (hkey : 0 < key.length)
    (hdvd : sym * key.length ∣ fs) (hchip : 2 * (sym * key.length) ≤ fs) (hfc : ⌊fc⌋₊ ≤ fs / 2) (heven : 2 ∣ a.length)
    (hper : (a.length / 2 * (fs / sym) : ℕ) * fc = q * fs) :
    CutAt (do let tx ← txCdmaQpsk m fs sym fc key; collect tx) (do let tx ← txCdmaQpsk m₁ fs sym fc key; collect tx)
      (do let tx ← txCdmaQpsk m₂ fs sym fc key; collect tx) := by
  have hok := (cdmaOk_real (fc := fc) hfs).mpr ⟨hsym, hkey, hdvd, hchip, hfc⟩
  have hsps : 0 < fs / sym := by have := hok.sps; have := hok.key_pos; omega
  obtain ⟨t, e, y⟩ := txCdmaQpsk_ok h hok
  obtain ⟨t₁, e₁, y₁⟩ := txCdmaQpsk_ok h₁ hok
  obtain ⟨t₂, e₂, y₂⟩ := txCdmaQpsk_ok h₂ hok
  refine ⟨_, _, by rw [e₁, pure_bind, collect_of_yields y₁], by rw [e₂, pure_bind, collect_of_yields y₂], ?_⟩
  rw [e, pure_bind, collect_of_yields y, pairs_append heven, wave_append, List.mapIdx_append, wave_length, pairs_length]
  simp only [keyBit_shift (by have := hok.spc; omega) (chips_whole hfs hok)]
  congr 5
  funext n x j
  rw [show (n + a.length / 2) * (fs / sym) + j = n * (fs / sym) + j + a.length / 2 * (fs / sym) by ring,
    cos_phase_shift (fs_pos hsps) hper, sin_phase_shift (fs_pos hsps) hper]

/-- Two-tone keying: both tones must fill whole periods. -/
theorem C94_tx_bfsk [RIter ι Bool] {m m₁ m₂ : ι} {a b : List Bool} (h : Yields m (a ++ b)) (h₁ : Yields m₁ a) (h₂ : Yields m₂ b)
    {fs sym p q : ℕ} {lo hi : ℝ} (hsps : 0 < fs / sym) (hnyq : Flt.toNat hi ≤ fs / 2)
    (hint : isInt (Flt.ofNat fs / Flt.ofNat sym : ℝ) = true)
    (hlo : (a.length * (fs / sym) : ℕ) * lo = p * fs) (hhi : (a.length * (fs / sym) : ℕ) * hi = q * fs) :
    CutAt (do let tx ← txBfsk m fs sym lo hi; collect tx) (do let tx ← txBfsk m₁ fs sym lo hi; collect tx)
      (do let tx ← txBfsk m₂ fs sym lo hi; collect tx) := by
  obtain ⟨t, e, y⟩ := txBfsk_ok h (lo := lo) hsps hnyq hint
  obtain ⟨t₁, e₁, y₁⟩ := txBfsk_ok h₁ (lo := lo) hsps hnyq hint
  obtain ⟨t₂, e₂, y₂⟩ := txBfsk_ok h₂ (lo := lo) hsps hnyq hint
  refine ⟨_, _, by rw [e₁, pure_bind, collect_of_yields y₁], by rw [e₂, pure_bind, collect_of_yields y₂], ?_⟩
  rw [e, pure_bind, collect_of_yields y, wave_append]
  congr 4
  funext n x j
  rw [show (n + a.length) * (fs / sym) + j = n * (fs / sym) + j + a.length * (fs / sym) by ring]
  cases x
  · exact cos_phase_shift (fs_pos hsps) hlo _
  · exact cos_phase_shift (fs_pos hsps) hhi _

/-- FSK, whose tones are 2.5% below and above the carrier. -/
theorem C94_tx_fsk [RIter ι Bool] {m m₁ m₂ : ι} {a b : List Bool} (h : Yields m (a ++ b)) (h₁ : Yields m₁ a) (h₂ : Yields m₂ b)
    {fs sym p q : ℕ} {fc : ℝ} (hsps : 0 < fs / sym)
    (hlo : (a.length * (fs / sym) : ℕ) * (0.975 * fc) = p * fs) (hhi : (a.length * (fs / sym) : ℕ) * (1.025 * fc) = q * fs) :
    CutAt (do let tx ← txFsk m fs sym fc; collect tx) (do let tx ← txFsk m₁ fs sym fc; collect tx)
      (do let tx ← txFsk m₂ fs sym fc; collect tx) := by
  obtain ⟨t, e, y⟩ := txFsk_ok h (fc := fc) hsps
  obtain ⟨t₁, e₁, y₁⟩ := txFsk_ok h₁ (fc := fc) hsps
  obtain ⟨t₂, e₂, y₂⟩ := txFsk_ok h₂ (fc := fc) hsps
  refine ⟨_, _, by rw [e₁, pure_bind, collect_of_yields y₁], by rw [e₂, pure_bind, collect_of_yields y₂], ?_⟩
  rw [e, pure_bind, collect_of_yields y, wave_append]
  congr 4
  funext n x j
  rw [show (n + a.length) * (fs / sym) + j = n * (fs / sym) + j + a.length * (fs / sym) by ring]
  have hs : fskSep fc = 0.05 * fc := by unfold fskSep; simp [Flt.lit]; norm_num
  cases x
  · refine cos_phase_shift (q := p) (fs_pos hsps) ?_ _
    rw [← hlo, hs, bitToNrz_real]; simp; left; ring
  · refine cos_phase_shift (q := q) (fs_pos hsps) ?_ _
    rw [← hhi, hs, bitToNrz_real]; simp; left; ring

/-- A block of OFDM samples is modulated by itself, in any arithmetic and with any discrete Fourier transform. -/
theorem C94_tx_ofdm {F : Type} [Add F] [Sub F] [Mul F] [Div F] [Neg F] [Zero F] [One F] [Flt F] [Fft F] [RIter κ (Cx F)]
    {s s₁ s₂ : κ} {a b : List (Cx F)} (h : Yields s (a ++ b)) (h₁ : Yields s₁ a) (h₂ : Yields s₂ b) {n p : ℕ} (hp : 1 ≤ p)
    (hpn : p < n) (hd : n - p ∣ a.length) :
    CutAt (do let tx ← txBasebandOfdm (F := F) s n p; collect tx) (do let tx ← txBasebandOfdm (F := F) s₁ n p; collect tx)
      (do let tx ← txBasebandOfdm (F := F) s₂ n p; collect tx) := by
  obtain ⟨t, e, y⟩ := txBasebandOfdm_ok h hp hpn.le
  obtain ⟨t₁, e₁, y₁⟩ := txBasebandOfdm_ok h₁ hp hpn.le
  obtain ⟨t₂, e₂, y₂⟩ := txBasebandOfdm_ok h₂ hp hpn.le
  refine ⟨_, _, by rw [e₁, pure_bind, collect_of_yields y₁], by rw [e₂, pure_bind, collect_of_yields y₂], ?_⟩
  rw [e, pure_bind, collect_of_yields y, blocks_append_dvd (by omega) hd, List.flatMap_append]

/-! ### Receivers -/

theorem decBpsk_shift {fs k n q : ℕ} {fc : ℝ} (hfs : 0 < fs) (h : (n * k : ℕ) * fc = q * fs) (i : ℕ) :
    decBpsk fs k fc (i + n) = decBpsk fs k fc i := by
  funext b
  unfold decBpsk
  congr 3
  funext j x
  rw [show (i + n) * k + j = i * k + j + n * k by ring, cos_phase_shift hfs h]

theorem decQpsk_shift {fs k n q : ℕ} {fc : ℝ} (hfs : 0 < fs) (h : (n * k : ℕ) * fc = q * fs) (i : ℕ) :
    decQpsk fs k fc (i + n) = decQpsk fs k fc i := by
  funext b
  unfold decQpsk
  have : ∀ j, (i + n) * k + j = i * k + j + n * k := fun j => by ring
  simp only [this, cos_phase_shift hfs h, sin_phase_shift hfs h]

theorem despreadSym_shift {key : List Bool} {spc k n : ℕ} (hs : 0 < spc) (hk : k = key.length * spc) (i : ℕ) :
    despreadSym (F := ℝ) key spc k (i + n) = despreadSym key spc k i := by
  funext b
  unfold despreadSym
  have : ∀ j, (i + n) * k + j = i * k + j + n * k := fun j => by ring
  simp only [this, keyBit_shift hs hk]

/-- BPSK: a recording cut between two symbols after whole carrier periods gives the two answers one after the other. -/
theorem C94_rx_bpsk [RIter ι ℝ] {m m₁ m₂ : ι} {a b : List ℝ} (h : Yields m (a ++ b)) (h₁ : Yields m₁ a) (h₂ : Yields m₂ b)
    {fs sym q : ℕ} {fc : ℝ} (hsps : 0 < fs / sym) (hd : fs / sym ∣ a.length) (hper : a.length * fc = q * fs) :
    CutAt (do let rx ← rxBpsk m fs sym fc; collect rx) (do let rx ← rxBpsk m₁ fs sym fc; collect rx)
      (do let rx ← rxBpsk m₂ fs sym fc; collect rx) := by
  obtain ⟨t, e, y⟩ := rxBpsk_sym h (fc := fc) hsps
  obtain ⟨t₁, e₁, y₁⟩ := rxBpsk_sym h₁ (fc := fc) hsps
  obtain ⟨t₂, e₂, y₂⟩ := rxBpsk_sym h₂ (fc := fc) hsps
  refine ⟨_, _, by rw [e₁, pure_bind, collect_of_yields y₁], by rw [e₂, pure_bind, collect_of_yields y₂], ?_⟩
  rw [e, pure_bind, collect_of_yields y, fullBlocks_append_dvd hsps hd, List.mapIdx_append]
  obtain ⟨n, hn⟩ := hd
  rw [Nat.mul_comm] at hn
  rw [hn] at hper
  simp only [fullBlocks_count hsps hn, decBpsk_shift (fs_pos hsps) hper]

/-- QPSK. -/
theorem C94_rx_qpsk [RIter ι ℝ] {m m₁ m₂ : ι} {a b : List ℝ} (h : Yields m (a ++ b)) (h₁ : Yields m₁ a) (h₂ : Yields m₂ b)
    {fs sym q : ℕ} {fc : ℝ} (hsps : 0 < fs / sym) (hd : fs / sym ∣ a.length) (hper : a.length * fc = q * fs) :
    CutAt (do let rx ← rxQpsk m fs sym fc; collect rx) (do let rx ← rxQpsk m₁ fs sym fc; collect rx)
      (do let rx ← rxQpsk m₂ fs sym fc; collect rx) := by
  obtain ⟨t, e, y⟩ := rxQpsk_sym h (fc := fc) hsps
  obtain ⟨t₁, e₁, y₁⟩ := rxQpsk_sym h₁ (fc := fc) hsps
  obtain ⟨t₂, e₂, y₂⟩ := rxQpsk_sym h₂ (fc := fc) hsps
  refine ⟨_, _, by rw [e₁, pure_bind, collect_of_yields y₁], by rw [e₂, pure_bind, collect_of_yields y₂], ?_⟩
  rw [e, pure_bind, collect_of_yields y, fullBlocks_append_dvd hsps hd, List.mapIdx_append, List.flatten_append]
  obtain ⟨n, hn⟩ := hd
  rw [Nat.mul_comm] at hn
  rw [hn] at hper
  simp only [fullBlocks_count hsps hn, decQpsk_shift (fs_pos hsps) hper]

/-- CDMA over BPSK. -/
theorem C94_rx_cdma_bpsk [RIter ι ℝ] {m m₁ m₂ : ι} {a b : List ℝ} (h : Yields m (a ++ b)) (h₁ : Yields m₁ a) (h₂ : Yields m₂ b)
    {fs sym q : ℕ} {fc : ℝ} {key : List Bool} (hfs : fs < 2 ^ 64) (hsym : 0 < sym) (hkey : 0 < key.length)
    (hdvd : sym * key.length ∣ fs) (hchip : 2 * (sym * key.length) ≤ fs) (hfc : ⌊fc⌋₊ ≤ fs / 2) (hd : fs / sym ∣ a.length)
    (hper : a.length * fc = q * fs) :
    CutAt (do let rx ← rxCdmaBpsk m fs sym fc key; collect rx) (do let rx ← rxCdmaBpsk m₁ fs sym fc key; collect rx)
      (do let rx ← rxCdmaBpsk m₂ fs sym fc key; collect rx) := by
  have hok := (cdmaOk_real (fc := fc) hfs).mpr ⟨hsym, hkey, hdvd, hchip, hfc⟩
  have hsps : 0 < fs / sym := by have := hok.sps; have := hok.key_pos; omega
  obtain ⟨t, e, y⟩ := rxCdmaBpsk_sym h hok
  obtain ⟨t₁, e₁, y₁⟩ := rxCdmaBpsk_sym h₁ hok
  obtain ⟨t₂, e₂, y₂⟩ := rxCdmaBpsk_sym h₂ hok
  refine ⟨_, _, by rw [e₁, pure_bind, collect_of_yields y₁], by rw [e₂, pure_bind, collect_of_yields y₂], ?_⟩
  rw [e, pure_bind, collect_of_yields y, fullBlocks_append_dvd hsps hd, List.mapIdx_append]
  obtain ⟨n, hn⟩ := hd
  rw [Nat.mul_comm] at hn
  rw [hn] at hper
  simp only [fullBlocks_count hsps hn, decBpsk_shift (fs_pos hsps) hper, despreadSym_shift (by have := hok.spc; omega) (chips_whole hfs hok)]

/-- CDMA over QPSK. -/
theorem C94_rx_cdma_qpsk [RIter ι ℝ] {m m₁ m₂ : ι} {a b : List ℝ} (h : Yields m (a ++ b)) (h₁ : Yields m₁ a) (h₂ : Yields m₂ b)
    {fs sym q : ℕ} {fc : ℝ} {key : List Bool} (hfs : fs < 2 ^ 64) (hsym : 0 < sym) (hkey : 0 < key.length)
    (hdvd : sym * key.length ∣ fs) (hchip : 2 * (sym * key.length) ≤ fs) (hfc : ⌊fc⌋₊ ≤ fs / 2) (hd : fs / sym ∣ a.length)
    (hper : a.length * fc = q * fs) :
    CutAt (do let rx ← rxCdmaQpsk m fs sym fc key; collect rx) (do let rx ← rxCdmaQpsk m₁ fs sym fc key; collect rx)
      (do let rx ← rxCdmaQpsk m₂ fs sym fc key; collect rx) := by
  have hok := (cdmaOk_real (fc := fc) hfs).mpr ⟨hsym, hkey, hdvd, hchip, hfc⟩
  have hsps : 0 < fs / sym := by have := hok.sps; have := hok.key_pos; omega
  obtain ⟨t, e, y⟩ := rxCdmaQpsk_sym h hok
  obtain ⟨t₁, e₁, y₁⟩ := rxCdmaQpsk_sym h₁ hok
  obtain ⟨t₂, e₂, y₂⟩ := rxCdmaQpsk_sym h₂ hok
  refine ⟨_, _, by rw [e₁, pure_bind, collect_of_yields y₁], by rw [e₂, pure_bind, collect_of_yields y₂], ?_⟩
  rw [e, pure_bind, collect_of_yields y, fullBlocks_append_dvd hsps hd, List.mapIdx_append, List.flatten_append]
  obtain ⟨n, hn⟩ := hd
  rw [Nat.mul_comm] at hn
  rw [hn] at hper
  simp only [fullBlocks_count hsps hn, decQpsk_shift (fs_pos hsps) hper, despreadSym_shift (by have := hok.spc; omega) (chips_whole hfs hok)]

/-- The FSK decision does not depend on where in the recording the samples stand. -/
theorem rxFskChunk_shift (fs : ℕ) (fc : ℝ) (i : ℕ) : rxFskChunk fs fc i = rxFskChunk fs fc 0 := by
  funext l
  rw [rxFskChunk_real, rxFskChunk_real]
  have key : ∀ (f : ℝ) (i : ℕ),
      (∑ j ∈ Finset.range l.length, l.getD j 0 * Real.cos (2 * Real.pi * f * ((i : ℝ) / fs + j / fs))) ^ 2 +
      (∑ j ∈ Finset.range l.length, l.getD j 0 * Real.sin (2 * Real.pi * f * ((i : ℝ) / fs + j / fs))) ^ 2
        = toneEnergy (2 * Real.pi * f / fs) l.length (fun j => l.getD j 0) := by
    intro f i
    rw [← toneEnergy_shift (2 * Real.pi * f / fs) (2 * Real.pi * f * (i / fs))]
    have : ∀ j : ℕ, 2 * Real.pi * f * ((i : ℝ) / fs + j / fs) = 2 * Real.pi * f * (i / fs) + 2 * Real.pi * f / fs * j := fun j => by ring
    simp only [this]
  rw [key, key, key, key]

/-- FSK needs no condition on the carrier: its receiver measures energies. -/
theorem C94_rx_fsk [RIter ι ℝ] {m m₁ m₂ : ι} {a b : List ℝ} (h : Yields m (a ++ b)) (h₁ : Yields m₁ a) (h₂ : Yields m₂ b)
    {fs sym : ℕ} {fc : ℝ} (hsps : 0 < fs / sym) (hd : fs / sym ∣ a.length) :
    CutAt (do let rx ← rxFsk m fs sym fc; collect rx) (do let rx ← rxFsk m₁ fs sym fc; collect rx)
      (do let rx ← rxFsk m₂ fs sym fc; collect rx) := by
  obtain ⟨t, e, y⟩ := rxFsk_sym h (fc := fc) hsps
  obtain ⟨t₁, e₁, y₁⟩ := rxFsk_sym h₁ (fc := fc) hsps
  obtain ⟨t₂, e₂, y₂⟩ := rxFsk_sym h₂ (fc := fc) hsps
  refine ⟨_, _, by rw [e₁, pure_bind, collect_of_yields y₁], by rw [e₂, pure_bind, collect_of_yields y₂], ?_⟩
  rw [e, pure_bind, collect_of_yields y, blocks_append_dvd hsps hd, List.mapIdx_append]
  congr 3
  funext i
  rw [rxFskChunk_shift, ← rxFskChunk_shift fs fc i]

/-- Complete OFDM blocks are demodulated one by one. -/
theorem C94_rx_ofdm {F : Type} [Add F] [Sub F] [Mul F] [Div F] [Neg F] [Zero F] [One F] [Flt F] [Fft F] [RIter κ (Cx F)]
    {s s₁ s₂ : κ} {a b : List (Cx F)} (h : Yields s (a ++ b)) (h₁ : Yields s₁ a) (h₂ : Yields s₂ b) {n p : ℕ} (hp : 1 ≤ p)
    (hpn : p ≤ n) (ha : n + n / 4 ∣ a.length) (hb : n + n / 4 ∣ b.length) :
    CutAt (do let rx ← rxBasebandOfdm (F := F) s n p; collect rx) (do let rx ← rxBasebandOfdm (F := F) s₁ n p; collect rx)
      (do let rx ← rxBasebandOfdm (F := F) s₂ n p; collect rx) := by
  obtain ⟨t, e, y⟩ := rxBasebandOfdm_ok h hp hpn (by rw [List.length_append]; exact Nat.dvd_add ha hb)
  obtain ⟨t₁, e₁, y₁⟩ := rxBasebandOfdm_ok h₁ hp hpn ha
  obtain ⟨t₂, e₂, y₂⟩ := rxBasebandOfdm_ok h₂ hp hpn hb
  refine ⟨_, _, by rw [e₁, pure_bind, collect_of_yields y₁], by rw [e₂, pure_bind, collect_of_yields y₂], ?_⟩
  rw [e, pure_bind, collect_of_yields y, blocks_append_dvd (by omega) ha, List.flatMap_append]

/-! ### Half a period more -/

theorem cos_phase_half {fs M q : ℕ} {fc : ℝ} (hfs : 0 < fs) (h : M * fc = (q + 1 / 2) * fs) (i : ℕ) :
    Flt.cos (phase fs fc (i + M)) = -Flt.cos (phase fs fc i) := by
  have hf : (fs : ℝ) ≠ 0 := by exact_mod_cast hfs.ne'
  have : phase fs fc (i + M) = phase fs fc i + Real.pi + q * (2 * Real.pi) := by
    unfold phase
    simp only [Flt.ofNat_real, Flt.pi_real]
    field_simp
    push_cast
    linear_combination 2 * h
  rw [this]
  show Real.cos _ = -Real.cos _
  rw [Real.cos_add_nat_mul_two_pi, Real.cos_add_pi]

/-- When the first message ends half a carrier period off, the second is sent upside down: two messages modulated separately and
put one after the other are not the modulation of the whole. -/
theorem C94_tx_bpsk_half [RIter ι Bool] {m m₁ m₂ : ι} {a b : List Bool} (h : Yields m (a ++ b)) (h₁ : Yields m₁ a) (h₂ : Yields m₂ b)
    {fs sym q : ℕ} {fc : ℝ} (hsps : 0 < fs / sym) (hnyq : Flt.toNat fc ≤ fs / 2) (hint : isInt (Flt.ofNat fs / Flt.ofNat sym : ℝ) = true)
    (hper : (a.length * (fs / sym) : ℕ) * fc = (q + 1 / 2) * fs) :
    CutWith (fun x : ℝ => -x) (do let tx ← txBpsk m fs sym fc; collect tx) (do let tx ← txBpsk m₁ fs sym fc; collect tx)
      (do let tx ← txBpsk m₂ fs sym fc; collect tx) := by
  obtain ⟨t, e, y⟩ := txBpsk_ok h hsps hnyq hint
  obtain ⟨t₁, e₁, y₁⟩ := txBpsk_ok h₁ hsps hnyq hint
  obtain ⟨t₂, e₂, y₂⟩ := txBpsk_ok h₂ hsps hnyq hint
  refine ⟨_, _, by rw [e₁, pure_bind, collect_of_yields y₁], by rw [e₂, pure_bind, collect_of_yields y₂], ?_⟩
  rw [e, pure_bind, collect_of_yields y, wave_append, map_wave]
  congr 4
  funext n x j
  rw [show (n + a.length) * (fs / sym) + j = n * (fs / sym) + j + a.length * (fs / sym) by ring,
    cos_phase_half (fs_pos hsps) hper, mul_neg]

/-- The same at the receiver: the second part of the recording is read with the opposite sign, so the whole recording is the first
answer followed by the answer to the inverted second part. -/
theorem C94_rx_bpsk_half [RIter ι ℝ] {m m₁ m₂ : ι} {a b : List ℝ} (h : Yields m (a ++ b)) (h₁ : Yields m₁ a)
    (h₂ : Yields m₂ (b.map (fun x => -x))) {fs sym q : ℕ} {fc : ℝ} (hsps : 0 < fs / sym) (hd : fs / sym ∣ a.length)
    (hper : a.length * fc = (q + 1 / 2) * fs) :
    CutAt (do let rx ← rxBpsk m fs sym fc; collect rx) (do let rx ← rxBpsk m₁ fs sym fc; collect rx)
      (do let rx ← rxBpsk m₂ fs sym fc; collect rx) := by
  obtain ⟨t, e, y⟩ := rxBpsk_sym h (fc := fc) hsps
  obtain ⟨t₁, e₁, y₁⟩ := rxBpsk_sym h₁ (fc := fc) hsps
  obtain ⟨t₂, e₂, y₂⟩ := rxBpsk_sym h₂ (fc := fc) hsps
  refine ⟨_, _, by rw [e₁, pure_bind, collect_of_yields y₁], by rw [e₂, pure_bind, collect_of_yields y₂], ?_⟩
  rw [e, pure_bind, collect_of_yields y, fullBlocks_append_dvd hsps hd, List.mapIdx_append, fullBlocks_map]
  obtain ⟨n, hn⟩ := hd
  rw [Nat.mul_comm] at hn
  rw [hn] at hper
  rw [fullBlocks_count hsps hn]
  congr 2
  apply List.ext_getElem?
  intro i
  rw [List.getElem?_mapIdx, List.getElem?_mapIdx, List.getElem?_map, Option.map_map]
  congr 1
  funext c
  simp only [Function.comp, decBpsk]
  congr 2
  apply List.ext_getElem?
  intro j
  rw [List.getElem?_mapIdx, List.getElem?_mapIdx, List.getElem?_map, Option.map_map]
  congr 1
  funext x
  simp only [Function.comp]
  rw [show (i + n) * (fs / sym) + j = i * (fs / sym) + j + n * (fs / sym) by ring, cos_phase_half (fs_pos hsps) hper]
  ring

/-! ### Cases -/

/-- 8000 samples and 1000 symbols a second, carrier 2000 Hz: every symbol has two whole periods, so any two messages may be sent one
after the other. -/
example (a b : List Bool) :
    CutAt (do let tx ← txBpsk (ofList (a ++ b)) 8000 1000 (2000 : ℝ); collect tx)
      (do let tx ← txBpsk (ofList a) 8000 1000 (2000 : ℝ); collect tx)
      (do let tx ← txBpsk (ofList b) 8000 1000 (2000 : ℝ); collect tx) := by
  refine C94_tx_bpsk (yields_ofList _) (yields_ofList _) (yields_ofList _) (q := 2 * a.length) (by norm_num) (by simp) ?_ ?_
  · exact (isInt_real (by norm_num) (by norm_num)).mpr (by norm_num)
  · push_cast; ring

/-- With carrier 500 Hz a symbol is half a period: after an odd number of bits the rest is inverted, after an even number it is not. -/
example (b : List Bool) :
    CutWith (fun x : ℝ => -x) (do let tx ← txBpsk (ofList ([true, false, true] ++ b)) 8000 1000 (500 : ℝ); collect tx)
      (do let tx ← txBpsk (ofList [true, false, true]) 8000 1000 (500 : ℝ); collect tx)
      (do let tx ← txBpsk (ofList b) 8000 1000 (500 : ℝ); collect tx) := by
  refine C94_tx_bpsk_half (yields_ofList _) (yields_ofList _) (yields_ofList _) (q := 1) (by norm_num) (by simp) ?_ ?_
  · exact (isInt_real (by norm_num) (by norm_num)).mpr (by norm_num)
  · norm_num

/-- A recording of three symbols at 500 Hz is cut after two of them, not after one. -/
example (x y : List ℝ) (hx : x.length = 16) :
    CutAt (do let rx ← rxQpsk (ofList (x ++ y)) 8000 1000 (500 : ℝ); collect rx)
      (do let rx ← rxQpsk (ofList x) 8000 1000 (500 : ℝ); collect rx)
      (do let rx ← rxQpsk (ofList y) 8000 1000 (500 : ℝ); collect rx) := by
  refine C94_rx_qpsk (yields_ofList _) (yields_ofList _) (yields_ofList _) (q := 1) (by norm_num) (by rw [hx]; norm_num) ?_
  rw [hx]; norm_num

/-- FSK recordings can be cut after any symbol at any carrier. -/
example (x y : List ℝ) (hx : x.length = 8) :
    CutAt (do let rx ← rxFsk (ofList (x ++ y)) 8000 1000 (Real.sqrt 2); collect rx)
      (do let rx ← rxFsk (ofList x) 8000 1000 (Real.sqrt 2); collect rx)
      (do let rx ← rxFsk (ofList y) 8000 1000 (Real.sqrt 2); collect rx) :=
  C94_rx_fsk (yields_ofList _) (yields_ofList _) (yields_ofList _) (by norm_num) (by rw [hx])

/-- The other transmitters at the parameters of `Verif.Cases` (a symbol is two periods of the carrier). -/
example (a b : List Bool) (ha : 2 ∣ a.length) :
    CutAt (do let tx ← txQpsk (ofList (a ++ b)) 16000 1000 (2000 : ℝ); collect tx)
      (do let tx ← txQpsk (ofList a) 16000 1000 (2000 : ℝ); collect tx)
      (do let tx ← txQpsk (ofList b) 16000 1000 (2000 : ℝ); collect tx) :=
  C94_tx_qpsk (yields_ofList _) (yields_ofList _) (yields_ofList _) (q := 2 * (a.length / 2)) (by norm_num) ha
    (by push_cast; ring)

example (a b : List Bool) :
    CutAt (do let tx ← txCdmaBpsk (ofList (a ++ b)) 16000 1000 (2000 : ℝ) [true, false]; collect tx)
      (do let tx ← txCdmaBpsk (ofList a) 16000 1000 (2000 : ℝ) [true, false]; collect tx)
      (do let tx ← txCdmaBpsk (ofList b) 16000 1000 (2000 : ℝ) [true, false]; collect tx) :=
  C94_tx_cdma_bpsk (yields_ofList _) (yields_ofList _) (yields_ofList _) (q := 2 * a.length) (by norm_num) (by norm_num) (by decide) (by decide) (by decide)
    (by norm_num)
    (by push_cast; ring)

example (b : List Bool) :
    CutAt (do let tx ← txCdmaQpsk (ofList ([true, false] ++ b)) 16000 1000 (2000 : ℝ) [true, false]; collect tx)
      (do let tx ← txCdmaQpsk (ofList [true, false]) 16000 1000 (2000 : ℝ) [true, false]; collect tx)
      (do let tx ← txCdmaQpsk (ofList b) 16000 1000 (2000 : ℝ) [true, false]; collect tx) :=
  C94_tx_cdma_qpsk (yields_ofList _) (yields_ofList _) (yields_ofList _) (q := 2) (by norm_num) (by norm_num) (by decide) (by decide) (by decide)
    (by norm_num) (by decide)
    (by norm_num)

example (a b : List Bool) :
    CutAt (do let tx ← txBfsk (ofList (a ++ b)) 16000 1000 (2000 : ℝ) 3000; collect tx)
      (do let tx ← txBfsk (ofList a) 16000 1000 (2000 : ℝ) 3000; collect tx)
      (do let tx ← txBfsk (ofList b) 16000 1000 (2000 : ℝ) 3000; collect tx) :=
  C94_tx_bfsk (yields_ofList _) (yields_ofList _) (yields_ofList _) (p := 2 * a.length) (q := 3 * a.length) (by norm_num)
    (by rw [Flt.toNat_real]; norm_num) Cases.guard16 (by push_cast; ring) (by push_cast; ring)

/-- FSK at 20 kHz: 19.5 and 20.5 periods per bit, so the cut is after two bits. -/
example (b : List Bool) :
    CutAt (do let tx ← txFsk (ofList ([true, false] ++ b)) 160000 1000 (20000 : ℝ); collect tx)
      (do let tx ← txFsk (ofList [true, false]) 160000 1000 (20000 : ℝ); collect tx)
      (do let tx ← txFsk (ofList b) 160000 1000 (20000 : ℝ); collect tx) :=
  C94_tx_fsk (yields_ofList _) (yields_ofList _) (yields_ofList _) (p := 39) (q := 41) (by norm_num) (by norm_num) (by norm_num)

/-- OFDM with 8 subcarriers and 2 pilots: after every 6 symbols; the receiver after every 10 samples. -/
example (a b : List (Cx ℝ)) (ha : a.length = 12) :
    CutAt (do let tx ← txBasebandOfdm (F := ℝ) (ofList (a ++ b)) 8 2; collect tx)
      (do let tx ← txBasebandOfdm (F := ℝ) (ofList a) 8 2; collect tx)
      (do let tx ← txBasebandOfdm (F := ℝ) (ofList b) 8 2; collect tx) :=
  C94_tx_ofdm (yields_ofList _) (yields_ofList _) (yields_ofList _) (by decide) (by decide) (by rw [ha]; decide)

example (a b : List (Cx ℝ)) (ha : a.length = 10) (hb : b.length = 20) :
    CutAt (do let rx ← rxBasebandOfdm (F := ℝ) (ofList (a ++ b)) 8 2; collect rx)
      (do let rx ← rxBasebandOfdm (F := ℝ) (ofList a) 8 2; collect rx)
      (do let rx ← rxBasebandOfdm (F := ℝ) (ofList b) 8 2; collect rx) :=
  C94_rx_ofdm (yields_ofList _) (yields_ofList _) (yields_ofList _) (by decide) (by decide) (by rw [ha]) (by rw [hb]; decide)

/-- The other receivers, on any recording. -/
example (a b : List ℝ) (ha : a.length = 32) :
    CutAt (do let rx ← rxBpsk (ofList (a ++ b)) 16000 1000 (2000 : ℝ); collect rx)
      (do let rx ← rxBpsk (ofList a) 16000 1000 (2000 : ℝ); collect rx)
      (do let rx ← rxBpsk (ofList b) 16000 1000 (2000 : ℝ); collect rx) :=
  C94_rx_bpsk (yields_ofList _) (yields_ofList _) (yields_ofList _) (q := 4) (by norm_num) (by rw [ha]; decide)
    (by rw [ha]; norm_num)

example (a b : List ℝ) (ha : a.length = 16) :
    CutAt (do let rx ← rxBpsk (ofList (a ++ b)) 16000 1000 (500 : ℝ); collect rx)
      (do let rx ← rxBpsk (ofList a) 16000 1000 (500 : ℝ); collect rx)
      (do let rx ← rxBpsk (ofList (b.map (fun x => -x))) 16000 1000 (500 : ℝ); collect rx) :=
  C94_rx_bpsk_half (yields_ofList _) (yields_ofList _) (yields_ofList _) (q := 0) (by norm_num) (by rw [ha])
    (by rw [ha]; norm_num)

example (a b : List ℝ) (ha : a.length = 32) :
    CutAt (do let rx ← rxCdmaBpsk (ofList (a ++ b)) 16000 1000 (2000 : ℝ) [true, false]; collect rx)
      (do let rx ← rxCdmaBpsk (ofList a) 16000 1000 (2000 : ℝ) [true, false]; collect rx)
      (do let rx ← rxCdmaBpsk (ofList b) 16000 1000 (2000 : ℝ) [true, false]; collect rx) :=
  C94_rx_cdma_bpsk (yields_ofList _) (yields_ofList _) (yields_ofList _) (q := 4) (by norm_num) (by norm_num) (by decide) (by decide) (by decide)
    (by norm_num)
    (by rw [ha]; decide) (by rw [ha]; norm_num)

example (a b : List ℝ) (ha : a.length = 32) :
    CutAt (do let rx ← rxCdmaQpsk (ofList (a ++ b)) 16000 1000 (2000 : ℝ) [true, false]; collect rx)
      (do let rx ← rxCdmaQpsk (ofList a) 16000 1000 (2000 : ℝ) [true, false]; collect rx)
      (do let rx ← rxCdmaQpsk (ofList b) 16000 1000 (2000 : ℝ) [true, false]; collect rx) :=
  C94_rx_cdma_qpsk (yields_ofList _) (yields_ofList _) (yields_ofList _) (q := 4) (by norm_num) (by norm_num) (by decide) (by decide) (by decide)
    (by norm_num)
    (by rw [ha]; decide) (by rw [ha]; norm_num)

end Verif.Props
