import Verif.Lemmas.KomPy
import Verif.Props.Energy
import Verif.Props.Psk
import Verif.Props.Cdma
import Verif.F64.Sign
import Verif.F64.Int

/-!
# The pure-Python reference code (C87–C90)

`KomPy.…` are the functions of `kom_py/`, the unqualified names the ones of the compiled library.
-/
namespace Verif.Props
open Verif Spec
set_option linter.unusedSectionVars false
variable {ι κ : Type}

theorem floor_half {fs : ℕ} {fc : ℝ} (h : fc ≤ fs / 2) : ⌊fc⌋₊ ≤ fs / 2 := by
  have h1 := Nat.floor_le_floor h
  have h2 : ⌊(fs : ℝ) / 2⌋₊ = fs / 2 := by
    have := Nat.floor_div_eq_div (K := ℝ) fs 2
    simpa using this
  omega

/-! ## C87 Both implementations transmit the same samples -/

/-- What the Python modulator accepts. -/
theorem C87_accepts {data : List Bool} {fs sr : ℕ} {fc : ℝ} (hfs : fs < 2 ^ 64) :
    (∃ l, KomPy.txBpsk data fs sr fc = .ok l) ↔ 0 < sr ∧ sr ∣ fs ∧ fc ≤ fs / 2 := by
  constructor
  · rintro ⟨l, h⟩
    unfold KomPy.txBpsk at h
    obtain ⟨k, hk, -⟩ := KomPy.bind_ok.mp h
    obtain ⟨h1, h2, h3, -⟩ := (KomPy.guards_real hfs).mp hk
    exact ⟨h1, h2, h3⟩
  · rintro ⟨h1, h2, h3⟩
    exact ⟨_, KomPy.txBpsk_eq ((KomPy.guards_real hfs).mpr ⟨h1, h2, h3, rfl⟩)⟩

/-- Bit for bit, in whatever arithmetic: where both accept the parameters and count the same samples per symbol, the samples
are the same. -/
theorem C87_any {F : Type} [Add F] [Sub F] [Mul F] [Div F] [Neg F] [Zero F] [One F] [Flt F] [RIter ι Bool] {m : ι}
    {data : List Bool} (h : Yields m data) {fs sr : ℕ} {fc : F} (hsps : 0 < fs / sr)
    (hn : Flt.toNat (Flt.ofNat fs / Flt.ofNat sr : F) = fs / sr) (hint : isInt (Flt.ofNat fs / Flt.ofNat sr : F) = true)
    (hfc : Flt.toNat fc ≤ fs / 2) {l : List F} (hl : KomPy.txBpsk data fs sr fc = .ok l) :
    (do let tx ← txBpsk m fs sr fc; collect tx) = pure l := by
  have hg : ∃ k, KomPy.guards fs sr fc = .ok k := by
    unfold KomPy.txBpsk at hl
    obtain ⟨k, hk, -⟩ := KomPy.bind_ok.mp hl
    exact ⟨k, hk⟩
  obtain ⟨k, hk⟩ := hg
  have hk2 := (KomPy.guards_ok.mp hk).2.2.2
  rw [hn] at hk2
  subst hk2
  rw [KomPy.txBpsk_eq hk] at hl
  cases hl
  obtain ⟨it, h1, h2⟩ := txBpsk_ok h hsps hfc hint
  rw [h1, pure_bind, collect_of_yields h2]

/-- Exact arithmetic: whatever the Python modulator sends, the compiled one sends. -/
theorem C87_bpsk [RIter ι Bool] {m : ι} {data : List Bool} (h : Yields m data) {fs sr : ℕ} {fc : ℝ} (h0 : 0 < fs)
    (hfs : fs < 2 ^ 64) {l : List ℝ} (hl : KomPy.txBpsk data fs sr fc = .ok l) :
    (do let tx ← txBpsk m fs sr fc; collect tx) = pure l := by
  obtain ⟨h1, h2, h3⟩ := (C87_accepts hfs).mp ⟨l, hl⟩
  have hsps : 0 < fs / sr := Nat.div_pos (Nat.le_of_dvd h0 h2) h1
  refine C87_any h hsps ?_ ((isInt_real hfs h1).mpr h2) ?_ hl
  · rw [Flt.toNat_real, Flt.ofNat_real, Flt.ofNat_real, Nat.floor_div_eq_div, min_eq_left]
    have := Nat.div_le_self fs sr
    omega
  · rw [Flt.toNat_real]
    have := floor_half h3
    omega

open F64 in
/-- Double precision, with any mathematical library: the same 64 bits. -/
theorem C87_bpsk_ieee [RIter ι Bool] (L : Libm) {m : ι} {data : List Bool} (h : Yields m data) {fs sr : ℕ} {fc : FloatL L}
    (h0 : 0 < fs) (hfs : fs < 2 ^ 53) (hf : F64.Fin fc) {l : List (FloatL L)} (hl : KomPy.txBpsk data fs sr fc = .ok l) :
    (do let tx ← txBpsk m fs sr fc; collect tx) = pure l := by
  obtain ⟨k, hk⟩ : ∃ k, KomPy.guards fs sr fc = .ok k := by
    unfold KomPy.txBpsk at hl
    obtain ⟨k, hk, -⟩ := KomPy.bind_ok.mp hl
    exact ⟨k, hk⟩
  obtain ⟨h1, h2, h3, -⟩ := KomPy.guards_ok.mp hk
  have hdvd : sr ∣ fs := Nat.dvd_iff_mod_eq_zero.mpr h2
  have hle : sr ≤ fs := Nat.le_of_dvd h0 hdvd
  have hsps : 0 < fs / sr := Nat.div_pos hle h1
  have hint : isInt (Flt.ofNat fs / Flt.ofNat sr : FloatL L) = true := (guard_iff hfs (by omega)).mpr ⟨h1.ne', hdvd⟩
  have h2e : F64.Fin (F64.ofNat fs / F64.ofNat 2) ∧ F64.val (F64.ofNat fs / F64.ofNat 2) = (fs : ℝ) / 2 := by
    obtain ⟨fa, va⟩ := ofNat_exact (n := fs) hfs.le
    obtain ⟨fb, vb⟩ := ofNat_exact (n := 2) (by norm_num)
    have hr : rnd ((fs : ℝ) / 2) = (fs : ℝ) / 2 := by
      refine rnd_of_isF ⟨fs, -1, ?_, by norm_num, ?_⟩
      · rw [abs_of_nonneg (by positivity)]; exact_mod_cast hfs.le
      · push_cast; rw [zpow_neg_one]; ring
    have hb : |rnd (F64.val (F64.ofNat fs) / F64.val (F64.ofNat 2))| < huge := by
      rw [va, vb]
      refine rnd_lt_huge ?_
      push_cast
      rw [abs_of_nonneg (by positivity)]
      have h53 : (fs : ℝ) ≤ 2 ^ 53 := by exact_mod_cast hfs.le
      have hn0 : (0 : ℝ) ≤ fs := by positivity
      have : (2 : ℝ) ^ 53 ≤ 2 ^ (1023 : ℤ) := by
        rw [← zpow_natCast]; exact zpow_le_zpow_right₀ (by norm_num) (by norm_num)
      exact le_trans (by linarith) this
    obtain ⟨d1, d2⟩ := div_val fa fb (by rw [vb]; norm_num) hb
    refine ⟨d1, ?_⟩
    rw [d2, va, vb]
    push_cast
    exact hr
  have hv : F64.val fc ≤ (fs : ℝ) / 2 := by
    rw [← h2e.2]
    exact (le_iff hf h2e.1).mp h3
  refine C87_any (F := FloatL L) h hsps ?_ hint ?_ hl
  · have hq : F64.Fin (F64.ofNat fs / F64.ofNat sr) ∧ F64.val (F64.ofNat fs / F64.ofNat sr) = (fs / sr : ℕ) := by
      obtain ⟨fa, va⟩ := ofNat_exact (n := fs) hfs.le
      obtain ⟨fb, vb⟩ := ofNat_exact (n := sr) (by omega)
      have hle2 : fs / sr ≤ 2 ^ 53 := (Nat.div_le_self _ _).trans hfs.le
      have hr : rnd ((fs / sr : ℕ) : ℝ) = (fs / sr : ℕ) := rnd_of_isF (isF_nat hle2)
      have hqq : (fs : ℝ) / sr = (fs / sr : ℕ) := by
        rw [Nat.cast_div hdvd (by exact_mod_cast h1.ne')]
      have hb : |rnd (F64.val (F64.ofNat fs) / F64.val (F64.ofNat sr))| < huge := by
        rw [va, vb, hqq]
        refine rnd_lt_huge ?_
        rw [abs_of_nonneg (by positivity)]
        have h53 : ((fs / sr : ℕ) : ℝ) ≤ 2 ^ 53 := by exact_mod_cast hle2
        have : (2 : ℝ) ^ 53 ≤ 2 ^ (1023 : ℤ) := by
          rw [← zpow_natCast]; exact zpow_le_zpow_right₀ (by norm_num) (by norm_num)
        exact h53.trans this
      obtain ⟨d1, d2⟩ := div_val fa fb (by rw [vb]; exact_mod_cast h1.ne') hb
      exact ⟨d1, by rw [d2, va, vb, hqq, hr]⟩
    have := toNat_val hq.1
    rw [hq.2, Nat.floor_natCast] at this
    refine this.trans ?_
    have h5 := Nat.div_le_self fs sr
    omega
  · have := toNat_val hf
    have h5 := floor_half hv
    exact this.le.trans (by omega)

/-- The Python CDMA modulator sends what the compiled one sends with the reference key. -/
theorem C87_cdma [RIter ι Bool] {m : ι} {data : List Bool} (h : Yields m data) {fs sr : ℕ} {fc : ℝ}
    (hfs : fs < 2 ^ 64) {l : List ℝ} (hl : KomPy.txBpskCdma data fs sr fc = .ok l) :
    (do let tx ← txCdmaBpsk m fs sr fc KomPy.KEY; collect tx) = pure l := by
  obtain ⟨k, hk⟩ : ∃ k, KomPy.cdmaGuards fs sr fc = .ok k := by
    unfold KomPy.txBpskCdma at hl
    obtain ⟨k, hk, -⟩ := KomPy.bind_ok.mp hl
    exact ⟨k, hk⟩
  rw [KomPy.txBpskCdma_eq hfs hk] at hl
  cases hl
  obtain ⟨h1, h2, h3, h4, rfl⟩ := (KomPy.cdmaGuards_real hfs).mp hk
  have hok : CdmaOk fs sr fc KomPy.KEY.length :=
    (cdmaOk_real hfs).mpr ⟨h1, by decide, h2, h3, floor_half h4⟩
  obtain ⟨it, e1, e2⟩ := txCdmaBpsk_ok h hok
  rw [e1, pure_bind, collect_of_yields e2]
  rfl

/-- The compiled receiver reads what the Python modulator sends. -/
theorem C87_received [RIter κ ℝ] {s : κ} {data : List Bool} {fs sr : ℕ} {fc : ℝ} (hfs : fs < 2 ^ 64) (hsps : 2 ≤ fs / sr)
    {l : List ℝ} (hl : KomPy.txBpsk data fs sr fc = .ok l) (hs : Yields s l) :
    (do let rx ← rxBpsk s fs sr fc; collect rx) = pure data := by
  obtain ⟨h1, h2, h3⟩ := (C87_accepts hfs).mp ⟨l, hl⟩
  have h0 : 0 < fs := by
    rcases Nat.eq_zero_or_pos fs with h | h
    · subst h; simp at hsps
    · exact h
  obtain ⟨it, e1, e2⟩ := txBpsk_ok (yields_ofList data) (fc := fc) (by omega)
    (by rw [Flt.toNat_real]; have := floor_half h3; omega) ((isInt_real hfs h1).mpr h2)
  have e3 := C87_bpsk (yields_ofList data) h0 hfs hl
  rw [e1, pure_bind, collect_of_yields e2, RM.ok_inj] at e3
  have e4 := C25_roundtrip (yields_ofList data) hfs h2 hsps (floor_half h3)
  rw [e1, pure_bind] at e4
  obtain ⟨r1, f1, f2⟩ := rxBpsk_ok (fc := fc) e2 (by omega : 0 < fs / sr)
  rw [e3] at f2
  obtain ⟨r2, g1, g2⟩ := rxBpsk_ok (fc := fc) hs (by omega : 0 < fs / sr)
  rw [f1, pure_bind, collect_of_yields f2, RM.ok_inj] at e4
  rw [g1, pure_bind, collect_of_yields g2, e4]

theorem C87_cdma_received [RIter κ ℝ] {s : κ} {data : List Bool} {fs sr : ℕ} {fc : ℝ} (hfs : fs < 2 ^ 64)
    {l : List ℝ} (hl : KomPy.txBpskCdma data fs sr fc = .ok l) (hs : Yields s l) :
    (do let rx ← rxCdmaBpsk s fs sr fc KomPy.KEY; collect rx) = pure data := by
  obtain ⟨k, hk⟩ : ∃ k, KomPy.cdmaGuards fs sr fc = .ok k := by
    unfold KomPy.txBpskCdma at hl
    obtain ⟨k, hk, -⟩ := KomPy.bind_ok.mp hl
    exact ⟨k, hk⟩
  obtain ⟨h1, h2, h3, h4, rfl⟩ := (KomPy.cdmaGuards_real hfs).mp hk
  have hok : CdmaOk fs sr fc KomPy.KEY.length := (cdmaOk_real hfs).mpr ⟨h1, by decide, h2, h3, floor_half h4⟩
  have h5 := hok.sps
  have h6 := hok.spc
  have h7 : KomPy.KEY.length = 16 := rfl
  rw [KomPy.txBpskCdma_eq hfs hk] at hl
  cases hl
  unfold rxCdmaBpsk
  rw [hok.guards, pure_bind]
  have hsp := hs.spread (key := KomPy.KEY) (spc := fs / sr / KomPy.KEY.length) (by decide) (by omega)
  refine C87_received (l := wave (fs / sr) (fun n b j => bitToNrz b * Real.cos (phase fs fc (n * (fs / sr) + j))) data)
    hfs (by omega) (KomPy.txBpsk_eq (KomPy.cdmaGuards_guards hfs hk)) (hsp.of_eq ?_)
  exact despread_spread KomPy.KEY (fs / sr / 16) _

/-- The symbols before the carrier agree as well: BPSK in any arithmetic. -/
theorem C87_baseband_bpsk {F : Type} [Add F] [Sub F] [Mul F] [Div F] [Neg F] [Zero F] [One F] [Flt F] [RIter ι Bool] {m : ι}
    {data : List Bool} (h : Yields m data) : collect (txBasebandBpsk m : Map ι Bool (Cx F)) = pure (KomPy.txBasebandBpsk data) :=
  collect_of_yields (h.rmap _)

/-- QPSK: the Python modulator completes an odd message by `False`, the compiled one drops the odd bit. -/
theorem C87_baseband_qpsk [RIter ι Bool] {m : ι} {data : List Bool} (h : Yields m (KomPy.padded data)) {l : List (Cx ℝ)}
    (hl : KomPy.txBasebandQpsk data = .ok l) : collect (txBasebandQpsk m : Map (Tuples ι Bool) (Bool × Bool) (Cx ℝ)) = pure l := by
  rw [KomPy.txBasebandQpsk_eq] at hl
  cases hl
  refine (collect_of_yields (h.rtuples.rmap _)).trans ?_
  congr 1
  apply List.map_congr_left
  rintro ⟨a, b⟩ -
  cases a <;> cases b <;> simp [bitToNrz]

/-- The baseband receivers: on every list of symbols, and for every kind of number, the Python ones return the compiled ones' bits. -/
theorem C87_baseband_received {F : Type} [Add F] [Sub F] [Mul F] [Div F] [Neg F] [Zero F] [One F] [Flt F] [RIter κ (Cx F)] {s : κ}
    {l : List (Cx F)} (h : Yields s l) :
    collect (Verif.rxBasebandBpsk (F := F) s) = pure (KomPy.rxBasebandBpsk l) ∧
    collect (Verif.rxBasebandQpsk (F := F) s) = pure (KomPy.rxBasebandQpsk l) :=
  ⟨collect_of_yields (h.rmap _), collect_of_yields (h.rflatMap (fun _ => ⟨_, rfl, yields_ofList _⟩))⟩

/-- A symbol on the axis counts as true: `0 + 0i` is `[True]` in BPSK and `[True, True]` in QPSK. -/
example : KomPy.rxBasebandBpsk [(⟨0, 0⟩ : Cx ℝ), ⟨-1, 5⟩] = [true, false] ∧
    KomPy.rxBasebandQpsk [(⟨0, 0⟩ : Cx ℝ), ⟨-1, 5⟩] = [true, true, false, true] := by
  norm_num [KomPy.rxBasebandBpsk, KomPy.rxBasebandQpsk]

/-- Python's own baseband links: BPSK returns the message, QPSK returns it completed to an even length by `False`. -/
theorem C87_baseband_loop (data : List Bool) :
    KomPy.rxBasebandBpsk (KomPy.txBasebandBpsk data : List (Cx ℝ)) = data ∧
    ∃ l : List (Cx ℝ), KomPy.txBasebandQpsk data = .ok l ∧
      KomPy.rxBasebandQpsk l = data ++ (if data.length % 2 = 0 then [] else [false]) := by
  constructor
  · unfold KomPy.rxBasebandBpsk KomPy.txBasebandBpsk
    rw [List.map_map]
    conv_rhs => rw [← List.map_id data]
    apply List.map_congr_left
    intro b _
    cases b <;> norm_num
  · rw [KomPy.txBasebandQpsk_eq]
    refine ⟨_, rfl, ?_⟩
    unfold KomPy.rxBasebandQpsk
    rw [List.flatMap_map]
    have h3 : (0 : ℝ) < Real.sqrt 2 := Real.sqrt_pos.mpr (by norm_num)
    have e : (pairs (KomPy.padded data)).flatMap (fun p => [p.1, p.2]) = data ++ (if data.length % 2 = 0 then [] else [false]) := by
      rw [pairs_flat]
      unfold KomPy.padded
      split_ifs with h
      · rw [show 2 * (data.length / 2) = data.length by omega, List.take_length, List.append_nil]
      · rw [List.take_of_length_le (by simp; omega)]
    rw [← e]
    congr 1
    funext p
    obtain ⟨a, b⟩ := p
    cases a <;> cases b <;> simp [bitToNrz, h3]

example : ∃ l : List (Cx ℝ), KomPy.txBasebandQpsk [true, false, true] = .ok l ∧ KomPy.rxBasebandQpsk l = [true, false, true, false] :=
  (C87_baseband_loop [true, false, true]).2

/-- The parameters of the repository's own Python test are accepted. -/
example : ∃ l, KomPy.txBpsk [true, false, true] 44100 900 (1800 : ℝ) = .ok l :=
  (C87_accepts (by norm_num)).mpr ⟨by norm_num, by norm_num, by norm_num⟩

/-- The rates of the script at the end of `kom_py/cdma.py` (48000, 1000, 2500): accepted, and read by the compiled receiver. -/
example : ∃ l : List ℝ, KomPy.txBpskCdma [true, false, true] 48000 1000 (2500 : ℝ) = .ok l ∧
    (do let tx ← txCdmaBpsk (ofList [true, false, true]) 48000 1000 2500 KomPy.KEY; collect tx) = pure l ∧
    (do let rx ← rxCdmaBpsk (ofList l) 48000 1000 2500 KomPy.KEY; collect rx) = pure [true, false, true] := by
  have hl := KomPy.txBpskCdma_eq (data := [true, false, true]) (fc := 2500) (fs := 48000) (sr := 1000) (by norm_num)
    ((KomPy.cdmaGuards_real (by norm_num)).mpr ⟨by norm_num, by norm_num, by norm_num, by norm_num, rfl⟩)
  exact ⟨_, hl, C87_cdma (yields_ofList _) (by norm_num) hl, C87_cdma_received (by norm_num) hl (yields_ofList _)⟩

/-! ## C88 The Python BPSK receiver -/

/-- Every recording is answered: bit `j` is the sign of the correlation over the `k` samples *after* sample `j·k` — one sample
late; samples after the end count as zero; a recording of `N` samples gives `(N + k - 2) / k` bits. -/
theorem C88_decision {l : List ℝ} (hl : l ≠ []) {fs sr : ℕ} {fc : ℝ} (h0 : 0 < fs) (hfs : fs < 2 ^ 64) (hsr : 0 < sr)
    (hdvd : sr ∣ fs) (hfc : fc ≤ fs / 2) :
    KomPy.rxBpsk l fs sr fc = .ok ((List.range ((l.length + fs / sr - 2) / (fs / sr))).map (fun j =>
      decide (0 < ∑ i ∈ Finset.range (fs / sr),
        l.getD (j * (fs / sr) + 1 + i) 0 * Real.cos (2 * Real.pi * fc * (j * (fs / sr) + 1 + i : ℕ) / fs)))) := by
  have hsps : 0 < fs / sr := Nat.div_pos (Nat.le_of_dvd h0 hdvd) hsr
  unfold KomPy.rxBpsk
  rw [(KomPy.guards_real hfs).mpr ⟨hsr, hdvd, hfc, rfl⟩, KomPy.ok_bind, KomPy.mix_ok _ _ h0, KomPy.ok_bind,
    KomPy.slice_ok (by simpa using hl) hsps, List.length_mapIdx]
  congr 1
  apply List.map_congr_left
  intro j _
  rw [decide_eq_decide]
  refine Eq.to_iff (congrArg (0 < ·) (Finset.sum_congr rfl fun i _ => ?_))
  rw [List.getD_eq_getElem?_getD, List.getElem?_mapIdx, List.getD_eq_getElem?_getD]
  cases l[j * (fs / sr) + 1 + i]? with
  | none => simp
  | some x =>
    simp only [Option.map_some, Option.getD_some]
    rw [phase_real, Flt.cos_real]
    unfold dphi
    congr 2
    ring

/-- An empty recording raises `ValueError`, where the compiled receiver returns no bits. -/
theorem C88_empty_raises {fs sr : ℕ} {fc : ℝ} (hfs : fs < 2 ^ 64) (hsr : 0 < sr) (hdvd : sr ∣ fs) (hfc : fc ≤ fs / 2) :
    KomPy.rxBpsk [] fs sr fc = .error .value := by
  unfold KomPy.rxBpsk
  rw [(KomPy.guards_real hfs).mpr ⟨hsr, hdvd, hfc, rfl⟩, KomPy.ok_bind]
  rfl

/-- With a whole number of half carrier periods per symbol, the first sample of a symbol is a full-scale one. -/
theorem start_sq {fs k : ℕ} {fc : ℝ} (hk : 0 < k) (hw : WholeHalf fs k fc) (n : ℕ) :
    Real.cos (phase fs fc (n * k)) ^ 2 = 1 ∧ Real.sin (phase fs fc (n * k)) = 0 := by
  obtain ⟨p, h1, -⟩ := hw.dphi hk
  have e : phase fs fc (n * k) = ((n * p : ℤ) : ℝ) * Real.pi := by
    rw [phase_real]; push_cast; rw [mul_assoc, h1]; ring
  have hs : Real.sin (phase fs fc (n * k)) = 0 := by rw [e]; exact Real.sin_int_mul_pi _
  refine ⟨?_, hs⟩
  have := Real.sin_sq_add_cos_sq (phase fs fc (n * k))
  rw [hs] at this
  linarith

/-- What the Python receiver makes of a BPSK signal: half a symbol's energy, less its first sample, plus the first sample of the
next symbol. -/
theorem C88_weight {data : List Bool} (hd : data ≠ []) {fs sr : ℕ} {fc : ℝ} (hfs : fs < 2 ^ 64) (hsps : 2 ≤ fs / sr)
    (hdvd : sr ∣ fs) (hfc : fc ≤ fs / 2) (hw : WholeHalf fs (fs / sr) fc) {l : List ℝ} (hl : KomPy.txBpsk data fs sr fc = .ok l) :
    KomPy.rxBpsk l fs sr fc = .ok (data.mapIdx (fun j b => decide (0 < bitToNrz b * (((fs / sr : ℕ) : ℝ) / 2 - 1)
      + (data[j + 1]?.map bitToNrz).getD 0))) := by
  have hsr : 0 < sr := by
    rcases Nat.eq_zero_or_pos sr with h | h
    · subst h; simp at hsps
    · exact h
  have h0 : 0 < fs := by
    rcases Nat.eq_zero_or_pos fs with h | h
    · subst h; simp at hsps
    · exact h
  have hg := (KomPy.guards_real (fc := fc) hfs).mpr ⟨hsr, hdvd, hfc, rfl⟩
  rw [KomPy.txBpsk_eq hg] at hl
  cases hl
  unfold KomPy.rxBpsk
  rw [hg, KomPy.ok_bind, KomPy.mix_ok _ _ h0, KomPy.ok_bind, mapIdx_wave, KomPy.slice_wave hsps _ hd]
  congr 1
  have hterm : ∀ n (b : Bool) i, bitToNrz b * Real.cos (phase fs fc (n * (fs / sr) + i)) * Real.cos (phase fs fc (n * (fs / sr) + i))
      = bitToNrz b * Real.cos (phase fs fc (n * (fs / sr) + i)) ^ 2 := by intro n b i; ring
  have hfirst : ∀ n (b : Bool), bitToNrz b * Real.cos (phase fs fc (n * (fs / sr) + 0)) * Real.cos (phase fs fc (n * (fs / sr) + 0))
      = bitToNrz b := by
    intro n b; rw [hterm, Nat.add_zero, (start_sq (by omega) hw n).1, mul_one]
  have hen := fun n => hw.cos_energy (by omega : 0 < fs / sr) (n * (fs / sr))
  apply mapIdx_congr'
  intro j b _
  simp only [Flt.cos_real, hfirst]
  simp only [hterm, ← Finset.mul_sum]
  have := hen j
  simp only [Flt.cos_real] at this
  rw [this]
  congr 2
  ring_nf

/-- With more than four samples per symbol the Python receiver reads the Python transmitter. -/
theorem C88_roundtrip {data : List Bool} (hd : data ≠ []) {fs sr : ℕ} {fc : ℝ} (hfs : fs < 2 ^ 64) (hsps : 4 < fs / sr)
    (hdvd : sr ∣ fs) (hfc : fc ≤ fs / 2) (hw : WholeHalf fs (fs / sr) fc) :
    (KomPy.txBpsk data fs sr fc >>= fun tx => KomPy.rxBpsk tx fs sr fc) = .ok data := by
  have hsr : 0 < sr := by
    rcases Nat.eq_zero_or_pos sr with h | h
    · subst h; simp at hsps
    · exact h
  obtain ⟨l, hl⟩ := (C87_accepts (data := data) hfs).mpr ⟨hsr, hdvd, hfc⟩
  rw [hl, KomPy.ok_bind, C88_weight hd hfs (by omega) hdvd hfc hw hl]
  congr 1
  apply mapIdx_eq_self
  intro j b _
  have h4 : (5 : ℝ) ≤ ((fs / sr : ℕ) : ℝ) := by exact_mod_cast hsps
  have hn : |(data[j + 1]?.map (bitToNrz (F := ℝ))).getD 0| ≤ 1 := by
    cases data[j + 1]? with
    | none => simp
    | some c => cases c <;> simp [bitToNrz]
  obtain ⟨n1, n2⟩ := abs_le.mp hn
  generalize (data[j + 1]?.map (bitToNrz (F := ℝ))).getD 0 = x at n1 n2
  cases b
  · simp only [bitToNrz_real, Bool.false_eq_true, if_false, decide_eq_false_iff_not, not_lt]; linarith
  · simp only [bitToNrz_real, if_true, decide_eq_true_eq]; linarith

/-- The Python receiver reads the compiled transmitter too. -/
theorem C88_reads_compiled [RIter ι Bool] {m : ι} {data : List Bool} (h : Yields m data) (hd : data ≠ []) {fs sr : ℕ} {fc : ℝ}
    (hfs : fs < 2 ^ 64) (hsps : 4 < fs / sr) (hdvd : sr ∣ fs) (hfc : fc ≤ fs / 2) (hw : WholeHalf fs (fs / sr) fc) :
    ∃ l, (do let tx ← txBpsk m fs sr fc; collect tx) = pure l ∧ KomPy.rxBpsk l fs sr fc = .ok data := by
  have hsr : 0 < sr := by
    rcases Nat.eq_zero_or_pos sr with h | h
    · subst h; simp at hsps
    · exact h
  have h0 : 0 < fs := by
    rcases Nat.eq_zero_or_pos fs with h | h
    · subst h; simp at hsps
    · exact h
  obtain ⟨l, hl⟩ := (C87_accepts (data := data) hfs).mpr ⟨hsr, hdvd, hfc⟩
  have hr := C88_roundtrip hd hfs hsps hdvd hfc hw
  rw [hl, KomPy.ok_bind] at hr
  exact ⟨l, C87_bpsk h h0 hfs hl, hr⟩

theorem whole_4000 : WholeHalf 4000 (4000 / 1000) 1000 := by
  refine ⟨⟨2, by norm_num⟩, fun q h => ?_⟩
  have : (1 : ℝ) = (q * 2 : ℤ) := by push_cast at h ⊢; linarith
  have h2 : (1 : ℤ) = q * 2 := by exact_mod_cast this
  omega

/-- Four samples per symbol are too few: the sample of the next symbol weighs as much as the symbol. -/
theorem C88_four_samples_fail :
    (KomPy.txBpsk [true, false] 4000 1000 (1000 : ℝ) >>= fun tx => KomPy.rxBpsk tx 4000 1000 1000) = .ok [false, false] := by
  obtain ⟨l, hl⟩ := (C87_accepts (data := [true, false]) (fs := 4000) (sr := 1000) (fc := 1000) (by norm_num)).mpr
    ⟨by norm_num, by norm_num, by norm_num⟩
  rw [hl, KomPy.ok_bind, C88_weight (by simp) (by norm_num) (by norm_num) (by norm_num) (by norm_num) whole_4000 hl]
  congr 1
  simp [List.mapIdx_cons, bitToNrz]
  norm_num

/-- The repository's own test: 49 samples and two carrier periods per symbol. -/
example : (KomPy.txBpsk [true, false, true] 44100 900 (1800 : ℝ) >>= fun tx => KomPy.rxBpsk tx 44100 900 1800)
    = .ok [true, false, true] := by
  refine C88_roundtrip (by simp) (by norm_num) (by norm_num) (by norm_num) (by norm_num) ⟨⟨4, by norm_num⟩, fun q h => ?_⟩
  have : (4 : ℝ) = (q * 49 : ℤ) := by push_cast at h ⊢; linarith
  have h2 : (4 : ℤ) = q * 49 := by exact_mod_cast this
  omega

/-! ## C89 The Python QPSK pair -/

theorem guards_pos {fs sr : ℕ} (hsps : 0 < fs / sr) : 0 < fs ∧ 0 < sr := by
  constructor
  · rcases Nat.eq_zero_or_pos fs with h | h
    · subst h; simp at hsps
    · exact h
  · rcases Nat.eq_zero_or_pos sr with h | h
    · subst h; simp at hsps
    · exact h

theorem zip_mapIdx {A B C : Type} (f : ℕ → A → B) (g : ℕ → A → C) (l : List A) :
    (l.mapIdx f).zip (l.mapIdx g) = l.mapIdx (fun i a => (f i a, g i a)) := by
  apply List.ext_getElem?
  intro i
  simp only [List.zip, List.getElem?_zipWith, List.getElem?_mapIdx]
  cases l[i]? <;> rfl

theorem flat_pairs_inj {l l' : List (Bool × Bool)} (h : l.flatMap (fun p => [p.1, p.2]) = l'.flatMap (fun p => [p.1, p.2])) :
    l = l' := by
  induction l generalizing l' with
  | nil =>
    cases l' with
    | nil => rfl
    | cons q t => simp at h
  | cons p t ih =>
    cases l' with
    | nil => simp at h
    | cons q t' =>
      simp only [List.flatMap_cons, List.cons_append, List.nil_append, List.cons.injEq] at h
      obtain ⟨h1, h2, h3⟩ := h
      rw [ih h3, Prod.ext h1 h2]

theorem padded_length (data : List Bool) : (KomPy.padded data).length % 2 = 0 := by
  unfold KomPy.padded
  split
  · assumption
  · rw [List.length_append, List.length_singleton]; omega

theorem padded_flat (data : List Bool) : (pairs (KomPy.padded data)).flatMap (fun p => [p.1, p.2]) = KomPy.padded data := by
  rw [pairs_flat, List.take_of_length_le]
  have := padded_length data
  omega

/-- The Python QPSK modulator transmits on *half* the carrier frequency it is given, at √2 times the amplitude of the compiled
one (and completes an odd message by `False`). -/
theorem C89_half_partial [RIter ι Bool] {m : ι} {data : List Bool} (h : Yields m (KomPy.padded data)) {fs sr : ℕ} {fc : ℝ}
    (hfs : fs < 2 ^ 64) (hsps : 0 < fs / sr) {l : List ℝ} (hl : KomPy.txQpsk data fs sr fc = .ok l) :
    ∃ l', (do let tx ← txQpsk m fs sr (fc / 2); collect tx) = pure l' ∧ l = l'.map (Real.sqrt 2 * ·) := by
  obtain ⟨k, hk⟩ : ∃ k, KomPy.guards fs sr fc = .ok k := by
    unfold KomPy.txQpsk at hl
    obtain ⟨k, hk, -⟩ := KomPy.bind_ok.mp hl
    exact ⟨k, hk⟩
  obtain ⟨-, -, -, rfl⟩ := (KomPy.guards_real hfs).mp hk
  rw [KomPy.txQpsk_eq (guards_pos hsps).1 hk] at hl
  cases hl
  obtain ⟨it, e1, e2⟩ := txQpsk_ok h (fc := fc / 2) hsps
  refine ⟨_, by rw [e1, pure_bind, collect_of_yields e2], ?_⟩
  rw [map_wave]
  rfl

theorem quad_sums (c s : ℕ → ℝ) (A B : ℝ) (k : ℕ) :
    ∑ i ∈ Finset.range k, (A * c i + B * s i) * c i
      = A * ∑ i ∈ Finset.range k, c i ^ 2 + B * ∑ i ∈ Finset.range k, c i * s i ∧
    ∑ i ∈ Finset.range k, (A * c i + B * s i) * -(s i)
      = -(A * ∑ i ∈ Finset.range k, c i * s i) - B * ∑ i ∈ Finset.range k, s i ^ 2 := by
  constructor
  · rw [Finset.mul_sum, Finset.mul_sum, ← Finset.sum_add_distrib]
    exact Finset.sum_congr rfl fun i _ => by ring
  · rw [Finset.mul_sum, Finset.mul_sum, ← Finset.sum_neg_distrib, ← Finset.sum_sub_distrib]
    exact Finset.sum_congr rfl fun i _ => by ring

/-- The Python QPSK receiver does read the *compiled* transmitter: more than four samples and a whole number of half carrier
periods per symbol. -/
theorem C89_reads_compiled_partial [RIter ι Bool] {m : ι} {data : List Bool} (h : Yields m data) (hd : 2 ≤ data.length)
    {fs sr : ℕ} {fc : ℝ} (hfs : fs < 2 ^ 64) (hsps : 4 < fs / sr) (hdvd : sr ∣ fs) (hfc : fc ≤ fs / 2)
    (hw : WholeHalf fs (fs / sr) fc) :
    ∃ l, (do let tx ← txQpsk m fs sr fc; collect tx) = pure l ∧
      KomPy.rxQpsk l fs sr fc = .ok (data.take (2 * (data.length / 2))) := by
  obtain ⟨h0, hsr⟩ := guards_pos (show 0 < fs / sr by omega)
  obtain ⟨it, e1, e2⟩ := txQpsk_ok h (fc := fc) (by omega : 0 < fs / sr)
  refine ⟨_, by rw [e1, pure_bind, collect_of_yields e2], ?_⟩
  have hg := (KomPy.guards_real (fc := fc) hfs).mpr ⟨hsr, hdvd, hfc, rfl⟩
  have hne : pairs data ≠ [] := by
    rw [← List.length_pos_iff, pairs_length]; omega
  unfold KomPy.rxQpsk
  rw [hg, KomPy.ok_bind, KomPy.mix_ok _ _ h0, KomPy.ok_bind, mapIdx_wave, KomPy.slice_wave (by omega) _ hne, KomPy.ok_bind,
    KomPy.mix_ok _ _ h0, KomPy.ok_bind, mapIdx_wave, KomPy.slice_wave (by omega) _ hne, KomPy.ok_bind, zip_mapIdx]
  refine congrArg Except.ok ?_
  rw [← pairs_flat]
  congr 1
  apply mapIdx_eq_self
  intro n p _
  obtain ⟨q, w1, w2⟩ := hw.dphi (by omega : 0 < fs / sr)
  have hph : ∀ n i, phase fs fc (n * (fs / sr) + i) = ((n * (fs / sr) + i : ℕ) : ℝ) * dphi fs fc := fun n i => phase_real _ _ _
  have s1 := sum_cos_sq_half w1 w2 (n * (fs / sr))
  have s2 := sum_sin_sq_half w1 w2 (n * (fs / sr))
  have s3 := sum_cos_sin_half w1 w2 (n * (fs / sr))
  have hc := fun n => start_sq (by omega : 0 < fs / sr) hw n
  have hI : ∀ (n : ℕ) (p : Bool × Bool), ((bitToNrz p.1 : ℝ) * Flt.cos (phase fs fc (n * (fs / sr) + 0))
      + -bitToNrz p.2 * Flt.sin (phase fs fc (n * (fs / sr) + 0))) * Flt.cos (phase fs fc (n * (fs / sr) + 0)) = bitToNrz p.1 := by
    intro n p
    rw [Nat.add_zero]
    simp only [Flt.cos_real, Flt.sin_real, (hc n).2]
    linear_combination bitToNrz p.1 * (hc n).1
  have hQ : ∀ (n : ℕ) (p : Bool × Bool), ((bitToNrz p.1 : ℝ) * Flt.cos (phase fs fc (n * (fs / sr) + 0))
      + -bitToNrz p.2 * Flt.sin (phase fs fc (n * (fs / sr) + 0))) * -(Flt.sin (phase fs fc (n * (fs / sr) + 0))) = 0 := by
    intro n p
    rw [Nat.add_zero]
    simp only [Flt.sin_real, (hc n).2, neg_zero, mul_zero]
  have hSI : ∑ i ∈ Finset.range (fs / sr), ((bitToNrz p.1 : ℝ) * Flt.cos (phase fs fc (n * (fs / sr) + i))
      + -bitToNrz p.2 * Flt.sin (phase fs fc (n * (fs / sr) + i))) * Flt.cos (phase fs fc (n * (fs / sr) + i))
      = bitToNrz p.1 * (((fs / sr : ℕ) : ℝ) / 2) := by
    rw [(quad_sums _ _ _ _ _).1]
    simp only [hph, Flt.cos_real, Flt.sin_real]
    rw [s1, s3, mul_zero, add_zero]
  have hSQ : ∑ i ∈ Finset.range (fs / sr), ((bitToNrz p.1 : ℝ) * Flt.cos (phase fs fc (n * (fs / sr) + i))
      + -bitToNrz p.2 * Flt.sin (phase fs fc (n * (fs / sr) + i))) * -(Flt.sin (phase fs fc (n * (fs / sr) + i)))
      = bitToNrz p.2 * (((fs / sr : ℕ) : ℝ) / 2) := by
    rw [(quad_sums _ _ _ _ _).2]
    simp only [hph, Flt.cos_real, Flt.sin_real]
    rw [s2, s3]
    ring
  simp only [hI, hQ, hSI, hSQ]
  have h4 : (5 : ℝ) ≤ ((fs / sr : ℕ) : ℝ) := by exact_mod_cast hsps
  have hn : |((pairs data)[n + 1]?.map (fun b' => (bitToNrz b'.1 : ℝ))).getD 0| ≤ 1 := by
    cases (pairs data)[n + 1]? with
    | none => simp
    | some c => obtain ⟨c1, c2⟩ := c; cases c1 <;> simp [bitToNrz]
  have hz : ((pairs data)[n + 1]?.map (fun _ => (0 : ℝ))).getD 0 = 0 := by
    cases (pairs data)[n + 1]? <;> rfl
  rw [hz]
  obtain ⟨n1, n2⟩ := abs_le.mp hn
  generalize ((pairs data)[n + 1]?.map (fun b' => (bitToNrz b'.1 : ℝ))).getD 0 = x at n1 n2
  obtain ⟨a, b⟩ := p
  refine Prod.ext ?_ ?_
  · cases a
    · simp only [bitToNrz_real, Bool.false_eq_true, if_false, decide_eq_false_iff_not, not_lt]; linarith
    · simp only [bitToNrz_real, if_true, decide_eq_true_eq]; linarith
  · cases b
    · simp only [bitToNrz_real, Bool.false_eq_true, if_false, decide_eq_false_iff_not, not_lt]; linarith
    · simp only [bitToNrz_real, if_true, decide_eq_true_eq]; linarith

/-- The two frequencies `f/2` and `f` are orthogonal over a symbol holding a whole number of periods of `f/2`. -/
theorem half_orthogonal {d : ℝ} {k : ℕ} {p : ℤ} (h : (k : ℝ) * d = p * (2 * Real.pi)) (h0 : 0 < d) (h1 : d ≤ Real.pi / 2) (n : ℕ) :
    ∑ i ∈ Finset.range k, Real.cos (((n * k + i : ℕ) : ℝ) * d) * Real.cos (2 * (((n * k + i : ℕ) : ℝ) * d)) = 0 ∧
    ∑ i ∈ Finset.range k, Real.sin (((n * k + i : ℕ) : ℝ) * d) * Real.cos (2 * (((n * k + i : ℕ) : ℝ) * d)) = 0 ∧
    ∑ i ∈ Finset.range k, Real.cos (((n * k + i : ℕ) : ℝ) * d) * Real.sin (2 * (((n * k + i : ℕ) : ℝ) * d)) = 0 ∧
    ∑ i ∈ Finset.range k, Real.sin (((n * k + i : ℕ) : ℝ) * d) * Real.sin (2 * (((n * k + i : ℕ) : ℝ) * d)) = 0 := by
  have hpi := Real.pi_pos
  have s1 : Real.sin (d / 2) ≠ 0 := (Real.sin_pos_of_pos_of_lt_pi (by linarith) (by linarith)).ne'
  have s3 : Real.sin (3 * d / 2) ≠ 0 := (Real.sin_pos_of_pos_of_lt_pi (by linarith) (by linarith)).ne'
  have h3 : (k : ℝ) * (3 * d) = ((3 * p : ℤ) : ℝ) * (2 * Real.pi) := by push_cast; linear_combination 3 * h
  have c1 := sum_cos_period (a := ((n * k : ℕ) : ℝ) * d) h s1
  have c2 := sum_sin_period (a := ((n * k : ℕ) : ℝ) * d) h s1
  have c3 := sum_cos_period (a := ((n * k : ℕ) : ℝ) * (3 * d)) h3 s3
  have c4 := sum_sin_period (a := ((n * k : ℕ) : ℝ) * (3 * d)) h3 s3
  have e1 : ∀ i : ℕ, ((n * k : ℕ) : ℝ) * d + i * d = ((n * k + i : ℕ) : ℝ) * d := by intro i; push_cast; ring
  have e3 : ∀ i : ℕ, ((n * k : ℕ) : ℝ) * (3 * d) + i * (3 * d) = 2 * (((n * k + i : ℕ) : ℝ) * d) + ((n * k + i : ℕ) : ℝ) * d := by
    intro i; push_cast; ring
  simp only [e1] at c1 c2
  simp only [e3] at c3 c4
  have two : ∀ x : ℝ, 2 * x - x = x := fun x => by ring
  refine ⟨?_, ?_, ?_, ?_⟩
  · have := congrArg₂ (· + ·) c3 c1
    simp only [← Finset.sum_add_distrib, add_zero] at this
    rw [← mul_right_inj' (two_ne_zero (α := ℝ)), Finset.mul_sum, mul_zero, ← this]
    refine Finset.sum_congr rfl fun i _ => ?_
    generalize ((n * k + i : ℕ) : ℝ) * d = x
    rw [Real.cos_add]
    have := Real.cos_sub (2 * x) x
    rw [two] at this
    linear_combination -this
  · have := congrArg₂ (· - ·) c4 c2
    simp only [← Finset.sum_sub_distrib, sub_zero] at this
    rw [← mul_right_inj' (two_ne_zero (α := ℝ)), Finset.mul_sum, mul_zero, ← this]
    refine Finset.sum_congr rfl fun i _ => ?_
    generalize ((n * k + i : ℕ) : ℝ) * d = x
    rw [Real.sin_add]
    have := Real.sin_sub (2 * x) x
    rw [two] at this
    linear_combination this
  · have := congrArg₂ (· + ·) c4 c2
    simp only [← Finset.sum_add_distrib, add_zero] at this
    rw [← mul_right_inj' (two_ne_zero (α := ℝ)), Finset.mul_sum, mul_zero, ← this]
    refine Finset.sum_congr rfl fun i _ => ?_
    generalize ((n * k + i : ℕ) : ℝ) * d = x
    rw [Real.sin_add]
    have := Real.sin_sub (2 * x) x
    rw [two] at this
    linear_combination -this
  · have := congrArg₂ (· - ·) c1 c3
    simp only [← Finset.sum_sub_distrib, sub_zero] at this
    rw [← mul_right_inj' (two_ne_zero (α := ℝ)), Finset.mul_sum, mul_zero, ← this]
    refine Finset.sum_congr rfl fun i _ => ?_
    generalize ((n * k + i : ℕ) : ℝ) * d = x
    rw [Real.cos_add]
    have := Real.cos_sub (2 * x) x
    rw [two] at this
    linear_combination -this

theorem mixed_sum (c s t : ℕ → ℝ) (R A B : ℝ) (k : ℕ) :
    ∑ i ∈ Finset.range k, R * (A * c i + B * s i) * t i
      = R * A * ∑ i ∈ Finset.range k, c i * t i + R * B * ∑ i ∈ Finset.range k, s i * t i := by
  rw [Finset.mul_sum, Finset.mul_sum, ← Finset.sum_add_distrib]
  exact Finset.sum_congr rfl fun i _ => by ring

/-- What the Python QPSK pair gives end to end when a symbol holds a whole number of periods of the halved carrier: the first
bit of each pair depends only on whether the in-phase bit *changes* to the next symbol, the second is always `False`. -/
theorem C89_output {data : List Bool} (hd : data ≠ []) {fs sr : ℕ} {fc : ℝ} (hfs : fs < 2 ^ 64) (hsps : 2 ≤ fs / sr)
    (hdvd : sr ∣ fs) (hfc0 : 0 < fc) (hfc : fc ≤ fs / 2) {p : ℤ} (hp : ((fs / sr : ℕ) : ℝ) * fc = p * (2 * fs)) :
    (KomPy.txQpsk data fs sr fc >>= fun tx => KomPy.rxQpsk tx fs sr fc)
      = .ok ((pairs (KomPy.padded data)).mapIdx (fun j q =>
          (decide ((bitToNrz q.1 : ℝ) < ((pairs (KomPy.padded data))[j + 1]?.map (fun q' => (bitToNrz q'.1 : ℝ))).getD 0), false))
        |>.flatMap (fun q => [q.1, q.2])) := by
  obtain ⟨h0, hsr⟩ := guards_pos (show 0 < fs / sr by omega)
  have hg := (KomPy.guards_real (fc := fc) hfs).mpr ⟨hsr, hdvd, hfc, rfl⟩
  have hne : pairs (KomPy.padded data) ≠ [] := by
    rw [← List.length_pos_iff, pairs_length]
    have h1 := padded_length data
    have h2 : data.length ≤ (KomPy.padded data).length := by
      unfold KomPy.padded; split <;> simp
    have := List.length_pos_iff.mpr hd
    omega
  rw [KomPy.txQpsk_eq h0 hg, KomPy.ok_bind]
  unfold KomPy.rxQpsk
  rw [hg, KomPy.ok_bind, KomPy.mix_ok _ _ h0, KomPy.ok_bind, mapIdx_wave, KomPy.slice_wave (by omega) _ hne, KomPy.ok_bind,
    KomPy.mix_ok _ _ h0, KomPy.ok_bind, mapIdx_wave, KomPy.slice_wave (by omega) _ hne, KomPy.ok_bind, zip_mapIdx]
  refine congrArg Except.ok ?_
  congr 1
  have hfs' : (fs : ℝ) ≠ 0 := by exact_mod_cast h0.ne'
  have hfs0 : (0 : ℝ) < fs := by exact_mod_cast h0
  have w : ((fs / sr : ℕ) : ℝ) * dphi fs (fc / 2) = p * (2 * Real.pi) := by
    unfold dphi; field_simp; linear_combination hp
  have d0 : 0 < dphi fs (fc / 2) := by unfold dphi; have := Real.pi_pos; positivity
  have d1 : dphi fs (fc / 2) ≤ Real.pi / 2 := by
    unfold dphi
    rw [div_le_iff₀ hfs0]
    nlinarith [Real.pi_pos]
  have hp1 : ∀ i, phase fs (fc / 2) i = (i : ℝ) * dphi fs (fc / 2) := fun i => phase_real _ _ _
  have hp2 : ∀ i, phase fs fc i = 2 * ((i : ℝ) * dphi fs (fc / 2)) := by
    intro i; rw [phase_real]; unfold dphi; ring
  have st : ∀ n : ℕ, Real.cos (((n * (fs / sr) + 0 : ℕ) : ℝ) * dphi fs (fc / 2)) = 1 ∧
      Real.sin (((n * (fs / sr) + 0 : ℕ) : ℝ) * dphi fs (fc / 2)) = 0 ∧
      Real.cos (2 * (((n * (fs / sr) + 0 : ℕ) : ℝ) * dphi fs (fc / 2))) = 1 ∧
      Real.sin (2 * (((n * (fs / sr) + 0 : ℕ) : ℝ) * dphi fs (fc / 2))) = 0 := by
    intro n
    have e : ((n * (fs / sr) + 0 : ℕ) : ℝ) * dphi fs (fc / 2) = ((n * p : ℤ) : ℝ) * (2 * Real.pi) := by
      push_cast; rw [add_zero, mul_assoc, w]; ring
    have c1 : Real.cos (((n * (fs / sr) + 0 : ℕ) : ℝ) * dphi fs (fc / 2)) = 1 := by rw [e]; exact Real.cos_int_mul_two_pi _
    have c2 : Real.sin (((n * (fs / sr) + 0 : ℕ) : ℝ) * dphi fs (fc / 2)) = 0 := by
      rw [e, show ((n * p : ℤ) : ℝ) * (2 * Real.pi) = ((2 * (n * p) : ℤ) : ℝ) * Real.pi by push_cast; ring]
      exact Real.sin_int_mul_pi _
    refine ⟨c1, c2, ?_, ?_⟩
    · rw [Real.cos_two_mul, c1]; norm_num
    · rw [Real.sin_two_mul, c2]; ring
  apply mapIdx_congr'
  intro n q _
  obtain ⟨o1, o2, o3, o4⟩ := half_orthogonal w d0 d1 n
  have hr : 0 < Real.sqrt 2 := Real.sqrt_pos.mpr (by norm_num)
  simp only [Flt.cos_real, Flt.sin_real, hp1, hp2]
  rw [mixed_sum, mixed_sum, o1, o2]
  simp only [Finset.sum_neg_distrib, mul_neg, o3, o4, (st _).1, (st _).2.1, (st _).2.2.1, (st _).2.2.2]
  refine Prod.ext ?_ ?_
  · simp only [decide_eq_decide]
    cases (pairs (KomPy.padded data))[n + 1]? with
    | none =>
      simp only [Option.map_none, Option.getD_none]
      constructor
      · intro h; nlinarith
      · intro h; nlinarith
    | some c =>
      simp only [Option.map_some, Option.getD_some]
      constructor
      · intro h; nlinarith
      · intro h; nlinarith
  · simp only [decide_eq_false_iff_not, not_lt]
    cases (pairs (KomPy.padded data))[n + 1]? <;> simp

/-- So the Python QPSK receiver misreads every nonempty message its own modulator sends, whenever a symbol holds a whole number
of periods of the halved carrier. -/
theorem C89_refuted {data : List Bool} (hd : data ≠ []) {fs sr : ℕ} {fc : ℝ} (hfs : fs < 2 ^ 64) (hsps : 2 ≤ fs / sr)
    (hdvd : sr ∣ fs) (hfc0 : 0 < fc) (hfc : fc ≤ fs / 2) {p : ℤ} (hp : ((fs / sr : ℕ) : ℝ) * fc = p * (2 * fs)) :
    (KomPy.txQpsk data fs sr fc >>= fun tx => KomPy.rxQpsk tx fs sr fc) ≠ .ok data ∧
    (KomPy.txQpsk data fs sr fc >>= fun tx => KomPy.rxQpsk tx fs sr fc) ≠ .ok (KomPy.padded data) := by
  rw [C89_output hd hfs hsps hdvd hfc0 hfc hp]
  have key : ∀ l : List (Bool × Bool), l ≠ [] → l.mapIdx (fun j q =>
      (decide ((bitToNrz q.1 : ℝ) < (l[j + 1]?.map (fun q' => (bitToNrz q'.1 : ℝ))).getD 0), false)) ≠ l := by
    intro l hl h
    have hlen := List.length_pos_iff.mpr hl
    have hlt : l.length - 1 < l.length := by omega
    have e := congrArg (fun t => t[l.length - 1]?) h
    simp only [List.getElem?_mapIdx] at e
    rw [List.getElem?_eq_none (by omega : l.length ≤ l.length - 1 + 1), List.getElem?_eq_getElem hlt] at e
    simp only [Option.map_some, Option.some.injEq, Option.map_none, Option.getD_none] at e
    have e1 := congrArg Prod.fst e
    dsimp only at e1
    generalize l[l.length - 1].1 = b at e1
    cases b
    · simp only [bitToNrz_real, Bool.false_eq_true, if_false, decide_eq_false_iff_not, not_lt] at e1; linarith
    · simp only [bitToNrz_real, if_true, decide_eq_true_eq] at e1; linarith
  have hne : pairs (KomPy.padded data) ≠ [] := by
    rw [← List.length_pos_iff, pairs_length]
    have h1 := padded_length data
    have h2 : data.length ≤ (KomPy.padded data).length := by
      unfold KomPy.padded; split <;> simp
    have := List.length_pos_iff.mpr hd
    omega
  have k2 : ∀ r, (Except.ok r : KomPy.Py (List Bool)) = .ok (KomPy.padded data) → r = KomPy.padded data := by
    intro r h; cases h; rfl
  have main : ∀ r : List (Bool × Bool), r ≠ pairs (KomPy.padded data) →
      (Except.ok (r.flatMap (fun q => [q.1, q.2])) : KomPy.Py (List Bool)) ≠ .ok (KomPy.padded data) := by
    intro r hr h
    have := k2 _ h
    rw [← padded_flat] at this
    exact hr (flat_pairs_inj this)
  refine ⟨?_, main _ (key _ hne)⟩
  intro h
  rcases Nat.mod_two_eq_zero_or_one data.length with h2 | h2
  · have e : KomPy.padded data = data := by unfold KomPy.padded; rw [if_pos h2]
    refine main _ (key _ hne) ?_
    rw [h, e]
  · have h3 : ∀ r : List (Bool × Bool), (Except.ok (r.flatMap (fun q => [q.1, q.2])) : KomPy.Py (List Bool)) = .ok data →
        data.length % 2 = 0 := by
      intro r h
      injection h with h
      rw [← h, length_flatMap_const (k := 2) _ _ (fun _ _ => rfl)]
      omega
    have := h3 _ h
    omega

/-- With the parameters of `kom_py/psk_test.py` (44100, 900, 1800) the pair reads every nonempty message wrongly. -/
example {data : List Bool} (hd : data ≠ []) :
    (KomPy.txQpsk data 44100 900 (1800 : ℝ) >>= fun tx => KomPy.rxQpsk tx 44100 900 1800) ≠ .ok data :=
  (C89_refuted (p := 1) hd (by norm_num) (by norm_num) (by norm_num) (by norm_num) (by norm_num) (by norm_num)).1

theorem whole_2000_8000 : WholeHalf 8000 (8000 / 1000) 2000 := by
  refine ⟨⟨4, by norm_num⟩, fun q h => ?_⟩
  have : (1 : ℝ) = (q * 2 : ℤ) := by push_cast at h ⊢; linarith
  have h2 : (1 : ℤ) = q * 2 := by exact_mod_cast this
  omega

/-- The modulator accepts those parameters, and sends the compiled waveform for a 900 Hz carrier, √2 times as strong; the odd
third bit is completed by `False`. -/
example : ∃ l l' : List ℝ, KomPy.txQpsk [true, false, true] 44100 900 (1800 : ℝ) = .ok l ∧
    (do let tx ← txQpsk (ofList [true, false, true, false]) 44100 900 ((1800 : ℝ) / 2); collect tx) = pure l' ∧
    l = l'.map (Real.sqrt 2 * ·) := by
  have hl := KomPy.txQpsk_eq (data := [true, false, true]) (fc := 1800) (fs := 44100) (sr := 900) (by norm_num)
    ((KomPy.guards_real (by norm_num)).mpr ⟨by norm_num, by norm_num, by norm_num, rfl⟩)
  obtain ⟨l', h1, h2⟩ := C89_half_partial (yields_ofList _) (by norm_num) (by norm_num) hl
  exact ⟨_, l', hl, h1, h2⟩

/-- The same receiver reads the compiled modulator. -/
example : ∃ l : List ℝ, (do let tx ← txQpsk (ofList [true, false, false, true]) 8000 1000 (2000 : ℝ); collect tx) = pure l ∧
    KomPy.rxQpsk l 8000 1000 2000 = .ok [true, false, false, true] :=
  C89_reads_compiled_partial (yields_ofList _) (by decide) (by norm_num) (by norm_num) (by norm_num) (by norm_num) whole_2000_8000

/-! ## C90 The Python CDMA receiver never uses the code -/

/-- Whatever it is given, the Python CDMA receiver answers as the plain Python BPSK receiver does: it never despreads. -/
theorem C90_ignores_code {fs sr : ℕ} {fc : ℝ} (hfs : fs < 2 ^ 64) (h1 : 0 < sr) (h2 : sr * 16 ∣ fs) (h3 : 2 * (sr * 16) ≤ fs)
    (h4 : fc ≤ fs / 2) (signal : List ℝ) : KomPy.rxBpskCdma signal fs sr fc = KomPy.rxBpsk signal fs sr fc := by
  have hg := (KomPy.cdmaGuards_real hfs).mpr ⟨h1, h2, h3, h4, rfl⟩
  unfold KomPy.rxBpskCdma KomPy.rxBpsk
  rw [hg, KomPy.cdmaGuards_guards hfs hg]

theorem key_balanced : ∑ c ∈ Finset.range 16, (bitToNrz (KomPy.KEY.getD c false) : ℝ) = 0 := by
  simp [Finset.sum_range_succ, KomPy.KEY, bitToNrz]

/-- The code has as many −1 as +1 chips, so with a whole number of half carrier periods per chip the receiver sees, of a symbol,
nothing but the sample at either end that its one-sample delay misplaces: bit `j` is reported as "bit `j+1` exceeds bit `j`", the
bit after the last counting as nothing (0 against ±1). -/
theorem C90_output {data : List Bool} (hd : data ≠ []) {fs sr : ℕ} {fc : ℝ} (hfs : fs < 2 ^ 64) (h1 : 0 < sr)
    (h2 : sr * 16 ∣ fs) (h3 : 2 * (sr * 16) ≤ fs) (h4 : fc ≤ fs / 2) {p : ℤ}
    (hp : ((fs / (sr * 16) : ℕ) : ℝ) * (2 * fc) = p * fs) :
    (KomPy.txBpskCdma data fs sr fc >>= fun tx => KomPy.rxBpskCdma tx fs sr fc)
      = .ok (data.mapIdx (fun j b =>
        decide ((bitToNrz b : ℝ) < (data[j + 1]?.map (bitToNrz (F := ℝ))).getD 0))) := by
  have hg := (KomPy.cdmaGuards_real hfs).mpr ⟨h1, h2, h3, h4, rfl⟩
  have h0 : 0 < fs := by omega
  have hfs' : (fs : ℝ) ≠ 0 := by exact_mod_cast h0.ne'
  rw [KomPy.txBpskCdma_eq hfs hg, KomPy.ok_bind, C90_ignores_code hfs h1 h2 h3 h4]
  unfold KomPy.rxBpsk
  obtain ⟨c, hc⟩ := h2
  have hk : fs / sr = 16 * c := by rw [hc, Nat.mul_assoc, Nat.mul_div_cancel_left _ h1]
  have hspc : fs / (sr * 16) = c := by rw [hc, Nat.mul_div_cancel_left _ (by omega)]
  have hc2 : 2 ≤ c := by
    rw [hc, Nat.mul_comm 2] at h3
    exact Nat.le_of_mul_le_mul_left h3 (by omega)
  rw [KomPy.cdmaGuards_guards hfs hg, KomPy.ok_bind, KomPy.mix_ok _ _ h0, KomPy.ok_bind, mapIdx_wave, mapIdx_wave,
    KomPy.slice_wave (by omega) _ hd]
  refine congrArg Except.ok ?_
  rw [hspc] at hp
  obtain ⟨E, hE⟩ := chipEnergy_const (sps := 16 * c) h0 hp
  have hk' : fs / sr / 16 = c := by rw [hk]; omega
  rw [hk', hk]
  have w1 : ((16 * c : ℕ) : ℝ) * dphi fs fc = ((16 * p : ℤ) : ℝ) * Real.pi := by
    unfold dphi; push_cast; field_simp; linear_combination hp
  have st : ∀ n : ℕ, Real.cos (phase fs fc (n * (16 * c) + 0)) ^ 2 = 1 := by
    intro n
    have e : phase fs fc (n * (16 * c) + 0) = ((n * (16 * p) : ℤ) : ℝ) * Real.pi := by
      rw [phase_real, Nat.add_zero, Nat.cast_mul, mul_assoc, w1]; push_cast; ring
    have hs : Real.sin (phase fs fc (n * (16 * c) + 0)) = 0 := by rw [e]; exact Real.sin_int_mul_pi _
    have := Real.sin_sq_add_cos_sq (phase fs fc (n * (16 * c) + 0))
    rw [hs] at this
    linarith
  have kst : ∀ n : ℕ, keyBit KomPy.KEY c (n * (16 * c) + 0) = true := by
    intro n
    have := keyBit_eq (key := KomPy.KEY) (n := n) (c := 0) (t := 0) (spc := c) (by decide) (by omega)
    simpa [KomPy.KEY] using this
  apply mapIdx_congr'
  intro n b _
  have hsum : ∑ i ∈ Finset.range (16 * c), (bitToNrz b * Real.cos (phase fs fc (n * (16 * c) + i))
      * bitToNrz (keyBit KomPy.KEY c (n * (16 * c) + i))) * Flt.cos (phase fs fc (n * (16 * c) + i)) = 0 := by
    rw [sum_range_mul']
    have : ∀ d ∈ Finset.range 16, ∑ t ∈ Finset.range c, (bitToNrz b * Real.cos (phase fs fc (n * (16 * c) + (d * c + t)))
        * bitToNrz (keyBit KomPy.KEY c (n * (16 * c) + (d * c + t)))) * Flt.cos (phase fs fc (n * (16 * c) + (d * c + t)))
        = bitToNrz b * E * bitToNrz (KomPy.KEY.getD d false) := by
      intro d hd
      rw [← hE n d]
      unfold chipEnergy
      rw [Finset.mul_sum, Finset.sum_mul]
      refine Finset.sum_congr rfl fun t ht => ?_
      have := keyBit_eq (key := KomPy.KEY) (n := n) (c := d) (t := t) (spc := c) (by simpa [KomPy.KEY] using hd)
        (Finset.mem_range.mp ht)
      rw [show KomPy.KEY.length = 16 from rfl] at this
      rw [this, Flt.cos_real, ← phase_real']
      ring
    rw [Finset.sum_congr rfl this, ← Finset.mul_sum, key_balanced, mul_zero]
  have hst : ∀ (n : ℕ) (b : Bool), (bitToNrz b * Real.cos (phase fs fc (n * (16 * c) + 0))
      * bitToNrz (keyBit KomPy.KEY c (n * (16 * c) + 0))) * Flt.cos (phase fs fc (n * (16 * c) + 0)) = bitToNrz b := by
    intro n b
    rw [kst n, Flt.cos_real, show (bitToNrz true : ℝ) = 1 from by simp [bitToNrz_real]]
    linear_combination bitToNrz b * st n
  rw [hsum, hst n b]
  simp only [hst]
  rw [decide_eq_decide]
  constructor <;> intro h <;> linarith

/-- So the Python CDMA pair misreads every nonempty message. -/
theorem C90_refuted {data : List Bool} (hd : data ≠ []) {fs sr : ℕ} {fc : ℝ} (hfs : fs < 2 ^ 64) (h1 : 0 < sr)
    (h2 : sr * 16 ∣ fs) (h3 : 2 * (sr * 16) ≤ fs) (h4 : fc ≤ fs / 2) {p : ℤ}
    (hp : ((fs / (sr * 16) : ℕ) : ℝ) * (2 * fc) = p * fs) :
    (KomPy.txBpskCdma data fs sr fc >>= fun tx => KomPy.rxBpskCdma tx fs sr fc) ≠ .ok data := by
  rw [C90_output hd hfs h1 h2 h3 h4 hp]
  intro h
  injection h with h
  have hlen := List.length_pos_iff.mpr hd
  have hlt : data.length - 1 < data.length := by omega
  have e := congrArg (fun t => t[data.length - 1]?) h
  simp only [List.getElem?_mapIdx] at e
  rw [List.getElem?_eq_none (by omega : data.length ≤ data.length - 1 + 1), List.getElem?_eq_getElem hlt] at e
  simp only [Option.map_some, Option.some.injEq, Option.map_none, Option.getD_none] at e
  generalize data[data.length - 1] = b at e
  cases b
  · simp only [bitToNrz_real, Bool.false_eq_true, if_false, decide_eq_false_iff_not, not_lt] at e; linarith
  · simp only [bitToNrz_real, if_true, decide_eq_true_eq] at e; linarith

/-- What does hold: the waveform is a proper spread one, and the *compiled* receiver given the code reads it, at every accepted
setting. -/
theorem C90_despread_partial [RIter κ ℝ] {s : κ} {data : List Bool} {fs sr : ℕ} {fc : ℝ} (hfs : fs < 2 ^ 64)
    {l : List ℝ} (hl : KomPy.txBpskCdma data fs sr fc = .ok l) (hs : Yields s l) :
    (do let rx ← rxCdmaBpsk s fs sr fc KomPy.KEY; collect rx) = pure data :=
  C87_cdma_received hfs hl hs

/-- At the rates of the script at the end of `kom_py/cdma.py` (48000 and 1000) and a carrier of 8000 Hz, one half period of
which fills a chip, every message comes back wrong. -/
example {data : List Bool} (hd : data ≠ []) :
    (KomPy.txBpskCdma data 48000 1000 (8000 : ℝ) >>= fun tx => KomPy.rxBpskCdma tx 48000 1000 8000) ≠ .ok data :=
  C90_refuted (p := 1) hd (by norm_num) (by norm_num) (by norm_num) (by norm_num) (by norm_num) (by norm_num)

/-! ## Worked cases: bits at 8000 samples per second, 1000 bits per second, carrier 2 kHz -/

/-- The Python transmitter's output; the compiled transmitter gives the same and the compiled receiver reads it. -/
example : ∃ l : List ℝ, KomPy.txBpsk [true, false, false] 8000 1000 (2000 : ℝ) = .ok l ∧
    (do let tx ← txBpsk (ofList [true, false, false]) 8000 1000 (2000 : ℝ); collect tx) = pure l ∧
    (do let rx ← rxBpsk (ofList l) 8000 1000 (2000 : ℝ); collect rx) = pure [true, false, false] ∧
    KomPy.rxBpsk l 8000 1000 2000 = .ok ([true, false, false].mapIdx (fun j (b : Bool) => decide ((0 : ℝ) < bitToNrz b * (((8000 / 1000 : ℕ) : ℝ) / 2 - 1)
      + ([true, false, false][j + 1]?.map bitToNrz).getD 0))) := by
  obtain ⟨l, hl⟩ := (C87_accepts (data := [true, false, false]) (fc := (2000 : ℝ)) (fs := 8000) (sr := 1000) (by norm_num)).mpr
    ⟨by norm_num, by norm_num, by norm_num⟩
  exact ⟨l, hl, C87_bpsk (yields_ofList _) (by norm_num) (by norm_num) hl, C87_received (by norm_num) (by norm_num) hl (yields_ofList _),
    C88_weight (by simp) (by norm_num) (by norm_num) (by norm_num) (by norm_num) whole_2000_8000 hl⟩

example : ∃ l, (do let tx ← txBpsk (ofList [true, false]) 8000 1000 (2000 : ℝ); collect tx) = pure l ∧
    KomPy.rxBpsk l 8000 1000 2000 = .ok [true, false] :=
  C88_reads_compiled (yields_ofList _) (by simp) (by norm_num) (by norm_num) (by norm_num) (by norm_num) whole_2000_8000

/-- The Python receiver on a recording of 9 arbitrary samples: one bit, decided on samples 1 to 8. -/
example (a b c d e f g h i : ℝ) : KomPy.rxBpsk [a, b, c, d, e, f, g, h, i] 8000 1000 2000 = .ok ((List.range 1).map (fun j =>
      decide (0 < ∑ k ∈ Finset.range 8,
        [a, b, c, d, e, f, g, h, i].getD (j * 8 + 1 + k) 0 * Real.cos (2 * Real.pi * 2000 * (j * 8 + 1 + k : ℕ) / (8000 : ℕ))))) :=
  (C88_decision (l := [a, b, c, d, e, f, g, h, i]) (fs := 8000) (sr := 1000) (fc := 2000) (by simp) (by norm_num) (by norm_num) (by norm_num) (by norm_num) (by norm_num)).trans
    (by norm_num)

example : KomPy.rxBpsk [] 8000 1000 (2000 : ℝ) = .error .value :=
  C88_empty_raises (by norm_num) (by norm_num) (by norm_num) (by norm_num)

/-- Python QPSK at 8000/1000 with the carrier at 2 kHz: what comes back. -/
example (a b : Bool) : (KomPy.txQpsk [a, b] 8000 1000 (2000 : ℝ) >>= fun tx => KomPy.rxQpsk tx 8000 1000 2000)
    = .ok [decide ((bitToNrz a : ℝ) < 0), false] :=
  (C89_output (data := [a, b]) (fs := 8000) (sr := 1000) (fc := 2000) (p := 1) (by simp) (by norm_num) (by norm_num) (by norm_num) (by norm_num) (by norm_num)
    (by norm_num)).trans (by simp [KomPy.padded, pairs])

/-- Python CDMA at the rates of its script, with the carrier at 8 kHz: what comes back, and that the receiver is the BPSK one. -/
example (a b : Bool) : (KomPy.txBpskCdma [a, b] 48000 1000 (8000 : ℝ) >>= fun tx => KomPy.rxBpskCdma tx 48000 1000 8000)
    = .ok [decide ((bitToNrz a : ℝ) < bitToNrz b), decide ((bitToNrz b : ℝ) < 0)] :=
  C90_output (p := 1) (by simp) (by norm_num) (by norm_num) (by norm_num) (by norm_num) (by norm_num) (by norm_num)

example (signal : List ℝ) : KomPy.rxBpskCdma signal 48000 1000 (2500 : ℝ) = KomPy.rxBpsk signal 48000 1000 2500 :=
  C90_ignores_code (by norm_num) (by norm_num) (by norm_num) (by norm_num) (by norm_num) signal

/-- The baseband modulators. -/
example : collect (txBasebandBpsk (ofList [true, false]) : Map _ Bool (Cx ℝ)) = pure (KomPy.txBasebandBpsk [true, false]) :=
  C87_baseband_bpsk (yields_ofList _)

end Verif.Props
