import Verif.Props.Chips
import Verif.Props.Gauss
import Verif.Props.GaussChaos

/-! # C161 in white noise: how reliably a listener without the key reads the chips -/
namespace Verif.Props
open Verif Spec MeasureTheory ProbabilityTheory
set_option linter.unusedSectionVars false
variable {ι ν : Type} {Ω : Type} [MeasurableSpace Ω] {P : Measure Ω} {σ : ℝ} {z : ℕ → Ω → ℝ} [RIter ν ℝ] {noise : Ω → ν}

/-- **C161 in noise**: the plain BPSK receiver reads the chips through a memoryless channel with the textbook error rate for the
energy of one chip. -/
theorem C161_noise (hz : White P 1 z) (hσ : 0 < σ) (hg : ∀ ω, Gives (noise ω) (fun i => z i ω)) [RIter ι Bool] {m : ι}
    {msg : List Bool} (h : Yields m msg) {fs sym : ℕ} {fc : ℝ} {key : List Bool}
    (hfs : fs < 2 ^ 64) (hsym : 0 < sym) (hkey : key ≠ []) (hdvd : sym * key.length ∣ fs)
    (hnyq : 2 * (sym * key.length) ≤ fs) (hfc : ⌊fc⌋₊ ≤ fs / 2) (hw : WholeHalf fs (fs / (sym * key.length)) fc) :
    ∃ bits : Ω → List Bool, (∀ ω, (do
        let s ← txCdmaBpsk m fs sym fc key
        let ch ← awgn s σ (noise ω)
        let rx ← rxBpsk ch fs (sym * key.length) fc
        collect rx) = pure (bits ω)) ∧
      Flips P (chips key msg) bits (fun _ => bitError ((fs / (sym * key.length) : ℕ) / 2) σ) := by
  have hok := (cdmaOk_real (fc := fc) hfs).mpr ⟨hsym, List.length_pos_iff.mpr hkey, hdvd, hnyq, hfc⟩
  obtain ⟨r1, r2, -⟩ := chip_rate hfs hok
  have h2 : 0 < fs / (sym * key.length) := by rw [r1]; have := hok.spc; omega
  obtain ⟨l, e1, e2⟩ := C161_bpsk h hfs hsym hkey hdvd hnyq hfc
  have hE := C78_bpsk (yields_ofList (chips key msg)) h2 hw e2
  have hkp : (0 : ℝ) < (fs / (sym * key.length) : ℕ) / 2 := by
    have : (0 : ℝ) < (fs / (sym * key.length) : ℕ) := by exact_mod_cast h2
    linarith
  obtain ⟨bits, b1, b2⟩ := C101_bpsk hz hσ hg (yields_ofList (chips key msg)) hfs hdvd h2 hfc e2
    (fun n hn => by rw [hE.each h2 n hn]; exact hkp)
  refine ⟨bits, fun ω => ?_, ⟨b2.length, b2.event, fun e he => ?_⟩⟩
  · rw [← b1 ω]
    obtain ⟨w, -, hn⟩ := hz.driven hg σ
    obtain ⟨a, ea, ya⟩ := txCdmaBpsk_ok h hok
    obtain ⟨b, eb, yb⟩ := txBpsk_ok (yields_ofList (chips key msg)) (fs := fs) (sym := sym * key.length) (fc := fc)
      h2 hok.car ((isInt_real hfs (Nat.mul_pos hsym hok.key_pos)).mpr hdvd)
    rw [ea, pure_bind, collect_of_yields ya, RM.ok_inj] at e1
    rw [eb, pure_bind, collect_of_yields yb, RM.ok_inj] at e2
    obtain ⟨ca, c1, c2⟩ := awgn_driven (ya.of_eq e1) (hn ω)
    obtain ⟨cb, d1, d2⟩ := awgn_driven (yb.of_eq e2) (hn ω)
    obtain ⟨ra, f1, f2⟩ := rxBpsk_ok c2 (fs := fs) (fc := fc) (sym := sym * key.length) h2
    obtain ⟨rb, g1, g2⟩ := rxBpsk_ok d2 (fs := fs) (fc := fc) (sym := sym * key.length) h2
    rw [ea, eb, pure_bind, pure_bind, c1, d1, pure_bind, pure_bind, f1, g1, pure_bind, pure_bind, collect_of_yields f2,
      collect_of_yields g2]
  · rw [b2.pattern e he]
    refine Finset.prod_congr rfl fun n hn => ?_
    have hn := Finset.mem_range.mp hn
    rw [hE.each h2 n hn]

/-- **C161, the key in noise**: the first `key.length` bits the listener reads are the key, or the inverted key, but for a
probability of at most `key.length` chip errors. -/
theorem C161_key_noise (hz : White P 1 z) (hσ : 0 < σ) (hg : ∀ ω, Gives (noise ω) (fun i => z i ω)) [RIter ι Bool] {m : ι}
    {b : Bool} {t : List Bool} (h : Yields m (b :: t)) {fs sym : ℕ} {fc : ℝ} {key : List Bool}
    (hfs : fs < 2 ^ 64) (hsym : 0 < sym) (hkey : key ≠ []) (hdvd : sym * key.length ∣ fs)
    (hnyq : 2 * (sym * key.length) ≤ fs) (hfc : ⌊fc⌋₊ ≤ fs / 2) (hw : WholeHalf fs (fs / (sym * key.length)) fc) :
    ∃ bits : Ω → List Bool, (∀ ω, (do
        let s ← txCdmaBpsk m fs sym fc key
        let ch ← awgn s σ (noise ω)
        let rx ← rxBpsk ch fs (sym * key.length) fc
        collect rx) = pure (bits ω)) ∧
      1 - key.length * bitError ((fs / (sym * key.length) : ℕ) / 2) σ
        ≤ P.real {ω | (bits ω).take key.length = if b then key else key.map (!·)} := by
  obtain ⟨bits, b1, b2⟩ := C161_noise hz hσ hg h hfs hsym hkey hdvd hnyq hfc hw
  have := hz.prob
  refine ⟨bits, b1, ?_⟩
  have hlen : key.length ≤ (chips key (b :: t)).length := by
    rw [chips, List.flatMap_cons, List.length_append, List.length_map]; omega
  rw [← chips_take key b t]
  have hsub : {ω | (bits ω).take key.length = (chips key (b :: t)).take key.length}ᶜ
      ⊆ ⋃ n ∈ Finset.range key.length, {ω | (bits ω)[n]? ≠ (chips key (b :: t))[n]?} := by
    intro ω hω
    by_contra hc
    simp only [Set.mem_iUnion, Set.mem_ofPred_eq, Finset.mem_range, not_exists, not_not] at hc
    refine hω (List.ext_getElem? fun n => ?_)
    rw [List.getElem?_take, List.getElem?_take]
    split
    · exact hc n ‹_›
    · rfl
  have h1 : P.real {ω | (bits ω).take key.length = (chips key (b :: t)).take key.length}ᶜ
      ≤ key.length * bitError ((fs / (sym * key.length) : ℕ) / 2) σ := by
    refine (measureReal_mono hsub (measure_ne_top P _)).trans ((measureReal_biUnion_finset_le _ _).trans (le_of_eq ?_))
    rw [Finset.sum_congr rfl fun n hn => ?_, Finset.sum_const, Finset.card_range, nsmul_eq_mul]
    have hn := Finset.mem_range.mp hn
    rw [C101_bit b2 (by omega)]
  have h2 := measureReal_union_le (μ := P) {ω | (bits ω).take key.length = (chips key (b :: t)).take key.length}
    {ω | (bits ω).take key.length = (chips key (b :: t)).take key.length}ᶜ
  rw [Set.union_compl_self, probReal_univ] at h2
  linarith

/-- A key of two chips, noise of standard deviation one: the listener has it with probability at least `1 - 2·bitError 4 1`. -/
example : ∃ bits : (ℕ → ℝ) → List Bool, (∀ ω, (do
      let s ← txCdmaBpsk (ofList [true, false, true]) 16000 1000 (2000 : ℝ) [true, false]
      let ch ← awgn s (1 : ℝ) (path ω)
      let rx ← rxBpsk ch 16000 2000 (2000 : ℝ)
      collect rx) = pure (bits ω)) ∧
    1 - ((2 : ℕ) : ℝ) * bitError ((16000 / 2000 : ℕ) / 2) 1 ≤ (gaussPath 1).real {ω | (bits ω).take 2 = [true, false]} :=
  C161_key_noise (white_path 1) one_pos path_gives (yields_ofList [true, false, true]) (key := [true, false]) (fs := 16000) (sym := 1000)
    (by norm_num) (by norm_num) (by simp) (by norm_num) (by norm_num) (by norm_num)
    (WholeHalf.of_nat (f := 2000) (p := 2) (by norm_num) (by norm_num))

end Verif.Props
