import Verif.Lemmas.IeeeChirp
import Verif.F64.Hop
import Verif.Props.IeeeRx2
import Verif.Props.IeeeOfdmPass

/-!
# C154: chirps and the chirp transmitter in double precision
-/

namespace Verif
open F64 Spec
variable {L : Libm}
attribute [local instance] Props.toyRng

namespace Props

/-- A chirp at a whole number of chirps per second dividing the sample rate, in double precision: exactly `fs/sym` samples, and
each is within `ε + (W/sym)/2⁴²` of the chirp from `f0` to `f1`, `W` bounding the frequencies and `ε` being the error of the cosine. -/
theorem C154_chirp {ε : ℝ} (hL : Accurate L ε (2 ^ 40)) {fs sym : ℕ} (hfs0 : 0 < fs) (hfs : fs ≤ 2 ^ 30) (hsym : 0 < sym)
    (hdvd : sym ∣ fs) {f0 f1 : FloatL L} {W : ℝ} (hW : 1 ≤ W) (hW' : W ≤ 2 ^ 30) (h0 : F64.Fin f0 ∧ |val f0| ≤ W)
    (h1 : F64.Fin f1 ∧ |val f1| ≤ W) :
    ∃ l, Yields (linearChirp (Flt.ofNat sym : FloatL L) fs f0 f1) l ∧ l.length = fs / sym ∧
      ∀ i, i < fs / sym → ∃ x : FloatL L, l[i]? = some x ∧ F64.Fin x ∧
        |val x - chirpSample (val f0) (val f1) (1 / sym) (i / fs)| ≤ ε + W / sym / 2 ^ 42 := by
  have hN : Flt.toNat ((Flt.ofNat fs : FloatL L) / Flt.ofNat sym) = fs / sym := chirp_count hfs0 hsym hdvd hfs
  have hle := Nat.le_of_dvd hfs0 hdvd
  have hq : fs / sym ≤ 2 ^ 30 := (Nat.div_le_self _ _).trans hfs
  refine ⟨_, chirp_yields _ fs f0 f1, by rw [List.length_map, hopFreqs_length, hN], fun i hi => ?_⟩
  rw [hN, List.getElem?_map, hopFreqs, List.getElem?_map, List.getElem?_range hi]
  obtain ⟨g1, g2⟩ := chirp_sample hL hsym (by omega) hq hi hW hW' h0 h1 (a := val f0) (b := val f1) (δ := 0) (by simp) (by simp)
  refine ⟨_, rfl, g1, g2.trans ?_ |>.trans' (le_of_eq ?_)⟩
  · have hs0 : (0 : ℝ) < sym := by exact_mod_cast hsym
    have : (0 : ℝ) ≤ W / sym := div_nonneg (by linarith) hs0.le
    have e : W / sym / 2 ^ 42 = 1024 * (W / sym) / 2 ^ 52 := by ring
    rw [e, mul_zero, zero_div, add_zero]
    have : 640 * (W / sym) / 2 ^ 52 ≤ 1024 * (W / sym) / 2 ^ 52 := div_le_div_of_nonneg_right (by linarith) (by positivity)
    linarith
  · have e : ((fs / sym : ℕ) : ℝ) = fs / sym := Nat.cast_div hdvd (by exact_mod_cast hsym.ne')
    have hs0 : (sym : ℝ) ≠ 0 := by exact_mod_cast hsym.ne'
    have e2 : (sym : ℝ) * (fs / sym : ℕ) = fs := by rw [e]; field_simp
    rw [e2]
    rfl

example : ∃ l, Yields (linearChirp (Flt.ofNat 900 : FloatL libm0) 44100 (Flt.ofNat 1000) (Flt.ofNat 2000)) l ∧ l.length = 49 := by
  have a := ofNat_exact (n := 1000) (by norm_num)
  have b := ofNat_exact (n := 2000) (by norm_num)
  obtain ⟨l, h1, h2, -⟩ := C154_chirp (ε := 1 / 2 ^ 52) accurate_libm0 (fs := 44100) (sym := 900) (by norm_num) (by norm_num)
    (by norm_num) (by norm_num) (f0 := Flt.ofNat 1000) (f1 := Flt.ofNat 2000) (W := 2000) (by norm_num) (by norm_num)
    ⟨a.1, by rw [show val (Flt.ofNat 1000 : FloatL libm0) = 1000 from a.2]; norm_num⟩
    ⟨b.1, by rw [show val (Flt.ofNat 2000 : FloatL libm0) = 2000 from b.2]; norm_num⟩
  exact ⟨l, h1, h2⟩

/-- The chirp transmitter in double precision, for a dividing symbol rate: no panic, exactly `fs/sym` samples per bit, and bit number
`i` is a chirp over the band of width `(high - low)/n` around the hop frequency drawn for it — upwards for true, downwards for false —
every sample within `ε + (fs/sym)/2⁴²`. -/
theorem C154_css {ρ : Type} [Rng ρ] {ι : Type} [RIter ι Bool] {ε : ℝ} (hL : Accurate L ε (2 ^ 40)) {m : ι} {msg : List Bool}
    (h : Yields m msg) {fs sym n : ℕ} (hfs0 : 0 < fs) (hfs : fs ≤ 2 ^ 30) (hsym : 0 < sym) (hdvd : sym ∣ fs) {low high : FloatL L}
    (fl : F64.Fin low) (fh : F64.Fin high) (h1 : 1 / 2 ^ 100 ≤ val low) (h2 : val low ≤ val high) (hhigh : val high ≤ fs / 2)
    (hn : 2 ≤ n) (hn' : n ≤ 2 ^ 50) :
    ∃ t hop tx l, hopTable ρ low high n SEED = pure t ∧ Gives t hop ∧
      txFhCss ρ m fs sym low high n = pure tx ∧ Yields tx l ∧ l.length = msg.length * (fs / sym) ∧
      ∀ i b, msg[i / (fs / sym)]? = some b → ∃ x : FloatL L, l[i]? = some x ∧ F64.Fin x ∧
        |val x - (if b then
          chirpSample (val (hop (i / (fs / sym))) - (val high - val low) / n / 2)
            (val (hop (i / (fs / sym))) + (val high - val low) / n / 2) (1 / sym) ((i % (fs / sym) : ℕ) / fs)
        else chirpSample (val (hop (i / (fs / sym))) + (val high - val low) / n / 2)
            (val (hop (i / (fs / sym))) - (val high - val low) / n / 2) (1 / sym) ((i % (fs / sym) : ℕ) / fs))|
          ≤ ε + (fs : ℝ) / sym / 2 ^ 42 := by
  have hsps : 0 < fs / sym := Nat.div_pos (Nat.le_of_dvd hfs0 hdvd) hsym
  have hle := Nat.le_of_dvd hfs0 hdvd
  have hq : fs / sym ≤ 2 ^ 30 := (Nat.div_le_self _ _).trans hfs
  have hg := hopTable_gives (ρ := ρ) (hopFreqs low high n) (Rng.seed SEED) (by rw [hopFreqs_length]; exact hn)
  have htn : Flt.toNat high ≤ fs / 2 := by
    have : Flt.toNat high = min ⌊val high⌋₊ (2 ^ 64 - 1) := toNat_val fh
    rw [this]
    exact floor_le_half hhigh
  have hint : isInt (Flt.ofNat fs / Flt.ofNat sym : FloatL L) = true :=
    (guard_iff (by omega) (by omega)).mpr ⟨hsym.ne', hdvd⟩
  have hN : Flt.toNat ((Flt.ofNat fs : FloatL L) / Flt.ofNat sym) = fs / sym := chirp_count hfs0 hsym hdvd hfs
  have g0 : (1 : ℝ) ≤ fs := by exact_mod_cast hfs0
  have g1 : (fs : ℝ) ≤ 2 ^ 30 := by exact_mod_cast hfs
  have h3 : val high ≤ 2 ^ 100 := by
    have : (2 : ℝ) ^ 30 ≤ 2 ^ 100 := by norm_num
    linarith
  have hhop : ∀ (i : ℕ) (x : FloatL L), hopOf ρ low high n i = x → F64.Fin x ∧ val low ≤ val x ∧ val x ≤ val high := by
    obtain ⟨t, g, k1, k2, k3, -⟩ := C36_range_ieee (ρ := ρ) fl fh h1 h2 h3 hn hn' 64
    have k1' : hopTable ρ low high n SEED = pure t := k1
    rw [hopTable_ok, RM.ok_inj] at k1'
    rw [k1'] at hg
    have := hg.unique k2
    intro i x hx
    have hi : hopOf ρ low high n i = g i := congrFun this i
    rw [← hx, hi]
    exact k3 i
  let f : Bool × FloatL L → FloatL L × FloatL L := fun p =>
    if p.1 then (p.2 - (high - low) / Flt.ofNat n / Flt.ofNat 2, p.2 + (high - low) / Flt.ofNat n / Flt.ofNat 2)
      else (p.2 + (high - low) / Flt.ofNat n / Flt.ofNat 2, p.2 - (high - low) / Flt.ofNat n / Flt.ofNat 2)
  let tm : ℕ → FloatL L := fun j => 0 + (1 / Flt.ofNat sym - 0) / Flt.ofNat (fs / sym) * Flt.ofNat j
  let c : FloatL L → FloatL L → ℕ → FloatL L := fun a b j =>
    Flt.cos (Flt.ofNat 2 * Flt.pi * (a + (b - a) / (1 / Flt.ofNat sym) * tm j / Flt.ofNat 2) * tm j)
  refine ⟨_, _, _, wave (fs / sym) (fun i b j => c (f (b, hopOf ρ low high n i)).1 (f (b, hopOf ρ low high n i)).2 j) msg,
    hopTable_ok low high n SEED, hg,
    by rw [txFhCss, rassert_pos (by simpa using htn), rassert_pos hint, hopTable_ok]; simp only [pure_bind]; rfl, ?_,
    wave_length _ _ _, ?_⟩
  · refine (Yields.rflatMap_mem (out := fun p : Bool × FloatL L => (List.range (fs / sym)).map (c (f p).1 (f p).2)) ?_
      (h.rzip_gives hg)).of_eq ?_
    · intro p _
      have hy := chirp_yields (Flt.ofNat sym : FloatL L) fs (f p).1 (f p).2
      rw [hN, hopFreqs, List.map_map] at hy
      exact ⟨_, rfl, hy⟩
    · unfold wave hopOf
      rw [List.flatMap_def, map_mapIdx']
  · intro i b hb
    rw [wave_getElem? hsps, hb, Option.map_some]
    obtain ⟨k1, k2, k3⟩ := hhop (i / (fs / sym)) _ rfl
    obtain ⟨⟨a1, a2, a3⟩, b1, b2, b3⟩ := edge_ieee hfs0 hfs hn hn' fl fh (by linarith [show (0 : ℝ) ≤ 1 / 2 ^ 100 by positivity]) h2
      hhigh k1 k2 k3
    have hs0 : (0 : ℝ) < sym := by exact_mod_cast hsym
    have e2 : (sym : ℝ) * (fs / sym : ℕ) = fs := by exact_mod_cast Nat.mul_div_cancel' hdvd
    have hbd : ε + (640 * ((fs : ℝ) / sym) / 2 ^ 52 + 8 * (6 * fs / 2 ^ 52) / sym) ≤ ε + (fs : ℝ) / sym / 2 ^ 42 := by
      have e : 640 * ((fs : ℝ) / sym) / 2 ^ 52 + 8 * (6 * fs / 2 ^ 52) / sym = 688 * ((fs : ℝ) / sym) / 2 ^ 52 := by ring
      have e' : (fs : ℝ) / sym / 2 ^ 42 = 1024 * ((fs : ℝ) / sym) / 2 ^ 52 := by ring
      have p : (0 : ℝ) ≤ fs / sym := by positivity
      rw [e, e']
      have : 688 * ((fs : ℝ) / sym) / 2 ^ 52 ≤ 1024 * ((fs : ℝ) / sym) / 2 ^ 52 :=
        div_le_div_of_nonneg_right (by linarith) (by positivity)
      linarith
    have hlt : i % (fs / sym) < fs / sym := Nat.mod_lt _ hsps
    cases b with
    | true =>
      obtain ⟨q1, q2⟩ := chirp_sample hL hsym (by omega) hq hlt g0 g1 ⟨a1, a2⟩ ⟨b1, b2⟩ a3 b3
      rw [e2] at q2
      exact ⟨_, rfl, q1, q2.trans hbd⟩
    | false =>
      obtain ⟨q1, q2⟩ := chirp_sample hL hsym (by omega) hq hlt g0 g1 ⟨b1, b2⟩ ⟨a1, a2⟩ b3 a3
      rw [e2] at q2
      exact ⟨_, rfl, q1, q2.trans hbd⟩

example : ∃ tx l, txFhCss ℕ (ofList [true, false, true]) 44100 900 (Flt.ofNat 1000 : FloatL libm0) (Flt.ofNat 2000) 16 = pure tx ∧
    Yields tx l ∧ l.length = 3 * 49 := by
  have a := ofNat_exact (n := 1000) (by norm_num)
  have b := ofNat_exact (n := 2000) (by norm_num)
  have va : val (Flt.ofNat 1000 : FloatL libm0) = 1000 := a.2
  have vb : val (Flt.ofNat 2000 : FloatL libm0) = 2000 := b.2
  obtain ⟨-, -, tx, l, -, -, h1, h2, h3, -⟩ := C154_css (ρ := ℕ) (ε := 1 / 2 ^ 52) accurate_libm0
    (yields_ofList [true, false, true]) (fs := 44100) (sym := 900) (n := 16) (low := Flt.ofNat 1000) (high := Flt.ofNat 2000)
    (by norm_num) (by norm_num) (by norm_num) (by norm_num) a.1 b.1 (by rw [va]; norm_num) (by rw [va, vb]; norm_num)
    (by rw [vb]; norm_num) (by norm_num) (by norm_num)
  exact ⟨tx, l, h1, h2, h3⟩

end Props
end Verif
