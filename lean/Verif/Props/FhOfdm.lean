import Verif.Lemmas.FhOfdm

/-! C47, C67: FH-OFDM-DCSK. -/
namespace Verif.Props
open Verif Spec
set_option linter.unusedSectionVars false
variable {ι ρ : Type} [Rng ρ]

/-! ## C47 — baseband round trip (exact arithmetic) -/

/-- Whatever generator is used (it is seeded alike on both sides), every bit comes back, followed by between one and seven
`true`s that complete the last frame of seven. -/
theorem C47_roundtrip [RIter ι Bool] {m : ι} {msg : List Bool} (h : Yields m msg) :
    (do let tx ← txBasebandFhOfdm ρ ℝ m
        collect (rxBasebandFhOfdm ρ ℝ tx)) = pure (msg ++ List.replicate (7 - msg.length % 7) true) := by
  obtain ⟨it, e, hy⟩ := txBasebandFhOfdm_ok (ρ := ρ) (F := ℝ) h (by simp; norm_num)
  have hlen : ∀ f ∈ stMap fhFrame (fun r _ => hopNext r) (Rng.seed SEED : ρ) (fhInput (F := ℝ) msg), f.length = 10 := by
    intro f hf
    obtain ⟨r, p, _, rfl⟩ := mem_stMap hf
    exact fhFrame_length r p
  have hrx := rxBasebandFhOfdm_ok (ρ := ρ) hy (by rw [flatten_length_const hlen]; exact ⟨_, rfl⟩)
  rw [e, pure_bind, collect_of_yields hrx, blocks_flatten_eq (by norm_num) _ hlen,
    stFlat_stMap_fh _ _ (fun p hp => mem_fhInput hp)]
  congr 1
  have hpos : ∀ p ∈ fhInput (F := ℝ) msg, ∀ x ∈ p.2, 0 < x := by
    intro p hp x hx
    obtain ⟨i, _, rfl⟩ := List.mem_mapIdx.mp hp
    obtain ⟨j, _, rfl⟩ := List.mem_map.mp hx
    exact chebyshev_pos (by simp) _
  have h1 : (fhInput (F := ℝ) msg).flatMap (fun p => ((preHop p.1 p.2).drop 1).map
        (fun b => Flt.signPos (Cx.conj ((preHop p.1 p.2).getD 0 0) * b).re))
      = (fhInput (F := ℝ) msg).flatMap (fun p => p.1.map (fun z => decide (0 ≤ z.re))) := by
    refine List.flatMap_congr fun p hp => ?_
    obtain ⟨h1, h2⟩ := mem_fhInput hp
    exact frame_bits h1 h2 (hpos p hp)
  have h2 : (fhInput (F := ℝ) msg).map (fun p => p.1.map (fun z => decide (0 ≤ z.re)))
      = (blocks 7 (msg.map (fun b => (if b then ⟨1, 0⟩ else ⟨-1, 0⟩ : Cx ℝ))
          ++ List.replicate (7 - msg.length % 7) 0)).map (fun s => s.map (fun z => decide (0 ≤ z.re))) := by
    rw [fhInput, map_mapIdx', mapIdx_const]
  rw [h1, List.flatMap_def, h2, ← blocks_map, blocks_flatten _ (by norm_num), List.map_append, List.map_map]
  congr 1
  · conv_rhs => rw [← List.map_id msg]
    refine List.map_congr_left fun b _ => ?_
    cases b <;> simp
  · simp

example : (do let tx ← txBasebandFhOfdm ρ ℝ (ofList [true, false, false])
              collect (rxBasebandFhOfdm ρ ℝ tx)) = pure [true, false, false, true, true, true, true] :=
  C47_roundtrip (yields_ofList _)

/-- When 7 divides the length, a whole frame of padding is sent. -/
theorem C47_extra_frame [RIter ι Bool] {m : ι} {msg : List Bool} (h : Yields m msg) (h7 : 7 ∣ msg.length) :
    (do let tx ← txBasebandFhOfdm ρ ℝ m
        collect (rxBasebandFhOfdm ρ ℝ tx)) = pure (msg ++ List.replicate 7 true) := by
  rw [C47_roundtrip h, Nat.mod_eq_zero_of_dvd h7]

example : (do let tx ← txBasebandFhOfdm ρ ℝ (ofList [true, false, false, true, true, false, true])
              collect (rxBasebandFhOfdm ρ ℝ tx))
    = pure ([true, false, false, true, true, false, true] ++ List.replicate 7 true) :=
  C47_extra_frame (yields_ofList _) ⟨1, rfl⟩

theorem chebyshev_overflow : (Chebyshev.new (Flt.lit 5 1 : Float)) = pure ⟨0.5⟩ ∧
    ∀ n, 7 ≤ n → orbit chebyshev (0.5 : Float) n = Float.ofBits 0x7FF0000000000000 := by
  refine ⟨by
    unfold Chebyshev.new
    rw [rassert_pos (by decide +kernel), pure_bind]
    exact congrArg (fun x : Float => (pure ⟨x⟩ : RM (Chebyshev Float))) (by decide +kernel), ?_⟩
  intro n hn
  obtain ⟨k, rfl⟩ : ∃ k, n = 7 + k := ⟨n - 7, by omega⟩
  induction k with
  | zero => decide +kernel
  | succ k ih =>
    rw [← Nat.add_assoc, orbit, ih (by omega)]
    decide +kernel

/-- The chaotic sequence that multiplies the symbols overflows: in IEEE arithmetic every sample from number 7 on is
infinite (the round trip above is a statement about exact arithmetic only). -/
theorem C47_ieee_overflow : ∃ it, ∃ g : ℕ → Float, Chebyshev.new (Flt.lit 5 1 : Float) = pure it ∧ Gives it g ∧
    ∀ n, 7 ≤ n → g n = Float.ofBits 0x7FF0000000000000 :=
  ⟨_, _, chebyshev_overflow.1, gives_chebyshev _, chebyshev_overflow.2⟩

/-! ## C67 — shape of the transmissions -/

section anyF
variable {F : Type} [Add F] [Sub F] [Mul F] [Div F] [Neg F] [Zero F] [One F] [Flt F] [Fft F]

/-- Any number type, any transform, any generator: `len/7 + 1` frames of ten samples, each frame starting with a copy of
its last two samples. -/
theorem C67_frames [RIter ι Bool] {m : ι} {msg : List Bool} (h : Yields m msg)
    (h05 : (Flt.le (-1) (Flt.lit 5 1 : F) && Flt.le (Flt.lit 5 1 : F) 1) = true) :
    ∃ it, ∃ frames : List (List (Cx F)), txBasebandFhOfdm ρ F m = pure it ∧ Yields it frames.flatten ∧
      frames.length = msg.length / 7 + 1 ∧
      ∀ f ∈ frames, f.length = 10 ∧ f.take 2 = f.drop 8 := by
  obtain ⟨it, e, hy⟩ := txBasebandFhOfdm_ok (ρ := ρ) (F := F) h h05
  refine ⟨it, _, e, hy, by rw [stMap_length, fhInput_length], fun f hf => ?_⟩
  obtain ⟨r, p, _, rfl⟩ := mem_stMap hf
  refine ⟨fhFrame_length r p, ?_⟩
  unfold fhFrame
  have hl : (Fft.dft true (fftshift ((hopPerm r).map (fun i => (preHop p.1 p.2).getD i 0)))).length = 8 := by
    rw [Fft.length_dft, fftshift_length, List.length_map, hopPerm_length]
  generalize Fft.dft true (fftshift ((hopPerm r).map (fun i => (preHop p.1 p.2).getD i 0))) = y at hl
  rw [List.map_append, List.take_left' (by rw [List.length_map, List.length_drop, hl]), List.drop_append,
    List.drop_of_length_le (l := List.map _ (y.drop 6)) (by rw [List.length_map, List.length_drop, hl]; decide),
    List.nil_append, List.length_map, List.length_drop, hl, List.map_drop]

example [Fft Float] : ∃ it, ∃ frames : List (List (Cx Float)), txBasebandFhOfdm ρ Float (ofList [true, false, true, true, true, false, false, true]) = pure it ∧
    Yields it frames.flatten ∧ frames.length = 2 ∧ ∀ f ∈ frames, f.length = 10 ∧ f.take 2 = f.drop 8 :=
  C67_frames (yields_ofList _) (by decide +kernel)

/-- The passband transmitter at a fixed carrier: `sps` samples per baseband sample, each the real part of the baseband
sample rotated by `-2π·fc·t`. -/
theorem C67_passband [RIter ι Bool] {m : ι} {msg : List Bool} (h : Yields m msg) {fs sym : ℕ} {fc : F}
    (h05 : (Flt.le (-1) (Flt.lit 5 1 : F) && Flt.le (Flt.lit 5 1 : F) 1) = true)
    (hny : Flt.toNat fc ≤ fs / 2) (hint : isInt (Flt.ofNat fs / Flt.ofNat sym : F) = true) (hsps : 0 < fs / sym) :
    ∃ it base, ∃ bs : List (Cx F), txFhOfdm2 ρ m fs sym fc = pure it ∧ txBasebandFhOfdm ρ F m = pure base ∧
      Yields base bs ∧
      Yields it (wave (fs / sym) (fun i (z : Cx F) j =>
        (z * Cx.exp ⟨0, -(Flt.ofNat 2) * Flt.pi * fc * (Flt.ofNat (i * (fs / sym) + j) / Flt.ofNat fs)⟩).re) bs) ∧
      bs.length = 10 * (msg.length / 7 + 1) := by
  have hsym : 0 < sym := by
    rcases Nat.eq_zero_or_pos sym with rfl | h
    · simp at hsps
    · exact h
  obtain ⟨base, frames, e, hy, hl, hf⟩ := C67_frames (ρ := ρ) h h05
  unfold txFhOfdm2
  rw [rassert_pos (by simpa using hny), pure_bind, rassert_pos hint, pure_bind, udiv_pos hsym, pure_bind, e, pure_bind]
  refine ⟨_, base, frames.flatten, rfl, rfl, hy, ?_, ?_⟩
  · have := ((hy.inflate hsps).renumerate).rmap (fun p : ℕ × Cx F =>
      (p.2 * Cx.exp ⟨0, -(Flt.ofNat 2) * Flt.pi * fc * (Flt.ofNat p.1 / Flt.ofNat fs)⟩).re)
    rw [map_mapIdx', flatMap_replicate_eq_wave, mapIdx_wave] at this
    exact this
  · rw [flatten_length_const (fun f h => (hf f h).1), hl]

/-- The hopping transmitter: the same with the frequency of the hop table, one hop per baseband sample. -/
theorem C67_hopping [RIter ι Bool] {m : ι} {msg : List Bool} (h : Yields m msg) {fs sym nf : ℕ} {lo hi : F}
    (h05 : (Flt.le (-1) (Flt.lit 5 1 : F) && Flt.le (Flt.lit 5 1 : F) 1) = true)
    (hny : Flt.toNat hi ≤ fs / 2) (hint : isInt (Flt.ofNat fs / Flt.ofNat sym : F) = true) (hsps : 0 < fs / sym)
    (hnf : 2 ≤ nf) :
    ∃ it base hops, ∃ bs : List (Cx F), ∃ hop : ℕ → F, txFhOfdm ρ m lo hi nf fs sym = pure it ∧
      txBasebandFhOfdm ρ F m = pure base ∧ Yields base bs ∧
      hopTable ρ lo hi nf SEED = pure hops ∧ Gives hops hop ∧ (∀ i, ∃ j < nf, hop i = lo + (hi - lo) / Flt.ofNat nf * Flt.ofNat j) ∧
      Yields it (wave (fs / sym) (fun i (z : Cx F) j =>
        (z * Cx.exp ⟨0, -(Flt.ofNat 2) * Flt.pi * hop i * (Flt.ofNat (i * (fs / sym) + j) / Flt.ofNat fs)⟩).re) bs) ∧
      bs.length = 10 * (msg.length / 7 + 1) := by
  have hsym : 0 < sym := by
    rcases Nat.eq_zero_or_pos sym with rfl | h
    · simp at hsps
    · exact h
  obtain ⟨base, frames, e, hy, hl, hf⟩ := C67_frames (ρ := ρ) h h05
  have hg := hopTable_gives (hopFreqs lo hi nf) (Rng.seed SEED : ρ) (by rw [hopFreqs_length]; exact hnf)
  unfold txFhOfdm
  rw [rassert_pos (by simpa using hny), pure_bind, rassert_pos hint, pure_bind, udiv_pos hsym, pure_bind, e, pure_bind,
    hopTable_ok, pure_bind]
  refine ⟨_, base, _, frames.flatten, hopAt (hopFreqs lo hi nf, (Rng.seed SEED : ρ)), rfl, rfl, hy, rfl,
    hg, ?_, ?_, ?_⟩
  · intro i
    have := hopAt_mem (hopFreqs lo hi nf, (Rng.seed SEED : ρ)) (by simp only [hopFreqs_length]; omega) i
    obtain ⟨j, hj, e⟩ := List.mem_map.mp this
    exact ⟨j, by simpa using hj, e.symm⟩
  · have := (((hy.rzip_gives hg).inflate hsps).renumerate).rmap (fun p : ℕ × (Cx F × F) =>
      (p.2.1 * Cx.exp ⟨0, -(Flt.ofNat 2) * Flt.pi * p.2.2 * (Flt.ofNat p.1 / Flt.ofNat fs)⟩).re)
    rw [map_mapIdx', flatMap_replicate_eq_wave, mapIdx_wave] at this
    refine this.of_eq ?_
    unfold wave
    rw [mapIdx_mapIdx']
  · rw [flatten_length_const (fun f h => (hf f h).1), hl]

end anyF

/-- The guards hold in IEEE arithmetic at the crate's usual rates. -/
example : (Flt.le (-1) (Flt.lit 5 1 : Float) && Flt.le (Flt.lit 5 1 : Float) 1) = true ∧
    isInt (Flt.ofNat 44100 / Flt.ofNat 900 : Float) = true := by decide +kernel

example [Fft Float] : ∃ it base, ∃ bs : List (Cx Float), txFhOfdm2 ρ (ofList [true, false]) 44100 900 (1800 : Float) = pure it ∧
    txBasebandFhOfdm ρ Float (ofList [true, false]) = pure base ∧ Yields base bs ∧ bs.length = 10 := by
  obtain ⟨it, base, bs, h1, h2, h3, _, h5⟩ := C67_passband (ρ := ρ) (F := Float) (yields_ofList [true, false]) (fs := 44100)
    (sym := 900) (fc := 1800) (by decide +kernel) (by decide +kernel) (by decide +kernel) (by decide)
  exact ⟨it, base, bs, h1, h2, h3, h5⟩

example [Fft Float] : ∃ it, ∃ hop : ℕ → Float,
    txFhOfdm ρ (ofList [true, false, true]) (1000 : Float) 2000 8 44100 900 = pure it ∧
    (∀ i, ∃ j < 8, hop i = 1000 + (2000 - 1000) / Flt.ofNat 8 * Flt.ofNat j) := by
  obtain ⟨it, _, _, _, hop, h1, _, _, _, _, h2, _⟩ := C67_hopping (ρ := ρ) (F := Float) (yields_ofList [true, false, true])
    (fs := 44100) (sym := 900) (nf := 8) (lo := 1000) (hi := 2000) (by decide +kernel) (by decide +kernel)
    (by decide +kernel) (by decide) (by decide)
  exact ⟨it, hop, h1, h2⟩

end Verif.Props
