import Verif.Lemmas.Ofdm
import Verif.Lemmas.Crash

/-! The passband OFDM modulator and demodulator. -/
namespace Verif
open Spec
set_option linter.unusedSectionVars false
variable {ι : Type}

/-- Output `i` of a run, as a function of the source. -/
theorem convRun_getElem? {A B : Type} {len : ℕ} (hlen : 0 < len) (dot : List A → B) (l : List A) (hle : len ≤ l.length)
    (i : ℕ) : (convRun len dot [] l)[i]? =
      if i < l.length + (len - 1) then some (dot (((l.drop (i + 1 - len)).take (i + 1 - (i + 1 - len))).reverse))
      else none := by
  have h := convRun_eq len dot [] l
  rw [List.take_nil] at h
  rw [h]
  simp only [List.append_nil]
  by_cases h1 : i < l.length
  · rw [List.getElem?_append_left (by simpa using h1), if_pos (by omega), List.getElem?_map, List.getElem?_range h1,
      Option.map_some]
    congr 2
    rw [List.take_reverse, List.length_take, Nat.min_eq_left (by omega), List.drop_take]
  · rw [List.getElem?_append_right (by simpa using h1), convTail_eq]
    simp only [List.length_map, List.length_range, List.length_take, List.length_reverse]
    by_cases h2 : i < l.length + (len - 1)
    · rw [if_pos h2, List.getElem?_map, List.getElem?_range (by omega), Option.map_some]
      congr 2
      rw [List.take_take, Nat.min_eq_left (by omega), List.take_reverse]
      rw [Nat.min_eq_left hle, List.take_of_length_le (l := List.drop (i + 1 - len) l) (by rw [List.length_drop]; omega)]
      congr 2; omega
    · rw [if_neg h2, List.getElem?_eq_none (by simp; omega)]

section anyF
variable {F : Type} [Add F] [Sub F] [Mul F] [Div F] [Neg F] [Zero F] [One F] [Flt F]

/-- The matched filter followed by decimation: sample `i` sums the products number `i·k + 1 … i·k + k`. -/
theorem Yields.matched [RIter ι (Vector F 2)] {s : ι} {l : List (Vector F 2)} (h : Yields s l) {S k : ℕ} (hk : 0 < k)
    (hl : l.length = S * k) (g : Vector F 2 → Cx F) :
    Yields (Verif.rskip (Verif.takeEvery (Verif.rmap (Verif.nonvolve s (List.replicate k (1 : F))) g) k) 1)
      ((List.range (if k = 1 then S - 1 else S)).map
        (fun i => g (nonvDot (List.replicate k 1) (((l.drop (i * k + 1)).take k).reverse)))) := by
  have h1 := (h.nonvolve (List.replicate k (1 : F))).rmap g
  rcases Nat.eq_zero_or_pos S with rfl | hS
  · have hl0 : l = [] := List.length_eq_zero_iff.mp (by simpa using hl)
    subst hl0
    have h0 : convRun (List.replicate k (1 : F)).length (nonvDot (List.replicate k (1 : F))) []
        ([] : List (Vector F 2)) = [] := by rw [convRun]; unfold convTail; simp
    rw [h0] at h1
    refine (Beh.rskip (Beh.takeEvery h1 hk) ?_ 1).congr fun i => ?_
    · intro n _; simp
    · simp
  rw [List.length_replicate] at h1
  have h2 := Beh.takeEvery h1 hk
  have hfused : Fused (fun n => ((convRun k (nonvDot (List.replicate k (1 : F))) [] l).map g)[n * k]?) := by
    intro n hn
    simp only [List.getElem?_eq_none_iff] at hn ⊢
    rw [Nat.add_mul]; omega
  refine (Beh.rskip h2 hfused 1).congr fun i => ?_
  have hkS : k ≤ S * k := Nat.le_mul_of_pos_left k hS
  rw [List.getElem?_map, convRun_getElem? hk _ _ (by omega), List.getElem?_map, hl]
  have e : (1 + i) * k + 1 - k = i * k + 1 := by rw [Nat.add_mul]; omega
  have e2 : (1 + i) * k + 1 - (i * k + 1) = k := by rw [Nat.add_mul]; omega
  rw [e, e2]
  have key : (1 + i) * k < S * k + (k - 1) ↔ i < (if k = 1 then S - 1 else S) := by
    split
    · next hk1 => subst hk1; omega
    · next hk1 =>
      constructor
      · intro hi
        have h3 : (1 + i) * k < (S + 1) * k := by rw [Nat.add_mul S]; omega
        have := Nat.lt_of_mul_lt_mul_right h3
        omega
      · intro hi
        have h3 : (1 + i) * k ≤ S * k := Nat.mul_le_mul_right k (by omega)
        omega
  by_cases hi : i < (if k = 1 then S - 1 else S)
  · rw [if_pos (key.mpr hi), List.getElem?_range hi]; rfl
  · rw [if_neg (fun h => hi (key.mp h)), List.getElem?_eq_none (by simpa using hi)]; rfl

/-- The QPSK constellation. -/
def qpskPoint (p : Bool × Bool) : Cx F :=
  ⟨if p.1 then Flt.sqrt (Flt.ofNat 2) else -(Flt.sqrt (Flt.ofNat 2)),
   if p.2 then Flt.sqrt (Flt.ofNat 2) else -(Flt.sqrt (Flt.ofNat 2))⟩

theorem Yields.txBasebandQpsk [RIter ι Bool] {m : ι} {msg : List Bool} (h : Yields m msg) :
    Yields (Verif.txBasebandQpsk (F := F) m) ((pairs msg).map qpskPoint) := by
  refine (h.rtuples.rmap _).of_eq (List.map_congr_left fun p _ => ?_)
  rcases p with ⟨_ | _, _ | _⟩ <;> rfl

theorem Yields.rxBasebandQpsk [RIter ι (Cx F)] {s : ι} {l : List (Cx F)} (h : Yields s l) :
    Yields (Verif.rxBasebandQpsk (F := F) s) (l.flatMap (fun z : Cx F => [Flt.le 0 z.re, Flt.le 0 z.im])) :=
  h.rflatMap (fun _ => ⟨_, rfl, yields_ofList _⟩)

variable [Fft F]

/-- The complex samples of the whole transmission. -/
def ofdmSamples (n p : ℕ) (msg : List Bool) : List (Cx F) :=
  (blocks (n - p) ((pairs msg).map qpskPoint)).flatMap (frameL n p)

theorem ofdmSamples_length (n p : ℕ) (msg : List Bool) :
    (ofdmSamples (F := F) n p msg).length = (blocks (n - p) (pairs msg)).length * (n + n / 4) := by
  rw [ofdmSamples, length_flatMap_const (k := n + n / 4) _ _ (fun b _ => frameL_length n p b), blocks_map, List.length_map]

theorem txOfdmQpsk_ok [RIter ι Bool] {m : ι} {msg : List Bool} (h : Yields m msg) {n p fs sym : ℕ} {fc : F}
    (h1 : 1 ≤ p) (h2 : p ≤ n) (hsps : 0 < fs / sym) (hint : isInt (Flt.ofNat fs / Flt.ofNat sym : F) = true) :
    ∃ it, txOfdmQpsk m n p fs sym fc = pure it ∧
      Yields it (wave (fs / sym) (fun i (z : Cx F) j => (z * Cx.exp ⟨0, phase fs fc (i * (fs / sym) + j)⟩).re)
        (ofdmSamples n p msg)) := by
  have hsym : 0 < sym := by
    rcases Nat.eq_zero_or_pos sym with rfl | h
    · simp at hsps
    · exact h
  obtain ⟨it, e, hy⟩ := txBasebandOfdm_ok (h.txBasebandQpsk (F := F)) h1 h2
  unfold txOfdmQpsk
  rw [rassert_pos hint, pure_bind, udiv_pos hsym, pure_bind, e, pure_bind]
  refine ⟨_, rfl, ?_⟩
  have := ((hy.inflate hsps).renumerate).rmap (fun q : ℕ × Cx F => (q.2 * Cx.exp ⟨0, phase fs fc q.1⟩).re)
  rw [map_mapIdx', flatMap_replicate_eq_wave, mapIdx_wave] at this
  exact this

/-- The down-converted products. -/
def ofdmMix (fs : ℕ) (fc : F) (l : List F) : List (Vector F 2) :=
  l.mapIdx (fun i x => #v[x * Flt.cos (phase fs fc i), x * -(Flt.sin (phase fs fc i))])

/-- The complex samples that the receiver hands to the baseband receiver. -/
def ofdmRxSamples (fs k : ℕ) (fc : F) (S : ℕ) (l : List F) : List (Cx F) :=
  (List.range (if k = 1 then S - 1 else S)).map (fun i =>
    let v := nonvDot (List.replicate k 1) ((((ofdmMix fs fc l).drop (i * k + 1)).take k).reverse)
    ⟨v[0], v[1]⟩)

theorem ofdmRxSamples_length (fs k : ℕ) (fc : F) (S : ℕ) (l : List F) :
    (ofdmRxSamples fs k fc S l).length = if k = 1 then S - 1 else S := by simp [ofdmRxSamples]

/-- The receiver, when the number of samples it recovers is a whole number of frames. -/
theorem rxOfdmQpsk_ok [RIter ι F] {s : ι} {l : List F} (h : Yields s l) {n p fs sym S : ℕ} {fc : F}
    (h1 : 1 ≤ p) (h2 : p ≤ n) (hk : 2 ≤ fs / sym) (hint : isInt (Flt.ofNat fs / Flt.ofNat sym : F) = true)
    (hl : l.length = S * (fs / sym)) (hS : n + n / 4 ∣ S) :
    ∃ it, rxOfdmQpsk s n p fs sym fc = pure it ∧
      Yields it (((blocks (n + n / 4) (ofdmRxSamples fs (fs / sym) fc S l)).flatMap (deframeL n p)).flatMap
        (fun z => [Flt.le 0 z.re, Flt.le 0 z.im])) := by
  have hsym : 0 < sym := by
    rcases Nat.eq_zero_or_pos sym with rfl | h
    · simp at hk
    · exact h
  have hm := (h.renumerate.rmap (fun q : ℕ × F =>
    (#v[q.2 * Flt.cos (phase fs fc q.1), q.2 * -(Flt.sin (phase fs fc q.1))] : Vector F 2)))
  rw [map_mapIdx'] at hm
  have hm2 := hm.matched (S := S) (k := fs / sym) (by omega) (by rw [List.length_mapIdx, hl])
    (fun v => (⟨v[0], v[1]⟩ : Cx F))
  obtain ⟨it, e, hy⟩ := rxBasebandOfdm_ok hm2 h1 h2 (by
    rw [List.length_map, List.length_range, if_neg (by omega)]; exact hS)
  unfold rxOfdmQpsk
  rw [rassert_pos hint, pure_bind, udiv_pos hsym, pure_bind]
  simp only []
  rw [e, pure_bind]
  exact ⟨_, rfl, hy.rxBasebandQpsk⟩

/-- The receiver panics on an incomplete last frame. -/
theorem rxOfdmQpsk_panics [RIter ι F] {s : ι} {l : List F} (h : Yields s l) {n p fs S : ℕ} {fc : F}
    (h1 : 1 ≤ p) (h2 : p ≤ n) (hfs : 0 < fs) (hint : isInt (Flt.ofNat fs / Flt.ofNat fs : F) = true)
    (hl : l.length = S) (hS : n + n / 4 ∣ S) (hS0 : 0 < S) (hn : 2 ≤ n) :
    (do let it ← rxOfdmQpsk s n p fs fs fc; collect it).Panics := by
  have hk1 : fs / fs = 1 := Nat.div_self hfs
  have hm := (h.renumerate.rmap (fun q : ℕ × F =>
    (#v[q.2 * Flt.cos (phase fs fc q.1), q.2 * -(Flt.sin (phase fs fc q.1))] : Vector F 2)))
  rw [map_mapIdx'] at hm
  have hm2 := hm.matched (S := S) (k := 1) (by omega) (by rw [List.length_mapIdx, hl, Nat.mul_one])
    (fun v => (⟨v[0], v[1]⟩ : Cx F))
  rw [if_pos rfl] at hm2
  set y := (List.range (S - 1)).map (fun i => (fun v : Vector F 2 => (⟨v[0], v[1]⟩ : Cx F))
    (nonvDot (List.replicate 1 1) ((((l.mapIdx (fun i x => (#v[x * Flt.cos (phase fs fc i),
      x * -(Flt.sin (phase fs fc i))] : Vector F 2))).drop (i * 1 + 1)).take 1).reverse))) with hy
  have hylen : y.length = S - 1 := by rw [hy]; simp
  have hc := hm2.chunks (n + n / 4)
  obtain ⟨c, hcS⟩ := hS
  have hc0 : 0 < c := Nat.pos_of_ne_zero (by rintro rfl; omega)
  set L := n + n / 4 with hL
  have hsplit : y = y.take (L * (c - 1)) ++ y.drop (L * (c - 1)) := (List.take_append_drop _ _).symm
  have hle : L * (c - 1) + L = S := by rw [hcS]; obtain ⟨c', rfl⟩ : ∃ c', c = c' + 1 := ⟨c - 1, by omega⟩; simp [Nat.mul_add]
  have hb : blocks L y = blocks L (y.take (L * (c - 1))) ++ [y.drop (L * (c - 1))] := by
    have hdl : (y.drop (L * (c - 1))).length = L - 1 := by rw [List.length_drop, hylen]; omega
    have hfull : ∀ b ∈ blocks L (y.take (L * (c - 1))), b.length = L :=
      mem_blocks_full (by omega) _ (by rw [List.length_take, hylen, Nat.min_eq_left (by omega)]; exact ⟨_, rfl⟩)
    have : ∀ (bs : List (List (Cx F))) (t : List (Cx F)), (∀ b ∈ bs, b.length = L) → t ≠ [] → t.length ≤ L →
        blocks L (bs.flatten ++ t) = bs ++ [t] := by
      intro bs t
      induction bs with
      | nil =>
        intro _ ht htl
        rw [List.flatten_nil, List.nil_append, blocks_cons (by omega) ht, List.take_of_length_le htl,
          List.drop_of_length_le htl, blocks_nil]; rfl
      | cons b bs ih =>
        intro hbs ht htl
        rw [List.flatten_cons, List.append_assoc, blocks_append (by omega) (hbs b (by simp)),
          ih (fun b hb => hbs b (by simp [hb])) ht htl]; rfl
    have h3 := this (blocks L (y.take (L * (c - 1)))) (y.drop (L * (c - 1))) hfull
      (by intro h; rw [h] at hdl; simp at hdl; omega) (by omega)
    rw [blocks_flatten L (by omega)] at h3
    rw [← hsplit] at h3
    exact h3
  rw [hb] at hc
  have hcrash := hc.rflatMap_crash (f := fun d => do
      pure (ofList (← ofdmDeframe (F := F) n (n / 4) (carriers n p) d))) (out := deframeL n p)
    (fun d hd => ⟨ofList (deframeL n p d), by
      rw [ofdmDeframe_ok h1 h2 (mem_blocks_full (by omega) _
        (by rw [List.length_take, hylen, Nat.min_eq_left (by omega)]; exact ⟨_, rfl⟩) d hd), pure_bind],
      yields_ofList _⟩)
    (by
      obtain ⟨q, hq⟩ := ofdmDeframe_short (F := F) (n := n) (p := p) (c := y.drop (L * (c - 1))) (by omega)
        (by rw [List.length_drop, hylen]; omega)
      exact ⟨q, by rw [hq]; rfl⟩)
  have hq := hcrash.rflatMap (f := fun sample : Cx F => pure (ofList [Flt.le 0 sample.re, Flt.le 0 sample.im]))
    (out := fun z => [Flt.le 0 z.re, Flt.le 0 z.im]) (fun z _ => ⟨_, rfl, yields_ofList _⟩)
  unfold rxOfdmQpsk rxBasebandOfdm
  rw [rassert_pos hint, pure_bind, udiv_pos hfs, pure_bind, hk1]
  simp only [usub_le h2, getDataSubcarriers_ok h1 h2, pure_bind]
  exact hq.collect

end anyF
end Verif
