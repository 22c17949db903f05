import Verif.Spec.Shared
import Verif.Props.Fdm
import Verif.Props.Fh
import Verif.Lemmas.Cases

/-!
# C125: stations without keys on one channel

Exact arithmetic.  Any number of stations send messages of the same length at the same time and with the same parameters.
-/
namespace Verif.Props
open Verif Spec
set_option linter.unusedSectionVars false
variable {ι κ : Type}

/-- What a BPSK, hopping or QPSK station sends. -/
def BpskSends (fs sym : ℕ) (fc : ℝ) (u : Speaker) (s : List ℝ) : Prop :=
  (do let tx ← txBpsk (ofList u.msg) fs sym fc; collect tx) = pure s

def HopSends (ρ : Type) [Rng ρ] (low high : ℝ) (nf fs sym : ℕ) (u : Speaker) (s : List ℝ) : Prop :=
  (do let tx ← txFhBpsk ρ (ofList u.msg) low high nf fs sym; collect tx) = pure s

def QpskSends (fs sym : ℕ) (fc : ℝ) (u : Speaker) (s : List ℝ) : Prop :=
  (do let tx ← txQpsk (ofList u.msg) fs sym fc; collect tx) = pure s

/-- If every station's signal is its bits times the same carrier, the channel is the ballots times that carrier. -/
theorem ballot_wave {us : List Speaker} {signals : List (List ℝ)} {channel : List ℝ} {k N : ℕ} (hk : 0 < k) {c : ℕ → ℕ → ℝ}
    (hmsg : ∀ u ∈ us, u.msg.length = N)
    (h : List.Forall₂ (fun u s => s = wave k (fun i b j => bitToNrz b * c i j) u.msg) us signals)
    (hl : channel.length = N * k) (hm : OnChannel us signals channel) :
    channel = wave k (fun i (_ : ℕ) j => ballot us i * c i j) (List.range N) := by
  have key : ∀ i < N * k, ((us.zip signals).map (fun p => p.1.gain * p.2.getD i 0)).sum = ballot us (i / k) * c (i / k) (i % k) := by
    intro i hi
    clear hm hl
    unfold ballot
    induction h with
    | nil => simp
    | @cons u s us ss h1 _ ih =>
      have hin : i / k < u.msg.length := by rw [Nat.div_lt_iff_lt_mul hk, hmsg u (by simp)]; exact hi
      rw [List.zip_cons_cons, List.map_cons, List.sum_cons, ih (fun u hu => hmsg u (by simp [hu])), List.map_cons, List.sum_cons,
        h1, List.getD_eq_getElem?_getD, wave_getElem? hk, List.getElem?_eq_getElem hin, List.getD_eq_getElem?_getD,
        List.getElem?_eq_getElem hin]
      simp only [Option.map_some, Option.getD_some, bitToNrz_real]
      cases u.msg[i / k] <;> simp <;> ring
  apply List.ext_getElem?
  intro i
  rw [wave_getElem? hk]
  by_cases hi : i < N * k
  · rw [hm.2 i (by omega), key i hi, List.getElem?_range (by rwa [Nat.div_lt_iff_lt_mul hk])]
    rfl
  · rw [List.getElem?_eq_none (by omega), List.getElem?_eq_none]
    · rfl
    · rw [List.length_range]
      rw [Nat.not_lt] at hi
      exact (Nat.le_div_iff_mul_le hk).mpr hi

theorem corr_ballot {k : ℕ} (hk : 2 ≤ k) (v d : ℝ) (m : ℕ) :
    (0 < ∑ j ∈ Finset.range k, v * Real.cos ((m + j : ℕ) * d) * Real.cos ((m + j : ℕ) * d)) ↔ 0 < v := by
  have e : ∑ j ∈ Finset.range k, v * Real.cos ((m + j : ℕ) * d) * Real.cos ((m + j : ℕ) * d)
      = v * ∑ j ∈ Finset.range k, Real.cos ((m + j : ℕ) * d) ^ 2 := by
    rw [Finset.mul_sum]
    exact Finset.sum_congr rfl (fun _ _ => by ring)
  rw [e, mul_pos_iff_of_pos_right (sum_cos_sq_pos hk m d)]

/-- BPSK stations on one carrier, any carrier: every bit is decided by the weighted vote, a tie is `false`. -/
theorem C125_bpsk [RIter κ ℝ] {us : List Speaker} {N fs sym : ℕ} {fc : ℝ} (hsym : 0 < sym) (hnyq : 2 * sym ≤ fs)
    (hmsg : ∀ u ∈ us, u.msg.length = N) {signals : List (List ℝ)} (htx : List.Forall₂ (BpskSends fs sym fc) us signals)
    {channel : List ℝ} (hcl : channel.length = N * (fs / sym)) (hmix : OnChannel us signals channel)
    {rcv : κ} (hrcv : Yields rcv channel) :
    (do let rx ← rxBpsk rcv fs sym fc; collect rx) = pure ((List.range N).map (fun n => decide (0 < ballot us n))) := by
  have h2 : 2 ≤ fs / sym := (Nat.le_div_iff_mul_le hsym).mpr hnyq
  have hsps : 0 < fs / sym := by omega
  have hw := ballot_wave (c := fun i j => Real.cos ((i * (fs / sym) + j : ℕ) * dphi fs fc)) hsps hmsg
    (htx.imp (fun u s h => by
      rw [txBpsk_collected (yields_ofList u.msg) hsps h]
      simp only [phase_real, Flt.cos_real])) hcl hmix
  obtain ⟨it, e, y⟩ := rxBpsk_sym (fc := fc) hrcv hsps
  rw [e, pure_bind, collect_of_yields y, hw, fullBlocks_wave hsps, mapIdx_mapIdx']
  congr 1
  rw [← mapIdx_range_self]
  apply mapIdx_congr'
  intro n a _
  rw [decBpsk, mapIdx_range_map, rsum_range, Flt.lt_real]
  simp only [phase_real, Flt.cos_real, decide_eq_decide]
  exact corr_ballot h2 _ _ _

/-- Hopping stations all hop together, so the same holds for them. -/
theorem C125_hopping {ρ : Type} [Rng ρ] [RIter κ ℝ] {us : List Speaker} {N nf fs sym : ℕ} {low high : ℝ} (hfs : fs < 2 ^ 64)
    (hsym : 0 < sym) (hdvd : sym ∣ fs) (hnyq : 2 * sym ≤ fs) (hn : 2 ≤ nf) (hhigh : ⌊high⌋₊ ≤ fs / 2)
    (hmsg : ∀ u ∈ us, u.msg.length = N) {signals : List (List ℝ)}
    (htx : List.Forall₂ (HopSends ρ low high nf fs sym) us signals)
    {channel : List ℝ} (hcl : channel.length = N * (fs / sym)) (hmix : OnChannel us signals channel)
    {rcv : κ} (hrcv : Yields rcv channel) :
    (do let rx ← rxFhBpsk ρ rcv low high nf fs sym; collect rx) = pure ((List.range N).map (fun n => decide (0 < ballot us n))) := by
  have h2 : 2 ≤ fs / sym := (Nat.le_div_iff_mul_le hsym).mpr hnyq
  have hsps : 0 < fs / sym := by omega
  have g1 : Flt.toNat high ≤ fs / 2 := by rw [Flt.toNat_real]; exact (min_le_left _ _).trans hhigh
  have g2 : isInt (Flt.ofNat fs / Flt.ofNat sym : ℝ) = true := by simpa using (isInt_real hfs hsym).mpr hdvd
  have hw := ballot_wave (c := fun i j => Real.cos ((j : ℕ) * dphi fs (hopOf ρ low high nf i))) hsps hmsg
    (htx.imp (fun u s h => by
      rw [txFhBpsk_collected (yields_ofList u.msg) hn hsps h]
      simp only [phase_real, Flt.cos_real])) hcl hmix
  obtain ⟨it, e, y⟩ := rxFhBpsk_sym (ρ := ρ) hrcv hn hsps g1 g2
  rw [e, pure_bind, collect_of_yields y, hw, fullBlocks_wave hsps, mapIdx_mapIdx']
  congr 1
  rw [← mapIdx_range_self]
  apply mapIdx_congr'
  intro n a _
  rw [decFh, mapIdx_range_map, rsum_range, Flt.lt_real]
  simp only [phase_real, Flt.cos_real, decide_eq_decide]
  have := corr_ballot h2 (ballot us n) (dphi fs (hopOf ρ low high nf n)) 0
  simpa only [Nat.zero_add] using this

/-- QPSK stations, symbols of whole half carrier periods: likewise, but a tie is `true`. -/
theorem C125_qpsk [RIter κ ℝ] {us : List Speaker} {N fs sym : ℕ} {fc : ℝ} (hsps : 0 < fs / sym)
    (hw : WholeHalf fs (fs / sym) fc) (hmsg : ∀ u ∈ us, u.msg.length = 2 * N) {signals : List (List ℝ)}
    (htx : List.Forall₂ (QpskSends fs sym fc) us signals)
    {channel : List ℝ} (hcl : channel.length = N * (fs / sym)) (hmix : OnChannel us signals channel)
    {rcv : κ} (hrcv : Yields rcv channel) :
    (do let rx ← rxQpsk rcv fs sym fc; collect rx)
      = pure ((List.range (2 * N)).map (fun n => decide (0 ≤ ballot us n))) := by
  have hrec : Recording channel N (fs / sym) (fun n i => ballot us (2 * n) * Real.cos (i * dphi fs fc)
      - ballot us (2 * n + 1) * Real.sin (i * dphi fs fc)) := by
    refine ⟨hcl, fun i hi => ?_⟩
    rw [hmix.2 i (by omega)]
    congr 1
    clear hmix hcl hw
    unfold ballot
    induction htx with
    | nil => simp
    | @cons u s us ss h1 _ ih =>
      have hl := hmsg u (by simp)
      have hin : i / (fs / sym) < N := by rwa [Nat.div_lt_iff_lt_mul hsps]
      obtain ⟨it, e, y⟩ := txQpsk_ok (yields_ofList u.msg) (fc := fc) hsps
      unfold QpskSends at h1
      rw [e, pure_bind, collect_of_yields y, RM.ok_inj] at h1
      rw [List.zip_cons_cons, List.map_cons, List.sum_cons, ih (fun u hu => hmsg u (by simp [hu])), ← h1,
        List.getD_eq_getElem?_getD, wave_getElem? hsps, pairs_getElem? _ _ (by omega)]
      simp only [Option.map_some, Option.getD_some, List.map_cons, List.sum_cons]
      rw [Nat.mul_comm (i / (fs / sym)), Nat.div_add_mod, phase_real, Flt.cos_real, Flt.sin_real, bitToNrz_real, bitToNrz_real]
      simp only [List.getD_eq_getElem?_getD]
      rw [List.getElem?_eq_getElem (show 2 * (i / (fs / sym)) < u.msg.length by omega),
        List.getElem?_eq_getElem (show 2 * (i / (fs / sym)) + 1 < u.msg.length by omega)]
      simp only [Option.getD_some]
      cases u.msg[2 * (i / (fs / sym))] <;> cases u.msg[2 * (i / (fs / sym)) + 1] <;> simp <;> ring
  obtain ⟨p, hp, hs⟩ := hw.dphi hsps
  have hhalf : (0 : ℝ) < ((fs / sym : ℕ) : ℝ) / 2 := by
    have : (0 : ℝ) < ((fs / sym : ℕ) : ℝ) := by exact_mod_cast hsps
    linarith
  rw [rxQpsk_recording hsps hrec hrcv]
  simp only [(quad_corr hp hs _ _ _).1, (quad_corr hp hs _ _ _).2, mul_nonneg_iff_of_pos_left hhalf]
  congr 1
  clear htx hmix hrcv hrec hcl hmsg
  induction N with
  | zero => rfl
  | succ N ih =>
    rw [List.range_succ, List.flatMap_append, ih, show 2 * (N + 1) = 2 * N + 1 + 1 by ring, List.range_succ, List.range_succ]
    simp

/-! ### What the vote means -/

theorem ballot_bound (us : List Speaker) (n : ℕ) : |ballot us n| ≤ (us.map (fun u => |u.gain|)).sum := by
  unfold ballot
  induction us with
  | nil => simp
  | cons u us ih =>
    rw [List.map_cons, List.sum_cons, List.map_cons, List.sum_cons]
    refine (abs_add_le _ _).trans (add_le_add ?_ ih)
    split_ifs
    · exact le_rfl
    · rw [abs_neg]

/-- A station stronger than all the others together wins every bit. -/
theorem ballot_capture {v : Speaker} {us : List Speaker} (h : (us.map (fun u => |u.gain|)).sum < v.gain) (n : ℕ) :
    decide (0 < ballot (v :: us) n) = v.msg.getD n false ∧ decide (0 ≤ ballot (v :: us) n) = v.msg.getD n false := by
  have hb := abs_le.mp (ballot_bound us n)
  have e : ballot (v :: us) n = (if v.msg.getD n false then v.gain else -v.gain) + ballot us n := by
    unfold ballot; rw [List.map_cons, List.sum_cons]
  rw [e]
  cases v.msg.getD n false
  · simp; constructor <;> linarith
  · simp; constructor <;> linarith

theorem range_getD (l : List Bool) : (List.range l.length).map (fun n => l.getD n false) = l := by
  apply List.ext_getElem?
  intro i
  by_cases hi : i < l.length
  · simp [hi]
  · simp [hi]

/-- Capture: if a station is received stronger than all the others together, its message is what is read. -/
theorem C125_capture {ρ : Type} [Rng ρ] [RIter κ ℝ] {v : Speaker} {us : List Speaker} {fs sym : ℕ} (hfs : fs < 2 ^ 64)
    (hsym : 0 < sym) (hdvd : sym ∣ fs) (hnyq : 2 * sym ≤ fs) (hmsg : ∀ u ∈ us, u.msg.length = v.msg.length)
    (hbig : (us.map (fun u => |u.gain|)).sum < v.gain) {signals : List (List ℝ)} {channel : List ℝ}
    (hmix : OnChannel (v :: us) signals channel) {rcv : κ} (hrcv : Yields rcv channel) :
    (∀ fc : ℝ, channel.length = v.msg.length * (fs / sym) → List.Forall₂ (BpskSends fs sym fc) (v :: us) signals →
      (do let rx ← rxBpsk rcv fs sym fc; collect rx) = pure v.msg) ∧
    (∀ (low high : ℝ) (nf : ℕ), 2 ≤ nf → ⌊high⌋₊ ≤ fs / 2 → channel.length = v.msg.length * (fs / sym) →
      List.Forall₂ (HopSends ρ low high nf fs sym) (v :: us) signals →
      (do let rx ← rxFhBpsk ρ rcv low high nf fs sym; collect rx) = pure v.msg) ∧
    (∀ fc : ℝ, WholeHalf fs (fs / sym) fc → 2 ∣ v.msg.length → channel.length = v.msg.length / 2 * (fs / sym) →
      List.Forall₂ (QpskSends fs sym fc) (v :: us) signals →
      (do let rx ← rxQpsk rcv fs sym fc; collect rx) = pure v.msg) := by
  have hm : ∀ u ∈ v :: us, u.msg.length = v.msg.length := by
    intro u hu
    rcases List.mem_cons.mp hu with rfl | hu
    · rfl
    · exact hmsg u hu
  have hsps : 0 < fs / sym := Nat.div_pos (by omega) hsym
  refine ⟨fun fc hcl htx => ?_, fun low high nf hn hh hcl htx => ?_, fun fc hw hd hcl htx => ?_⟩
  · rw [C125_bpsk hsym hnyq hm htx hcl hmix hrcv]
    simp only [(ballot_capture hbig _).1, range_getD]
  · rw [C125_hopping hfs hsym hdvd hnyq hn hh hm htx hcl hmix hrcv]
    simp only [(ballot_capture hbig _).1, range_getD]
  · rw [C125_qpsk hsps hw (fun u hu => by rw [hm u hu]; omega) htx hcl hmix hrcv]
    simp only [(ballot_capture hbig _).2, Nat.mul_div_cancel' hd, range_getD]

theorem ballot_tie {g : ℝ} (hg : 0 < g) (a b : List Bool) (n : ℕ) :
    decide (0 < ballot [⟨g, a⟩, ⟨g, b⟩] n) = (a.getD n false && b.getD n false) ∧
    decide (0 ≤ ballot [⟨g, a⟩, ⟨g, b⟩] n) = (a.getD n false || b.getD n false) := by
  unfold ballot
  rw [List.map_cons, List.map_cons, List.map_nil, List.sum_cons, List.sum_cons, List.sum_nil]
  dsimp only
  cases a.getD n false <;> cases b.getD n false <;> simp <;> (try constructor) <;> linarith

theorem range_zipWith (f : Bool → Bool → Bool) {a b : List Bool} (h : b.length = a.length) :
    (List.range a.length).map (fun n => f (a.getD n false) (b.getD n false)) = List.zipWith f a b := by
  apply List.ext_getElem?
  intro i
  by_cases hi : i < a.length
  · simp [hi, h]
  · simp [hi, h]

/-- Two stations received equally strongly: a BPSK or hopping receiver reads the bitwise and of the messages, a QPSK receiver the
bitwise or. -/
theorem C125_tie {ρ : Type} [Rng ρ] [RIter κ ℝ] {g : ℝ} (hg : 0 < g) {a b : List Bool} (hab : b.length = a.length) {fs sym : ℕ}
    (hfs : fs < 2 ^ 64) (hsym : 0 < sym) (hdvd : sym ∣ fs) (hnyq : 2 * sym ≤ fs) {signals : List (List ℝ)} {channel : List ℝ}
    (hmix : OnChannel [⟨g, a⟩, ⟨g, b⟩] signals channel) {rcv : κ} (hrcv : Yields rcv channel) :
    (∀ fc : ℝ, channel.length = a.length * (fs / sym) → List.Forall₂ (BpskSends fs sym fc) [⟨g, a⟩, ⟨g, b⟩] signals →
      (do let rx ← rxBpsk rcv fs sym fc; collect rx) = pure (List.zipWith and a b)) ∧
    (∀ (low high : ℝ) (nf : ℕ), 2 ≤ nf → ⌊high⌋₊ ≤ fs / 2 → channel.length = a.length * (fs / sym) →
      List.Forall₂ (HopSends ρ low high nf fs sym) [⟨g, a⟩, ⟨g, b⟩] signals →
      (do let rx ← rxFhBpsk ρ rcv low high nf fs sym; collect rx) = pure (List.zipWith and a b)) ∧
    (∀ fc : ℝ, WholeHalf fs (fs / sym) fc → 2 ∣ a.length → channel.length = a.length / 2 * (fs / sym) →
      List.Forall₂ (QpskSends fs sym fc) [⟨g, a⟩, ⟨g, b⟩] signals →
      (do let rx ← rxQpsk rcv fs sym fc; collect rx) = pure (List.zipWith or a b)) := by
  have hm : ∀ u ∈ [(⟨g, a⟩ : Speaker), ⟨g, b⟩], u.msg.length = a.length := by simp [hab]
  have hsps : 0 < fs / sym := Nat.div_pos (by omega) hsym
  refine ⟨fun fc hcl htx => ?_, fun low high nf hn hh hcl htx => ?_, fun fc hw hd hcl htx => ?_⟩
  · rw [C125_bpsk hsym hnyq hm htx hcl hmix hrcv]
    simp only [(ballot_tie hg a b _).1]
    rw [range_zipWith and hab]
  · rw [C125_hopping hfs hsym hdvd hnyq hn hh hm htx hcl hmix hrcv]
    simp only [(ballot_tie hg a b _).1]
    rw [range_zipWith and hab]
  · rw [C125_qpsk hsps hw (fun u hu => by rw [hm u hu]; omega) htx hcl hmix hrcv]
    simp only [(ballot_tie hg a b _).2, Nat.mul_div_cancel' hd]
    rw [range_zipWith or hab]

/-- Such channels exist. -/
theorem on_channel_exists {us : List Speaker} {n : ℕ} {S : Speaker → List ℝ → Prop} (h : ∀ u ∈ us, ∃ s, S u s ∧ s.length = n) :
    ∃ signals channel, List.Forall₂ S us signals ∧ channel.length = n ∧ OnChannel us signals channel := by
  induction us with
  | nil => exact ⟨[], List.replicate n 0, .nil, by simp, by simp, fun i hi => by simp at hi; simp [hi]⟩
  | cons u us ih =>
    obtain ⟨ss, c, h1, h2, h3, h4⟩ := ih (fun v hv => h v (by simp [hv]))
    obtain ⟨s, hs, hl⟩ := h u (by simp)
    refine ⟨s :: ss, (List.range n).map (fun i => u.gain * s.getD i 0 + c.getD i 0), .cons hs h1, by simp, ?_, ?_⟩
    · intro x hx
      rcases List.mem_cons.mp hx with rfl | hx
      · simp [hl]
      · simp [h3 x hx, h2]
    · intro i hi
      have hi' : i < n := by simpa using hi
      rw [List.getElem?_map, List.getElem?_range hi', Option.map_some, List.zip_cons_cons, List.map_cons, List.sum_cons,
        List.getD_eq_getElem?_getD (l := c), h4 i (by omega), Option.getD_some]

/-- Three stations, two weak ones outvoting a third: the second bit. -/
example : ∃ channel : List ℝ, (do let rx ← rxBpsk (ofList channel) 16000 1000 (2000 : ℝ); collect rx) = pure [true, false] := by
  obtain ⟨signals, channel, h1, h2, h3⟩ := on_channel_exists (us := [⟨3, [true, true]⟩, ⟨2, [true, false]⟩, ⟨2, [false, false]⟩])
    (n := 2 * 16) (S := BpskSends 16000 1000 2000) (by
      intro u hu
      obtain ⟨a, ha, hl⟩ := Cases.bpsk u.msg
      exact ⟨a, ha, by rw [hl]; simp at hu; rcases hu with rfl | rfl | rfl <;> rfl⟩)
  refine ⟨channel, ?_⟩
  rw [C125_bpsk (N := 2) (by norm_num) (by norm_num) (by simp) h1 h2 h3 (yields_ofList _)]
  norm_num [ballot, List.range_succ]

example (ρ : Type) [Rng ρ] : ∃ channel : List ℝ,
    (do let rx ← rxFhBpsk ρ (ofList channel) (1000 : ℝ) 3000 4 16000 1000; collect rx) = pure [true, false] := by
  obtain ⟨signals, channel, h1, h2, h3⟩ := on_channel_exists (us := [⟨3, [true, true]⟩, ⟨2, [true, false]⟩, ⟨2, [false, false]⟩])
    (n := 2 * 16) (S := HopSends ρ 1000 3000 4 16000 1000) (by
      intro u hu
      obtain ⟨a, ha, hl⟩ := Cases.hopping ρ u.msg
      exact ⟨a, ha, by rw [hl]; simp at hu; rcases hu with rfl | rfl | rfl <;> rfl⟩)
  refine ⟨channel, ?_⟩
  rw [C125_hopping (N := 2) (by norm_num) (by norm_num) (by norm_num) (by norm_num) (by norm_num) (by norm_num) (by simp) h1 h2 h3
    (yields_ofList _)]
  norm_num [ballot, List.range_succ]

example : ∃ channel : List ℝ, (do let rx ← rxQpsk (ofList channel) 16000 1000 (2000 : ℝ); collect rx) = pure [true, false] := by
  obtain ⟨signals, channel, h1, h2, h3⟩ := on_channel_exists (us := [⟨3, [true, true]⟩, ⟨2, [true, false]⟩, ⟨2, [false, false]⟩])
    (n := 1 * 16) (S := QpskSends 16000 1000 2000) (by
      intro u hu
      obtain ⟨a, ha, hl⟩ := Cases.qpsk u.msg
      exact ⟨a, ha, by rw [hl]; simp at hu; rcases hu with rfl | rfl | rfl <;> rfl⟩)
  refine ⟨channel, ?_⟩
  rw [C125_qpsk (N := 1) (fc := (2000 : ℝ)) (by norm_num) (WholeHalf.of_nat (f := 2000) (p := 4) (by norm_num) (by norm_num)) (by simp) h1 h2 h3
    (yields_ofList _)]
  norm_num [ballot, List.range_succ]

/-- Two hopping stations: unequal strengths, and equal ones. -/
example (ρ : Type) [Rng ρ] (a b : List Bool) (hab : b.length = a.length) : ∃ channel : List ℝ,
    (do let rx ← rxFhBpsk ρ (ofList channel) (1000 : ℝ) 3000 4 16000 1000; collect rx) = pure a := by
  obtain ⟨signals, channel, h1, h2, h3⟩ := on_channel_exists (us := [⟨2, a⟩, ⟨1, b⟩])
    (n := a.length * 16) (S := HopSends ρ 1000 3000 4 16000 1000) (by
      intro u hu
      obtain ⟨s, hs, hl⟩ := Cases.hopping ρ u.msg
      exact ⟨s, hs, by rw [hl]; simp at hu; rcases hu with rfl | rfl <;> simp [hab]⟩)
  exact ⟨channel, (C125_capture (ρ := ρ) (by norm_num) (by norm_num) (by norm_num) (by norm_num) (by simp [hab]) (by norm_num) h3
    (yields_ofList _)).2.1 1000 3000 4 (by norm_num) (by norm_num) h2 h1⟩

example (ρ : Type) [Rng ρ] (a b : List Bool) (hab : b.length = a.length) : ∃ channel : List ℝ,
    (do let rx ← rxFhBpsk ρ (ofList channel) (1000 : ℝ) 3000 4 16000 1000; collect rx) = pure (List.zipWith and a b) := by
  obtain ⟨signals, channel, h1, h2, h3⟩ := on_channel_exists (us := [⟨1, a⟩, ⟨1, b⟩])
    (n := a.length * 16) (S := HopSends ρ 1000 3000 4 16000 1000) (by
      intro u hu
      obtain ⟨s, hs, hl⟩ := Cases.hopping ρ u.msg
      exact ⟨s, hs, by rw [hl]; simp at hu; rcases hu with rfl | rfl <;> simp [hab]⟩)
  exact ⟨channel, (C125_tie (ρ := ρ) (g := 1) (by norm_num) hab (by norm_num) (by norm_num) (by norm_num) (by norm_num) h3
    (yields_ofList _)).2.1 1000 3000 4 (by norm_num) (by norm_num) h2 h1⟩

end Verif.Props
