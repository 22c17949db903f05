import Verif.Lemmas.Multipath

/-! # OFDM over a multipath channel: C75

Exact arithmetic, even carrier counts (odd ones do not work even without a channel, see `C33_refuted`). -/
namespace Verif.Props
open Verif Spec
variable {ι : Type}

/-- What arrives of the samples `sent` over `paths`. -/
noncomputable def received (paths : List ℂ) (sent : List (Cx ℝ)) : List (Cx ℝ) :=
  (channel paths (sent.map Cx.toC)).map Cx.ofC

theorem received_length (paths : List ℂ) (sent : List (Cx ℝ)) : (received paths sent).length = sent.length := by
  simp [received, channel]

theorem received_getD (paths : List ℂ) (sent : List (Cx ℝ)) {i : ℕ} (hi : i < sent.length) :
    ((received paths sent).getD i 0).toC
      = ∑ d ∈ Finset.range paths.length, if d ≤ i then paths.getD d 0 * (sent.getD (i - d) 0).toC else 0 := by
  have : (received paths sent)[i]? = some (Cx.ofC (∑ d ∈ Finset.range paths.length,
      if d ≤ i then paths.getD d 0 * (sent.map Cx.toC).getD (i - d) 0 else 0)) := by
    simp [received, channel, hi]
  rw [List.getD, this, Option.getD_some, Cx.toC_ofC]
  refine Finset.sum_congr rfl fun d _ => ?_
  by_cases hd : d ≤ i
  · rw [if_pos hd, if_pos hd]
    congr 1
    simp [List.getD, show i - d < sent.length by omega]
  · rw [if_neg hd, if_neg hd]

/-- Both ends spelled out, for any channel. -/
theorem multipath_link [RIter ι (Cx ℝ)] {s : ι} {l : List (Cx ℝ)} (h : Yields s l) {n p : ℕ} (h1 : 1 ≤ p) (h2 : p < n)
    (paths : List ℂ) :
    let sent := (blocks (n - p) l).flatMap (frameL n p)
    let out := (blocks (n + n / 4) (received paths sent)).flatMap (deframeL n p)
    (do let tx ← txBasebandOfdm (F := ℝ) s n p
        collect tx) = pure sent ∧
      (do let rx ← rxBasebandOfdm (F := ℝ) (ofList (received paths sent)) n p
          collect rx) = pure out ∧
      sent.length = (blocks (n - p) l).length * (n + n / 4) ∧
      out.length = (n - p) * ((l.length + (n - p) - 1) / (n - p)) ∧
      ∀ i < out.length, out[i]? = (deframeL n p (((received paths sent).drop
        (i / (n - p) * (n + n / 4))).take (n + n / 4)))[i % (n - p)]? := by
  intro sent out
  obtain ⟨it, e, hy⟩ := txBasebandOfdm_ok h h1 h2.le
  have hsl : sent.length = (blocks (n - p) l).length * (n + n / 4) :=
    length_flatMap_const _ _ (fun b _ => frameL_length n p b)
  have hL : 0 < n + n / 4 := by omega
  have hbl : (blocks (n + n / 4) (received paths sent)).length = (blocks (n - p) l).length := by
    rw [blocks_length _ hL, received_length, hsl, Nat.add_sub_assoc hL, Nat.mul_comm, Nat.mul_add_div hL,
      Nat.div_eq_of_lt (by omega), Nat.add_zero]
  obtain ⟨it2, e2, hy2⟩ := rxBasebandOfdm_ok (yields_ofList (received paths sent)) h1 h2.le
    (by rw [received_length, hsl]; exact ⟨_, Nat.mul_comm _ _⟩)
  have hol : out.length = (n - p) * ((l.length + (n - p) - 1) / (n - p)) := by
    rw [show out.length = _ from length_flatMap_const (k := n - p) _ _ (fun b _ => deframeL_length h1 h2.le b), hbl,
      blocks_length _ (by omega), Nat.mul_comm]
  refine ⟨by rw [e, pure_bind, collect_of_yields hy], by rw [e2, pure_bind, collect_of_yields hy2], hsl, hol, ?_⟩
  intro i hi
  have h3 : i / (n - p) < (blocks (n - p) l).length := by
    rw [blocks_length _ (by omega)]
    rw [hol] at hi
    exact Nat.div_lt_of_lt_mul hi
  rw [show out[i]? = _ from getElem?_flatMap_const (by omega : 0 < n - p) _ _ (fun b _ => deframeL_length h1 h2.le b) i,
    blocks_getElem?' hL, received_length, hsl, if_pos (Nat.mul_lt_mul_of_pos_right h3 hL)]
  rfl

/-- On every data carrier of every frame the symbol arrives multiplied by the gain that the channel has at that
carrier's frequency: no symbol disturbs another one, however many paths there are, as long as none of them is later than
a quarter of a frame body. -/
theorem C75_multipath [RIter ι (Cx ℝ)] {s : ι} {l : List (Cx ℝ)} (h : Yields s l) {n p : ℕ} (h1 : 1 ≤ p) (h2 : p < n)
    (he : n % 2 = 0) (paths : List ℂ) (hp : paths.length ≤ n / 4 + 1) :
    ∃ cs sent out, getDataSubcarriers n p = pure cs ∧
      (do let tx ← txBasebandOfdm (F := ℝ) s n p
          collect tx) = pure sent ∧
      (do let rx ← rxBasebandOfdm (F := ℝ) (ofList (received paths sent)) n p
          collect rx) = pure out ∧
      out.length = (n - p) * ((l.length + (n - p) - 1) / (n - p)) ∧
      ∀ i < out.length, (out.getD i 0).toC
        = response n paths (cs.getD (i % (n - p)) 0 - (n / 2 : ℕ)) * (l.getD i 0).toC := by
  obtain ⟨e1, e2, hsl, hol, hget⟩ := multipath_link h h1 h2 paths
  refine ⟨carriers n p, _, _, getDataSubcarriers_ok h1 h2.le, e1, e2, hol, ?_⟩
  intro i hi
  set sent := (blocks (n - p) l).flatMap (frameL n p) with hsent
  have hL : 0 < n + n / 4 := by omega
  have hK : 0 < n - p := by omega
  rw [List.getD, hget i hi, ← List.getD]
  have h3 : i / (n - p) < (blocks (n - p) l).length := by
    rw [blocks_length _ hK]; rw [hol] at hi; exact Nat.div_lt_of_lt_mul hi
  set f := i / (n - p) with hf
  have h4 : (f + 1) * (n + n / 4) ≤ sent.length := by rw [hsl]; exact Nat.mul_le_mul_right _ h3
  rw [Nat.add_mul, Nat.one_mul] at h4
  have hfl : f * (n - p) < l.length := by
    rw [blocks_length _ hK] at h3
    have := (Nat.le_div_iff_mul_le hK).mp (Nat.succ_le_of_lt h3)
    rw [Nat.succ_mul] at this
    omega
  have hblk : (blocks (n - p) l)[f]? = some ((l.drop (f * (n - p))).take (n - p)) := by
    rw [blocks_getElem?' hK, if_pos hfl]
  have hframe : ∀ t < n + n / 4, sent.getD (f * (n + n / 4) + t) 0
      = (frameL n p ((l.drop (f * (n - p))).take (n - p))).getD t 0 := by
    intro t ht
    rw [List.getD, hsent, getElem?_flatMap_const hL _ _ (fun b _ => frameL_length n p b)]
    rw [show f * (n + n / 4) + t = t + (n + n / 4) * f by ring, Nat.add_mul_div_left _ _ hL, Nat.add_mul_mod_self_left,
      Nat.div_eq_of_lt ht, Nat.mod_eq_of_lt ht, Nat.zero_add, hblk]
    rfl
  have hsym : l.getD i 0 = ((l.drop (f * (n - p))).take (n - p)).getD (i % (n - p)) 0 := by
    have := Nat.mod_lt i hK
    rw [List.getD, List.getD, List.getElem?_take_of_lt this, List.getElem?_drop]
    congr 2
    rw [hf, Nat.mul_comm, Nat.div_add_mod]
  rw [hsym]
  refine deframe_channel h1 h2.le he _ _ paths hp ?_ ?_ (Nat.mod_lt _ hK)
  · rw [List.length_take, List.length_drop, received_length]; omega
  · intro j hj
    have e : (((received paths sent).drop (f * (n + n / 4))).take (n + n / 4)).getD (n / 4 + j) 0
        = (received paths sent).getD (f * (n + n / 4) + (n / 4 + j)) 0 := by
      rw [List.getD, List.getElem?_take_of_lt (by omega), List.getElem?_drop, List.getD]
    rw [e, received_getD _ _ (by omega)]
    refine Finset.sum_congr rfl fun d hd => ?_
    have hd := Finset.mem_range.mp hd
    rw [if_pos (by omega), Nat.add_sub_assoc (by omega), hframe _ (by omega)]

/-- The direct path and an echo with half the amplitude, 16 samples later, on 64 carriers: each carrier is turned and
attenuated by a known amount. -/
example (l : List (Cx ℝ)) (hl : l.length = 104) :
    ∃ cs sent out, getDataSubcarriers 64 12 = pure cs ∧
      (do let tx ← txBasebandOfdm (F := ℝ) (ofList l) 64 12
          collect tx) = pure sent ∧
      (do let rx ← rxBasebandOfdm (F := ℝ) (ofList (received (1 :: List.replicate 15 0 ++ [1 / 2]) sent)) 64 12
          collect rx) = pure out ∧ out.length = 104 := by
  obtain ⟨cs, sent, out, a, b, c, d, _⟩ := C75_multipath (yields_ofList l) (n := 64) (p := 12) (by decide) (by decide)
    (by decide) (1 :: List.replicate 15 0 ++ [1 / 2]) (by simp)
  exact ⟨cs, sent, out, a, b, c, by rw [d, hl]⟩

/-- A receiver that starts up to a quarter of a frame body early sees every symbol with its amplitude, turned by an angle
that depends on the carrier only. -/
theorem C75_timing [RIter ι (Cx ℝ)] {s : ι} {l : List (Cx ℝ)} (h : Yields s l) {n p : ℕ} (h1 : 1 ≤ p) (h2 : p < n)
    (he : n % 2 = 0) {d : ℕ} (hd : d ≤ n / 4) :
    ∃ cs sent out, getDataSubcarriers n p = pure cs ∧
      (do let tx ← txBasebandOfdm (F := ℝ) s n p
          collect tx) = pure sent ∧
      (do let rx ← rxBasebandOfdm (F := ℝ) (ofList (List.replicate d 0 ++ sent |>.take sent.length)) n p
          collect rx) = pure out ∧
      out.length = (n - p) * ((l.length + (n - p) - 1) / (n - p)) ∧
      ∀ i < out.length, (out.getD i 0).toC
        = Complex.exp (-(2 * Real.pi * Complex.I * (d * ((cs.getD (i % (n - p)) 0 : ℤ) - (n / 2 : ℕ) : ℤ) / n)))
          * (l.getD i 0).toC := by
  obtain ⟨cs, sent, out, a, b, c, e, g⟩ := C75_multipath h h1 h2 he (List.replicate d 0 ++ [1]) (by simpa using hd)
  have hr : received (List.replicate d 0 ++ [1]) sent = (List.replicate d 0 ++ sent).take sent.length := by
    apply List.ext_getElem
    · simp [received_length]
    intro i hi _
    rw [received_length] at hi
    apply Cx.toC_inj
    have := received_getD (List.replicate d 0 ++ [1]) sent hi
    rw [List.getD, List.getElem?_eq_getElem (by rw [received_length]; exact hi), Option.getD_some] at this
    rw [this, List.length_append, List.length_replicate, List.length_singleton, Finset.sum_range_succ,
      Finset.sum_eq_zero, zero_add]
    · rw [List.getElem_take]
      by_cases hdi : d ≤ i
      · rw [if_pos hdi, List.getElem_append_right (by simpa using hdi)]
        simp [List.getD, show i - d < sent.length by omega]
      · rw [if_neg hdi, List.getElem_append_left (by simpa using hdi)]
        simp; rfl
    · intro x hx
      have hx := Finset.mem_range.mp hx
      simp [List.getD, List.getElem?_append_left, hx]
  rw [hr] at c
  refine ⟨cs, sent, out, a, b, c, e, fun i hi => ?_⟩
  rw [g i hi, response, List.length_append, List.length_replicate, List.length_singleton, Finset.sum_range_succ,
    Finset.sum_eq_zero, zero_add]
  · congr 1
    simp [List.getD]
  · intro x hx
    have hx := Finset.mem_range.mp hx
    simp [List.getD, List.getElem?_append_left, hx]

example (l : List (Cx ℝ)) (hl : l.length = 104) :
    ∃ sent out, (do let tx ← txBasebandOfdm (F := ℝ) (ofList l) 64 12
                    collect tx) = pure sent ∧
      (do let rx ← rxBasebandOfdm (F := ℝ) (ofList (List.replicate 16 0 ++ sent |>.take sent.length)) 64 12
          collect rx) = pure out ∧ ∀ i < 104, ‖(out.getD i 0).toC‖ = ‖(l.getD i 0).toC‖ := by
  obtain ⟨cs, sent, out, _, b, c, d, e⟩ := C75_timing (yields_ofList l) (n := 64) (p := 12) (by decide) (by decide)
    (by decide) (d := 16) (by decide)
  refine ⟨sent, out, b, c, fun i hi => ?_⟩
  rw [hl] at d
  rw [e i (by omega), norm_mul]
  have : ∀ x : ℤ, ‖Complex.exp (-(2 * Real.pi * Complex.I * ((16 : ℕ) * x / (64 : ℕ))))‖ = 1 := by
    intro x
    rw [show -(2 * (Real.pi : ℂ) * Complex.I * ((16 : ℕ) * x / (64 : ℕ)))
      = ((-(2 * Real.pi * (16 * x / 64)) : ℝ) : ℂ) * Complex.I by push_cast; ring]
    exact Complex.norm_exp_ofReal_mul_I _
  rw [this, one_mul]

/-- Channel knowledge can be taken from any other frame: two symbols on the same carrier are received in the proportion in
which they were sent. -/
theorem C75_training [RIter ι (Cx ℝ)] {s : ι} {l : List (Cx ℝ)} (h : Yields s l) {n p : ℕ} (h1 : 1 ≤ p) (h2 : p < n)
    (he : n % 2 = 0) (paths : List ℂ) (hp : paths.length ≤ n / 4 + 1) :
    ∃ sent out, (do let tx ← txBasebandOfdm (F := ℝ) s n p
                    collect tx) = pure sent ∧
      (do let rx ← rxBasebandOfdm (F := ℝ) (ofList (received paths sent)) n p
          collect rx) = pure out ∧ l.length ≤ out.length ∧
      ∀ i j, i < l.length → j < l.length → i % (n - p) = j % (n - p) →
        (out.getD i 0).toC * (l.getD j 0).toC = (out.getD j 0).toC * (l.getD i 0).toC := by
  obtain ⟨cs, sent, out, _, b, c, d, e⟩ := C75_multipath h h1 h2 he paths hp
  have hle : l.length ≤ out.length := by
    rw [d]
    have := Nat.div_add_mod (l.length + (n - p) - 1) (n - p)
    have := Nat.mod_lt (l.length + (n - p) - 1) (by omega : n - p > 0)
    omega
  refine ⟨sent, out, b, c, hle, fun i j hi hj hij => ?_⟩
  rw [e i (by omega), e j (by omega), hij]
  ring

example (a b : Cx ℝ) : ∃ sent out, (do let tx ← txBasebandOfdm (F := ℝ) (ofList [a, b]) 4 3
                                       collect tx) = pure sent ∧
      (do let rx ← rxBasebandOfdm (F := ℝ) (ofList (received [1, Complex.I] sent)) 4 3
          collect rx) = pure out ∧ (out.getD 0 0).toC * b.toC = (out.getD 1 0).toC * a.toC := by
  obtain ⟨sent, out, x, y, _, z⟩ := C75_training (yields_ofList [a, b]) (n := 4) (p := 3) (by decide) (by decide)
    (by decide) [1, Complex.I] (by simp)
  exact ⟨sent, out, x, y, z 0 1 (by simp) (by simp) (by decide)⟩

/-- The bound on the delay is sharp for every carrier and pilot count: one sample more, and a frame of zeros following a
frame with a single symbol is received as something else than zeros, on every carrier. -/
theorem C75_longer {n p : ℕ} (h1 : 1 ≤ p) (h2 : p < n) (he : n % 2 = 0) :
    ∃ sent out,
      (do let tx ← txBasebandOfdm (F := ℝ) (ofList ((⟨1, 0⟩ : Cx ℝ) :: List.replicate (2 * (n - p) - 1) 0)) n p
          collect tx) = pure sent ∧
      (do let rx ← rxBasebandOfdm (F := ℝ) (ofList (received (List.replicate (n / 4 + 1) 0 ++ [1]) sent)) n p
          collect rx) = pure out ∧
      ∀ i, n - p ≤ i → i < 2 * (n - p) → (out.getD i 0).toC ≠ 0 := by
  set l : List (Cx ℝ) := ⟨1, 0⟩ :: List.replicate (2 * (n - p) - 1) (0 : Cx ℝ) with hl
  have hll : l.length = 2 * (n - p) := by rw [hl, List.length_cons, List.length_replicate]; omega
  have hK : 0 < n - p := by omega
  have hL : 0 < n + n / 4 := by omega
  obtain ⟨e1, e2, hsl, hol, hget⟩ := multipath_link (yields_ofList l) h1 h2 (List.replicate (n / 4 + 1) 0 ++ [1])
  refine ⟨_, _, e1, e2, ?_⟩
  intro i hi1 hi2
  set sent := (blocks (n - p) l).flatMap (frameL n p) with hsent
  have hblk : blocks (n - p) l = [l.take (n - p), List.replicate (n - p) 0] := by
    rw [blocks_cons hK (by simp [hl]), blocks_cons hK (by rw [Ne, ← List.length_eq_zero_iff, List.length_drop]; omega),
      List.drop_drop, List.drop_of_length_le (i := n - p + (n - p)) (by omega), blocks_nil,
      List.take_of_length_le (l := l.drop (n - p)) (by rw [List.length_drop]; omega)]
    congr 2
    rw [hl, show n - p = (n - p - 1) + 1 by omega, List.drop_succ_cons, List.drop_replicate]
    congr 1; omega
  have hlen2 : (blocks (n - p) l).length = 2 := by rw [hblk]; rfl
  rw [hlen2] at hsl
  have hol' : ((blocks (n + n / 4) (received (List.replicate (n / 4 + 1) 0 ++ [1]) sent)).flatMap (deframeL n p)).length
      = 2 * (n - p) := by
    rw [hol, hll, Nat.add_sub_assoc hK, Nat.mul_comm 2, Nat.mul_add_div hK, Nat.div_eq_of_lt (by omega), Nat.mul_comm]
  rw [List.getD, hget i (by omega), ← List.getD]
  have hf : i / (n - p) = 1 := by
    rw [Nat.div_eq_iff hK]; omega
  rw [hf, Nat.one_mul]
  rw [deframe_getD h1 h2.le _ (by rw [List.length_take, List.length_drop, received_length]; omega) (Nat.mod_lt _ hK)]
  have hs0 : sent = frameL n p (l.take (n - p)) ++ frameL n p (List.replicate (n - p) 0) := by
    rw [hsent, hblk]; simp
  -- a frame of zeros is silent
  have hz : ∀ t, (frameL n p (List.replicate (n - p) (0 : Cx ℝ))).getD t 0 = 0 := by
    intro t
    by_cases ht : t < n + n / 4
    · have hm : (frameL n p (List.replicate (n - p) (0 : Cx ℝ))).getD t 0 ∈ frameL n p (List.replicate (n - p) (0 : Cx ℝ)) := by
        rw [List.getD, List.getElem?_eq_getElem (by rw [frameL_length]; exact ht)]
        exact List.getElem_mem _
      have := norm_frame_le (List.replicate (n - p) (0 : Cx ℝ)) (le_refl (0 : ℝ))
        (fun z hz => by rw [(List.mem_replicate.mp hz).2]; exact le_of_eq (by simp [Cx.toC, Complex.norm_def, Complex.normSq])) _ hm
      exact Cx.toC_inj (by rw [norm_le_zero_iff.mp this]; rfl)
    · rw [List.getD, List.getElem?_eq_none (by rw [frameL_length]; omega)]; rfl
  -- what arrives in the body of the second frame
  have hb : ∀ j < n, (((received (List.replicate (n / 4 + 1) 0 ++ [1]) sent).drop (n + n / 4)).take (n + n / 4)).getD
      (n / 4 + j) 0 = if j = 0 then (frameL n p (l.take (n - p))).getD (n / 4 + (n - 1)) 0 else 0 := by
    intro j hj
    rw [List.getD, List.getElem?_take_of_lt (by omega), List.getElem?_drop, ← List.getD]
    apply Cx.toC_inj
    rw [received_getD _ _ (by omega), List.length_append, List.length_replicate, List.length_singleton,
      Finset.sum_range_succ, Finset.sum_eq_zero, zero_add, if_pos (by omega)]
    · have : (List.replicate (n / 4 + 1) (0 : ℂ) ++ [1]).getD (n / 4 + 1) 0 = 1 := by simp [List.getD]
      rw [this, one_mul, show n + n / 4 + (n / 4 + j) - (n / 4 + 1) = n / 4 + (n - 1) + j by omega, hs0]
      by_cases h0 : j = 0
      · rw [if_pos h0, h0, Nat.add_zero, List.getD, List.getElem?_append_left (by rw [frameL_length]; omega), List.getD]
      · rw [if_neg h0, List.getD, List.getElem?_append_right (by rw [frameL_length]; omega), ← List.getD, hz]
    · intro x hx
      have hx := Finset.mem_range.mp hx
      simp [List.getD, List.getElem?_append_left, hx]
  rw [Finset.sum_eq_single 0]
  · rw [hb 0 (by omega), if_pos rfl, frame_idft _ _ _ (by omega)]
    rw [mul_ne_zero_iff]
    refine ⟨?_, ?_⟩
    · -- a single symbol makes a signal of constant amplitude
      have hcl := carriers_length h1 h2.le
      have hc0 : (carriers n p)[0]? = some ((carriers n p)[0]'(by omega)) := List.getElem?_eq_getElem _
      set c0 := (carriers n p)[0]'(by omega) with hc0d
      have hc0n : c0 < n := carriers_lt h1 h2.le _ (List.mem_of_getElem? hc0)
      have htk : l.take (n - p) = ⟨1, 0⟩ :: List.replicate (n - p - 1) 0 := by
        rw [hl, show n - p = (n - p - 1) + 1 by omega, List.take_succ_cons, List.take_replicate]
        congr 2; omega
      have hplace : ∀ c < n, (place n (carriers n p) (l.take (n - p))).getD c 0 = if c = c0 then (⟨1, 0⟩ : Cx ℝ) else 0 := by
        intro c hc
        by_cases hm : c ∈ carriers n p
        · obtain ⟨k, hk⟩ := List.mem_iff_getElem?.mp hm
          rw [List.getD, place_carrier (carriers_nodup n p) (carriers_lt h1 h2.le) _ hk, Option.getD_some, htk]
          rcases Nat.eq_zero_or_pos k with rfl | hkp
          · rw [hc0] at hk
            rw [if_pos (Option.some.inj hk).symm]; rfl
          · have hne : c ≠ c0 := by
              rintro rfl
              have hkl : k < (carriers n p).length := (List.getElem?_eq_some_iff.mp hk).1
              have := (carriers_nodup n p).getElem_inj_iff (i := k) (j := 0) (hi := hkl) (hj := by omega)
              have h3 : (carriers n p)[k] = (carriers n p)[0]'(by omega) := (List.getElem?_eq_some_iff.mp hk).2
              have := this.mp h3
              omega
            rw [if_neg hne]
            obtain ⟨k, rfl⟩ : ∃ k', k = k' + 1 := ⟨k - 1, by omega⟩
            simp [List.getD, List.getElem?_replicate]
            split <;> rfl
        · rw [List.getD, place_empty (carriers_nodup n p) (carriers_lt h1 h2.le) _ hc hm, Option.getD_some, if_neg]
          rintro rfl
          exact hm (List.mem_of_getElem? hc0)
      have hxl : ((fftshift (place n (carriers n p) (l.take (n - p)))).map Cx.toC).length = n := by
        rw [List.length_map, fftshift_length, place_length]
      have hpl := place_length n (carriers n p) (l.take (n - p))
      have hx : ∀ k < n, ((fftshift (place n (carriers n p) (l.take (n - p)))).map Cx.toC).getD k 0
          = if (k + (n + 1) / 2) % n = c0 then 1 else 0 := by
        intro k hk
        have e : ((fftshift (place n (carriers n p) (l.take (n - p)))).map Cx.toC).getD k 0
            = ((fftshift (place n (carriers n p) (l.take (n - p)))).getD k 0).toC := by
          simp [List.getD, fftshift_length, hpl, hk]
        rw [e, List.getD, fftshift_eq_rotate, List.getElem?_rotate (by omega), hpl, ← List.getD,
          hplace _ (Nat.mod_lt _ (by omega))]
        split <;> rfl
      rw [idft, hxl, dftAt_unit, hxl, Finset.sum_eq_single ((c0 + n / 2) % n)]
      · rw [hx _ (Nat.mod_lt _ (by omega)), Nat.mod_add_mod, show c0 + n / 2 + (n + 1) / 2 = c0 + n by omega,
          Nat.add_mod_right, Nat.mod_eq_of_lt hc0n, if_pos rfl, one_mul, mul_ne_zero_iff]
        refine ⟨inv_ne_zero (by exact_mod_cast (by omega : n ≠ 0)), fun h => ?_⟩
        have := norm_unit n (1 * ((((c0 + n / 2) % n : ℕ) : ℤ) * ((n - 1 : ℕ) : ℤ)))
        rw [h] at this; simp at this
      · intro k hk hne
        have hk := Finset.mem_range.mp hk
        rw [hx k hk, if_neg, zero_mul]
        rintro hc
        apply hne
        rw [← hc, Nat.mod_add_mod, show k + (n + 1) / 2 + n / 2 = k + n by omega, Nat.add_mod_right, Nat.mod_eq_of_lt hk]
      · intro h; exact absurd (Finset.mem_range.mpr (Nat.mod_lt _ (by omega))) h
    · intro h
      have := norm_unit n (-(((0 : ℕ) : ℤ) * (((carriers n p).getD (i % (n - p)) 0 + (n + 1) / 2 : ℕ) : ℤ)))
      rw [h] at this; simp at this
  · intro j hj h0
    rw [hb j (Finset.mem_range.mp hj), if_neg h0]
    rw [show (0 : Cx ℝ).toC = 0 from rfl, zero_mul]
  · intro h; exact absurd (Finset.mem_range.mpr (by omega)) h

example : ∃ sent out,
      (do let tx ← txBasebandOfdm (F := ℝ) (ofList [(⟨1, 0⟩ : Cx ℝ), 0]) 4 3
          collect tx) = pure sent ∧
      (do let rx ← rxBasebandOfdm (F := ℝ) (ofList (received [0, 0, 1] sent)) 4 3
          collect rx) = pure out ∧ (out.getD 1 0).toC ≠ 0 := by
  obtain ⟨sent, out, a, b, c⟩ := C75_longer (n := 4) (p := 3) (by decide) (by decide) (by decide)
  exact ⟨sent, out, a, b, c 1 (by decide) (by decide)⟩

end Verif.Props
