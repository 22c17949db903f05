import Verif.Model.Fh
import Verif.Lemmas.Psk
import Mathlib.Data.List.Perm.Basic

/-! Lemmas about the shuffle, the hop table and the frequency hopping modems. -/
namespace Verif
open Spec
set_option linter.unusedSectionVars false

section rng
variable {ρ α : Type} [Rng ρ]

theorem swapIdx_ok {l : List α} {i j : ℕ} (hi : i < l.length) (hj : j < l.length) :
    ∃ l', swapIdx l i j = pure l' ∧ l'.Perm l := by
  unfold swapIdx
  rw [dif_pos ⟨hi, hj⟩]
  refine ⟨_, rfl, ?_⟩
  have := Array.swap_perm (xs := l.toArray) (i := i) (j := j) (by simpa using hi) (by simpa using hj)
  simpa using this.toList

theorem shuffle_aux (is : List ℕ) (l : List α) (r : ρ) (h : ∀ i ∈ is, i < l.length) :
    ∃ l' r', is.foldlM (fun (s : List α × ρ) i => do
      let g := Rng.genIndex s.2 (i + 1)
      pure (← swapIdx s.1 i g.1, g.2)) (l, r) = (pure (l', r') : RM (List α × ρ)) ∧ l'.Perm l := by
  induction is generalizing l r with
  | nil => exact ⟨l, r, rfl, .refl _⟩
  | cons i is ih =>
    have hi := h i (by simp)
    have hg := Rng.genIndex_lt r (i + 1) (by omega)
    obtain ⟨l₁, h1, h2⟩ := swapIdx_ok (l := l) (i := i) (j := (Rng.genIndex r (i + 1)).1) hi (by omega)
    obtain ⟨l', r', h3, h4⟩ := ih l₁ (Rng.genIndex r (i + 1)).2 (fun j hj => by
      rw [h2.length_eq]; exact h j (by simp [hj]))
    refine ⟨l', r', ?_, h4.trans h2⟩
    rw [List.foldlM_cons]
    simp only [h1, pure_bind]
    exact h3

/-- The shuffle never panics and permutes the slice. -/
theorem shuffle_ok (l : List α) (r : ρ) : ∃ l' r', shuffle l r = pure (l', r') ∧ l'.Perm l := by
  apply shuffle_aux
  intro i hi
  rw [List.mem_reverse] at hi
  simpa using List.mem_of_mem_drop hi

/-- Result of the shuffle. -/
def shuf (p : List α × ρ) : List α × ρ :=
  match shuffle p.1 p.2 with
  | some (.ok q) => q
  | _ => p

theorem shuffle_eq (l : List α) (r : ρ) : shuffle l r = pure (shuf (l, r)) := by
  obtain ⟨l', r', h, _⟩ := shuffle_ok l r
  unfold shuf
  simp only [h]; rfl

theorem shuf_perm (p : List α × ρ) : (shuf p).1.Perm p.1 := by
  obtain ⟨l', r', h, hp⟩ := shuffle_ok p.1 p.2
  have := shuffle_eq p.1 p.2
  rw [h, RM.ok_inj] at this
  rw [show shuf p = shuf (p.1, p.2) from rfl, ← this]; exact hp

/-- Table and generator after `k` shuffles. -/
def shufN (p : List α × ρ) : ℕ → List α × ρ
  | 0 => p
  | k + 1 => shuf (shufN p k)

theorem shufN_perm (p : List α × ρ) (k : ℕ) : (shufN p k).1.Perm p.1 := by
  induction k with
  | zero => exact .refl _
  | succ k ih => exact (shuf_perm _).trans ih

theorem shufN_length (p : List α × ρ) (k : ℕ) : (shufN p k).1.length = p.1.length := (shufN_perm p k).length_eq

/-- The hop number `i`: position `i % n` of the table after `i / n + 1` shuffles. -/
def hopAt {F : Type} [Zero F] (p : List F × ρ) (i : ℕ) : F := ((shufN p (i / p.1.length + 1)).1).getD (i % p.1.length) 0

theorem hopAt_mem {F : Type} [Zero F] (p : List F × ρ) (h : 0 < p.1.length) (i : ℕ) : hopAt p i ∈ p.1 := by
  have hlt : i % p.1.length < (shufN p (i / p.1.length + 1)).1.length := by
    rw [shufN_length]; exact Nat.mod_lt _ h
  unfold hopAt
  rw [List.getD_eq_getElem?_getD, List.getElem?_eq_getElem hlt, Option.getD_some]
  exact (shufN_perm p _).mem_iff.mp (List.getElem_mem _)

theorem hopTable_gives {F : Type} [Zero F] (tbl : List F) (r : ρ) (hn : 2 ≤ tbl.length) :
    Gives (HopTable.mk r tbl 0) (hopAt (tbl, r)) := by
  refine Beh.coind (R := fun (s : HopTable ρ F) f => ∃ k, s.idx < tbl.length ∧
    (s.hopping_table, s.rng) = shufN (tbl, r) (if s.idx = 0 then k else k + 1) ∧
    f = fun i => some (hopAt (tbl, r) (k * tbl.length + s.idx + i))) ?_ ⟨0, by simp; omega, rfl, by simp⟩
  rintro ⟨rng, t, idx⟩ f ⟨k, hi, hst, rfl⟩
  simp only at hi hst
  have hval : ∀ j, j < tbl.length → hopAt (tbl, r) (k * tbl.length + j) = (shufN (tbl, r) (k + 1)).1.getD j 0 := by
    intro j hj
    unfold hopAt
    simp only
    rw [Nat.add_comm (k * tbl.length) j, Nat.add_mul_div_right _ _ (by omega), Nat.div_eq_of_lt hj, Nat.zero_add,
      Nat.add_mul_mod_self_right, Nat.mod_eq_of_lt hj]
  have hidx : ∀ j (hj : j < tbl.length), index (shufN (tbl, r) (k + 1)).1 j = pure (hopAt (tbl, r) (k * tbl.length + j)) := by
    intro j hj
    have hl : j < (shufN (tbl, r) (k + 1)).1.length := by rw [shufN_length]; exact hj
    rw [index_lt hl, hval j hj, List.getD_eq_getElem?_getD, List.getElem?_eq_getElem hl, Option.getD_some]
  by_cases h0 : idx = 0
  · subst h0
    simp only [if_true] at hst
    refine ⟨⟨(shufN (tbl, r) (k + 1)).2, (shufN (tbl, r) (k + 1)).1, 1⟩, ?_, k, show 1 < tbl.length by omega, by simp, ?_⟩
    · simp only [next, if_true, shuffle_eq, pure_bind]
      rw [hst]
      show (index (shufN (tbl, r) (k + 1)).1 0 >>= fun v => pure (some v, _)) = _
      rw [hidx 0 (by omega), pure_bind]
      rfl
    · funext n; refine congrArg (fun i => some (hopAt (tbl, r) i)) ?_; simp only; omega
  · rw [if_neg h0] at hst
    have ht : t = (shufN (tbl, r) (k + 1)).1 := by rw [← hst]
    have hlen : t.length = tbl.length := by rw [ht, shufN_length]
    by_cases hl : idx = tbl.length - 1
    · refine ⟨⟨rng, t, 0⟩, ?_, k + 1, show 0 < tbl.length by omega, by simpa using hst, ?_⟩
      · simp only [next, if_neg h0]
        rw [hlen, usub_le (by omega), pure_bind, if_pos hl, ht, hidx _ (by omega), pure_bind, ← hl]
        rfl
      · funext n
        refine congrArg (fun i => some (hopAt (tbl, r) i)) ?_
        simp only [Nat.add_mul]; omega
    · refine ⟨⟨rng, t, idx + 1⟩, ?_, k, show idx + 1 < tbl.length by omega, by simpa using hst, ?_⟩
      · simp only [next, if_neg h0]
        rw [hlen, usub_le (by omega), pure_bind, if_neg hl, ht, hidx _ (by omega), pure_bind]
        rfl
      · funext n; refine congrArg (fun i => some (hopAt (tbl, r) i)) ?_; simp only; omega
end rng

variable {ι ρ : Type} {F : Type} [Add F] [Sub F] [Mul F] [Div F] [Neg F] [Zero F] [One F] [Flt F] [Rng ρ]

/-- The frequencies of the hop table. -/
def hopFreqs (low high : F) (n : ℕ) : List F :=
  (List.range n).map (fun i => low + (high - low) / Flt.ofNat n * Flt.ofNat i)

theorem linspace_yields (a b : F) (n : ℕ) : Yields (linspace a b n) (hopFreqs a b n) := (yields_ofList _).rmap _

theorem hopFreqs_length (low high : F) (n : ℕ) : (hopFreqs low high n).length = n := by simp [hopFreqs]

theorem hopTable_ok (low high : F) (n seed : ℕ) :
    hopTable ρ low high n seed = pure ⟨Rng.seed seed, hopFreqs low high n, 0⟩ := by
  unfold hopTable
  rw [collect_of_yields (linspace_yields low high n), pure_bind]

theorem hopFreqs_real {low high : ℝ} {n : ℕ} (h : low ≤ high) {x : ℝ} (hx : x ∈ hopFreqs low high n) :
    low ≤ x ∧ x ≤ high := by
  obtain ⟨i, hi, rfl⟩ := List.mem_map.mp hx
  have hi' : i < n := by simpa using hi
  have hn : (0 : ℝ) < n := by exact_mod_cast (by omega : 0 < n)
  have hin : (i : ℝ) ≤ n := by exact_mod_cast hi'.le
  simp only [Flt.ofNat_real]
  have h1 : (high - low) / n * i = (high - low) * (i / n) := by field_simp
  have h2 : (i : ℝ) / n ≤ 1 := by rw [div_le_one hn]; exact hin
  have h3 : (0 : ℝ) ≤ i / n := by positivity
  rw [h1]
  constructor <;> nlinarith

/-- The hop frequency used for symbol `i`. -/
def hopOf (ρ : Type) [Rng ρ] (low high : F) (n i : ℕ) : F := hopAt (ρ := ρ) (hopFreqs low high n, Rng.seed SEED) i

theorem wave_one (k : ℕ) {A B : Type} (w : ℕ → A → ℕ → B) (a : A) : wave k w [a] = (List.range k).map (w 0 a) := by
  rw [wave_cons, wave_nil, List.append_nil]

theorem txFhBpsk_ok [RIter ι Bool] {m : ι} {msg : List Bool} (h : Yields m msg) {low high : F} {n fs sym : ℕ}
    (hn : 2 ≤ n) (hsps : 0 < fs / sym) (h1 : Flt.toNat high ≤ fs / 2)
    (h2 : isInt (Flt.ofNat fs / Flt.ofNat sym : F) = true)
    (h3 : ∀ x ∈ hopFreqs low high n, Flt.toNat x ≤ fs / 2) :
    ∃ it, txFhBpsk ρ m low high n fs sym = pure it ∧
      Yields it (wave (fs / sym) (fun i b j => bitToNrz b * Flt.cos (phase fs (hopOf ρ low high n i) j)) msg) := by
  have hg := hopTable_gives (ρ := ρ) (hopFreqs low high n) (Rng.seed SEED) (by rw [hopFreqs_length]; exact hn)
  refine ⟨_, by rw [txFhBpsk, rassert_pos (by simpa using h1), rassert_pos h2, hopTable_ok]; simp only [pure_bind]; rfl, ?_⟩
  refine (Yields.rflatMap_mem (out := fun p : Bool × F => (List.range (fs / sym)).map
    (fun j => bitToNrz p.1 * Flt.cos (phase fs p.2 j))) ?_ (h.rzip_gives hg)).of_eq ?_
  · intro p hp
    obtain ⟨i, hi, rfl⟩ := List.mem_mapIdx.mp hp
    obtain ⟨it, e1, e2⟩ := txBpsk_ok (yields_ofList [msg[i]]) (fs := fs) (sym := sym)
      (fc := hopAt (hopFreqs low high n, (Rng.seed SEED : ρ)) i) hsps
      (h3 _ (hopAt_mem _ (by simp only [hopFreqs_length]; omega) _)) h2
    refine ⟨it, e1, e2.of_eq ?_⟩
    rw [wave_one]
    simp only [Nat.zero_mul, Nat.zero_add]
  · unfold wave hopOf
    rw [List.flatMap_def, map_mapIdx']

theorem rxFhBpsk_wave [RIter ι F] {A : Type} {s : ι} {low high : F} {n fs sym : ℕ} {w : ℕ → A → ℕ → F} {msg : List A}
    (h : Yields s (wave (fs / sym) w msg)) (hn : 2 ≤ n) (hsps : 0 < fs / sym) (h1 : Flt.toNat high ≤ fs / 2)
    (h2 : isInt (Flt.ofNat fs / Flt.ofNat sym : F) = true) :
    ∃ it, rxFhBpsk ρ s low high n fs sym = pure it ∧
      Yields it (msg.mapIdx (fun i b => Flt.lt (0 : F) (rsum ((List.range (fs / sym)).map
        (fun j => w i b j * Flt.cos (phase fs (hopOf ρ low high n i) j)))))) := by
  have hsym : 0 < sym := by
    rcases Nat.eq_zero_or_pos sym with rfl | h
    · simp at hsps
    · exact h
  have hg := hopTable_gives (ρ := ρ) (hopFreqs low high n) (Rng.seed SEED) (by rw [hopFreqs_length]; exact hn)
  refine ⟨_, by rw [rxFhBpsk, udiv_pos hsym, pure_bind, rassert_pos (by simpa using h1), rassert_pos h2, hopTable_ok]; simp only [pure_bind]; rfl, ?_⟩
  refine (Yields.rflatMap_mem (out := fun p : List F × F =>
    [Flt.lt (0 : F) (rsum (p.1.mapIdx (fun j x => x * Flt.cos (phase fs p.2 j))))]) ?_
    ((h.chunks (fs / sym)).rzip_gives hg)).of_eq ?_
  · intro p hp
    rw [blocks_wave hsps] at hp
    obtain ⟨i, hi, rfl⟩ := List.mem_mapIdx.mp hp
    rw [List.length_mapIdx] at hi
    have hw : Yields (ofList ((List.range (fs / sym)).map (w i msg[i])))
        (wave (fs / sym) (fun _ (_ : Unit) j => w i msg[i] j) [()]) := by
      rw [wave_one]; exact yields_ofList _
    obtain ⟨it, e1, e2⟩ := rxBpsk_wave hsps (fc := hopAt (hopFreqs low high n, (Rng.seed SEED : ρ)) i) hw
    simp only [List.getElem_mapIdx]
    refine ⟨it, e1, e2.of_eq ?_⟩
    rw [mapIdx_range_map]
    simp
  · rw [blocks_wave hsps, mapIdx_mapIdx', List.flatMap_def, map_mapIdx']
    have : ∀ (f : ℕ → A → Bool), (msg.mapIdx (fun i b => [f i b])).flatten = msg.mapIdx f := by
      intro f
      have e := map_mapIdx' f (fun x : Bool => [x]) msg
      rw [← e]
      generalize msg.mapIdx f = l
      induction l with
      | nil => rfl
      | cons a l ih => rw [List.map_cons, List.flatten_cons, ih]; rfl
    rw [this]
    apply mapIdx_congr'
    intro i a _
    rw [mapIdx_range_map]
    rfl

end Verif
