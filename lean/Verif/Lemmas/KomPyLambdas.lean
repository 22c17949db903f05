import Verif.Model.KomPyLambdas
import Verif.Lemmas.Ssca
import Verif.Props.Helpers
import Verif.Props.Ssca

/-! # Helper lemmas on the detection experiment -/
namespace Verif.KomPy
set_option linter.unusedSectionVars false
section anyF
variable {F : Type} [Add F] [Sub F] [Mul F] [Div F] [Neg F] [Zero F] [One F] [Flt F]

theorem randomData_length (coin : ℕ → Bool) (n : ℕ) : (randomData coin n).length = n := by simp [randomData]

theorem growBits_done (tx : List Bool → RM (List F)) (coin : ℕ → ℕ → Bool) (n : ℕ) {s : List F} (h : 4160 ≤ s.length) :
    growBits tx coin n s = pure (n, s) := by
  rw [growBits, if_neg (by omega)]

theorem growBits_more (tx : List Bool → RM (List F)) (coin : ℕ → ℕ → Bool) (n : ℕ) {s : List F} (h : s.length < 4160) :
    growBits tx coin n s = (tx (randomData (coin (n + 10)) (n + 10)) >>= fun s => growBits tx coin (n + 10) s) := by
  rw [growBits, if_pos (by omega)]

theorem growBits_ok {tx : List Bool → RM (List F)} {sig : List Bool → List F} {len : ℕ → ℕ}
    (htx : ∀ msg, tx msg = pure (sig msg)) (hl : ∀ msg, (sig msg).length = len msg.length) (coin : ℕ → ℕ → Bool) (k : ℕ) (n : ℕ)
    (hk : 4160 ≤ len (n + 10 * k)) (hmin : ∀ j < k, len (n + 10 * j) < 4160) :
    growBits tx coin n (sig (randomData (coin n) n))
      = pure (n + 10 * k, sig (randomData (coin (n + 10 * k)) (n + 10 * k))) := by
  induction k generalizing n with
  | zero => exact growBits_done _ _ _ (by rw [hl, randomData_length]; exact hk)
  | succ k ih =>
    rw [growBits_more _ _ _ (by rw [hl, randomData_length]; exact hmin 0 (by omega)), htx, pure_bind,
      ih (n + 10) (by rw [show n + 10 + 10 * k = n + 10 * (k + 1) by ring]; exact hk)
        (fun j hj => by rw [show n + 10 + 10 * j = n + 10 * (j + 1) by ring]; exact hmin (j + 1) (by omega)),
      show n + 10 + 10 * k = n + 10 * (k + 1) by ring]

theorem growBits_stuck {tx : List Bool → RM (List F)} {sig : List Bool → List F} {len : ℕ → ℕ}
    (htx : ∀ msg, tx msg = pure (sig msg)) (hl : ∀ msg, (sig msg).length = len msg.length) (coin : ℕ → ℕ → Bool)
    (hall : ∀ j, len (120 + 10 * j) < 4160) (k : ℕ) (s : List F) (hs : s.length < 4160) :
    growBits tx coin (120 + 10 * k) s = RM.diverge := by
  suffices H : ∀ (n : ℕ) (s : List F), (∃ k, n = 120 + 10 * k) → s.length < 4160 → growBits tx coin n s = RM.diverge from
    H _ s ⟨k, rfl⟩ hs
  refine growBits.fixpoint_induct tx coin (motive := fun c => ∀ (n : ℕ) (s : List F), (∃ k, n = 120 + 10 * k) →
    s.length < 4160 → c n s = RM.diverge) ?_ ?_
  · refine Lean.Order.admissible_pi_apply (P := fun n (r : List F → RM (ℕ × List F)) => ∀ (s : List F), (∃ k, n = 120 + 10 * k) →
      s.length < 4160 → r s = RM.diverge) ?_
    intro n
    refine Lean.Order.admissible_pi_apply (P := fun (s : List F) (r : RM (ℕ × List F)) => (∃ k, n = 120 + 10 * k) →
      s.length < 4160 → r = RM.diverge) ?_
    intro s
    exact Lean.Order.admissible_flatOrder (b := (none : Option (Except Panic (ℕ × List F)))) _ (fun _ _ => rfl)
  · rintro c ih n s ⟨k, rfl⟩ hs
    beta_reduce
    rw [if_pos (by omega)]
    simp only [htx, pure_bind]
    refine ih _ _ ⟨k + 1, by ring⟩ ?_
    rw [hl, randomData_length, show 120 + 10 * k + 10 = 120 + 10 * (k + 1) by ring]
    exact hall _
end anyF

/-- The statistics at one ratio in exact arithmetic. -/
theorem runAt_real {ν : Type} [RIter ν ℝ] {tx : List Bool → RM (List ℝ)} {sig : List Bool → List ℝ} {N n : ℕ}
    (htx : ∀ msg, tx msg = pure (sig msg)) (hl : ∀ msg, msg.length = n → (sig msg).length = N) (hN : 4159 ≤ N)
    (d : Draws ν) {z w : ℕ → ℕ → ℕ → ℝ} (hz : ∀ i j, Gives (d.noise i j) (z i j)) (hw : ∀ i j, Gives (d.alone i j) (w i j))
    {mc : List ℝ → ℝ} (hmc : ∀ s : List ℝ, 4159 ≤ s.length → maxCutDetector s = pure (mc s)) (attempts i : ℕ) (n0 : ℝ) :
    runAt tx d attempts n i n0 = pure
      ⟨(List.range attempts).map (fun j => mc ((List.range N).map (fun k => 0 + n0 * w i j k))),
       (List.range attempts).map (fun j => mc ((sig (randomData (d.data i j) n)).mapIdx (fun k x => x + (0 + n0 * z i j k)))),
       (List.range attempts).map (fun j => energyDetectorDb ((List.range N).map (fun k => 0 + n0 * w i j k))),
       (List.range attempts).map (fun j =>
         energyDetectorDb ((sig (randomData (d.data i j) n)).mapIdx (fun k x => x + (0 + n0 * z i j k))))⟩ := by
  unfold runAt
  rw [mapM_ok (g := fun j => (sig (randomData (d.data i j) n)).mapIdx (fun k x => x + (0 + n0 * z i j k)))
    (fun j _ => by rw [htx, pure_bind, Props.C56_awgn_py _ (hz i j) n0 rfl]), pure_bind]
  rw [mapM_ok (g := fun j => (List.range N).map (fun k => 0 + n0 * w i j k)) (fun j hj => by
    have hpos : 0 < attempts := by have := List.mem_range.mp hj; omega
    rw [index_lt (by simpa using hpos), pure_bind]
    simp only [List.getElem_map, List.getElem_range]
    rw [List.length_mapIdx, hl _ (randomData_length _ _), Props.C56_pure_awgn _ (hw i j) n0 rfl]), pure_bind]
  rw [mapM_ok (g := mc) (fun s hs => by
    obtain ⟨j, -, rfl⟩ := List.mem_map.mp hs
    exact hmc _ (by simpa using hN)), pure_bind]
  rw [mapM_ok (g := mc) (fun s hs => by
    obtain ⟨j, -, rfl⟩ := List.mem_map.mp hs
    exact hmc _ (by rw [List.length_mapIdx, hl _ (randomData_length _ _)]; exact hN)), pure_bind]
  simp only [List.map_map]
  rfl

end Verif.KomPy
