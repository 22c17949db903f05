import Verif.Lemmas.IeeeSscaMap
import Verif.Props.Ssca

/-!
# C59 in double precision: where `ssca_mapped` puts its entries
-/

namespace Verif
open F64 Spec
variable {L : Libm} [Fft (FloatL L)]

namespace Props

/-- In double precision `ssca_mapped` never writes outside its `(np+1) × (2n+1)` array, for every `np < n ≤ 2⁵²` and every
recording that is long enough, whatever the samples, the library and the transform: a rounded index never passes the edge. -/
theorem C59_in_range_ieee {s : List (FloatL L)} {n np : ℕ} (h1 : np < n) (h2 : n + np - 1 ≤ s.length) (hn : n ≤ 2 ^ 52) :
    ∃ M : Mat (FloatL L), sscaMapped s n np = pure M ∧ M.length = np + 1 ∧ ∀ r ∈ M, r.length = 2 * n + 1 := by
  refine ⟨_, sscaMapped_ok h1 (by omega) (sscaPos_range_float hn h1), matOf_length _ _ _, fun r hr => ?_⟩
  obtain ⟨q, _, rfl⟩ := List.mem_map.mp hr
  simp

example : ∃ M : Mat (FloatL L), sscaMapped (List.replicate 4000 (1 : FloatL L)) 2047 100 = pure M ∧ M.length = 101 ∧
    ∀ r ∈ M, r.length = 4095 :=
  C59_in_range_ieee (by norm_num) (by rw [List.length_replicate]; norm_num) (by norm_num)

/-- When `n` and `np` are powers of two (the sizes the tests use) the indices are computed without rounding: in double precision
entry `(q, k)` of the unmapped spectrum is found, bit for bit, in row `⌊(k + np - np·q/n)/2⌋` and column `n/np·k + q`, and all
other cells are zero. Missing against the full claim: sizes that are not powers of two, for which `C59_refuted` shows that it
is false. -/
theorem C59_ieee_partial {s : List (FloatL L)} {a b : ℕ} (hba : b < a) (ha : a ≤ 51) (h2 : 2 ^ a + 2 ^ b - 1 ≤ s.length) :
    ∃ S M : Mat (FloatL L), sscaBase s (2 ^ a) (2 ^ b) = pure S ∧ sscaMapped s (2 ^ a) (2 ^ b) = pure M ∧
      (∀ q k, q < 2 ^ a → k < 2 ^ b → ∃ z, S[q]?.bind (fun r => r[k]?) = some z ∧
        M[(2 ^ a * (k + 2 ^ b) - 2 ^ b * q) / (2 * 2 ^ a)]?.bind (fun r => r[2 ^ a / 2 ^ b * k + q]?) = some z) ∧
      (∀ r c, r ≤ 2 ^ b → c ≤ 2 * 2 ^ a →
        (∀ q k, q < 2 ^ a → k < 2 ^ b →
          ¬ (r = (2 ^ a * (k + 2 ^ b) - 2 ^ b * q) / (2 * 2 ^ a) ∧ c = 2 ^ a / 2 ^ b * k + q)) →
        M[r]?.bind (fun r => r[c]?) = some 0) := by
  have ha53 : 2 ^ a ≤ 2 ^ 51 := Nat.pow_le_pow_right (by norm_num) ha
  have h1 : 2 ^ b < 2 ^ a := Nat.pow_lt_pow_right (by norm_num) hba
  have hd : 2 ^ b ∣ 2 ^ a := pow_dvd_pow 2 hba.le
  have hpos : ∀ q k, q < 2 ^ a → k < 2 ^ b → sscaPos (FloatL L) (2 ^ a) (2 ^ b) (q, k) =
      ((2 ^ a * (k + 2 ^ b) - 2 ^ b * q) / (2 * 2 ^ a), 2 ^ a / 2 ^ b * k + q) := fun q k hq hk => by
    have e : sscaPos (FloatL L) (2 ^ a) (2 ^ b) (q, k) = sscaPos ℝ (2 ^ a) (2 ^ b) (q, k) := sscaPos_pow2 hba ha hq hk
    rw [e]
    unfold sscaPos
    rw [mappedRow_real hq hk (by omega), mappedCol_real hq hk (by omega), Nat.div_mul_right_comm hd]
  have hinj : ∀ p p' : ℕ × ℕ, p.1 < 2 ^ a → p.2 < 2 ^ b → p'.1 < 2 ^ a → p'.2 < 2 ^ b →
      sscaPos (FloatL L) (2 ^ a) (2 ^ b) p = sscaPos (FloatL L) (2 ^ a) (2 ^ b) p' → p = p' := by
    rintro ⟨q, k⟩ ⟨q', k'⟩ a1 a2 a3 a4 e
    have e1 : sscaPos (FloatL L) (2 ^ a) (2 ^ b) (q, k) = sscaPos ℝ (2 ^ a) (2 ^ b) (q, k) := sscaPos_pow2 hba ha a1 a2
    have e2 : sscaPos (FloatL L) (2 ^ a) (2 ^ b) (q', k') = sscaPos ℝ (2 ^ a) (2 ^ b) (q', k') := sscaPos_pow2 hba ha a3 a4
    rw [e1, e2] at e
    exact sscaPos_inj (by omega) h1 hd a1 a2 a3 a4 e
  have hr : ∀ p : ℕ × ℕ, p.1 < 2 ^ a → p.2 < 2 ^ b → (sscaPos (FloatL L) (2 ^ a) (2 ^ b) p).1 < 2 ^ b + 1 ∧
      (sscaPos (FloatL L) (2 ^ a) (2 ^ b) p).2 < 2 * 2 ^ a + 1 := sscaPos_range_float (by omega) h1
  refine ⟨_, _, sscaBase_ok h1 (by omega), sscaMapped_ok h1 (by omega) hr, ?_, ?_⟩
  · intro q k hq hk
    refine ⟨sscaVal s (2 ^ a) (2 ^ b) q k, by
      rw [List.getElem?_map, List.getElem?_range hq, Option.map_some, Option.bind_some, List.getElem?_map,
        List.getElem?_range hk, Option.map_some], ?_⟩
    have hp : (q, k) ∈ sscaPairs (2 ^ a) (2 ^ b) := mem_sscaPairs.mpr ⟨hq, hk⟩
    have hv := foldl_update_of_inj (sscaPos (FloatL L) (2 ^ a) (2 ^ b)) (fun p => sscaVal s (2 ^ a) (2 ^ b) p.1 p.2) hp
      (fun p hp' e => by
        obtain ⟨x, y⟩ := mem_sscaPairs.mp hp'
        exact hinj _ _ x y hq hk e) (fun _ => 0)
    have hrange := hr (q, k) hq hk
    rw [hpos q k hq hk] at hv hrange
    simp only at hrange
    rw [matOf, List.getElem?_map, List.getElem?_range hrange.1, Option.map_some, Option.bind_some, List.getElem?_map,
      List.getElem?_range hrange.2, Option.map_some, hv]
  · intro r c hr hc hno
    have hv := foldl_update_of_not (sscaPos (FloatL L) (2 ^ a) (2 ^ b)) (fun p => sscaVal s (2 ^ a) (2 ^ b) p.1 p.2)
      (l := sscaPairs (2 ^ a) (2 ^ b)) (x := (r, c))
      (fun p hp e => by
        obtain ⟨x, y⟩ := mem_sscaPairs.mp hp
        refine hno p.1 p.2 x y ?_
        rw [hpos p.1 p.2 x y] at e
        simp only [Prod.mk.injEq] at e
        exact ⟨e.1.symm, e.2.symm⟩) (fun _ => 0)
    rw [matOf, List.getElem?_map, List.getElem?_range (by omega), Option.map_some, Option.bind_some, List.getElem?_map,
      List.getElem?_range (by omega), Option.map_some, hv]

example : ∃ S M : Mat (FloatL L), sscaBase (List.replicate 5000 (1 : FloatL L)) (2 ^ 12) (2 ^ 6) = pure S ∧
    sscaMapped (List.replicate 5000 (1 : FloatL L)) (2 ^ 12) (2 ^ 6) = pure M ∧
    ∃ z, S[1000]?.bind (fun r => r[10]?) = some z ∧ M[29]?.bind (fun r => r[1640]?) = some z := by
  obtain ⟨S, M, h1, h2, h3, _⟩ := C59_ieee_partial (s := List.replicate 5000 (1 : FloatL L)) (a := 12) (b := 6)
    (by norm_num) (by norm_num) (by rw [List.length_replicate]; norm_num)
  exact ⟨S, M, h1, h2, h3 1000 10 (by norm_num) (by norm_num)⟩

/-- The claim is false in double precision although `np` divides `n`: for `n = 12`, `np = 4`, on every recording, entry
`(4, 1)` belongs in row 1, column 7, but `12 · (1/4 + 4/12)` is computed just below 7. Its cell stays zero, the entry is written to
column 6 instead, where entry `(6, 0)` then replaces it: it is found nowhere in the output (every cell holds zero or one of the
other entries). -/
theorem C59_refuted {s : List (FloatL L)} (h : 15 ≤ s.length) :
    (12 * (1 + 4) - 4 * 4) / (2 * 12) = 1 ∧ 12 / 4 * 1 + 4 = 7 ∧
    ∃ S M : Mat (FloatL L), sscaBase s 12 4 = pure S ∧ sscaMapped s 12 4 = pure M ∧
      M[1]?.bind (fun r => r[7]?) = some 0 ∧ M[1]?.bind (fun r => r[6]?) = S[6]?.bind (fun r => r[0]?) ∧
      ∀ (r c : ℕ) (z : Cx (FloatL L)), M[r]?.bind (fun r => r[c]?) = some z →
        z = 0 ∨ ∃ q k : ℕ, (q, k) ≠ (4, 1) ∧ S[q]?.bind (fun r => r[k]?) = some z := by
  have hr : ∀ p : ℕ × ℕ, p.1 < 12 → p.2 < 4 → (sscaPos (FloatL L) 12 4 p).1 < 4 + 1 ∧ (sscaPos (FloatL L) 12 4 p).2 < 2 * 12 + 1 :=
    sscaPos_range_float (by norm_num) (by norm_num)
  have hx : sscaPos (FloatL L) 12 4 (4, 1) = (1, 6) := by
    show sscaPos Float 12 4 (4, 1) = (1, 6)
    decide +kernel
  have hy : sscaPos (FloatL L) 12 4 (6, 0) = (1, 6) := by
    show sscaPos Float 12 4 (6, 0) = (1, 6)
    decide +kernel
  have h7 : ∀ p ∈ sscaPairs 12 4, sscaPos (FloatL L) 12 4 p ≠ (1, 7) := by
    show ∀ p ∈ sscaPairs 12 4, sscaPos Float 12 4 p ≠ (1, 7)
    decide +kernel
  have h6 : ∀ p ∈ (sscaPairs 12 4).drop 25, sscaPos (FloatL L) 12 4 p ≠ (1, 6) := by
    show ∀ p ∈ (sscaPairs 12 4).drop 25, sscaPos Float 12 4 p ≠ (1, 6)
    decide +kernel
  have hsplit : sscaPairs 12 4 = (sscaPairs 12 4).take 24 ++ (6, 0) :: (sscaPairs 12 4).drop 25 := by decide
  have v6 : ((sscaPairs 12 4).foldl (fun (g : ℕ × ℕ → Cx (FloatL L)) p =>
      Function.update g (sscaPos (FloatL L) 12 4 p) (sscaVal s 12 4 p.1 p.2)) (fun _ => 0)) (1, 6) = sscaVal s 12 4 6 0 := by
    rw [hsplit, List.foldl_append, List.foldl_cons, foldl_update_of_not (sscaPos (FloatL L) 12 4) (fun p => sscaVal s 12 4 p.1 p.2) h6, hy]
    exact Function.update_self ..
  have v7 := foldl_update_of_not (sscaPos (FloatL L) 12 4) (fun p => sscaVal s 12 4 p.1 p.2) h7 (fun _ => 0)
  have hS : ∀ q k, q < 12 → k < 4 → ((List.range 12).map (fun q => (List.range 4).map (sscaVal s 12 4 q)))[q]?.bind
      (fun r => r[k]?) = some (sscaVal s 12 4 q k) := fun q k hq hk => by
    rw [List.getElem?_map, List.getElem?_range hq, Option.map_some, Option.bind_some, List.getElem?_map,
      List.getElem?_range hk, Option.map_some]
  refine ⟨by decide, by decide, _, _, sscaBase_ok (by decide) (by omega), sscaMapped_ok (by decide) (by omega) hr, ?_, ?_, ?_⟩
  · rw [matOf, List.getElem?_map, List.getElem?_range (by decide), Option.map_some, Option.bind_some, List.getElem?_map,
      List.getElem?_range (by decide), Option.map_some, v7]
  · rw [hS 6 0 (by decide) (by decide), matOf, List.getElem?_map, List.getElem?_range (by decide), Option.map_some,
      Option.bind_some, List.getElem?_map, List.getElem?_range (by decide), Option.map_some, v6]
  · intro r c z hz
    obtain ⟨row, hrow, hz⟩ := Option.bind_eq_some_iff.mp hz
    rw [matOf, List.getElem?_map] at hrow
    obtain ⟨r', h1, rfl⟩ := Option.map_eq_some_iff.mp hrow
    rw [List.getElem?_map] at hz
    obtain ⟨c', h2, rfl⟩ := Option.map_eq_some_iff.mp hz
    by_cases hc : (r', c') = (1, 6)
    · rw [hc, v6]
      exact .inr ⟨6, 0, by decide, hS 6 0 (by decide) (by decide)⟩
    · rcases foldl_update_mem (sscaPos (FloatL L) 12 4) (fun p => sscaVal s 12 4 p.1 p.2) (sscaPairs 12 4) (r', c') (fun _ => 0)
        with e | ⟨p, hp, e1, e2⟩
      · exact .inl e
      · obtain ⟨x, y⟩ := mem_sscaPairs.mp hp
        refine .inr ⟨p.1, p.2, fun e => hc ?_, by rw [hS p.1 p.2 x y]; exact congrArg some e2.symm⟩
        rw [← e1, show p = (4, 1) from e, hx]

example : ∃ S M : Mat (FloatL L), sscaBase (List.replicate 20 (1 : FloatL L)) 12 4 = pure S ∧
    sscaMapped (List.replicate 20 (1 : FloatL L)) 12 4 = pure M ∧ M[1]?.bind (fun r => r[7]?) = some 0 := by
  obtain ⟨-, -, S, M, h1, h2, h3, -⟩ := C59_refuted (s := List.replicate 20 (1 : FloatL L)) (by rw [List.length_replicate]; norm_num)
  exact ⟨S, M, h1, h2, h3⟩

end Props
end Verif
