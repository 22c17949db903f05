import Verif.Lemmas.Bch
import Mathlib.LinearAlgebra.Lagrange
import Mathlib.FieldTheory.Finite.GaloisField
import Mathlib.Data.Nat.Count

/-! The contract of the Reed–Solomon crate is satisfiable: polynomial evaluation over the field with 256 elements. -/
namespace Verif
open Spec Polynomial
noncomputable section

/-- The field with 256 elements. -/
abbrev K256 := GaloisField 2 8

theorem card_K256 : Nat.card K256 = 256 := by
  have := GaloisField.card 2 8 (by norm_num)
  simpa using this

instance : Finite K256 := Nat.finite_of_card_ne_zero (by rw [card_K256]; norm_num)

def natK (i : ℕ) : K256 := (Finite.equivFinOfCardEq card_K256).symm (Fin.ofNat 256 i)
def byteK (b : UInt8) : K256 := natK b.toNat
def kByte (x : K256) : UInt8 := UInt8.ofNat (Finite.equivFinOfCardEq card_K256 x).val

theorem kByte_byteK (b : UInt8) : kByte (byteK b) = b := by
  unfold kByte byteK natK
  rw [Equiv.apply_symm_apply]
  apply UInt8.toNat_inj.mp
  have := b.toNat_lt
  simp [Fin.ofNat, Nat.mod_eq_of_lt this]

theorem byteK_kByte (x : K256) : byteK (kByte x) = x := by
  unfold kByte byteK natK
  rw [Equiv.symm_apply_eq]
  apply Fin.ext
  have := (Finite.equivFinOfCardEq card_K256 x).isLt
  simp only [Fin.ofNat, UInt8.toNat_ofNat', Nat.reducePow]
  rw [Nat.mod_mod, Nat.mod_eq_of_lt this]

theorem natK_inj {i j : ℕ} (hi : i < 256) (hj : j < 256) (h : natK i = natK j) : i = j := by
  unfold natK at h
  have := Equiv.injective _ h
  have := congrArg Fin.val this
  simpa [Fin.ofNat, Nat.mod_eq_of_lt hi, Nat.mod_eq_of_lt hj] using this

theorem natK_injOn {n : ℕ} (hn : n ≤ 256) : Set.InjOn natK (Finset.range n : Set ℕ) := by
  intro i hi j hj h
  simp only [Finset.coe_range, Set.mem_Iio] at hi hj
  exact natK_inj (by omega) (by omega) h

/-- The polynomial through the data. -/
def rsPoly (d : List UInt8) : K256[X] :=
  Lagrange.interpolate (Finset.range d.length) natK (fun i => byteK (d.getD i 0))

def rsWord (d : List UInt8) : List UInt8 :=
  (List.range (d.length + 5)).map (fun i => kByte ((rsPoly d).eval (natK i)))

theorem rsPoly_degree {d : List UInt8} (h : d.length ≤ 250) : (rsPoly d).degree < d.length := by
  have := Lagrange.degree_interpolate_lt (fun i => byteK (d.getD i 0)) (natK_injOn (n := d.length) (by omega))
  simpa [rsPoly] using this

theorem rsPoly_eval {d : List UInt8} (h : d.length ≤ 250) {i : ℕ} (hi : i < d.length) :
    (rsPoly d).eval (natK i) = byteK (d.getD i 0) :=
  Lagrange.eval_interpolate_at_node _ (natK_injOn (n := d.length) (by omega)) (by simpa using hi)

theorem rsWord_take {d : List UInt8} (h : d.length ≤ 250) : (rsWord d).take d.length = d := by
  apply List.ext_getElem?
  intro i
  by_cases hi : i < d.length
  · rw [List.getElem?_take_of_lt hi, rsWord, List.getElem?_map, List.getElem?_range (by omega)]
    simp only [Option.map_some]
    rw [rsPoly_eval h hi, kByte_byteK, List.getD_eq_getElem?_getD, List.getElem?_eq_getElem hi]; rfl
  · rw [List.getElem?_eq_none (by simp; omega), List.getElem?_eq_none (by omega)]

theorem hamming_range (n : ℕ) (f : ℕ → UInt8) (w : List UInt8) (hw : w.length = n) :
    hamming ((List.range n).map f) w = ((Finset.range n).filter (fun i => f i ≠ w.getD i 0)).card := by
  have hw' : w = (List.range n).map (fun i => w.getD i 0) := by
    apply List.ext_getElem?
    intro i
    by_cases hi : i < n
    · rw [List.getElem?_map, List.getElem?_range hi, List.getElem?_eq_getElem (by omega)]
      simp [List.getD_eq_getElem?_getD, List.getElem?_eq_getElem (show i < w.length by omega)]
    · rw [List.getElem?_eq_none (by omega), List.getElem?_eq_none (by simp; omega)]
  conv_lhs => rw [hw']
  unfold hamming diffs
  rw [List.zipWith_map, List.zipWith_self, List.countP_map, ← Nat.count_eq_card_filter_range, Nat.count]
  apply List.countP_congr
  intro i _
  simp

theorem rs_unique {d d' w : List UInt8} (h : d.length ≤ 250) (h' : d'.length ≤ 250)
    (hl : w.length = d.length + 5) (hl' : w.length = d'.length + 5) (hd : hamming (rsWord d) w ≤ 2)
    (hd' : hamming (rsWord d') w ≤ 2) : d = d' := by
  have hk : d'.length = d.length := by omega
  unfold rsWord at hd hd'
  rw [hk] at hd'
  rw [hamming_range _ _ _ hl] at hd hd'
  set n := d.length + 5 with hn
  set A := (Finset.range n).filter (fun i => kByte ((rsPoly d).eval (natK i)) ≠ w.getD i 0) with hA
  set B := (Finset.range n).filter (fun i => kByte ((rsPoly d').eval (natK i)) ≠ w.getD i 0) with hB
  have hcard : d.length < (Finset.range n \ (A ∪ B)).card := by
    have h1 := Finset.le_card_sdiff (A ∪ B) (Finset.range n)
    have h2 := Finset.card_union_le A B
    rw [Finset.card_range] at h1
    omega
  have hpoly : rsPoly d = rsPoly d' := by
    refine Polynomial.eq_of_degrees_lt_of_eval_index_eq (v := natK) (Finset.range n \ (A ∪ B)) ?_ ?_ ?_ ?_
    · exact (natK_injOn (n := n) (by omega)).mono (by
        intro i hi
        have : i ∈ Finset.range n \ (A ∪ B) := hi
        simp only [Finset.mem_sdiff] at this
        exact this.1)
    · exact lt_of_lt_of_le (rsPoly_degree h) (by exact_mod_cast hcard.le)
    · exact lt_of_lt_of_le (rsPoly_degree h') (by rw [hk]; exact_mod_cast hcard.le)
    · intro i hi
      simp only [Finset.mem_sdiff, Finset.mem_union, not_or, hA, hB, Finset.mem_filter, not_and, not_not] at hi
      obtain ⟨hi, ha, hb⟩ := hi
      have := (ha hi).trans (hb hi).symm
      have := congrArg byteK this
      rwa [byteK_kByte, byteK_kByte] at this
  have e1 := rsWord_take h
  have e2 := rsWord_take h'
  rw [← e1, ← e2]
  unfold rsWord
  rw [hpoly, hk]

open Classical in
/-- An idealised Reed–Solomon codec. -/
def rsIdeal : RS where
  encode d := if d.length ≤ 250 then pure (rsWord d) else RM.panic .assertion
  correct w := if h : ∃ d : List UInt8, d.length ≤ 250 ∧ w.length = d.length + 5 ∧ hamming (rsWord d) w ≤ 2 then
    pure (some h.choose) else pure none

theorem rsIdeal_contract : rsIdeal.Contract where
  encode_ok := by
    intro d _ h
    refine ⟨(rsWord d).drop d.length, by simp [rsWord], ?_⟩
    have : rsWord d = d ++ (rsWord d).drop d.length := by
      conv_lhs => rw [← List.take_append_drop d.length (rsWord d), rsWord_take h]
    show (if d.length ≤ 250 then pure (rsWord d) else RM.panic .assertion) = _
    rw [if_pos h, ← this]
  correct_ok := by
    intro d c w _ h hc hw hd
    have hc' : rsWord d = c := by
      have : (if d.length ≤ 250 then pure (rsWord d) else RM.panic .assertion) = (pure c : RM _) := hc
      rw [if_pos h, RM.ok_inj] at this
      exact this
    subst hc'
    have hlw : w.length = d.length + 5 := by rw [hw]; simp [rsWord]
    have hex : ∃ d : List UInt8, d.length ≤ 250 ∧ w.length = d.length + 5 ∧ hamming (rsWord d) w ≤ 2 :=
      ⟨d, h, hlw, hd⟩
    have hdef : rsIdeal.correct w = pure (some hex.choose) := dif_pos hex
    rw [hdef]
    obtain ⟨s1, s2, s3⟩ := hex.choose_spec
    rw [rs_unique s1 h s2 hlw s3 hd]
end
end Verif
