import Verif.Spec.Chips
import Verif.Lemmas.Cdma
import Verif.Lemmas.Blocks

/-! The chips of a spread message. -/
namespace Verif.Props
open Verif Spec
set_option linter.unusedSectionVars false
variable {ι : Type}

theorem nrz_mul (a b : Bool) : (bitToNrz a * bitToNrz b : ℝ) = bitToNrz (a == b) := by
  cases a <;> cases b <;> simp [bitToNrz]

theorem chips_getElem? {key : List Bool} (hk : 0 < key.length) (msg : List Bool) (i : ℕ) :
    (chips key msg)[i]? = msg[i / key.length]?.map fun b => b == key.getD (i % key.length) false := by
  rw [chips, getElem?_flatMap_const hk _ _ (by simp)]
  cases msg[i / key.length]? with
  | none => rfl
  | some b =>
    have h := Nat.mod_lt i hk
    simp [List.getD_eq_getElem?_getD, List.getElem?_eq_getElem h]

theorem pairs_append_even {A : Type} (a b : List A) (h : a.length % 2 = 0) : pairs (a ++ b) = pairs a ++ pairs b := by
  fun_induction pairs a with
  | case1 x y t ih => simp only [List.cons_append, pairs]; rw [ih (by simp only [List.length_cons] at h; omega)]
  | case2 l hl =>
    match l, hl, h with
    | [], _, _ => rfl
    | [x], _, h => simp at h
    | x :: y :: t, hl, _ => exact absurd rfl (hl x y t)

theorem pairs_two (key : List Bool) (p : Bool × Bool) :
    pairs (key.flatMap fun k => [p.1 == k, p.2 == k]) = key.map fun k => (p.1 == k, p.2 == k) := by
  induction key with
  | nil => rfl
  | cons k t ih => simp only [List.flatMap_cons, List.map_cons, List.cons_append, List.nil_append, pairs, ih]

theorem pairs_chips2 (key msg : List Bool) :
    pairs (chips2 key msg) = (pairs msg).flatMap fun p => key.map fun k => (p.1 == k, p.2 == k) := by
  unfold chips2
  induction pairs msg with
  | nil => rfl
  | cons p t ih =>
    rw [List.flatMap_cons, List.flatMap_cons, pairs_append_even, pairs_two, ih]
    induction key with
    | nil => rfl
    | cons k t ih => simp; omega

theorem chip_rate {fs sym : ℕ} {fc : ℝ} {L : ℕ} (hfs : fs < 2 ^ 64) (hok : CdmaOk fs sym fc L) :
    fs / (sym * L) = fs / sym / L ∧ fs / sym = fs / sym / L * L ∧ sym * L ∣ fs := by
  obtain ⟨h1, h2, h3, -⟩ := (cdmaOk_real hfs).mp hok
  refine ⟨(Nat.div_div_eq_div_mul _ _ _).symm, (Nat.div_mul_cancel ?_).symm, h3⟩
  exact (Nat.dvd_div_iff_mul_dvd (Dvd.dvd.trans (Dvd.intro _ rfl) h3)).mpr h3

theorem chips2_even (key msg : List Bool) : (chips2 key msg).length = 2 * ((chips2 key msg).length / 2) := by
  have e : ∀ p : Bool × Bool, (key.flatMap fun k => [p.1 == k, p.2 == k]).length = 2 * key.length := fun p => by
    induction key with
    | nil => rfl
    | cons k t ih => simp only [List.flatMap_cons, List.length_append, ih, List.length_cons, List.length_nil]; omega
  have : ∃ n, (chips2 key msg).length = 2 * n := by
    unfold chips2
    induction pairs msg with
    | nil => exact ⟨0, rfl⟩
    | cons p t ih =>
      obtain ⟨n, hn⟩ := ih
      exact ⟨key.length + n, by rw [List.flatMap_cons, List.length_append, e, hn]; ring⟩
  obtain ⟨n, hn⟩ := this
  omega

theorem chips_take (key : List Bool) (b : Bool) (t : List Bool) :
    (chips key (b :: t)).take key.length = if b then key else key.map (!·) := by
  rw [chips, List.flatMap_cons, List.take_left' (by simp)]
  cases b <;> simp

theorem chips_inj {key : List Bool} (hk : 0 < key.length) {a b : List Bool} (h : chips key a = chips key b) : a = b := by
  apply List.ext_getElem?
  intro n
  have := congrArg (·[n * key.length]?) h
  simp only [chips_getElem? hk, Nat.mul_div_cancel _ hk] at this
  cases ha : a[n]? <;> cases hb : b[n]? <;> rw [ha, hb] at this <;> simp at this
  rename_i x y
  revert this
  generalize key[0]?.getD false = k
  clear ha hb
  revert x y k
  decide

theorem chips_not (key msg : List Bool) : chips (key.map (!·)) (msg.map (!·)) = chips key msg := by
  rw [chips, chips, List.flatMap_map]
  refine List.flatMap_congr fun b _ => ?_
  rw [List.map_map]
  refine List.map_congr_left fun k _ => ?_
  cases b <;> cases k <;> rfl

theorem chips_eq_iff {key key' : List Bool} (hk : 0 < key.length) (hl : key'.length = key.length) {msg msg' : List Bool}
    (hne : msg ≠ []) (hne' : msg' ≠ []) :
    chips key msg = chips key' msg' ↔ key' = key ∧ msg' = msg ∨ key' = key.map (!·) ∧ msg' = msg.map (!·) := by
  constructor
  · intro h
    obtain ⟨b, t, rfl⟩ := List.exists_cons_of_ne_nil hne
    obtain ⟨b', t', rfl⟩ := List.exists_cons_of_ne_nil hne'
    have h1 := congrArg (List.take key.length) h
    rw [chips_take] at h1
    rw [← hl, chips_take] at h1
    have hk' : 0 < key'.length := by omega
    have nn : ∀ l : List Bool, (l.map (!·)).map (!·) = l := fun l => by simp [List.map_map, Function.comp_def]
    by_cases hb : b = b'
    · subst hb
      have : key = key' := by
        cases b
        · simp only [Bool.false_eq_true, if_false] at h1
          rw [← nn key, h1, nn]
        · simpa using h1
      subst this
      exact Or.inl ⟨rfl, (chips_inj hk h).symm⟩
    · have : key' = key.map (!·) := by
        cases b <;> cases b'
        · exact absurd rfl hb
        · simpa using h1.symm
        · simp only [if_true, Bool.false_eq_true, if_false] at h1
          rw [h1, nn]
        · exact absurd rfl hb
      subst this
      rw [← chips_not key] at h
      exact Or.inr ⟨rfl, (chips_inj hk' h).symm⟩
  · rintro (⟨rfl, rfl⟩ | ⟨rfl, rfl⟩)
    · rfl
    · exact (chips_not _ _).symm

end Verif.Props
