import Verif.Lemmas.CdmaRx
import Verif.Lemmas.Fh
import Verif.Lemmas.Ofdm
import Verif.Model.Fsk
import Verif.Model.FhOfdm

/-! What each signal function checks when it is called, for any arithmetic. -/

namespace Verif
set_option linter.unusedSectionVars false

/-- `x` returns if `ok` holds and panics otherwise. -/
def Guarded {α : Type} (x : RM α) (ok : Prop) : Prop := (ok → x.IsOk) ∧ (¬ ok → x.Panics)

theorem Guarded.congr {α : Type} {x : RM α} {p q : Prop} (h : Guarded x p) (e : p ↔ q) : Guarded x q := by
  rwa [← propext e]

theorem guarded_pure {α : Type} (a : α) : Guarded (pure a) True := ⟨fun _ => ⟨a, rfl⟩, fun h => (h trivial).elim⟩

/-- A check before the rest. -/
theorem Guarded.bind {α β : Type} {x : RM α} {f : α → RM β} {p q : Prop} (h : Guarded x p)
    (hf : ∀ a, x = pure a → Guarded (f a) q) : Guarded (x >>= f) (p ∧ q) := by
  constructor
  · rintro ⟨hp, hq⟩
    obtain ⟨a, ha⟩ := h.1 hp
    rw [ha, RM.ok, pure_bind]
    exact (hf a ha).1 hq
  · intro hn
    by_cases hp : p
    · obtain ⟨a, ha⟩ := h.1 hp
      rw [ha, RM.ok, pure_bind]
      exact (hf a ha).2 (fun hq => hn ⟨hp, hq⟩)
    · obtain ⟨e, he⟩ := h.2 hp
      exact ⟨e, by rw [he]; rfl⟩

/-- The rest cannot fail. -/
theorem Guarded.last {α β : Type} {x : RM α} {f : α → β} {p : Prop} (h : Guarded x p) :
    Guarded (x >>= fun a => pure (f a)) p :=
  (h.bind (fun a _ => guarded_pure (f a))).congr (iff_of_eq (and_true p))

theorem guarded_assert (c : Bool) : Guarded (rassert c) (c = true) := by
  cases c
  · exact ⟨fun h => absurd h Bool.false_ne_true, fun _ => ⟨.assertion, rfl⟩⟩
  · exact ⟨fun _ => ⟨(), rfl⟩, fun h => (h rfl).elim⟩

theorem guarded_decide (p : Prop) [Decidable p] : Guarded (rassert (decide p)) p :=
  (guarded_assert _).congr decide_eq_true_iff

theorem guarded_udiv (a b : ℕ) : Guarded (udiv a b) (b ≠ 0) := by
  unfold udiv
  split
  · rename_i h; exact ⟨fun h' => (h' h).elim, fun _ => ⟨_, rfl⟩⟩
  · rename_i h; exact ⟨fun _ => ⟨_, rfl⟩, fun h' => (h' h).elim⟩

theorem guarded_usub (a b : ℕ) : Guarded (usub a b) (b ≤ a) := by
  unfold usub
  split
  · rename_i h; exact ⟨fun h' => by omega, fun _ => ⟨_, rfl⟩⟩
  · rename_i h; exact ⟨fun _ => ⟨_, rfl⟩, fun h' => by omega⟩

theorem guarded_index {α : Type} (l : List α) (i : ℕ) : Guarded (index l i) (i < l.length) := by
  constructor
  · intro h; exact ⟨_, index_lt h⟩
  · intro h; exact ⟨_, index_ge (by omega)⟩

variable {ι ρ F : Type} [Add F] [Sub F] [Mul F] [Div F] [Neg F] [Zero F] [One F] [Flt F] [Rng ρ]

/-- The check `is_int(sample_rate as f64 / symbol_rate as f64)`. -/
def Whole (F : Type) [Add F] [Sub F] [Mul F] [Div F] [Neg F] [Zero F] [One F] [Flt F] (fs sym : ℕ) : Prop :=
  isInt (Flt.ofNat fs / Flt.ofNat sym : F) = true

/-- The check `sample_rate / 2 >= f as usize`. -/
def Below (fs : ℕ) (f : F) : Prop := Flt.toNat f ≤ fs / 2

theorem guarded_hop (low high : F) (n seed : ℕ) : Guarded (hopTable ρ low high n seed) True := by
  rw [hopTable_ok]; exact guarded_pure _

theorem txBpsk_guarded [RIter ι Bool] (m : ι) (fs sym : ℕ) (fc : F) :
    Guarded (txBpsk m fs sym fc) (sym ≠ 0 ∧ Below fs fc ∧ Whole F fs sym) :=
  (guarded_udiv _ _).bind fun _ _ => (guarded_decide _).bind fun _ _ => (guarded_assert _).last

theorem rxBpsk_guarded [RIter ι F] (s : ι) (fs sym : ℕ) (fc : F) : Guarded (rxBpsk s fs sym fc) (sym ≠ 0) :=
  (guarded_udiv _ _).last

theorem txQpsk_guarded [RIter ι Bool] (m : ι) (fs sym : ℕ) (fc : F) : Guarded (txQpsk m fs sym fc) (sym ≠ 0) :=
  (guarded_udiv _ _).last

theorem rxQpsk_guarded [RIter ι F] (s : ι) (fs sym : ℕ) (fc : F) : Guarded (rxQpsk s fs sym fc) (sym ≠ 0) :=
  (guarded_udiv _ _).last

theorem txFsk_guarded [RIter ι Bool] (m : ι) (fs sym : ℕ) (fc : F) : Guarded (txFsk m fs sym fc) (sym ≠ 0) :=
  (guarded_udiv _ _).last

theorem rxFsk_guarded [RIter ι F] (s : ι) (fs sym : ℕ) (fc : F) : Guarded (rxFsk s fs sym fc) (sym ≠ 0) :=
  (guarded_udiv _ _).last

theorem txFm_guarded [RIter ι F] (s : ι) (fs sym : ℕ) (fc : F) : Guarded (txFm s fs sym fc) (sym ≠ 0) :=
  (guarded_udiv _ _).last

theorem txBfsk_guarded [RIter ι Bool] (m : ι) (fs sym : ℕ) (lo hi : F) :
    Guarded (txBfsk m fs sym lo hi) (sym ≠ 0 ∧ Below fs hi ∧ Whole F fs sym) :=
  (guarded_udiv _ _).bind fun _ _ => (guarded_decide _).bind fun _ _ => (guarded_assert _).last

theorem txMfsk_guarded [RIter ι Bool] (m : ι) (fs sym : ℕ) (lo hi : F) (k : ℕ) :
    Guarded (txMfsk m fs sym lo hi k) (sym ≠ 0 ∧ Below fs hi ∧ Whole F fs sym) :=
  (guarded_udiv _ _).bind fun _ _ => (guarded_decide _).bind fun _ _ => (guarded_assert _).last

theorem txFskSignal_guarded [RIter ι Bool] (m : ι) (fs sym : ℕ) (hi lo : F) (l : List F) :
    Guarded (txFskSignal m fs sym (hi :: lo :: l)) (sym ≠ 0 ∧ Below fs hi ∧ Whole F fs sym) := by
  unfold txFskSignal
  rw [index_lt (v := hi :: lo :: l) (i := 0) (by simp), index_lt (v := hi :: lo :: l) (i := 1) (by simp)]
  simp only [pure_bind, List.getElem_cons_zero, List.getElem_cons_succ]
  exact (guarded_udiv _ _).bind fun _ _ => (guarded_decide _).bind fun _ _ => (guarded_assert _).last

theorem cdmaGuards_guarded (fs sym : ℕ) (fc : F) (L : ℕ) : Guarded (cdmaGuards fs sym fc L) (CdmaOk fs sym fc L) :=
  ⟨fun h => ⟨_, h.guards⟩, fun h => (cdmaGuards_panics _ _ _ _).mpr h⟩

theorem txCdmaBpsk_guarded [RIter ι Bool] (m : ι) (fs sym : ℕ) (fc : F) (key : List Bool) :
    Guarded (txCdmaBpsk m fs sym fc key) (CdmaOk fs sym fc key.length) :=
  ((cdmaGuards_guarded fs sym fc key.length).bind fun _ _ => (txBpsk_guarded m fs sym fc).last).congr
    ⟨fun h => h.1, fun h => ⟨h, h.sym_pos.ne', h.car, h.int1⟩⟩

theorem rxCdmaBpsk_guarded [RIter ι F] (s : ι) (fs sym : ℕ) (fc : F) (key : List Bool) :
    Guarded (rxCdmaBpsk s fs sym fc key) (CdmaOk fs sym fc key.length) :=
  ((cdmaGuards_guarded fs sym fc key.length).bind fun _ _ => rxBpsk_guarded _ fs sym fc).congr
    ⟨fun h => h.1, fun h => ⟨h, h.sym_pos.ne'⟩⟩

theorem txCdmaQpsk_guarded [RIter ι Bool] (m : ι) (fs sym : ℕ) (fc : F) (key : List Bool) :
    Guarded (txCdmaQpsk m fs sym fc key) (CdmaOk fs sym fc key.length) :=
  ((cdmaGuards_guarded fs sym fc key.length).bind fun _ _ => (txQpsk_guarded m fs sym fc).last).congr
    ⟨fun h => h.1, fun h => ⟨h, h.sym_pos.ne'⟩⟩

theorem rxCdmaQpsk_guarded [RIter ι F] (s : ι) (fs sym : ℕ) (fc : F) (key : List Bool) :
    Guarded (rxCdmaQpsk s fs sym fc key) (CdmaOk fs sym fc key.length) :=
  ((cdmaGuards_guarded fs sym fc key.length).bind fun _ _ => rxQpsk_guarded _ fs sym fc).congr
    ⟨fun h => h.1, fun h => ⟨h, h.sym_pos.ne'⟩⟩

theorem rxCodedCdmaBpsk_guarded [RIter ι F] (rs : RS) (s : ι) (fs sym : ℕ) (fc : F) (key : List Bool) :
    Guarded (rxCodedCdmaBpsk rs s fs sym fc key) (CdmaOk fs sym fc key.length) :=
  (rxCdmaBpsk_guarded s fs sym fc key).last

theorem txFhBpsk_guarded [RIter ι Bool] (m : ι) (low high : F) (n fs sym : ℕ) :
    Guarded (txFhBpsk ρ m low high n fs sym) (Below fs high ∧ Whole F fs sym) :=
  (guarded_decide _).bind fun _ _ => ((guarded_assert _).bind fun _ _ => (guarded_hop low high n SEED).last).congr
    (iff_of_eq (and_true _))

theorem rxFhBpsk_guarded [RIter ι F] (s : ι) (low high : F) (n fs sym : ℕ) :
    Guarded (rxFhBpsk ρ s low high n fs sym) (sym ≠ 0 ∧ Below fs high ∧ Whole F fs sym) :=
  (guarded_udiv _ _).bind fun _ _ => (guarded_decide _).bind fun _ _ =>
    ((guarded_assert _).bind fun _ _ => (guarded_hop low high n SEED).last).congr (iff_of_eq (and_true _))

theorem txFhBpskOld_guarded [RIter ι Bool] (m : ι) (low high : F) (n fs sym : ℕ) (fc : F) :
    Guarded (txFhBpskOld ρ m low high n fs sym fc) (sym ≠ 0 ∧ Below fs fc ∧ Whole F fs sym) :=
  (guarded_udiv _ _).bind fun _ _ => (guarded_decide _).bind fun _ _ =>
    ((guarded_assert _).bind fun _ _ => (guarded_hop low high n SEED).last).congr (iff_of_eq (and_true _))

theorem txFhCss_guarded [RIter ι Bool] (m : ι) (fs sym : ℕ) (low high : F) (n : ℕ) :
    Guarded (txFhCss ρ m fs sym low high n) (Below fs high ∧ Whole F fs sym) :=
  (guarded_decide _).bind fun _ _ => ((guarded_assert _).bind fun _ _ => (guarded_hop low high n SEED).last).congr
    (iff_of_eq (and_true _))

section
variable [Fft F]

theorem carriers_guarded (n p : ℕ) : Guarded (getDataSubcarriers n p) (1 ≤ p ∧ (p - 1) / 2 ≤ n) := by
  unfold getDataSubcarriers
  simp only []
  refine (((guarded_usub p 1).bind (q := (p - 1) / 2 ≤ n) fun a ha => ?_))
  have : a = p - 1 := by
    unfold usub at ha; split at ha
    · simp at ha
    · simpa using ha.symm
  subst this
  refine ((guarded_usub _ _).bind fun _ _ => (guarded_usub _ _).last).congr ?_
  omega

theorem txBasebandOfdm_guarded (s : ι) (n p : ℕ) : Guarded (txBasebandOfdm (F := F) s n p) (1 ≤ p ∧ p ≤ n) :=
  ((guarded_usub n p).bind fun _ _ => (carriers_guarded n p).last).congr (by omega)

theorem rxBasebandOfdm_guarded (s : ι) (n p : ℕ) : Guarded (rxBasebandOfdm (F := F) s n p) (1 ≤ p ∧ p ≤ n) :=
  ((guarded_usub n p).bind fun _ _ => (carriers_guarded n p).last).congr (by omega)

theorem txOfdmQpsk_guarded [RIter ι Bool] (m : ι) (n p fs sym : ℕ) (fc : F) :
    Guarded (txOfdmQpsk m n p fs sym fc) (Whole F fs sym ∧ sym ≠ 0 ∧ 1 ≤ p ∧ p ≤ n) :=
  (guarded_assert _).bind fun _ _ => (guarded_udiv _ _).bind fun _ _ => (txBasebandOfdm_guarded _ n p).last

theorem rxOfdmQpsk_guarded [RIter ι F] (s : ι) (n p fs sym : ℕ) (fc : F) :
    Guarded (rxOfdmQpsk s n p fs sym fc) (Whole F fs sym ∧ sym ≠ 0 ∧ 1 ≤ p ∧ p ≤ n) :=
  (guarded_assert _).bind fun _ _ => (guarded_udiv _ _).bind fun _ _ => (rxBasebandOfdm_guarded _ n p).last

theorem chaos_guarded (x0 : F) : Guarded (Chebyshev.new x0) ((Flt.le (-1) x0 && Flt.le x0 1) = true) :=
  (guarded_assert _).last

theorem txBasebandFhOfdm_guarded [RIter ι Bool] (m : ι) :
    Guarded (txBasebandFhOfdm ρ F m) ((Flt.le (-1) (Flt.lit 5 1 : F) && Flt.le (Flt.lit 5 1 : F) 1) = true) :=
  ((guarded_usub NUM_SUBCARRIERS 1).bind fun _ _ => (chaos_guarded _).last).congr
    (and_iff_right (by decide))

theorem txFhOfdm_guarded [RIter ι Bool] (m : ι) (low high : F) (n fs sym : ℕ) :
    Guarded (txFhOfdm ρ m low high n fs sym) (Below fs high ∧ Whole F fs sym ∧ sym ≠ 0 ∧
      (Flt.le (-1) (Flt.lit 5 1 : F) && Flt.le (Flt.lit 5 1 : F) 1) = true) :=
  (guarded_decide _).bind fun _ _ => (guarded_assert _).bind fun _ _ => (guarded_udiv _ _).bind fun _ _ =>
    ((txBasebandFhOfdm_guarded m).bind fun _ _ => (guarded_hop low high n SEED).last).congr (iff_of_eq (and_true _))

theorem txFhOfdm2_guarded [RIter ι Bool] (m : ι) (fs sym : ℕ) (fc : F) :
    Guarded (txFhOfdm2 ρ m fs sym fc) (Below fs fc ∧ Whole F fs sym ∧ sym ≠ 0 ∧
      (Flt.le (-1) (Flt.lit 5 1 : F) && Flt.le (Flt.lit 5 1 : F) 1) = true) :=
  (guarded_decide _).bind fun _ _ => (guarded_assert _).bind fun _ _ => (guarded_udiv _ _).bind fun _ _ =>
    (txBasebandFhOfdm_guarded m).last
end

end Verif
