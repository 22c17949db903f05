import Verif.Lemmas.Cdma
import Verif.Lemmas.Symbols

/-! # When the CDMA receivers accept their parameters -/
namespace Verif
variable {ι F : Type} [Add F] [Sub F] [Mul F] [Div F] [Neg F] [Zero F] [One F] [Flt F]

theorem rxCdmaBpsk_panics [RIter ι F] (s : ι) (fs sym : ℕ) (fc : F) (key : List Bool) :
    (rxCdmaBpsk s fs sym fc key).Panics ↔ ¬ CdmaOk fs sym fc key.length := by
  constructor
  · intro hp h
    unfold rxCdmaBpsk at hp
    rw [h.guards, pure_bind] at hp
    unfold rxBpsk at hp
    rw [udiv_pos h.sym_pos, pure_bind] at hp
    exact RM.not_panics_ok _ hp
  · intro h
    obtain ⟨p, hp⟩ := (cdmaGuards_panics _ _ _ _).mpr h
    unfold rxCdmaBpsk
    rw [hp]
    exact ⟨p, RM.panic_bind _ _⟩

theorem rxCdmaQpsk_panics [RIter ι F] (s : ι) (fs sym : ℕ) (fc : F) (key : List Bool) :
    (rxCdmaQpsk s fs sym fc key).Panics ↔ ¬ CdmaOk fs sym fc key.length := by
  constructor
  · intro hp h
    unfold rxCdmaQpsk at hp
    rw [h.guards, pure_bind] at hp
    unfold rxQpsk at hp
    rw [udiv_pos h.sym_pos, pure_bind] at hp
    exact RM.not_panics_ok _ hp
  · intro h
    obtain ⟨p, hp⟩ := (cdmaGuards_panics _ _ _ _).mpr h
    unfold rxCdmaQpsk
    rw [hp]
    exact ⟨p, RM.panic_bind _ _⟩

end Verif
