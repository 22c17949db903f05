import Verif.F64.Compare

/-! Packing and unpacking are inverse to each other on canonical numbers. -/
namespace Verif.F64
open Float.Model Float.Model.UnpackedFloat

theorem toNat_append' {n k : ℕ} (x : BitVec n) (y : BitVec k) : (x ++ y).toNat = x.toNat * 2 ^ k + y.toNat := by
  rw [BitVec.toNat_append, ← Nat.shiftLeft_add_eq_or_of_lt y.isLt, Nat.shiftLeft_eq]

theorem packComponents_toNat (s : Sign) (E : BitVec 11) (M : BitVec 52) :
    BitVec.toNat (w := 64) (packComponents Format.binary64 s E M) = (s.toBitVec.toNat * 2 ^ 11 + E.toNat) * 2 ^ 52 + M.toNat := by
  show (s.toBitVec ++ E ++ M).toNat = _
  rw [toNat_append', toNat_append']

theorem unpackMantissa_toNat (b : BitVec 64) : (unpackMantissa (spec := Format.binary64) b).toNat = b.toNat % 2 ^ 52 := by
  unfold unpackMantissa
  rw [BitVec.toNat_cast, BitVec.extractLsb_toNat]
  simp

theorem unpackExponent_toNat (b : BitVec 64) :
    (unpackExponent (spec := Format.binary64) b).toNat = b.toNat / 2 ^ 52 % 2 ^ 11 := by
  unfold unpackExponent
  rw [BitVec.toNat_cast, BitVec.extractLsb_toNat, Nat.shiftRight_eq_div_pow]
  rfl

theorem unpackSign_toNat (b : BitVec 64) : (unpackSign (spec := Format.binary64) b).toNat = b.toNat / 2 ^ 63 % 2 := by
  unfold unpackSign
  rw [BitVec.toNat_cast, BitVec.extractLsb_toNat, Nat.shiftRight_eq_div_pow]
  rfl

theorem ofBitVec_toBitVec (s : Sign) : Sign.ofBitVec s.toBitVec = s := by cases s <;> rfl

theorem toBitVec_ofBitVec (b : BitVec 1) : (Sign.ofBitVec b).toBitVec = b := by
  revert b; decide

theorem unpackSign_packComponents (s : Sign) (E : BitVec 11) (M : BitVec 52) :
    unpackSign (spec := Format.binary64) (packComponents Format.binary64 s E M) = s.toBitVec := by
  apply BitVec.eq_of_toNat_eq
  rw [unpackSign_toNat, packComponents_toNat]
  have h1 := s.toBitVec.isLt
  have h2 := E.isLt
  have h3 := M.isLt
  omega

theorem packComponents_unpack (b : BitVec 64) :
    packComponents Format.binary64 (Sign.ofBitVec (unpackSign (spec := Format.binary64) b)) (unpackExponent (spec := Format.binary64) b)
      (unpackMantissa (spec := Format.binary64) b) = b := by
  apply BitVec.eq_of_toNat_eq
  rw [packComponents_toNat, toBitVec_ofBitVec, unpackSign_toNat, unpackExponent_toNat, unpackMantissa_toNat]
  have := b.isLt
  omega

theorem implicit_toNat (M : BitVec 52) : (1#1 ++ M).toNat = 2 ^ 52 + M.toNat := by
  rw [toNat_append']
  have h' : (1#1 : BitVec 1).toNat = 1 := by decide
  omega

/-- Unpacking in terms of the three fields. -/
theorem unpack_packComponents (s : Sign) (E : BitVec 11) (M : BitVec 52) :
    UnpackedFloat.unpack Format.binary64 (packComponents Format.binary64 s E M) =
      if E = -1#11 then (if M = 0#52 then .infinity s else .notANumber)
      else if E = 0#11 then
        if h : M = 0#52 then .zero s
        else .finite s M.toNat (-1074) (by simpa [BitVec.toNat_pos, BitVec.pos_iff_ne_zero])
      else .finite s (1#1 ++ M).toNat ((E.toNat : ℤ) - 1075) (by rw [implicit_toNat]; omega) := by
  unfold UnpackedFloat.unpack
  simp only [unpackMantissa_packComponents, unpackExponent_packComponents, unpackSign_packComponents, ofBitVec_toBitVec]
  split
  · rfl
  · split
    · rename_i h
      subst h
      rfl
    · rfl

theorem finite_congr {s : Sign} {m m' : ℕ} {e e' : ℤ} {h : 0 < m} {h' : 0 < m'} (hm : m = m') (he : e = e') :
    UnpackedFloat.finite s m e h = .finite s m' e' h' := by subst hm; subst he; rfl

theorem biased (e : ℤ) : (e + Format.binary64.exponentBias + Format.binary64.mantissaBitsWithoutImplicit).toNat = (e + 1075).toNat := by
  congr 1
  show e + ((2 ^ (11 - 1) - 1 : ℕ) : ℤ) + ((52 : ℕ) : ℤ) = e + 1075
  push_cast; ring

theorem pack_finite (s : Sign) (m : ℕ) (e : ℤ) (hm : 0 < m) :
    UnpackedFloat.pack Format.binary64 (.finite s m e hm) =
      if 2 ^ 11 ≤ (e + 1075).toNat + 1 then packedInfinity Format.binary64 s
      else if m.log2 + 1 = 53 then
        packComponents Format.binary64 s (BitVec.ofNat 11 (e + 1075).toNat) (BitVec.ofNat 52 m)
      else packComponents Format.binary64 s 0#11 (BitVec.ofNat 52 m) := by
  rw [← biased]
  rfl

theorem unpack_infinity (s : Sign) : UnpackedFloat.unpack Format.binary64 (packedInfinity Format.binary64 s) = .infinity s := by
  unfold packedInfinity
  exact (unpack_packComponents s _ _).trans (by rw [if_pos rfl]; rfl)

theorem unpack_pack_infinity (s : Sign) :
    UnpackedFloat.unpack Format.binary64 (UnpackedFloat.pack Format.binary64 (.infinity s)) = .infinity s := unpack_infinity s

theorem unpack_pack_zero (s : Sign) :
    UnpackedFloat.unpack Format.binary64 (UnpackedFloat.pack Format.binary64 (.zero s)) = .zero s :=
  (unpack_packComponents s 0#11 0#52).trans (by rw [if_neg (by decide), if_pos rfl]; rfl)

theorem unpack_pack_nan :
    UnpackedFloat.unpack Format.binary64 (UnpackedFloat.pack Format.binary64 .notANumber) = .notANumber :=
  (unpack_packComponents .positive _ _).trans (by rw [if_pos rfl, if_neg (by decide)])

theorem log2_eq_52 {m : ℕ} (h1 : 2 ^ 52 ≤ m) (h2 : m < 2 ^ 53) : m.log2 = 52 := by
  have h0 : m ≠ 0 := by omega
  have a := (Nat.le_log2 h0).mpr h1
  have b := (Nat.log2_lt h0).mpr h2
  omega

theorem unpack_pack_finite (s : Sign) {m : ℕ} {e : ℤ} (hm : 0 < m) (hc : CanonME m e) (he : e ≤ 971) :
    UnpackedFloat.unpack Format.binary64 (UnpackedFloat.pack Format.binary64 (.finite s m e hm)) = .finite s m e hm := by
  obtain ⟨h1, h2, h3⟩ := hc
  rw [pack_finite, if_neg (by omega)]
  by_cases hn : 2 ^ 52 ≤ m
  · rw [if_pos (by rw [log2_eq_52 hn h1])]
    have hE : (BitVec.ofNat 11 (e + 1075).toNat).toNat = (e + 1075).toNat := by
      rw [BitVec.toNat_ofNat]; exact Nat.mod_eq_of_lt (by omega)
    have hE1 : BitVec.ofNat 11 (e + 1075).toNat ≠ -1#11 := by
      intro h
      have := congrArg BitVec.toNat h
      rw [hE] at this
      have h' : (-1#11 : BitVec 11).toNat = 2047 := by decide
      omega
    have hE0 : BitVec.ofNat 11 (e + 1075).toNat ≠ 0#11 := by
      intro h
      have := congrArg BitVec.toNat h
      rw [hE] at this
      have h' : (0#11 : BitVec 11).toNat = 0 := by decide
      omega
    refine (unpack_packComponents s _ _).trans ?_
    rw [if_neg hE1, if_neg hE0]
    refine finite_congr ?_ ?_
    · rw [implicit_toNat, BitVec.toNat_ofNat]
      omega
    · omega
  · rw [if_neg (by
      intro h
      have : 52 ≤ m.log2 := by omega
      exact hn ((Nat.le_log2 hm.ne').mp this))]
    refine (unpack_packComponents s _ _).trans ?_
    have hM : (BitVec.ofNat 52 m).toNat = m := by
      rw [BitVec.toNat_ofNat]; exact Nat.mod_eq_of_lt (by omega)
    rw [if_neg (by decide), if_pos rfl, dif_neg (by
      intro h
      have := congrArg BitVec.toNat h
      rw [hM] at this
      have h' : (0#52 : BitVec 52).toNat = 0 := by decide
      omega)]
    exact finite_congr hM (by omega)

theorem unpack_pack_overflow (s : Sign) {m : ℕ} {e : ℤ} (hm : 0 < m) (he : 971 < e) :
    UnpackedFloat.unpack Format.binary64 (UnpackedFloat.pack Format.binary64 (.finite s m e hm)) = .infinity s := by
  rw [pack_finite, if_pos (by omega)]
  exact unpack_infinity s

theorem unpack_pack {u : UnpackedFloat} (h : Canon u) :
    UnpackedFloat.unpack Format.binary64 (UnpackedFloat.pack Format.binary64 u) = u := by
  cases u with
  | infinity s => exact unpack_pack_infinity s
  | notANumber => exact unpack_pack_nan
  | zero s => exact unpack_pack_zero s
  | finite s m e hm => exact unpack_pack_finite s hm h.1 h.2

theorem canon_unpack_fields (s : Sign) (E : BitVec 11) (M : BitVec 52) :
    Canon (UnpackedFloat.unpack Format.binary64 (packComponents Format.binary64 s E M)) := by
  have h := unpack_packComponents s E M
  refine (congrArg Canon h).mpr ?_
  have hE := E.isLt
  have hM := M.isLt
  split
  · split <;> trivial
  · rename_i hE1
    have hE1' : E.toNat ≠ 2047 := by
      intro h
      apply hE1
      apply BitVec.eq_of_toNat_eq
      rw [h]; decide
    split
    · split
      · trivial
      · exact ⟨⟨by omega, le_refl _, .inr rfl⟩, by omega⟩
    · rename_i hE0
      have hE0' : E.toNat ≠ 0 := by
        intro h
        apply hE0
        apply BitVec.eq_of_toNat_eq
        rw [h]; decide
      have ht := implicit_toNat M
      refine ⟨⟨by omega, by omega, .inl (by omega)⟩, by omega⟩

theorem canon_unpack (b : BitVec 64) : Canon (UnpackedFloat.unpack Format.binary64 b) :=
  packComponents_unpack b ▸ canon_unpack_fields _ _ _

theorem pack_unpack_fields {b : BitVec 64} {s : Sign} {E : BitVec 11} {M : BitVec 52}
    (hb : packComponents Format.binary64 s E M = b) (hv' : E = -1#11 → M ≠ 0#52 → b = packedNaN Format.binary64) :
    UnpackedFloat.pack Format.binary64 (UnpackedFloat.unpack Format.binary64 b) = b := by
  have h := unpack_packComponents s E M
  rw [hb] at h
  rw [h]
  have hE := E.isLt
  have hM := M.isLt
  split
  · rename_i h1
    split
    · rename_i h2
      subst h1; subst h2
      exact hb
    · rename_i h2
      exact (hv' h1 h2).symm
  · rename_i hE1
    have hE1' : E.toNat ≠ 2047 := by
      intro h
      apply hE1
      apply BitVec.eq_of_toNat_eq
      rw [h]; decide
    split
    · rename_i hE0
      subst hE0
      split
      · rename_i h2
        subst h2
        exact hb
      · rename_i h2
        have hM0 : M.toNat ≠ 0 := by
          intro h; apply h2; apply BitVec.eq_of_toNat_eq; rw [h]; decide
        rw [pack_finite, if_neg (by omega), if_neg (by
          intro h
          have : M.toNat.log2 < 52 := (Nat.log2_lt hM0).mpr hM
          omega), BitVec.ofNat_toNat, BitVec.setWidth_eq]
        exact hb
    · rename_i hE0
      have hE0' : E.toNat ≠ 0 := by
        intro h
        apply hE0
        apply BitVec.eq_of_toNat_eq
        rw [h]; decide
      have ht := implicit_toNat M
      rw [pack_finite, if_neg (by omega), if_pos (by rw [log2_eq_52 (by omega) (by omega)])]
      have e1 : BitVec.ofNat 11 ((E.toNat : ℤ) - 1075 + 1075).toNat = E := by
        apply BitVec.eq_of_toNat_eq
        rw [BitVec.toNat_ofNat]; omega
      have e2 : BitVec.ofNat 52 (1#1 ++ M).toNat = M := by
        apply BitVec.eq_of_toNat_eq
        rw [BitVec.toNat_ofNat]; omega
      rw [e1, e2]
      exact hb

theorem pack_unpack {b : BitVec 64} (hv : Format.binary64.Valid b) :
    UnpackedFloat.pack Format.binary64 (UnpackedFloat.unpack Format.binary64 b) = b :=
  pack_unpack_fields (packComponents_unpack b) hv.eq_packedNaN

end Verif.F64
