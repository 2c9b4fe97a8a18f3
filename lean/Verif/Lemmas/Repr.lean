import Verif.Model.Repr
/-! Helper lemmas for the tagged word model. -/
namespace Cordy.Repr

theorem and31 (w : Word) : (w &&& MASK_TAG).toNat = w.toNat % 32 := by
  show (w &&& 31#64).toNat = _
  rw [BitVec.toNat_and]
  exact Nat.and_two_pow_sub_one_eq_mod w.toNat 5

theorem and3 (w : Word) : (w &&& MASK_PTR).toNat = w.toNat % 4 := by
  show (w &&& 3#64).toNat = _
  rw [BitVec.toNat_and]
  exact Nat.and_two_pow_sub_one_eq_mod w.toNat 2

theorem and1 (w : Word) : (w &&& MASK_INT).toNat = w.toNat % 2 := by
  show (w &&& 1#64).toNat = _
  rw [BitVec.toNat_and]
  exact Nat.and_two_pow_sub_one_eq_mod w.toNat 1

theorem andTag_eq (w t : Word) : (w &&& MASK_TAG = t) ↔ w.toNat % 32 = t.toNat := by
  rw [← BitVec.toNat_inj, and31]
theorem andPtr_eq (w t : Word) : (w &&& MASK_PTR = t) ↔ w.toNat % 4 = t.toNat := by
  rw [← BitVec.toNat_inj, and3]
theorem andInt_eq (w t : Word) : (w &&& MASK_INT = t) ↔ w.toNat % 2 = t.toNat := by
  rw [← BitVec.toNat_inj, and1]

theorem isNil_iff (w : Word) : isNil w = true ↔ w.toNat % 32 = 1 := by
  simp only [isNil, beq_iff_eq, andTag_eq]; rfl
theorem isBool_iff (w : Word) : isBool w = true ↔ w.toNat % 32 = 5 := by
  simp only [isBool, beq_iff_eq, andTag_eq]; rfl
theorem isNative_iff (w : Word) : isNative w = true ↔ w.toNat % 32 = 9 := by
  simp only [isNative, beq_iff_eq, andTag_eq]; rfl
theorem isField_iff (w : Word) : isField w = true ↔ w.toNat % 32 = 13 := by
  simp only [isField, beq_iff_eq, andTag_eq]; rfl
theorem isShortStr_iff (w : Word) : isShortStr w = true ↔ w.toNat % 32 = 17 := by
  simp only [isShortStr, beq_iff_eq, andTag_eq]; rfl
theorem isPtr_iff (w : Word) : isPtr w = true ↔ w.toNat % 4 = 3 := by
  simp only [isPtr, beq_iff_eq, andPtr_eq]; rfl
theorem isPreciseInt_iff (w : Word) : isPreciseInt w = true ↔ w.toNat % 2 = 0 := by
  simp only [isPreciseInt, beq_iff_eq, andInt_eq]; rfl

theorem toNat_or_shift (t : Nat) (x : Nat) (k : Nat) (h : t < 2 ^ k) :
    t ||| (x <<< k) = x * 2 ^ k + t := by
  rw [Nat.or_comm, ← Nat.shiftLeft_add_eq_or_of_lt h, Nat.shiftLeft_eq]

theorem toNat_fromI64 (v : I64) : (fromI64 v).toNat = (v.toNat * 2) % 2^64 := by
  simp [fromI64, TAG_INT, BitVec.toNat_shiftLeft, Nat.shiftLeft_eq]

theorem toNat_fromNative (n : Byte) : (fromNative n).toNat = n.toNat * 64 + 9 := by
  have hn := n.isLt
  have : n.toNat * 64 < 2^64 := by omega
  simp only [fromNative, TAG_NATIVE, BitVec.toNat_or, BitVec.toNat_shiftLeft, BitVec.toNat_setWidth]
  have h1 : n.toNat % 2^64 = n.toNat := Nat.mod_eq_of_lt (by omega)
  rw [h1, Nat.mod_eq_of_lt (by rw [Nat.shiftLeft_eq]; omega)]
  exact toNat_or_shift 9 n.toNat 6 (by decide)

theorem toNat_fromField (n : BitVec 32) : (fromField n).toNat = n.toNat * 64 + 13 := by
  have hn := n.isLt
  have : n.toNat * 64 < 2^64 := by omega
  simp only [fromField, TAG_FIELD, BitVec.toNat_or, BitVec.toNat_shiftLeft, BitVec.toNat_setWidth]
  have h1 : n.toNat % 2^64 = n.toNat := Nat.mod_eq_of_lt (by omega)
  rw [h1, Nat.mod_eq_of_lt (by rw [Nat.shiftLeft_eq]; omega)]
  exact toNat_or_shift 13 n.toNat 6 (by decide)

theorem toNat_fromShared (a : Word) (h : a.toNat % 4 = 0) : (fromShared a).toNat = a.toNat + 3 := by
  have ha := a.isLt
  simp only [fromShared, TAG_PTR, BitVec.toNat_or]
  have : a.toNat = (a.toNat / 4) <<< 2 := by rw [Nat.shiftLeft_eq]; omega
  rw [this]
  show 3 ||| _ = _
  rw [toNat_or_shift 3 _ 2 (by decide), Nat.shiftLeft_eq]

/-- Boxing and unboxing as signed integers. -/
theorem toInt_asPreciseInt_fromI64 (v : I64) :
    (asPreciseInt (fromI64 v)).toInt = Int.bmod v.toInt (2 ^ 63) := by
  have hv := v.isLt
  have e := toNat_fromI64 v
  simp only [asPreciseInt, BitVec.toInt_sshiftRight, Int.shiftRight_eq_div_pow]
  rw [BitVec.toInt_eq_toNat_bmod (fromI64 v), e, BitVec.toInt_eq_toNat_bmod v]
  simp only [Int.bmod]
  split <;> split <;> split <;> omega

/-! ### Byte view -/

theorem getLsbD_leWord (l : List Byte) (k : Nat) :
    (leWord l).getLsbD k = (decide (k < 64) && (l.getD (k / 8) 0).getLsbD (k % 8)) := by
  induction l generalizing k with
  | nil => simp [leWord]
  | cons b bs ih =>
    simp only [leWord, BitVec.getLsbD_or, BitVec.getLsbD_shiftLeft, BitVec.getLsbD_setWidth, ih]
    by_cases hk : k < 64
    · by_cases h8 : k < 8
      · have h0 : k / 8 = 0 := by omega
        have h1 : k % 8 = k := by omega
        simp [hk, h8, h0, h1]
      · have h0 : k / 8 = (k - 8) / 8 + 1 := by omega
        have h1 : k % 8 = (k - 8) % 8 := by omega
        have h2 : b.getLsbD k = false := BitVec.getLsbD_of_ge _ _ (by omega)
        have h3 : k - 8 < 64 := by omega
        simp [hk, h8, h0, h1, h2, h3]
    · simp [hk]

theorem byteAt_leWord (l : List Byte) (i : Nat) (hi : i < 8) :
    byteAt (leWord l) i = l.getD i 0 := by
  apply BitVec.eq_of_getLsbD_eq
  intro j hj
  simp only [byteAt, BitVec.getLsbD_setWidth, BitVec.getLsbD_ushiftRight, getLsbD_leWord]
  have h1 : (8 * i + j) / 8 = i := by omega
  have h2 : (8 * i + j) % 8 = j := by omega
  have h3 : 8 * i + j < 64 := by omega
  simp [h1, h2, h3, hj]

theorem leWord_low (b : Byte) (bs : List Byte) : (leWord (b :: bs)).toNat % 256 = b.toNat := by
  have h := byteAt_leWord (b :: bs) 0 (by omega)
  have := congrArg BitVec.toNat h
  simpa [byteAt] using this

theorem strTag_toNat (n : Nat) (h : n ≤ 7) : (strTag n).toNat = n * 32 + 17 := by
  have : n = 0 ∨ n = 1 ∨ n = 2 ∨ n = 3 ∨ n = 4 ∨ n = 5 ∨ n = 6 ∨ n = 7 := by omega
  rcases this with h | h | h | h | h | h | h | h <;> subst h <;> rfl

theorem fromSmallStr_low (s : List Byte) (h : s.length ≤ 7) :
    (fromSmallStr s).toNat % 256 = s.length * 32 + 17 := by
  rw [fromSmallStr, List.cons_append, leWord_low, strTag_toNat _ h]

theorem shortLen_eq (w : Word) : shortLen w = w.toNat / 32 % 8 := by
  have h : (w &&& STR_LEN_MASK) >>> STR_TAG_BYTES = (w >>> 5) &&& 7#64 := by
    apply BitVec.eq_of_getLsbD_eq
    intro i hi
    simp only [STR_TAG_BYTES, STR_LEN_MASK, BitVec.getLsbD_ushiftRight, BitVec.getLsbD_and]
    congr 1
    have : ∀ i, i < 64 → (0b11100000#64).getLsbD (5 + i) = (7#64).getLsbD i := by decide
    exact this i hi
  rw [shortLen, h, BitVec.toNat_and, BitVec.toNat_ushiftRight, Nat.shiftRight_eq_div_pow]
  exact Nat.and_two_pow_sub_one_eq_mod _ 3

theorem shortLen_fromSmallStr (s : List Byte) (h : s.length ≤ 7) : shortLen (fromSmallStr s) = s.length := by
  have := fromSmallStr_low s h
  rw [shortLen_eq]; omega

theorem asShortStr_fromSmallStr (s : List Byte) (h : s.length ≤ 7) : asShortStr (fromSmallStr s) = s := by
  rw [asShortStr, shortLen_fromSmallStr s h]
  apply List.ext_getElem
  · simp
  · intro i h1 h2
    simp only [List.getElem_map, List.getElem_range]
    rw [fromSmallStr, byteAt_leWord _ _ (by omega)]
    simp [List.getElem?_append_left h2, List.getElem?_eq_getElem h2]

end Cordy.Repr
