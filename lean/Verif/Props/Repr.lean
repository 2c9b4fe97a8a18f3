import Verif.Model.Repr
import Verif.Lemmas.Repr
/-!
# Properties C01, C02, C03: the tagged word representation
-/
namespace Cordy.Repr

/-! ## Specification -/

/-- The documented int range: `-2^62 .. 2^62 - 1`. -/
def InIntRange (i : Int) : Prop := -(2 ^ 62) ≤ i ∧ i < 2 ^ 62

instance (i : Int) : Decidable (InIntRange i) := inferInstanceAs (Decidable (_ ∧ _))

/-- The unique representative of `i` modulo `2^63` in the int range. -/
structure Reduces (i r : Int) : Prop where
  range : InIntRange r
  congr : (2 ^ 63 : Int) ∣ i - r

/-- The immediate values of the language, abstractly. -/
inductive Imm where
  | nil
  | bool (b : Bool)
  | int (v : I64)
  | native (n : Byte)
  | field (f : BitVec 32)
  | str (s : List Byte)
  deriving DecidableEq

/-- An immediate int is in the int range, an immediate string has at most 7 bytes. -/
def Imm.Valid : Imm → Prop
  | .int v => InIntRange v.toInt
  | .str s => s.length ≤ 7
  | _ => True

/-- What the constructors of ptr.rs store for an immediate. -/
def Imm.store : Imm → Word
  | .nil => Repr.nil
  | .bool b => fromBool b
  | .int v => fromI64 v
  | .native n => fromNative n
  | .field f => fromField f
  | .str s => fromSmallStr s

/-- What a reader sees who looks at the type first and then uses the accessor of that type. -/
def load (w : Word) : Option Imm :=
  match ty w with
  | .nil => some .nil
  | .bool => some (.bool (asBool w))
  | .int => some (.int (asPreciseInt w))
  | .native => some (.native (asNative w))
  | .field => some (.field (asField w))
  | .shortStr => some (.str (asShortStr w))
  | .ptr => none
  | .never => none

/-! ## C01 -/

/-- C01: for every 64-bit integer, what is read back is the unique congruent integer modulo `2^63` in
the int range. -/
theorem C01_box_unbox (v : I64) : Reduces v.toInt (asInt (fromI64 v)).toInt := by
  have h1 : isPreciseInt (fromI64 v) = true := by
    rw [isPreciseInt_iff, toNat_fromI64]; omega
  have h2 : asInt (fromI64 v) = asPreciseInt (fromI64 v) := by simp [asInt, h1]
  rw [h2, toInt_asPreciseInt_fromI64]
  refine ⟨⟨?_, ?_⟩, ?_⟩
  · simp only [Int.bmod]; split <;> omega
  · simp only [Int.bmod]; split <;> omega
  · simp only [Int.bmod]; split <;> omega

/-- C01: reduction is unique, so the previous theorem determines the value read back. -/
theorem C01_reduces_unique (i r s : Int) (h1 : Reduces i r) (h2 : Reduces i s) : r = s := by
  obtain ⟨⟨a, b⟩, ⟨k, hk⟩⟩ := h1
  obtain ⟨⟨c, d⟩, ⟨l, hl⟩⟩ := h2
  omega

/-- C01: an int in range is read back unchanged. -/
theorem C01_box_unbox_exact (v : I64) (h : InIntRange v.toInt) : asInt (fromI64 v) = v := by
  apply BitVec.toInt_inj.mp
  exact C01_reduces_unique v.toInt _ _ (C01_box_unbox v) ⟨h, by simp⟩

/-- C01: the advertised bounds are the bounds of the range. -/
theorem C01_bounds : MAX_INT.toInt = 2 ^ 62 - 1 ∧ MIN_INT.toInt = -(2 ^ 62) := by decide

example : InIntRange (MIN_INT).toInt ∧ asInt (fromI64 MIN_INT) = MIN_INT := by
  refine ⟨?_, by decide⟩
  rw [C01_bounds.2]; constructor <;> decide
-- one past the end wraps to the other end, as the repository's own test says
example : asInt (fromI64 (MAX_INT + 1)) = MIN_INT := by decide

/-! ## C02 -/

/-- C02: every valid immediate is read back exactly as stored. -/
theorem C02_load_store (x : Imm) (h : x.Valid) : load x.store = some x := by
  cases x with
  | nil => decide
  | bool b => cases b <;> decide
  | int v =>
    have e := toNat_fromI64 v
    have t : ty (fromI64 v) = .int := by
      simp only [ty, andPtr_eq, TAG_NIL, TAG_PTR]
      rw [if_neg, if_neg]
      · show ¬ _ = 3; omega
      · show ¬ _ = 1; omega
    have p : asPreciseInt (fromI64 v) = v := by
      have := C01_box_unbox_exact v h
      rw [asInt, if_pos] at this
      · exact this
      · rw [isPreciseInt_iff, e]; omega
    simp [load, Imm.store, t, p]
  | native n =>
    have e := toNat_fromNative n
    have hn := n.isLt
    have t : ty (fromNative n) = .native := by
      have h4 : (fromNative n).toNat % 4 = 1 := by omega
      have h32 : (fromNative n).toNat % 32 = 9 := by omega
      simp only [ty, andPtr_eq, andTag_eq, TAG_NIL, TAG_PTR, TAG_BOOL, TAG_NATIVE, h4, h32]
      decide
    have p : asNative (fromNative n) = n := by
      apply BitVec.eq_of_toNat_eq
      simp only [asNative, BitVec.toNat_setWidth, BitVec.toNat_ushiftRight, e, Nat.shiftRight_eq_div_pow]
      omega
    simp [load, Imm.store, t, p]
  | field n =>
    have e := toNat_fromField n
    have hn := n.isLt
    have t : ty (fromField n) = .field := by
      have h4 : (fromField n).toNat % 4 = 1 := by omega
      have h32 : (fromField n).toNat % 32 = 13 := by omega
      simp only [ty, andPtr_eq, andTag_eq, TAG_NIL, TAG_PTR, TAG_BOOL, TAG_NATIVE, TAG_FIELD, h4, h32]
      decide
    have p : asField (fromField n) = n := by
      apply BitVec.eq_of_toNat_eq
      simp only [asField, BitVec.toNat_setWidth, BitVec.toNat_ushiftRight, e, Nat.shiftRight_eq_div_pow]
      omega
    simp [load, Imm.store, t, p]
  | str s =>
    have e := fromSmallStr_low s h
    have t : ty (fromSmallStr s) = .shortStr := by
      have h4 : (fromSmallStr s).toNat % 4 = 1 := by omega
      have h32 : (fromSmallStr s).toNat % 32 = 17 := by omega
      simp only [ty, andPtr_eq, andTag_eq, TAG_NIL, TAG_PTR, TAG_BOOL, TAG_NATIVE, TAG_FIELD, TAG_STR, h4, h32]
      decide
    simp [load, Imm.store, t, asShortStr_fromSmallStr s h]

/-- C02: different immediates are never stored in the same word. -/
theorem C02_store_injective (x y : Imm) (hx : x.Valid) (hy : y.Valid) (h : x.store = y.store) : x = y := by
  have h1 := C02_load_store x hx
  rw [h, C02_load_store y hy] at h1
  exact (Option.some.inj h1).symm

/-- C02: a heap reference (4-byte aligned address) is recognised as such, its address survives, and
it is no immediate. -/
theorem C02_pointer (a : Word) (h : a.toNat % 4 = 0) :
    ty (fromShared a) = .ptr ∧ asPtr (fromShared a) = a ∧ ∀ x : Imm, x.Valid → x.store ≠ fromShared a := by
  have e := toNat_fromShared a h
  have t : ty (fromShared a) = .ptr := by
    have h4 : (fromShared a).toNat % 4 = 3 := by omega
    simp only [ty, andPtr_eq, TAG_NIL, TAG_PTR, h4]
    rw [if_neg (by decide), if_pos (by decide)]
  refine ⟨t, ?_, ?_⟩
  · apply BitVec.eq_of_getLsbD_eq
    intro i hi
    have hlow : i < 2 → a.getLsbD i = false := by
      intro h2
      have : (a.toNat).testBit i = (a.toNat % 2^2).testBit i := by
        rw [Nat.testBit_mod_two_pow]; simp [h2]
      rw [BitVec.getLsbD, this, h]; simp
    simp only [asPtr, fromShared, BitVec.getLsbD_and, BitVec.getLsbD_or]
    by_cases h2 : i < 2
    · have : PTR_MASK.getLsbD i = false := by
        have : ∀ i, i < 2 → PTR_MASK.getLsbD i = false := by decide
        exact this i h2
      simp [this, hlow h2]
    · have hm : PTR_MASK.getLsbD i = true := by
        have : ∀ i, i < 64 → ¬ i < 2 → PTR_MASK.getLsbD i = true := by decide
        exact this i hi h2
      have ht : TAG_PTR.getLsbD i = false := by
        have : ∀ i, i < 64 → ¬ i < 2 → TAG_PTR.getLsbD i = false := by decide
        exact this i hi h2
      simp [hm, ht]
  · intro x hx hs
    have := C02_load_store x hx
    rw [hs] at this
    simp [load, t] at this

/-- C02: for every word whatsoever, at most one of the type tests succeeds, and the tests agree with
the type the word has. -/
theorem C02_type_tests (w : Word) :
    isNil w = decide (ty w = .nil) ∧ isBool w = decide (ty w = .bool) ∧
    isNative w = decide (ty w = .native) ∧ isField w = decide (ty w = .field) ∧
    isShortStr w = decide (ty w = .shortStr) ∧ isPtr w = decide (ty w = .ptr) ∧
    isPreciseInt w = decide (ty w = .int) := by
  have hw := w.isLt
  have key : ∀ (b : Bool) (p : Prop) [Decidable p], b = decide p ↔ (b = true ↔ p) := by
    intro b p _; cases b <;> simp
  simp only [key, isNil_iff, isBool_iff, isNative_iff, isField_iff,
    isShortStr_iff, isPtr_iff, isPreciseInt_iff]
  simp only [ty, andPtr_eq, andTag_eq]
  have c1 : TAG_NIL.toNat = 1 := rfl
  have c2 : TAG_BOOL.toNat = 5 := rfl
  have c3 : TAG_NATIVE.toNat = 9 := rfl
  have c4 : TAG_FIELD.toNat = 13 := rfl
  have c5 : TAG_STR.toNat = 17 := rfl
  have c6 : TAG_PTR.toNat = 3 := rfl
  rw [c1, c2, c3, c4, c5, c6]
  refine ⟨?_, ?_, ?_, ?_, ?_, ?_, ?_⟩ <;> (repeat' split) <;> simp <;> omega

/-- C02: `true` is the only word read as true, so `as_bool` is right on both bools; as ints they are 1 and 0. -/
theorem C02_bool (b : Bool) : isBool (fromBool b) = true ∧ asBool (fromBool b) = b ∧
    (asInt (fromBool b)).toInt = if b then 1 else 0 := by cases b <;> decide

example : (Imm.str [0x61, 0xff]).Valid ∧ (Imm.int (-5)).Valid ∧ (Imm.native 200).Valid := by
  refine ⟨by show 2 ≤ 7; decide, ?_, trivial⟩
  show InIntRange _
  unfold InIntRange; decide

/-! ## C03 -/

/-- C03: every string reads back as the bytes it was made from. -/
theorem C03_str_roundtrip (s : List Byte) : asStrSlice (fromStr s) = s := by
  unfold fromStr STR_BYTES
  split
  · rename_i h; exact asShortStr_fromSmallStr s h
  · rfl

/-- C03: a string is inline exactly when it has at most 7 bytes. -/
theorem C03_inline_iff (s : List Byte) : (∃ w, fromStr s = .short w) ↔ s.length ≤ 7 := by
  unfold fromStr STR_BYTES
  split <;> simp_all

/-- C03: `==` on two strings, however stored, is equality of contents. -/
theorem C03_str_eq (s t : List Byte) : strEq (fromStr s) (fromStr t) = true ↔ s = t := by
  constructor
  · intro h
    have : fromStr s = fromStr t := by
      revert h
      cases fromStr s <;> cases fromStr t <;> simp [strEq]
    rw [← C03_str_roundtrip s, this, C03_str_roundtrip]
  · rintro rfl
    cases fromStr s <;> simp [strEq]

example : strEq (fromStr [1,2,3,4,5,6,7]) (fromStr [1,2,3,4,5,6,7,0]) = false := by decide
example : fromStr [1,2,3,4,5,6,7,8] = .long [1,2,3,4,5,6,7,8] := by decide

end Cordy.Repr
