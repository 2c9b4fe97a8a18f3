/-!
# Tagged word representation of values

Models `cordy-sys/src/vm/value/ptr.rs`, lines 38-300: the 64-bit tagged word `ValuePtr`, its
constructors (`from_*`), its accessors (`as_*`), and its type tests (`ty`, `is_*`).

A word is a `BitVec 64`; `i64`/`u64` are `BitVec 64` too (with `toInt` the signed reading).
Only the little-endian 64-bit layout is modelled (`cfg(target_endian = "little")`, `usize = u64`).
-/
namespace Cordy.Repr

/-- The word itself (`union ValuePtr`, ptr.rs:38-51). -/
abbrev Word := BitVec 64
/-- Rust's `i64`. -/
abbrev I64 := BitVec 64
/-- Rust's `u8`. -/
abbrev Byte := BitVec 8

/-! ## Tags and masks (ptr.rs:59-86) -/

/-- models: ptr.rs:59 `TAG_INT` -/
def TAG_INT : Word := 0b00
/-- models: ptr.rs:60 `TAG_NIL` -/
def TAG_NIL : Word := 0b00001
/-- models: ptr.rs:61 `TAG_BOOL` -/
def TAG_BOOL : Word := 0b00101
/-- models: ptr.rs:62 `TAG_FALSE` -/
def TAG_FALSE : Word := 0b000101
/-- models: ptr.rs:63 `TAG_TRUE` -/
def TAG_TRUE : Word := 0b100101
/-- models: ptr.rs:64 `TAG_NATIVE` -/
def TAG_NATIVE : Word := 0b01001
/-- models: ptr.rs:65 `TAG_FIELD` -/
def TAG_FIELD : Word := 0b01101
/-- models: ptr.rs:66 `TAG_STR` -/
def TAG_STR : Word := 0b10001
/-- models: ptr.rs:70 `TAG_PTR` -/
def TAG_PTR : Word := 0b11
/-- models: ptr.rs:72 `MASK_INT` -/
def MASK_INT : Word := 0b1
/-- models: ptr.rs:73-77, `MASK_NIL`, `MASK_BOOL`, `MASK_NATIVE`, `MASK_FIELD`, `MASK_STR` (all the same) -/
def MASK_TAG : Word := 0b11111
/-- models: ptr.rs:78 `MASK_PTR` -/
def MASK_PTR : Word := 0b11
/-- models: ptr.rs:80 `PTR_MASK` -/
def PTR_MASK : Word := ~~~0b11
/-- models: ptr.rs:81 `STR_LEN_MASK` -/
def STR_LEN_MASK : Word := 0b11100000
/-- models: ptr.rs:82 `STR_TAG_BYTES` -/
def STR_TAG_BYTES : Nat := 5
/-- models: ptr.rs:83 `STR_BYTES` -/
def STR_BYTES : Nat := 7
/-- models: ptr.rs:85 `MAX_INT` -/
def MAX_INT : I64 := 0x3fffffffffffffff
/-- models: ptr.rs:86 `MIN_INT` -/
def MIN_INT : I64 := 0xc000000000000000

/-! ## Constructors -/

/-- models: ptr.rs:93-95 `from_i64` -/
def fromI64 (v : I64) : Word := TAG_INT ||| (v <<< 1)

/-- models: ptr.rs:89-91 `from_bool` -/
def fromBool (b : Bool) : Word := if b then TAG_TRUE else TAG_FALSE

/-- models: ptr.rs:174-176 `ValuePtr::nil` -/
def nil : Word := TAG_NIL

/-- models: ptr.rs:156-158 `from_native`; a `NativeFunction` is its `u8` discriminant. -/
def fromNative (n : Byte) : Word := TAG_NATIVE ||| ((n.setWidth 64) <<< 6)

/-- models: ptr.rs:160-162 `from_field` -/
def fromField (f : BitVec 32) : Word := TAG_FIELD ||| ((f.setWidth 64) <<< 6)

/-- models: ptr.rs:164-166 `from_shared`; the address comes from the allocator. -/
def fromShared (addr : Word) : Word := TAG_PTR ||| addr

/-- `u64::from_ne_bytes` on a little-endian machine, ptr.rs:151. -/
def leWord : List Byte → Word
  | [] => 0
  | b :: bs => (leWord bs <<< 8) ||| b.setWidth 64

/-- `bytes[i]` of the word's byte view (`union` field `bytes`, ptr.rs:50), little endian. -/
def byteAt (w : Word) (i : Nat) : Byte := (w >>> (8 * i)).setWidth 8

/-- The tag byte of a short string.  models: ptr.rs:122 -/
def strTag (len : Nat) : Byte := ((BitVec.ofNat 8 len) <<< STR_TAG_BYTES) ||| (TAG_STR.setWidth 8)

/-- models: ptr.rs:112-154 `from_small_str` (little endian branch): tag byte, then the bytes of the
string, then the zeros the buffer was initialised with. -/
def fromSmallStr (s : List Byte) : Word :=
  leWord (strTag s.length :: s ++ List.replicate (STR_BYTES - s.length) 0)

/-! ## Accessors -/

/-- models: ptr.rs:214-219 `as_precise_int`: arithmetic shift right by one. -/
def asPreciseInt (w : Word) : I64 := w.sshiftRight 1

/-- models: ptr.rs:226-229 `as_native` -/
def asNative (w : Word) : Byte := (w >>> 6).setWidth 8

/-- models: ptr.rs:231-234 `as_field` -/
def asField (w : Word) : BitVec 32 := (w >>> 6).setWidth 32

/-- models: ptr.rs:195 the length bits of a short string. -/
def shortLen (w : Word) : Nat := ((w &&& STR_LEN_MASK) >>> STR_TAG_BYTES).toNat

/-- models: ptr.rs:192-212 `as_short_str` (little endian branch): bytes `1..=len`. -/
def asShortStr (w : Word) : List Byte := (List.range (shortLen w)).map fun i => byteAt w (i + 1)

/-- models: ptr.rs:306-311 `as_ptr`, the address with the tag stripped. -/
def asPtr (w : Word) : Word := w &&& PTR_MASK

/-! ## Type tests -/

/-- models: ptr.rs:279 `is_nil` -/
def isNil (w : Word) : Bool := (w &&& MASK_TAG) == TAG_NIL
/-- models: ptr.rs:280 `is_bool` -/
def isBool (w : Word) : Bool := (w &&& MASK_TAG) == TAG_BOOL
/-- models: ptr.rs:281 `is_true` -/
def isTrue (w : Word) : Bool := w == TAG_TRUE
/-- models: ptr.rs:283 `is_precise_int` -/
def isPreciseInt (w : Word) : Bool := (w &&& MASK_INT) == TAG_INT
/-- models: ptr.rs:282 `is_int` -/
def isInt (w : Word) : Bool := isPreciseInt w || isBool w
/-- models: ptr.rs:284 `is_short_str` -/
def isShortStr (w : Word) : Bool := (w &&& MASK_TAG) == TAG_STR
/-- models: ptr.rs:285 `is_native` -/
def isNative (w : Word) : Bool := (w &&& MASK_TAG) == TAG_NATIVE
/-- models: ptr.rs:286 `is_field` -/
def isField (w : Word) : Bool := (w &&& MASK_TAG) == TAG_FIELD
/-- models: ptr.rs:288 `is_ptr` -/
def isPtr (w : Word) : Bool := (w &&& MASK_PTR) == TAG_PTR

/-- models: ptr.rs:184-190 `as_int`: a precise int, or a bool read as 0 / 1. -/
def asInt (w : Word) : I64 :=
  if isPreciseInt w then asPreciseInt w else if isTrue w then 1 else 0

/-- models: ptr.rs:221-224 `as_bool` -/
def asBool (w : Word) : Bool := isTrue w

/-- The result of `ty` before the heap prefix is read (`Type` restricted to inline types). -/
inductive TyClass where
  | nil | bool | native | field | shortStr | never | ptr | int
  deriving DecidableEq, Repr

/-- models: ptr.rs:250-265 `ty`; for a pointer the real code reads the type stored in the heap prefix,
here the class `ptr` is returned. -/
def ty (w : Word) : TyClass :=
  if w &&& MASK_PTR = TAG_NIL then
    let t := w &&& MASK_TAG
    if t = TAG_NIL then .nil
    else if t = TAG_BOOL then .bool
    else if t = TAG_NATIVE then .native
    else if t = TAG_FIELD then .field
    else if t = TAG_STR then .shortStr
    else .never
  else if w &&& MASK_PTR = TAG_PTR then .ptr
  else .int

/-- The two stored forms of a string. -/
inductive StrRepr where
  | short (w : Word)
  | long (bytes : List Byte)
  deriving DecidableEq

/-- models: ptr.rs:102-110 `from_str`; a long string is a shared heap `String`, represented by its bytes. -/
def fromStr (s : List Byte) : StrRepr :=
  if s.length ≤ STR_BYTES then .short (fromSmallStr s) else .long s

/-- models: str.rs:97-104 `as_str_slice` (the bytes of either stored form). -/
def asStrSlice : StrRepr → List Byte
  | .short w => asShortStr w
  | .long b => b

/-- models: ptr.rs:354-355, 372 `PartialEq` on the two string representations: words for short strings,
`String` equality for long ones, different types are unequal. -/
def strEq : StrRepr → StrRepr → Bool
  | .short a, .short b => a == b
  | .long a, .long b => a == b
  | _, _ => false

end Cordy.Repr
