import Verif.Model.Value
import Verif.Model.Natives

/-!
# `typeof` and `is`

Models `core/mod.rs:1092-1126` (`type_of`) and `vm/operator.rs:284-308` (`binary_is`).
`Model/Value.lean` leaves out the types `Memoized` and `Iter`; both functions look only at the type of those, so here they are tags.
`Type::Error` and `Type::Never` are left out: no value a program sees has them.
-/
namespace Cordy.Typeof

open Cordy.Natives (Fn)

/-- models: vm/value/mod.rs:46-74 `Type`: the values of `Model/Value.lean`, a memoized function, or an iterator -/
inductive Item where
  | val (v : Val)
  | memoized (f : Val)
  | iter

/-- models: core/mod.rs:30-167: `f.to_value()`; the tag of a native function is its position in the enumeration -/
def fnValue (f : Fn) : Val := .native f.ctorIdx

/-- models: core/mod.rs:1092-1126 `type_of` -/
def typeOf : Item → Val
  | .val .nil => .nil
  | .val (.bool _) => fnValue .bool
  | .val (.int _) => fnValue .int
  | .val (.complex _ _) => fnValue .complex
  | .val (.rational _ _) => fnValue .rational
  | .val (.str _) => fnValue .str
  | .val (.list _) => fnValue .list
  | .val (.set _) => fnValue .set
  | .val (.dict _) => fnValue .dict
  | .val (.heap _) => fnValue .heap
  | .val (.vector _) => fnValue .vector
  | .val (.struct o _) => .structType o
  | .val (.structType _) => fnValue .function
  | .val (.range _ _ _) => fnValue .range
  | .val (.enumerate _) => fnValue .enumerate
  | .iter => fnValue .iterable
  | .val (.slice _ _ _) => fnValue .function
  | .memoized _ => fnValue .function
  | .val (.func _) => fnValue .function
  | .val (.partialFn _ _) => fnValue .function
  | .val (.native _) => fnValue .function
  | .val (.partialNative _ _) => fnValue .function
  | .val (.closure _ _) => fnValue .function
  | .val (.field _) => fnValue .function

/-- models: vm/value/ptr.rs:279-282 `is_bool`, `is_int` -/
def isBool : Item → Bool
  | .val (.bool _) => true
  | _ => false
/-- models: vm/value/ptr.rs:282 `is_int` -/
def isInt : Item → Bool
  | .val (.int _) => true
  | x => isBool x
/-- models: vm/value/number.rs:86-88 `is_complex` -/
def isComplex : Item → Bool
  | .val (.complex _ _) => true
  | x => isInt x
/-- models: vm/value/number.rs:144-146 `is_rational` -/
def isRational : Item → Bool
  | .val (.rational _ _) => true
  | x => isInt x
/-- models: vm/value/mod.rs:110-116 `is_iterable` -/
def isIterable : Item → Bool
  | .val (.str _) | .val (.list _) | .val (.set _) | .val (.dict _) | .val (.heap _) | .val (.vector _) | .val (.range _ _ _)
  | .val (.enumerate _) => true
  | _ => false
/-- models: vm/value/mod.rs:122-128 `is_evaluable` -/
def isEvaluable : Item → Bool
  | .val (.func _) | .val (.partialFn _ _) | .val (.native _) | .val (.partialNative _ _) | .val (.closure _ _) | .val (.structType _)
  | .val (.slice _ _ _) => true
  | _ => false

/-- models: vm/operator.rs:289-304: what the right operand asks of the left one, `none` for `TypeErrorBinaryIs` -/
def isNative (x : Item) : Fn → Option Bool
  | .bool => some (isBool x)
  | .int => some (isInt x)
  | .complex => some (isComplex x)
  | .rational => some (isRational x)
  | .str => some (match x with | .val (.str _) => true | _ => false)
  | .function => some (isEvaluable x)
  | .list => some (match x with | .val (.list _) => true | _ => false)
  | .set => some (match x with | .val (.set _) => true | _ => false)
  | .dict => some (match x with | .val (.dict _) => true | _ => false)
  | .vector => some (match x with | .val (.vector _) => true | _ => false)
  | .iterable => some (isIterable x)
  | .heap => some (match x with | .val (.heap _) => true | _ => false)
  | .any => some true
  | _ => none

/-- models: core/mod.rs: the native function with this tag (`as_native`) -/
def fnOf (n : Nat) : Option Fn := allFns.find? (·.ctorIdx == n)
where
  /-- models: core/mod.rs:30-167 the natives that `binary_is` tells apart from the others -/
  allFns : List Fn := [.bool, .int, .complex, .rational, .str, .function, .list, .set, .dict, .vector, .iterable, .heap, .any]

/-- models: vm/operator.rs:284-308 `binary_is`; `none` is `TypeErrorBinaryIs` -/
def binaryIs (x : Item) (ty : Item) (invert : Bool) : Option Bool :=
  (match ty with
    | .val .nil => some (match x with | .val .nil => true | _ => false)
    | .val (.structType o) => some (match x with | .val (.struct o' _) => o' == o | _ => false)
    | .val (.native n) => (fnOf n).bind (isNative x)
    | _ => none).map (· != invert)

end Cordy.Typeof
