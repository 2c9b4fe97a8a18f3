import Verif.Model.ExprOpt
/-!
# The native functions of operators

The tables of `core/mod.rs` that tell which operator a native function is (C35).
-/
namespace Cordy.Codegen.Ops

/-- models: core/mod.rs:45-85 `NativeFunction`, the operators. -/
inductive Fn where
  | sub | unaryNot | unaryLogicalNot | mul | div | divSwap | pow | powSwap | mod | modSwap | is | isSwap | isNot | isNotSwap | «in» | inSwap | notIn | notInSwap | add | addSwap | leftShift | leftShiftSwap | rightShift | rightShiftSwap | bitwiseAnd | bitwiseOr | bitwiseXor | lessThan | lessThanSwap | lessThanEqual | lessThanEqualSwap | greaterThan | greaterThanSwap | greaterThanEqual | greaterThanEqualSwap | equal | notEqual
  deriving DecidableEq, Repr

/-- models: vm/operator.rs:23-27 `BinaryOp` -/
inductive BinOp where
  | mul | div | pow | mod | is | isNot | add | sub | leftShift | rightShift | and | or | xor | «in» | notIn | lessThan | greaterThan | lessThanEqual | greaterThanEqual | equal | notEqual | max | min
  deriving DecidableEq, Repr

/-- models: core/mod.rs:202-226 `as_binary_operator` -/
def asBinary : Fn → Option BinOp
  | .mul => some .mul
  | .div => some .div
  | .pow => some .pow
  | .mod => some .mod
  | .is => some .is
  | .isNot => some .isNot
  | .«in» => some .«in»
  | .notIn => some .notIn
  | .add => some .add
  | .leftShift => some .leftShift
  | .rightShift => some .rightShift
  | .bitwiseAnd => some .and
  | .bitwiseOr => some .or
  | .bitwiseXor => some .xor
  | .lessThan => some .lessThan
  | .lessThanEqual => some .lessThanEqual
  | .greaterThan => some .greaterThan
  | .greaterThanEqual => some .greaterThanEqual
  | .equal => some .equal
  | .notEqual => some .notEqual
  | _ => none

/-- models: core/mod.rs:228-262 `swap` -/
def swap : Fn → Fn
  | .div => .divSwap
  | .divSwap => .div
  | .pow => .powSwap
  | .powSwap => .pow
  | .mod => .modSwap
  | .modSwap => .mod
  | .is => .isSwap
  | .isSwap => .is
  | .isNot => .isNotSwap
  | .isNotSwap => .isNot
  | .«in» => .inSwap
  | .inSwap => .«in»
  | .notIn => .notInSwap
  | .notInSwap => .notIn
  | .add => .addSwap
  | .addSwap => .add
  | .leftShift => .leftShiftSwap
  | .leftShiftSwap => .leftShift
  | .rightShift => .rightShiftSwap
  | .rightShiftSwap => .rightShift
  | .lessThan => .lessThanSwap
  | .lessThanSwap => .lessThan
  | .lessThanEqual => .lessThanEqualSwap
  | .lessThanEqualSwap => .lessThanEqual
  | .greaterThan => .greaterThanSwap
  | .greaterThanSwap => .greaterThan
  | .greaterThanEqual => .greaterThanEqualSwap
  | .greaterThanEqualSwap => .greaterThanEqual
  | f => f

/-- models: core/mod.rs:195 `is_operator` -/
def isOperator (f : Fn) : Bool := swap f != f
/-- models: core/mod.rs:318-355 with 469-476: `min_nargs` -/
def minNargs : Fn → Nat
  | .sub | .unaryNot | .unaryLogicalNot => 1
  | _ => 2

/-- What the functions of vm/operator.rs and the comparisons of values do. -/
structure Impl (V R : Type) where
  sub : V → V → R
  mul : V → V → R
  div : V → V → R
  pow : V → V → R
  mod : V → V → R
  is : V → V → Bool → R
  contains : V → V → Bool → R
  add : V → V → R
  leftShift : V → V → R
  rightShift : V → V → R
  band : V → V → R
  bor : V → V → R
  bxor : V → V → R
  lt : V → V → Bool
  le : V → V → Bool
  gt : V → V → Bool
  ge : V → V → Bool
  eq : V → V → Bool
  ne : V → V → Bool
  bool : Bool → R
  maxV : V → V → R
  minV : V → V → R

/-- models: core/mod.rs:951-986: calling an operator with two arguments; `none` for the operators with one operand -/
def invoke {V R : Type} (I : Impl V R) (f : Fn) (a1 a2 : V) : Option R :=
  match f with
  | .sub => some (I.sub a1 a2)
  | .mul => some (I.mul a1 a2)
  | .div => some (I.div a1 a2)
  | .divSwap => some (I.div a2 a1)
  | .pow => some (I.pow a1 a2)
  | .powSwap => some (I.pow a2 a1)
  | .mod => some (I.mod a1 a2)
  | .modSwap => some (I.mod a2 a1)
  | .is => some (I.is a1 a2 false)
  | .isSwap => some (I.is a2 a1 false)
  | .isNot => some (I.is a1 a2 true)
  | .isNotSwap => some (I.is a2 a1 true)
  | .«in» => some (I.contains a1 a2 false)
  | .inSwap => some (I.contains a2 a1 false)
  | .notIn => some (I.contains a1 a2 true)
  | .notInSwap => some (I.contains a2 a1 true)
  | .add => some (I.add a1 a2)
  | .addSwap => some (I.add a2 a1)
  | .leftShift => some (I.leftShift a1 a2)
  | .leftShiftSwap => some (I.leftShift a2 a1)
  | .rightShift => some (I.rightShift a1 a2)
  | .rightShiftSwap => some (I.rightShift a2 a1)
  | .bitwiseAnd => some (I.band a1 a2)
  | .bitwiseOr => some (I.bor a1 a2)
  | .bitwiseXor => some (I.bxor a1 a2)
  | .lessThan => some (I.bool (I.lt a1 a2))
  | .lessThanSwap => some (I.bool (I.lt a2 a1))
  | .lessThanEqual => some (I.bool (I.le a1 a2))
  | .lessThanEqualSwap => some (I.bool (I.le a2 a1))
  | .greaterThan => some (I.bool (I.gt a1 a2))
  | .greaterThanSwap => some (I.bool (I.gt a2 a1))
  | .greaterThanEqual => some (I.bool (I.ge a1 a2))
  | .greaterThanEqualSwap => some (I.bool (I.ge a2 a1))
  | .equal => some (I.bool (I.eq a1 a2))
  | .notEqual => some (I.bool (I.ne a1 a2))
  | .unaryNot | .unaryLogicalNot => none

/-- models: vm/operator.rs:42-71 `BinaryOp::apply` -/
def apply {V R : Type} (I : Impl V R) (op : BinOp) (lhs rhs : V) : R :=
  match op with
  | .mul => I.mul lhs rhs
  | .div => I.div lhs rhs
  | .pow => I.pow lhs rhs
  | .mod => I.mod lhs rhs
  | .is => I.is lhs rhs false
  | .isNot => I.is lhs rhs true
  | .add => I.add lhs rhs
  | .sub => I.sub lhs rhs
  | .leftShift => I.leftShift lhs rhs
  | .rightShift => I.rightShift lhs rhs
  | .and => I.band lhs rhs
  | .or => I.bor lhs rhs
  | .xor => I.bxor lhs rhs
  | .«in» => I.contains lhs rhs false
  | .notIn => I.contains lhs rhs true
  | .lessThan => I.bool (I.lt lhs rhs)
  | .greaterThan => I.bool (I.gt lhs rhs)
  | .lessThanEqual => I.bool (I.le lhs rhs)
  | .greaterThanEqual => I.bool (I.ge lhs rhs)
  | .equal => I.bool (I.eq lhs rhs)
  | .notEqual => I.bool (I.ne lhs rhs)
  | .max => I.maxV lhs rhs
  | .min => I.minV lhs rhs

end Cordy.Codegen.Ops
