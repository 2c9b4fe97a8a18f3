/-!
# Native functions: arity, partial application and callbacks

Models the dispatch of `core/mod.rs`: the table of native functions, calls from the stack, of partial functions, and from native code.
The tables are copied mechanically from the source.
-/
namespace Cordy.Natives

/-- models: core/mod.rs:30-167 `NativeFunction` -/
inductive Fn where
  | read | readLine | print | readText | writeText | env | argv | bool | int | complex | rational | str | list | set | dict | heap
  | vector | function | iterable | repr | eval | typeOf | monitor | operatorSub | operatorUnaryNot | operatorUnaryLogicalNot | operatorMul
  | operatorDiv | operatorDivSwap | operatorPow | operatorPowSwap | operatorMod | operatorModSwap | operatorIs | operatorIsSwap | operatorIsNot
  | operatorIsNotSwap | operatorIn | operatorInSwap | operatorNotIn | operatorNotInSwap | operatorAdd | operatorAddSwap | operatorLeftShift
  | operatorLeftShiftSwap | operatorRightShift | operatorRightShiftSwap | operatorBitwiseAnd | operatorBitwiseOr | operatorBitwiseXor
  | operatorLessThan | operatorLessThanSwap | operatorLessThanEqual | operatorLessThanEqualSwap | operatorGreaterThan | operatorGreaterThanSwap
  | operatorGreaterThanEqual | operatorGreaterThanEqualSwap | operatorEqual | operatorNotEqual | toLower | toUpper | replace | search
  | trim | split | join | char | ord | hex | bin | len | range | enumerate | sum | min | max | minBy | maxBy | map | filter | flatMap
  | concat | zip | reduce | sort | sortBy | groupBy | reverse | permutations | combinations | any | all | memoize | union | intersect
  | difference | counter | copy | peek | pop | popFront | push | pushFront | insert | remove | clear | find | rightFind | indexOf | rightIndexOf
  | defaultF | keys | values | abs | sqrt | gcd | lcm | countOnes | countZeros | real | imag | numer | denom
  deriving DecidableEq, Repr

/-- models: core/mod.rs:451-465 `Argument` -/
inductive Argument where
  | arg0 | arg0To1 | arg1 | arg1To2 | arg1To3 | arg2 | arg3 | unique | uniqueNonEmpty | iter | iterNonEmpty | invalid
  deriving DecidableEq, Repr

/-- models: core/mod.rs:292-432: the `arg` of the table -/
def argument : Fn → Argument
  | .read | .readLine | .argv => .arg0
  | .print | .vector => .unique
  | .readText | .bool | .str | .repr | .eval | .typeOf | .monitor | .operatorUnaryNot | .operatorUnaryLogicalNot | .toLower | .toUpper
  | .trim | .char | .ord | .hex | .bin | .len | .enumerate | .concat | .memoize | .counter | .copy | .peek | .pop | .popFront | .clear
  | .keys | .values | .abs | .sqrt | .countOnes | .countZeros | .real | .imag | .numer | .denom => .arg1
  | .writeText | .operatorMul | .operatorDiv | .operatorDivSwap | .operatorPow | .operatorPowSwap | .operatorMod | .operatorModSwap
  | .operatorIs | .operatorIsSwap | .operatorIsNot | .operatorIsNotSwap | .operatorIn | .operatorInSwap | .operatorNotIn | .operatorNotInSwap
  | .operatorAdd | .operatorAddSwap | .operatorLeftShift | .operatorLeftShiftSwap | .operatorRightShift | .operatorRightShiftSwap | .operatorBitwiseAnd
  | .operatorBitwiseOr | .operatorBitwiseXor | .operatorLessThan | .operatorLessThanSwap | .operatorLessThanEqual | .operatorLessThanEqualSwap
  | .operatorGreaterThan | .operatorGreaterThanSwap | .operatorGreaterThanEqual | .operatorGreaterThanEqualSwap | .operatorEqual | .operatorNotEqual
  | .search | .split | .join | .minBy | .maxBy | .map | .filter | .flatMap | .reduce | .sortBy | .groupBy | .permutations | .combinations
  | .any | .all | .union | .intersect | .difference | .push | .pushFront | .remove | .find | .rightFind | .indexOf | .rightIndexOf
  | .defaultF => .arg2
  | .env => .arg0To1
  | .int | .rational | .operatorSub => .arg1To2
  | .complex | .function | .iterable => .invalid
  | .list | .set | .dict | .heap => .iter
  | .replace | .insert => .arg3
  | .range => .arg1To3
  | .sum | .zip | .sort | .reverse | .gcd | .lcm => .iterNonEmpty
  | .min | .max => .uniqueNonEmpty

/-- models: core/mod.rs:827-846 `invoke_arg0`: the functions this dispatch has a case for; it panics for others -/
def has0 : Fn → Bool
  | .read | .readLine | .print | .env | .argv | .list | .set | .dict | .heap | .vector => true
  | _ => false

/-- models: core/mod.rs:848-937 `invoke_arg1`: the functions this dispatch has a case for; it panics for others -/
def has1 : Fn → Bool
  | .print | .readText | .env | .bool | .int | .str | .rational | .vector | .repr | .eval | .typeOf | .monitor | .operatorSub | .operatorUnaryNot
  | .operatorUnaryLogicalNot | .toLower | .toUpper | .trim | .char | .ord | .hex | .bin | .len | .range | .enumerate | .min | .max
  | .concat | .memoize | .counter | .copy | .peek | .pop | .popFront | .clear | .keys | .values | .abs | .sqrt | .countOnes | .countZeros
  | .real | .imag | .numer | .denom => true
  | _ => false

/-- models: core/mod.rs:939-1020 `invoke_arg2`: the functions this dispatch has a case for; it panics for others -/
def has2 : Fn → Bool
  | .writeText | .int | .rational | .operatorSub | .operatorMul | .operatorDiv | .operatorDivSwap | .operatorPow | .operatorPowSwap
  | .operatorMod | .operatorModSwap | .operatorIs | .operatorIsSwap | .operatorIsNot | .operatorIsNotSwap | .operatorIn | .operatorInSwap
  | .operatorNotIn | .operatorNotInSwap | .operatorAdd | .operatorAddSwap | .operatorLeftShift | .operatorLeftShiftSwap | .operatorRightShift
  | .operatorRightShiftSwap | .operatorBitwiseAnd | .operatorBitwiseOr | .operatorBitwiseXor | .operatorLessThan | .operatorLessThanSwap
  | .operatorLessThanEqual | .operatorLessThanEqualSwap | .operatorGreaterThan | .operatorGreaterThanSwap | .operatorGreaterThanEqual
  | .operatorGreaterThanEqualSwap | .operatorEqual | .operatorNotEqual | .search | .split | .join | .range | .minBy | .maxBy | .map
  | .filter | .flatMap | .reduce | .sortBy | .groupBy | .permutations | .combinations | .any | .all | .union | .intersect | .difference
  | .push | .pushFront | .remove | .find | .rightFind | .indexOf | .rightIndexOf | .defaultF => true
  | _ => false

/-- models: core/mod.rs:1022-1030 `invoke_arg3`: the functions this dispatch has a case for; it panics for others -/
def has3 : Fn → Bool
  | .replace | .range | .insert => true
  | _ => false

/-- models: core/mod.rs:1032-1061 `invoke_var`: the functions this dispatch has a case for; it panics for others -/
def hasVar : Fn → Bool
  | .print | .list | .set | .dict | .heap | .vector | .sum | .min | .max | .zip | .sort | .reverse | .gcd | .lcm => true
  | _ => false

variable {V : Type}

/-- models: core/mod.rs:484-489 `PartialArgument` -/
inductive PartialArg (V : Type) where
  | arg2Par1 (a : V)
  | arg3Par1 (a : V)
  | arg3Par2 (a b : V)

/-- What a call of a native function comes down to. -/
inductive Act (V : Type) where
  /-- run `invoke_arg0` to `invoke_arg3`, or `invoke_var` on a list of arguments or on the elements of an argument (`to_iter()?`) -/
  | run0 (f : Fn)
  | run1 (f : Fn) (a : V)
  | run2 (f : Fn) (a b : V)
  | run3 (f : Fn) (a b c : V)
  | var (f : Fn) (args : List V)
  | varIter (f : Fn) (a : V)
  /-- the function itself -/
  | itself (f : Fn)
  /-- a new partial function -/
  | part (f : Fn) (p : PartialArg V)
  /-- `IncorrectArgumentsNativeFunction(f, n)` -/
  | arity (f : Fn) (n : Nat)
  /-- `ValueIsNotFunctionEvaluable` -/
  | notFunction

/-- Whether the case that the action leads to exists; if not, the process panics. -/
def Act.supported : Act V → Bool
  | .run0 f => has0 f
  | .run1 f _ => has1 f
  | .run2 f _ _ => has2 f
  | .run3 f _ _ _ => has3 f
  | .var f _ | .varIter f _ => hasVar f
  | _ => true

/-- models: core/mod.rs:653-788 `invoke_stack`; the arguments are those on the stack -/
def invokeStack (f : Fn) (args : List V) : Act V :=
  match argument f with
  | .arg0 => match args with
    | [] => .run0 f
    | _ => .arity f args.length
  | .arg0To1 => match args with
    | [] => .run0 f
    | [a] => .run1 f a
    | _ => .arity f args.length
  | .arg1 => match args with
    | [] => .itself f
    | [a] => .run1 f a
    | _ => .arity f args.length
  | .arg1To2 => match args with
    | [] => .itself f
    | [a] => .run1 f a
    | [a, b] => .run2 f a b
    | _ => .arity f args.length
  | .arg1To3 => match args with
    | [] => .itself f
    | [a] => .run1 f a
    | [a, b] => .run2 f a b
    | [a, b, c] => .run3 f a b c
    | _ => .arity f args.length
  | .arg2 => match args with
    | [] => .itself f
    | [a] => .part f (.arg2Par1 a)
    | [a, b] => .run2 f a b
    | _ => .arity f args.length
  | .arg3 => match args with
    | [] => .itself f
    | [a] => .part f (.arg3Par1 a)
    | [a, b] => .part f (.arg3Par2 a b)
    | [a, b, c] => .run3 f a b c
    | _ => .arity f args.length
  | .unique => match args with
    | [] => .run0 f
    | [a] => .run1 f a
    | _ => .var f args
  | .uniqueNonEmpty => match args with
    | [] => .arity f args.length
    | [a] => .run1 f a
    | _ => .var f args
  | .iter => match args with
    | [] => .run0 f
    | [a] => .varIter f a
    | _ => .var f args
  | .iterNonEmpty => match args with
    | [] => .arity f args.length
    | [a] => .varIter f a
    | _ => .var f args
  | .invalid => .notFunction

/-- models: core/mod.rs:791-824 `invoke_partial` -/
def invokePartial (f : Fn) (p : PartialArg V) (args : List V) : Act V :=
  match p with
  | .arg2Par1 a => match args with
    | [] => .part f (.arg2Par1 a)
    | [b] => .run2 f a b
    | _ => .arity f (1 + args.length)
  | .arg3Par1 a => match args with
    | [] => .part f (.arg3Par1 a)
    | [b] => .part f (.arg3Par2 a b)
    | [b, c] => .run3 f a b c
    | _ => .arity f (1 + args.length)
  | .arg3Par2 a b => match args with
    | [] => .part f (.arg3Par2 a b)
    | [c] => .run3 f a b c
    | _ => .arity f (2 + args.length)

/-- A native function or a partial one. -/
inductive Callee (V : Type) where
  | fn (f : Fn)
  | part (f : Fn) (p : PartialArg V)

/-- models: vm/mod.rs:780-802: a call in the program -/
def direct (c : Callee V) (args : List V) : Act V :=
  match c with
  | .fn f => invokeStack f args
  | .part f p => invokePartial f p args

/-- models: core/mod.rs:555-577 `InvokeArg0::from` with `invoke`: a call with no arguments from native code -/
def callback0 (c : Callee V) : Act V :=
  match c with
  | .fn f => match argument f with
    | .arg0 | .arg0To1 | .unique | .iter => .run0 f
    | .arg1 | .arg1To2 | .arg1To3 | .arg2 | .arg3 => .itself f
    | .uniqueNonEmpty | .iterNonEmpty => .arity f 0
    | .invalid => .notFunction
  | .part f p => .part f p

/-- models: core/mod.rs:580-617 `InvokeArg1::from` with `invoke` -/
def callback1 (c : Callee V) (a : V) : Act V :=
  match c with
  | .fn f => match argument f with
    | .arg0To1 | .arg1 | .arg1To2 | .arg1To3 | .unique => .run1 f a
    | .iter | .uniqueNonEmpty | .iterNonEmpty => .varIter f a
    | .arg2 => .part f (.arg2Par1 a)
    | .arg3 => .part f (.arg3Par1 a)
    | .arg0 => .arity f 1
    | .invalid => .notFunction
  | .part f p => match p with
    | .arg2Par1 x => .run2 f x a
    | .arg3Par1 x => .part f (.arg3Par2 x a)
    | .arg3Par2 x y => .run3 f x y a

/-- models: core/mod.rs:620-650 `InvokeArg2::from` with `invoke` -/
def callback2 (c : Callee V) (a b : V) : Act V :=
  match c with
  | .fn f => match argument f with
    | .arg1To2 | .arg1To3 | .arg2 | .unique => .run2 f a b
    | .iter | .uniqueNonEmpty | .iterNonEmpty => .var f [a, b]
    | .arg3 => .part f (.arg3Par2 a b)
    | .arg0 | .arg0To1 | .arg1 => .arity f 2
    | .invalid => .notFunction
  | .part f p => match p with
    | .arg2Par1 _ | .arg3Par2 _ _ => .arity f 3
    | .arg3Par1 x => .run3 f x a b

end Cordy.Natives
