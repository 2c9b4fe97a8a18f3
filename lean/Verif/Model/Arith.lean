import Verif.Model.Repr
/-!
# Integer operators on tagged words

Models the `(Bool | Int, Bool | Int)` arms of `cordy-sys/src/vm/operator.rs`.  Machine arithmetic is
that of the release profile (`Cargo.toml` sets no `overflow-checks`): `+ - *`, unary `-` wrap modulo `2^64`,
shift counts are masked to 6 bits.  (In a debug build the wrapping cases abort instead.)
The arms for other types are in `Model/Operator.lean`.
-/
namespace Cordy.Arith
open Cordy.Repr

/-- The errors the int arms raise (`RuntimeError`, vm/error.rs). -/
inductive ArithErr where
  | divideByZero | moduloByZero | powerByNegative (n : I64)
  deriving DecidableEq

/-- models: operator.rs:116 `(-a1.as_int()).to_value()` -/
def neg (a : Word) : Word := fromI64 (- asInt a)

/-- models: operator.rs:127-128: logical not of a bool, bitwise complement of an int. -/
def bnot (a : Word) : Word := if isBool a then fromBool (!(asBool a)) else fromI64 (~~~ asInt a)

/-- models: operator.rs:325 -/
def add (l r : Word) : Word := fromI64 (asInt l + asInt r)

/-- models: operator.rs:348 -/
def sub (l r : Word) : Word := fromI64 (asInt l - asInt r)

/-- models: operator.rs:142 -/
def mul (l r : Word) : Word := fromI64 (asInt l * asInt r)

/-- models: operator.rs:399-400 -/
def band (l r : Word) : Word :=
  if isBool l && isBool r then fromBool (asBool l && asBool r) else fromI64 (asInt l &&& asInt r)

/-- models: operator.rs:415-416 -/
def bor (l r : Word) : Word :=
  if isBool l && isBool r then fromBool (asBool l || asBool r) else fromI64 (asInt l ||| asInt r)

/-- models: operator.rs:431-432 -/
def bxor (l r : Word) : Word :=
  if isBool l && isBool r then fromBool (asBool l != asBool r) else fromI64 (asInt l ^^^ asInt r)

/-- `num_integer::div_floor` for `i64` (num-integer 0.1.45): truncating division, corrected by one when the
remainder and the divisor have opposite signs. -/
def divFloor (a b : I64) : I64 :=
  let d := a.sdiv b
  let r := a.srem b
  if (0 < r.toInt ∧ b.toInt < 0) ∨ (r.toInt < 0 ∧ 0 < b.toInt) then d - 1 else d

/-- `num_integer::mod_floor` for `i64` (num-integer 0.1.45). -/
def modFloor (a b : I64) : I64 :=
  let r := a.srem b
  if (0 < r.toInt ∧ b.toInt < 0) ∨ (r.toInt < 0 ∧ 0 < b.toInt) then r + b else r

/-- models: operator.rs:186-191 -/
def div (l r : Word) : Except ArithErr Word :=
  if asInt r = 0 then .error .divideByZero else .ok (fromI64 (divFloor (asInt l) (asInt r)))

/-- models: operator.rs:225-231 -/
def mod (l r : Word) : Except ArithErr Word :=
  if asInt r = 0 then .error .moduloByZero else .ok (fromI64 (modFloor (asInt l) (asInt r)))

/-- The loop of `i64::pow(u32)` (Rust core, wrapping in release): square and multiply.
`acc * base ^ e` is the running value. -/
def powLoop (base acc : I64) (e : Nat) : I64 :=
  if h : e ≤ 1 then acc * base
  else powLoop (base * base) (if e % 2 = 1 then acc * base else acc) (e / 2)
termination_by e
decreasing_by omega

/-- `i64::pow(u32)` (Rust core). -/
def i64Pow (a : I64) (e : Nat) : I64 := if e = 0 then 1 else powLoop a 1 e

/-- `i as u32` for an `i64`. -/
def asU32 (i : I64) : Nat := i.toNat % 2 ^ 32

/-- models: operator.rs:253-259; the exponent is cast `as u32`. -/
def pow (l r : Word) : Except ArithErr Word :=
  if 0 ≤ (asInt r).toInt then .ok (fromI64 (i64Pow (asInt l) (asU32 (asInt r))))
  else .error (.powerByNegative (asInt r))

/-- models: operator.rs:386-394 `i64_left_shift`, release profile: counts masked with `& 63`. -/
def i64LeftShift (l r : I64) : I64 :=
  if 0 ≤ r.toInt then l <<< (r.toNat % 64) else l.sshiftRight ((-r).toNat % 64)

/-- models: operator.rs:367 -/
def shl (l r : Word) : Word := fromI64 (i64LeftShift (asInt l) (asInt r))

/-- models: operator.rs:378 -/
def shr (l r : Word) : Word := fromI64 (i64LeftShift (asInt l) (- asInt r))

end Cordy.Arith
