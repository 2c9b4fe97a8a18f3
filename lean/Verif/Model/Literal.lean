import Verif.Model.IndexMap
import Verif.Model.Err
/-!
# List, vector, set and dict literals

Models `Literal` (vm/value/mod.rs:1051-1106) and the opcodes on the stack of literals (vm/mod.rs:478-493). `Model/Expr` has the opcodes that are emitted for a literal, with the operations as parameters.

Simplified: keys are values with the equality of a hash lookup which do not change; an element that is spread is the list of its elements (`to_iter`).
-/
namespace Cordy.Literal
open Cordy.IndexMap

/-- models: vm/value/mod.rs:1049-1053 `LiteralType` -/
inductive Ty where
  | list | vector | set | dict
  deriving DecidableEq, Repr

/-- models: vm/value/mod.rs:1055-1061 `Literal` -/
inductive Lit (κ : Type) where
  | list (xs : List κ)
  | vector (xs : List κ)
  | set (s : IndexSet.T κ)
  | dict (m : List (κ × κ))

/-- What can go wrong: an error of the language, or a panic (`unwrap` of `None`). -/
inductive Fail where
  | err (e : Err)
  | panic

variable {κ : Type}

/-- models: vm/value/mod.rs:1064-1071 `new`, without the capacity -/
def Lit.new : Ty → Lit κ
  | .list => .list []
  | .vector => .vector []
  | .set => .set []
  | .dict => .dict []

variable [BEq κ]

/-- models: vm/value/mod.rs:1078-1081: keys and values in turn -/
def insertAll : List (κ × κ) → List κ → Except Fail (List (κ × κ))
  | m, [] => .ok m
  | _, [_] => .error .panic
  | m, k :: v :: xs => insertAll (insert m k v) xs

/-- models: vm/value/mod.rs:1073-1083 `accumulate` -/
def Lit.accumulate (xs : List κ) : Lit κ → Except Fail (Lit κ)
  | .list ys => .ok (.list (ys ++ xs))
  | .vector ys => .ok (.vector (ys ++ xs))
  | .set s => .ok (.set (xs.foldl IndexSet.push s))
  | .dict m => (insertAll m xs).map .dict

/-- models: vm/value/mod.rs:1087-1090 -/
def insertPairs (toPair : κ → Res (κ × κ)) : List (κ × κ) → List κ → Except Fail (List (κ × κ))
  | m, [] => .ok m
  | m, x :: xs =>
    match toPair x with
    | .ok (k, v) => insertPairs toPair (insert m k v) xs
    | .error e => .error (.err e)

/-- models: vm/value/mod.rs:1085-1094 `unroll`, with `to_pair` -/
def Lit.unroll (toPair : κ → Res (κ × κ)) (xs : List κ) : Lit κ → Except Fail (Lit κ)
  | .dict m => (insertPairs toPair m xs).map .dict
  | l => l.accumulate xs

/-- The opcodes between `LiteralBegin` and `LiteralEnd`: `LiteralAcc` with the operands it takes, `LiteralUnroll` with the elements of its operand -/
inductive Op (κ : Type) where
  | acc (xs : List κ)
  | unroll (xs : List κ)

/-- models: vm/mod.rs:481-489 -/
def step (toPair : κ → Res (κ × κ)) (l : Lit κ) : Op κ → Except Fail (Lit κ)
  | .acc xs => l.accumulate xs
  | .unroll xs => l.unroll toPair xs

/-- models: vm/mod.rs:478-493: a literal from `LiteralBegin` to `LiteralEnd` -/
def build (toPair : κ → Res (κ × κ)) (ty : Ty) (ops : List (Op κ)) : Except Fail (Lit κ) := ops.foldlM (step toPair) (Lit.new ty)

/-- models: vm/value/mod.rs:375-385 `to_pair` (`collect_tuple`: exactly two elements) -/
def toPair (fail : Err) : Val → Res (Val × Val)
  | .list [a, b] => .ok (a, b)
  | .vector [a, b] => .ok (a, b)
  | _ => .error fail

end Cordy.Literal
