import Verif.Model.Arith
import Verif.Model.IndexMap
import Verif.Model.Range
/-!
# Operators on values

Models `cordy-sys/src/vm/operator.rs` as a function on values (`Model/Value.lean`).  Ints and complex parts are carried
as `Int` and every arithmetic step goes through the 64-bit machine operation (`i64`, `Arith.divFloor`, …) and the box
`fromI64` that drops the top bit (`boxI`).  Release profile: `+ - *` and unary `-` wrap.

Parameters (`Env`): `toStr` (`to_str`, value/mod.rs) and `format` (`core::format_string`, modelled in `Model/Strings.lean`).
`core::copy` is the identity here because values are trees (object identity is `Model/Heap.lean`).
`is` is left to `Model/Dispatch.lean`. Set operators need set members to be found by lookup, see `Model/IndexMap.lean`.
-/
namespace Cordy.Op
open Cordy.Repr Cordy.Arith

/-- models: operator.rs:21-25 -/
inductive BinaryOp where
  | mul | div | pow | mod | add | sub | shl | shr | and | or | xor | in_ | notIn
  | lt | gt | le | ge | eq | ne | max | min
  deriving DecidableEq, Repr

/-- models: operator.rs:15-19 -/
inductive UnaryOp where
  | neg | not | logicalNot
  deriving DecidableEq, Repr

/-- The text functions the operators call. -/
structure Env where
  toStr : Val → List Char
  format : List Char → Val → Res Val

/-- An `i64` from a mathematical integer (exact on its range). -/
def i64 (i : Int) : I64 := BitVec.ofInt 64 i

/-- models: `i64::to_value` = `ptr::from_i64`, which drops the top bit (Model/Repr.fromI64). -/
def boxI (v : I64) : Val := .int (Int.bmod v.toInt (2 ^ 63))

/-- models: `as_int` on `Bool | Int`. -/
def intOf : Val → Option I64
  | .bool b => some (if b then 1 else 0)
  | .int i => some (i64 i)
  | _ => none

/-- models: number.rs:74-82 `to_complex` on `Bool | Int | Complex`. -/
def cplxOf : Val → Option (I64 × I64)
  | .bool b => some (if b then 1 else 0, 0)
  | .int i => some (i64 i, 0)
  | .complex re im => some (i64 re, i64 im)
  | _ => none

/-- models: number.rs:132-140 `to_rational` on `Bool | Int | Rational`. -/
def ratOf : Val → Option Rat
  | .bool b => some (if b then 1 else 0)
  | .int i => some i
  | .rational n d => some (mkRat n d)
  | _ => none

/-- models: number.rs:56-59: a complex with zero imaginary part becomes an int. -/
def boxC (z : I64 × I64) : Val :=
  if z.2 = 0 then boxI z.1 else .complex z.1.toInt z.2.toInt

/-- models: number.rs:115-116 -/
def boxQ (q : Rat) : Val := .rational q.num q.den

/-- `num_complex` `Add`, `Sub`, `Mul`, `Neg`, `conj`, `norm_sqr` on `Complex<i64>` (0.4.3). -/
def cadd (a b : I64 × I64) : I64 × I64 := (a.1 + b.1, a.2 + b.2)
def csub (a b : I64 × I64) : I64 × I64 := (a.1 - b.1, a.2 - b.2)
def cmul (a b : I64 × I64) : I64 × I64 := (a.1 * b.1 - a.2 * b.2, a.1 * b.2 + a.2 * b.1)
def cneg (a : I64 × I64) : I64 × I64 := (-a.1, -a.2)
def cconj (a : I64 × I64) : I64 × I64 := (a.1, -a.2)
def cnorm (a : I64 × I64) : I64 := a.1 * a.1 + a.2 * a.2

/-- models: operator.rs:217-222 -/
def cdivFloor (l r : I64 × I64) : I64 × I64 :=
  let n := cnorm r
  (divFloor (l.1 * r.1 + l.2 * r.2) n, divFloor (l.2 * r.1 - l.1 * r.2) n)

/-- `powu` (num-complex 0.4.3 `pow_impl`), first loop: square while the exponent is even. -/
def cpowEven (base : I64 × I64) (e : Nat) : (I64 × I64) × Nat :=
  if h : e % 2 = 0 ∧ 0 < e then cpowEven (cmul base base) (e / 2) else (base, e)
termination_by e
decreasing_by omega

/-- Second loop: `while exp > 1 { exp >>= 1; base = base*base; if exp & 1 == 1 { acc = acc * base } }`. -/
def cpowOdd (base acc : I64 × I64) (e : Nat) : I64 × I64 :=
  if h : 1 < e then
    cpowOdd (cmul base base) (if (e / 2) % 2 = 1 then cmul acc (cmul base base) else acc) (e / 2)
  else acc
termination_by e
decreasing_by omega

/-- `Complex::powu(u32)`. -/
def cpow (z : I64 × I64) (e : Nat) : I64 × I64 :=
  if e = 0 then (1, 0)
  else
    let (b, e') := cpowEven z e
    if e' = 1 then b else cpowOdd b b e'

/-- Rust's `%` on `i64` panics for `i64::MIN % -1`. -/
def remPanics (a b : I64) : Bool := a == BitVec.intMin 64 && b == -1

/-- A list repeated: `iter().cycle().take(n * len)`. -/
def repeatList (n : Nat) (xs : List α) : List α := (List.replicate n xs).flatten

/-- models: operator.rs:157-164, 166-182 (a negative count is an error). -/
def repeatBy (i : Int) (mk : Nat → Val) : Res Val :=
  if i < 0 then .error .opMustNotBeNegative else .ok (mk i.toNat)

/-- models: the set operators; `f` is one of `IndexSet.opUnion` etc. -/
def setArm (f : IndexSet.T Val → IndexSet.T Val → IndexSet.T Val) (xs ys : List Val) : Val :=
  .set (IndexSet.elems (f (xs.map (·, ())) (ys.map (·, ()))))

/-- Set members are found by hash and `==`. -/
instance valBEq : BEq Val := ⟨fun a b => decide (Val.feed a = Val.feed b) && Val.eqv a b⟩

/-! ## The arms before the vector arms of each operator.  `none`: no such arm matches. -/

/-- Arms `(Bool | Int, Bool | Int)`, `(Bool | Int | Complex, …)`, `(Bool | Int | Rational, …)` in this order. -/
def numArm (fi : I64 → I64 → Res Val) (fc : I64 × I64 → I64 × I64 → Res Val) (fq : Rat → Rat → Res Val)
    (l r : Val) : Option (Res Val) :=
  match intOf l, intOf r with
  | some a, some b => some (fi a b)
  | _, _ =>
    match cplxOf l, cplxOf r with
    | some a, some b => some (fc a b)
    | _, _ =>
      match ratOf l, ratOf r with
      | some a, some b => some (fq a b)
      | _, _ => none

/-- models: operator.rs:142-149 -/
def mulArm (l r : Val) : Option (Res Val) :=
  match numArm (fun a b => .ok (boxI (a * b))) (fun a b => .ok (boxC (cmul a b))) (fun a b => .ok (boxQ (a * b))) l r with
  | some x => some x
  | none =>
    match l, r with
    | .str s, .int i => some (repeatBy i (fun n => .str (repeatList n s)))
    | .int i, .str s => some (repeatBy i (fun n => .str (repeatList n s)))
    | .list xs, .int i => some (repeatBy i (fun n => .list (repeatList n xs)))
    | .int i, .list xs => some (repeatBy i (fun n => .list (repeatList n xs)))
    | _, _ => none

/-- models: operator.rs:186-206 -/
def divArm (l r : Val) : Option (Res Val) :=
  numArm (fun a b => if b = 0 then .error .divZero else .ok (boxI (divFloor a b)))
    (fun a b => if cnorm b = 0 then .error .divZero else .ok (boxC (cdivFloor a b)))
    (fun a b => if b = 0 then .error .divZero else .ok (boxQ (a / b))) l r

/-- models: operator.rs:226-243; the machine remainder panics for `i64::MIN % -1`, reachable for complex parts. -/
def modArm (E : Env) (l r : Val) : Option (Res Val) :=
  match intOf l, intOf r with
  | some a, some b =>
      some (if b = 0 then .error .modZero else if remPanics a b then .error .panic else .ok (boxI (modFloor a b)))
  | _, _ =>
    match l, intOf r with
    | .complex re im, some b =>
      some (if b = 0 then .error .modZero
        else if remPanics (i64 re) b || remPanics (i64 im) b then .error .panic
        else .ok (boxC (modFloor (i64 re) b, modFloor (i64 im) b)))
    | .str s, _ => some (E.format s r)
    | _, _ => none

/-- models: operator.rs:253-276. `rug` panics when inverting 0. -/
def powArm (l r : Val) : Option (Res Val) :=
  match intOf r with
  | some b =>
    match l with
    | .complex re im =>
      some (if 0 ≤ b.toInt then .ok (boxC (cpow (i64 re, i64 im) (asU32 b))) else .error .powNegative)
    | .rational n d =>
      some (if -(2 ^ 31) ≤ b.toInt ∧ b.toInt < 2 ^ 31 then
          if mkRat n d = 0 ∧ b.toInt < 0 then .error .panic else .ok (boxQ (mkRat n d ^ b.toInt))
        else .error .tooLarge)
    | .list xs =>
      match r with
      | .int i => some (repeatBy i (fun n => .list (repeatList n xs)))
      | _ => none
    | _ =>
      match intOf l with
      | some a => some (if 0 ≤ b.toInt then .ok (boxI (i64Pow a (asU32 b))) else .error .powNegative)
      | none => none
  | none =>
    match l, r with
    | .int i, .list xs => some (repeatBy i (fun n => .list (repeatList n xs)))
    | _, _ => none

/-- models: operator.rs:325-338 -/
def addArm (E : Env) (l r : Val) : Option (Res Val) :=
  match numArm (fun a b => .ok (boxI (a + b))) (fun a b => .ok (boxC (cadd a b))) (fun a b => .ok (boxQ (a + b))) l r with
  | some x => some x
  | none =>
    match l, r with
    | .list xs, .list ys => some (.ok (.list (xs ++ ys)))
    | .str s, r => some (.ok (.str (s ++ E.toStr r)))
    | l, .str s => some (.ok (.str (E.toStr l ++ s)))
    | _, _ => none

/-- models: operator.rs:348-356 -/
def subArm (l r : Val) : Option (Res Val) :=
  match numArm (fun a b => .ok (boxI (a - b))) (fun a b => .ok (boxC (csub a b))) (fun a b => .ok (boxQ (a - b))) l r with
  | some x => some x
  | none =>
    match l, r with
    | .set xs, .set ys => some (.ok (setArm IndexSet.opDiff xs ys))
    | _, _ => none

/-- models: operator.rs:367 -/
def shlArm (l r : Val) : Option (Res Val) :=
  match intOf l, intOf r with
  | some a, some b => some (.ok (boxI (i64LeftShift a b)))
  | _, _ => none

/-- models: operator.rs:378 -/
def shrArm (l r : Val) : Option (Res Val) :=
  match intOf l, intOf r with
  | some a, some b => some (.ok (boxI (i64LeftShift a (-b))))
  | _, _ => none

/-- models: operator.rs:399-405, 415-421, 431-437 -/
def bitArm (fb : Bool → Bool → Bool) (fi : I64 → I64 → I64)
    (fs : IndexSet.T Val → IndexSet.T Val → IndexSet.T Val) (l r : Val) : Option (Res Val) :=
  match l, r with
  | .bool a, .bool b => some (.ok (.bool (fb a b)))
  | .set xs, .set ys => some (.ok (setArm fs xs ys))
  | l, r =>
    match intOf l, intOf r with
    | some a, some b => some (.ok (boxI (fi a b)))
    | _, _ => none

/-! ## The vector arms -/

/-- One step of `map(op).collect::<Result<Vec<_>, _>>()`: the first error is the result. -/
def consRes : Res Val → Res (List Val) → Res (List Val)
  | .error e, _ => .error e
  | .ok v, rest => rest.map (v :: ·)

mutual
/-- models: the last four arms of each operator, e.g. operator.rs:150-153, with `apply_vector_binary` (458-465),
`apply_vector_binary_scalar_rhs` (475-481), `apply_vector_binary_scalar_lhs` (467-473).
`f` is the operator's earlier arms; the recursion goes through the operator itself. -/
def lift (f : Val → Val → Option (Res Val)) (l r : Val) : Res Val :=
  match f l r with
  | some x => x
  | none =>
    match l, r with
    | .vector ls, .vector rs => (liftZ f ls rs).map .vector
    | .vector ls, r => (liftR f ls r).map .vector
    | l, .vector rs => (liftL f l rs).map .vector
    | _, _ => .error .typeBinary
termination_by sizeOf l + sizeOf r
/-- `zip` then `map` then `collect::<Result<_, _>>`: stops at the first error. -/
def liftZ (f : Val → Val → Option (Res Val)) (ls rs : List Val) : Res (List Val) :=
  match ls, rs with
  | l :: ls, r :: rs =>
    consRes (lift f l r) (liftZ f ls rs)
  | _, _ => .ok []
termination_by sizeOf ls + sizeOf rs
/-- vector `op` scalar -/
def liftR (f : Val → Val → Option (Res Val)) (ls : List Val) (r : Val) : Res (List Val) :=
  match ls with
  | [] => .ok []
  | l :: ls =>
    consRes (lift f l r) (liftR f ls r)
termination_by sizeOf ls + sizeOf r
/-- scalar `op` vector -/
def liftL (f : Val → Val → Option (Res Val)) (l : Val) (rs : List Val) : Res (List Val) :=
  match rs with
  | [] => .ok []
  | r :: rs =>
    consRes (lift f l r) (liftL f l rs)
termination_by sizeOf l + sizeOf rs
end

mutual
/-- models: operator.rs:114-123 `unary_sub` with `apply_vector_unary` (450-456). -/
def neg : Val → Res Val
  | .bool b => .ok (boxI (- (if b then 1 else 0)))
  | .int i => .ok (boxI (- i64 i))
  | .complex re im => .ok (boxC (cneg (i64 re, i64 im)))
  | .rational n d => .ok (boxQ (- mkRat n d))
  | .vector xs => (negL xs).map .vector
  | _ => .error .typeUnary
/-- elementwise -/
def negL : List Val → Res (List Val)
  | [] => .ok []
  | x :: xs =>
    consRes (neg x) (negL xs)
end

mutual
/-- models: operator.rs:125-133 `unary_not`; for a complex number it is the conjugate. -/
def bnot : Val → Res Val
  | .bool b => .ok (.bool (!b))
  | .int i => .ok (boxI (~~~ i64 i))
  | .complex re im => .ok (boxC (cconj (i64 re, i64 im)))
  | .vector xs => (bnotL xs).map .vector
  | _ => .error .typeUnary
/-- elementwise -/
def bnotL : List Val → Res (List Val)
  | [] => .ok []
  | x :: xs =>
    consRes (bnot x) (bnotL xs)
end

/-- models: operator.rs:34-40, 135-137 -/
def unary : UnaryOp → Val → Res Val
  | .neg, v => neg v
  | .not, v => bnot v
  | .logicalNot, v => .ok (.bool (!v.toBool))

/-- models: operator.rs:310-321 `binary_in` without the inversion. -/
def contains (l r : Val) : Res Bool :=
  match l, r with
  | .str s, .str t => .ok (decide (s <:+: t))
  | .int i, .range a b c => .ok (Cordy.Range.contains ⟨a, b, c⟩ i)
  | .bool i, .range a b c => .ok (Cordy.Range.contains ⟨a, b, c⟩ (if i then 1 else 0))
  | l, .list xs => .ok (xs.any (fun x => Val.eqv x l))
  | l, .set xs => .ok (xs.any (fun x => x == l))
  | l, .dict es => .ok (es.keys.any (fun x => x == l))
  | l, .heap xs => .ok (xs.any (fun x => Val.eqv x l))
  | l, .vector xs => .ok (xs.any (fun x => Val.eqv x l))
  | _, _ => .error .typeBinary

/-- The arms of the operators that distribute over vectors. -/
def arm (E : Env) : BinaryOp → Option (Val → Val → Option (Res Val))
  | .mul => some mulArm
  | .div => some divArm
  | .pow => some powArm
  | .mod => some (modArm E)
  | .add => some (addArm E)
  | .sub => some subArm
  | .shl => some shlArm
  | .shr => some shrArm
  | .and => some (bitArm (· && ·) (· &&& ·) IndexSet.opInter)
  | .or => some (bitArm (· || ·) (· ||| ·) IndexSet.opUnion)
  | .xor => some (bitArm (· != ·) (· ^^^ ·) IndexSet.opSymDiff)
  | _ => none

/-- models: operator.rs:61-68, 59-60: the operators that never distribute over vectors. `std::cmp::max(a, b)` returns `b`
unless `a > b`; `min(a, b)` returns `a` unless `a > b`. -/
def plain (op : BinaryOp) (l r : Val) : Res Val :=
  match op with
  | .in_ => (contains l r).map .bool
  | .notIn => (contains l r).map (fun b => .bool (!b))
  | .lt => .ok (.bool (Val.lt l r))
  | .gt => .ok (.bool (Val.gt l r))
  | .le => .ok (.bool (Val.le l r))
  | .ge => .ok (.bool (Val.ge l r))
  | .eq => .ok (.bool (Val.eqv l r))
  | .ne => .ok (.bool (!Val.eqv l r))
  | .max => .ok (if Val.cmp l r = .gt then l else r)
  | .min => .ok (if Val.cmp l r = .gt then r else l)
  | _ => .error .panic

/-- models: operator.rs:43-71 `BinaryOp::apply` -/
def binary (E : Env) (op : BinaryOp) (l r : Val) : Res Val :=
  match arm E op with
  | some f => lift f l r
  | none => plain op l r

end Cordy.Op
