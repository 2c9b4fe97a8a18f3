import Verif.Model.Strings
/-!
# Functions on rational and complex numbers

`rational`, `numer`, `denom`, and `abs` and `sqrt` on other numbers than ints (core/math.rs:39-96, 152-168), with the feature `rational`.
-/
namespace Cordy.Rational
open Cordy.Repr Cordy.Arith Cordy.Op Cordy.Str

/-- The errors of these functions. -/
inductive Error where
  | divideByZero | cannotConvert | badParse | negative | argRational | argInt
  deriving DecidableEq, Repr

/-- What was read of the text of a rational number: a sign, whether there were digits since the beginning or the `/`, the numbers. -/
structure Parse where
  sign : Bool
  neg : Bool
  digits : Bool
  slash : Bool
  num : Nat
  den : Nat

/-- The characters that rug ignores: ASCII whitespace. -/
def blank (c : Char) : Bool := c.toNat = 32 || (9 ≤ c.toNat && c.toNat ≤ 13)

/-- One character of `rug::Rational::parse`, as documented for rug 1.22 (`Rational::parse_radix`): a sign before the first digit, digits, `/`, digits; whitespace is ignored, and `_` after a digit. -/
def readChar (p : Parse) (c : Char) : Option Parse :=
  if c = '/' then if p.slash || !p.digits then none else some { p with digits := false, slash := true }
  else if c = '+' && !p.slash && !p.sign && !p.digits then some { p with sign := true }
  else if c = '-' && !p.slash && !p.sign && !p.digits then some { p with sign := true, neg := true }
  else if c = '_' && p.digits then some p
  else if blank c then some p
  else match toDigit 10 c with
    | some d => if p.slash then some { p with digits := true, den := p.den * 10 + d } else some { p with digits := true, num := p.num * 10 + d }
    | none => none

/-- All characters. -/
def readChars : Parse → List Char → Option Parse
  | p, [] => some p
  | p, c :: cs => (readChar p c).bind fun p => readChars p cs

/-- The number, if the text ends here. -/
def finish (p : Parse) : Option Rat :=
  if !p.digits then none
  else if p.slash then if p.den = 0 then none else some (mkRat (if p.neg then -p.num else p.num) p.den)
  else some (if p.neg then -(p.num : Rat) else p.num)

/-- `rug::Rational::parse` -/
def parseRational (s : List Char) : Option Rat := (readChars ⟨false, false, false, false, 0, 0⟩ s).bind finish

/-- models: number.rs:106-108 `to_repr_str` -/
def ratText (q : Rat) : List Char := decText q.num ++ ' ' :: '/' :: ' ' :: natText 10 q.den

/-- models: math.rs:39-58 `convert_to_rational` -/
def toRational (numer : Val) (denom : Option Val) : Except Error Val :=
  match numer with
  | .str s =>
    match parseRational s with
    | some q => .ok (boxQ q)
    | none => .error .badParse
  | v =>
    match ratOf v with
    | some x =>
      match denom with
      | some d =>
        match ratOf d with
        | some y => if y = 0 then .error .divideByZero else .ok (boxQ (x / y))
        | none => .error .cannotConvert
      | none => .ok (boxQ x)
    | none => .error .cannotConvert

/-- models: math.rs:152-159 `get_numer` -/
def numer (v : Val) : Except Error Val :=
  match ratOf v with
  | some x => .ok (boxQ x.num)
  | none => .error .argRational

/-- models: math.rs:161-168 `get_denom` -/
def denom (v : Val) : Except Error Val :=
  match ratOf v with
  | some x => .ok (boxQ x.den)
  | none => .error .argRational

/-- `i64::abs` -/
def abs64 (i : I64) : I64 := if i.toInt < 0 then -i else i

mutual
/-- models: math.rs:60-74 `abs`, operator.rs:450-456 `apply_vector_unary` -/
def absV : Val → Except Error Val
  | .bool b => .ok (boxI (abs64 (if b then 1 else 0)))
  | .int i => .ok (boxI (abs64 (i64 i)))
  | .complex re im => .ok (boxC (abs64 (i64 re), abs64 (i64 im)))
  | .rational n d => .ok (boxQ |mkRat n d|)
  | .vector xs => (absL xs).map .vector
  | _ => .error .argInt
/-- elementwise -/
def absL : List Val → Except Error (List Val)
  | [] => .ok []
  | x :: xs =>
    match absV x with
    | .ok y => (absL xs).map (y :: ·)
    | .error e => .error e
end

/-- models: math.rs:76-96 `sqrt`, where `root` is the integer square root of natural numbers that are not machine words (GMP) -/
def sqrtV (guess : Nat) (v : Val) : Except Error Val :=
  match v with
  | .rational n d => if (mkRat n d).num < 0 then .error .negative else .ok (boxQ (mkRat (Nat.sqrt (mkRat n d).num.toNat) (Nat.sqrt (mkRat n d).den)))
  | .bool _ | .int _ =>
    match Str.sqrt guess v with
    | .ok r => .ok r
    | .error _ => .error .negative
  | _ => .error .argRational

end Cordy.Rational
