import Verif.Model.Operator
/-!
# Text functions and integer mathematics

Models `core/strings.rs` and `core/math.rs`.  Rust's integer formatting and parsing (`Display`, `LowerHex`, `Binary`,
`pad_integral`, `pad`, `from_str_radix`), `num_integer::Roots::sqrt` and the iteration of regex matches are library
code, modelled from their documented behaviour.  Regular expressions themselves are not modelled: `split` takes the matches.
-/
namespace Cordy.Str
open Cordy.Repr Cordy.Arith Cordy.Op

/-! ## Numerals -/

/-- The digit of value `d` (`0-9a-f`). -/
def digitChar (d : Nat) : Char :=
  if d < 10 then Char.ofNat (48 + d) else Char.ofNat (87 + d)

/-- Digits of `n` in base `b ≥ 2`, most significant first, in front of `acc`. -/
def digitsAux (b : Nat) (n : Nat) (acc : List Nat) : List Nat :=
  if h : n < b ∨ b < 2 then n :: acc else digitsAux b (n / b) (n % b :: acc)
termination_by n
decreasing_by
  have : ¬ n < b ∧ ¬ b < 2 := by omega
  exact Nat.div_lt_self (by omega) (by omega)

/-- A natural number in base `b` (Rust `Display`, `LowerHex`, `Binary` of the absolute value). -/
def natText (b n : Nat) : List Char := (digitsAux b n []).map digitChar

/-- `{}` of an `i64`. -/
def decText (i : Int) : List Char := if i < 0 then '-' :: natText 10 i.natAbs else natText 10 i.natAbs

/-- `{:x}` (`b = 16`) and `{:b}` (`b = 2`) of an `i64`: negative numbers print their 64-bit two's complement. -/
def radixText (b : Nat) (i : Int) : List Char := natText b (i % 2 ^ 64).toNat

/-- `char::to_digit(radix)` -/
def toDigit (b : Nat) (c : Char) : Option Nat :=
  let n := c.toNat
  let d := if 48 ≤ n ∧ n ≤ 57 then some (n - 48)
    else if 97 ≤ n ∧ n ≤ 122 then some (n - 87)
    else if 65 ≤ n ∧ n ≤ 90 then some (n - 55) else none
  match d with
  | some d => if d < b then some d else none
  | none => none

/-- `checked_mul` / `checked_add` / `checked_sub` of `i64`. -/
def checked (i : Int) : Option Int := if -(2 ^ 63) ≤ i ∧ i < 2 ^ 63 then some i else none

/-- The digit loop of `i64::from_str_radix`: `neg` subtracts the digits. -/
def parseLoop (b : Nat) (neg : Bool) : Int → List Char → Option Int
  | acc, [] => some acc
  | acc, c :: cs =>
    match checked (acc * b), toDigit b c with
    | some m, some d =>
      match checked (if neg then m - d else m + d) with
      | some acc' => parseLoop b neg acc' cs
      | none => none
    | _, _ => none

/-- `i64::from_str_radix` (`str::parse::<i64>` is base 10). -/
def parseI64 (b : Nat) (s : List Char) : Option Int :=
  match s with
  | [] => none
  | ['+'] => none
  | ['-'] => none
  | '+' :: cs => parseLoop b false 0 cs
  | '-' :: cs => parseLoop b true 0 cs
  | cs => parseLoop b false 0 cs

/-- `i64::to_value` on an in-range integer. -/
def boxInt (i : Int) : Val := boxI (i64 i)

/-- models: math.rs:14-36 `convert_to_int` -/
def toInt (v : Val) (default : Option Val) : Res Val :=
  match v with
  | .nil => .ok (.int 0)
  | .bool b => .ok (.int (if b then 1 else 0))
  | .int i => .ok (.int i)
  | .str s =>
    match parseI64 10 s with
    | some i => .ok (boxInt i)
    | none => match default with
      | some d => .ok d
      | none => .error .badInt
  | .rational n d =>
    if d = 1 then
      if -(2 ^ 62) ≤ n ∧ n < 2 ^ 62 then .ok (boxInt n) else .error .badInt
    else .error .badInt
  | _ => .error .badInt

/-- models: strings.rs:214-223 `hex` (`b = 16`), 225-234 `bin` (`b = 2`) -/
def radix (b : Nat) (v : Val) : Res Val :=
  match v with
  | .int i => .ok (.str (radixText b i))
  | .str s => match parseI64 b s with
    | some i => .ok (boxInt i)
    | none => .error .badInt
  | _ => .error .argIntOrStr

/-- `char::from_u32` -/
def charFromU32 (n : Nat) : Option Char := if h : n.isValidChar then some (Char.ofNatAux n h) else none

/-- models: strings.rs:193-202 `chr`; note `i as u32`. -/
def chr (v : Val) : Res Val :=
  match Cordy.asInt v with
  | .error e => .error e
  | .ok i =>
    if i ≤ 0 then .error .badOrdinal
    else match charFromU32 (i % 2 ^ 32).toNat with
      | some c => .ok (.str [c])
      | none => .error .badOrdinal

/-- models: strings.rs:204-212 `ord`; the length is in bytes. -/
def ord (v : Val) : Res Val :=
  match v with
  | .str s =>
    if byteLen s = 1 then
      match s with
      | c :: _ => .ok (.int c.toNat)
      | [] => .error .panic
    else .error .argChar
  | _ => .error .argStr

/-! ## Formatting -/

/-- `Formatter::pad_integral` for a number with the given sign and digits: width in characters, right aligned with spaces, or zeros
between sign and digits. -/
def padNum (zero : Bool) (w : Nat) (neg : Bool) (digits : List Char) : List Char :=
  let sign := if neg then ['-'] else []
  let n := sign.length + digits.length
  if zero then sign ++ (List.replicate (w - n) '0' ++ digits)
  else List.replicate (w - n) ' ' ++ (sign ++ digits)

/-- `Formatter::pad` for a string: left aligned with spaces (the zero flag does not apply to strings). -/
def padStr (w : Nat) (s : List Char) : List Char := s ++ List.replicate (w - s.length) ' '

/-- models: strings.rs:281-296: digits of the width; a leading `0` is an error. -/
def scanWidth : List Char → List Char → Res (List Char × List Char)
  | [], buf => .ok (buf, [])
  | c :: cs, buf =>
    if '1' ≤ c ∧ c ≤ '9' then scanWidth cs (buf ++ [c])
    else if c = '0' then
      if buf.isEmpty then .error .badFormatChar else scanWidth cs (buf ++ ['0'])
    else .ok (buf, c :: cs)

/-- Value of a string of decimal digits. -/
def decVal (cs : List Char) : Nat := cs.foldl (fun n c => 10 * n + (c.toNat - 48)) 0

/-- models: strings.rs:298: `unwrap` panics for widths that do not fit a `usize`. -/
def parseWidth (buf : List Char) : Res Nat :=
  if buf.isEmpty then .ok 0 else if decVal buf < 2 ^ 64 then .ok (decVal buf) else .error .panic

/-- models: strings.rs:328-333 `arg` -/
def nextArg : List Val → Res (Val × List Val)
  | [] => .error .formatMissing
  | a :: as => .ok (a, as)

/-- models: strings.rs:300-310 -/
def convert (toStr : Val → List Char) (zero : Bool) (w : Nat) (c : Option Char) (args : List Val) : Res (List Char × List Val) :=
  match c with
  | some 'd' => do
    let (a, as) ← nextArg args
    let i ← Cordy.asInt a
    .ok (padNum zero w (decide (i < 0)) (natText 10 i.natAbs), as)
  | some 'x' => do
    let (a, as) ← nextArg args
    let i ← Cordy.asInt a
    .ok (padNum zero w false (radixText 16 i), as)
  | some 'b' => do
    let (a, as) ← nextArg args
    let i ← Cordy.asInt a
    .ok (padNum zero w false (radixText 2 i), as)
  | some 's' => do
    let (a, as) ← nextArg args
    .ok (padStr w (toStr a), as)
  | _ => .error .badFormatChar

/-- models: strings.rs:272-278: an optional `0` flag. -/
def zeroFlag : List Char → Bool × List Char
  | '0' :: cs => (true, cs)
  | cs => (false, cs)

/-- models: strings.rs:272-313: one directive after its `%`: the text, the remaining format and the remaining arguments. -/
def directive (toStr : Val → List Char) (cs : List Char) (args : List Val) : Res (List Char × List Char × List Val) :=
  match scanWidth (zeroFlag cs).2 [] with
  | .error e => .error e
  | .ok (buf, rest) =>
    match parseWidth buf with
    | .error e => .error e
    | .ok w =>
      match convert toStr (zeroFlag cs).1 w rest.head? args with
      | .error e => .error e
      | .ok (text, as) => .ok (text, rest.drop 1, as)

theorem scanWidth_length : ∀ (cs buf r : List Char) (b), scanWidth cs buf = .ok (b, r) → r.length ≤ cs.length
  | [], buf, r, b, h => by cases h; simp
  | c :: cs, buf, r, b, h => by
    rw [scanWidth] at h
    split at h
    · have := scanWidth_length _ _ _ _ h; simp; omega
    · split at h
      · split at h
        · cases h
        · have := scanWidth_length _ _ _ _ h; simp; omega
      · cases h; simp

theorem zeroFlag_length (cs : List Char) : (zeroFlag cs).2.length ≤ cs.length := by
  unfold zeroFlag; split <;> simp

theorem directive_length {toStr cs args t r a} (h : directive toStr cs args = .ok (t, r, a)) : r.length ≤ cs.length := by
  unfold directive at h
  have h0 := zeroFlag_length cs
  split at h
  · cases h
  · rename_i buf rest hw
    have h1 := scanWidth_length _ _ _ _ hw
    split at h
    · cases h
    · split at h
      · cases h
      · cases h; simp; omega

/-- models: strings.rs:262-323 `run` -/
def run (toStr : Val → List Char) (cs : List Char) (args : List Val) (out : List Char) : Res (List Char) :=
  match cs with
  | [] => if args.isEmpty then .ok out else .error .formatUnused
  | '%' :: '%' :: cs => run toStr cs args (out ++ ['%'])
  | '%' :: cs =>
    match h : directive toStr cs args with
    | .error e => .error e
    | .ok (t, rest, as) => run toStr rest as (out ++ t)
  | c :: cs => run toStr cs args (out ++ [c])
termination_by cs.length
decreasing_by
  all_goals simp
  all_goals first | omega | (have := directive_length h; omega)

/-- models: value/mod.rs:357-362 `as_sequence` -/
def asSequence : Val → List Val
  | .list xs | .vector xs => xs
  | v => [v]

/-- models: strings.rs:236-238, 249-260 `format_string` -/
def format (toStr : Val → List Char) (literal : List Char) (args : Val) : Res Val :=
  (run toStr literal (asSequence args) []).map .str

/-! ## join and split -/

/-- models: strings.rs:175-190 `map_join` -/
def join (sep : List Char) : List (List Char) → List Char
  | [] => []
  | x :: xs => xs.foldl (fun acc y => acc ++ sep ++ y) x

/-- models: strings.rs:142-165 `FancySplit::next` collected: `ms` are the matches `(start, end)` the regex iterator yields.
(Positions are counted in characters here, in bytes in the code; slicing at match boundaries is the same.) -/
def splitAt (text : List Char) : Nat → List (Nat × Nat) → List (List Char)
  | last, [] => if last > text.length then [] else [text.drop last]
  | last, (s, e) :: ms => ((text.drop last).take (s - last)) :: splitAt text e ms

/-- The matches of a literal, non-empty pattern: leftmost, non-overlapping (`find_iter`, library). `pos` is the position of the
remaining text. -/
def literalMatches (sep : List Char) (pos : Nat) (text : List Char) : List (Nat × Nat) :=
  match text with
  | [] => []
  | c :: cs =>
    if sep.isPrefixOf (c :: cs) ∧ sep ≠ [] then
      (pos, pos + sep.length) :: literalMatches sep (pos + sep.length) ((c :: cs).drop sep.length)
    else literalMatches sep (pos + 1) cs
termination_by text.length
decreasing_by
  · rename_i h; have := List.length_pos_iff.2 h.2; simp; omega
  · simp

/-- models: strings.rs:77-92 `split` for a pattern without regex metacharacters: an empty pattern splits into characters. -/
def split (sep text : List Char) : List (List Char) :=
  if sep.isEmpty then text.map (fun c => [c])
  else splitAt text 0 (literalMatches sep 0 text)

/-! ## Integer mathematics -/

/-- models: math.rs:60-74 `abs` on `Bool | Int` -/
def abs (i : I64) : Val := boxI (if i.toInt < 0 then -i else i)

/-- num-integer 0.1.45 `fixpoint`, first loop: while `x < f x`. -/
def climb (n x : Nat) : Nat :=
  if h : 0 < x ∧ x < (n / x + x) / 2 then climb n ((n / x + x) / 2) else x
termination_by n - x
decreasing_by
  obtain ⟨hx, hy⟩ := h
  have h1 : n / x ≤ n := Nat.div_le_self _ _
  omega

/-- num-integer 0.1.45 `fixpoint`, second loop: while `x > f x`. -/
def descend (n x : Nat) : Nat :=
  if h : (n / x + x) / 2 < x then descend n ((n / x + x) / 2) else x
termination_by x

/-- `num_integer::Roots::sqrt` for `u64`: `guess` is the floating point square root, cast to an integer. -/
def natSqrt (guess : Nat) (n : Nat) : Nat :=
  if n < 4 then (if 0 < n then 1 else 0) else descend n (climb n guess)

/-- models: math.rs:76-85 `sqrt` on `Bool` and `Int` -/
def sqrt (guess : Nat) (v : Val) : Res Val :=
  match v with
  | .bool b => .ok (.int (if b then 1 else 0))
  | .int i => if i < 0 then .error .mustBeNonNegative else .ok (boxInt (natSqrt guess i.toNat))
  | _ => .error .argInt

/-- models: math.rs:98-109 `gcd`: fold; `num_integer::gcd` is the non-negative greatest common divisor. -/
def gcd (args : List Val) : Res Val :=
  match args with
  | [] => .error .nonEmpty
  | a :: as => do
    let a ← Cordy.asInt a
    let r ← as.foldlM (fun acc v => do let i ← Cordy.asInt v; .ok ((Int.gcd acc i : Nat) : Int)) a
    .ok (boxInt r)

/-- `num_integer::lcm` for `i64`: `(a * (b / gcd)).abs()`, 0 if both are 0; wrapping. -/
def lcm64 (a b : Int) : Int :=
  if a = 0 ∧ b = 0 then 0
  else
    let p := (i64 a * i64 (b / (Int.gcd a b : Nat)))
    (if p.toInt < 0 then -p else p).toInt

/-- models: math.rs:111-122 `lcm` -/
def lcm (args : List Val) : Res Val :=
  match args with
  | [] => .error .nonEmpty
  | a :: as => do
    let a ← Cordy.asInt a
    let r ← as.foldlM (fun acc v => do let i ← Cordy.asInt v; .ok (lcm64 acc i)) a
    .ok (boxInt r)

/-- models: math.rs:124-128 `count_ones` -/
def countOnes (v : Val) : Res Val :=
  match Cordy.asInt v with
  | .error e => .error e
  | .ok i => .ok (.int ((List.range 64).countP (fun k => (i64 i).getLsbD k)))

/-- models: math.rs:130-134 `count_zeros` -/
def countZeros (v : Val) : Res Val :=
  match Cordy.asInt v with
  | .error e => .error e
  | .ok i => .ok (.int ((List.range 64).countP (fun k => !(i64 i).getLsbD k)))

/-- models: math.rs:136-150 `real`, `imag` -/
def real : Val → Res Val
  | .complex re _ => .ok (boxInt re)
  | .int i => .ok (.int i)
  | .bool b => .ok (.int (if b then 1 else 0))
  | _ => .error .argComplex
def imag : Val → Res Val
  | .complex _ im => .ok (boxInt im)
  | .int _ => .ok (.int 0)
  | .bool _ => .ok (.int 0)
  | _ => .error .argComplex

end Cordy.Str
