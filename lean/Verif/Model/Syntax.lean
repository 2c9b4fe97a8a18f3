import Verif.Model.Scanner
import Verif.Model.Range
/-!
# Syntax highlighting

Models `syntax.rs` and the token classes of `scanner.rs`.  A `Formatter` is what it is told: the list of `begin`, `end`, `push`
calls, in order.  `Option` is `none` where the Rust `unwrap` would abort.
-/
namespace Cordy.Syntax
open Cordy.Scan

/-- models: scanner.rs:67-77 `ScanTokenType` -/
inductive Ty where
  | keyword | constant | native | type | number | string | syntax | blank | comment
  deriving DecidableEq, Repr

/-- models: scanner.rs:175-189 `ScanToken::ty`.  `find` stands for `NativeFunction::find`, answering whether an identifier names a
library function and whether that function is one of the listed types. -/
def tyOf (find : List Char → Option Bool) : Token → Ty
  | .string _ => .string
  | .int _ | .complex _ => .number
  | .kTrue | .kFalse | .kNil | .logicalAnd | .logicalOr | .kNot | .kIs | .kIn | .kSelf => .constant
  | .kLet | .kFn | .kReturn | .kIf | .kElif | .kElse | .kThen | .kLoop | .kWhile | .kFor | .kBreak | .kContinue | .kDo | .kStruct
  | .kExit | .kAssert | .kModule | .kNative => .keyword
  | .identifier s => match find s with
    | some true => .type
    | some false => .native
    | none => .syntax
  | .newLine => .blank
  | _ => .syntax

/-- models: syntax.rs:16-20 the three calls of the trait `Formatter` -/
inductive Ev where
  | begin (t : Ty)
  | fin (t : Ty)
  | push (c : Char)
  deriving DecidableEq, Repr

/-- models: syntax.rs:75-78 the whitespace loop: what is pushed and what remains. -/
def blanks : List Char → List Char × List Char
  | [] => ([], [])
  | c :: cs => if isBlank c then (c :: (blanks cs).1, (blanks cs).2) else ([], c :: cs)

/-- models: `n` times `fmt.push(chars.next().unwrap())` (syntax.rs:56-59, 82-85) -/
def pushN : Nat → List Char → Option (List Char × List Char)
  | 0, cs => some ([], cs)
  | _ + 1, [] => none
  | n + 1, c :: cs => (pushN n cs).map (fun r => (c :: r.1, r.2))

/-- models: syntax.rs:70-88 `consume_whitespace_and_comment` with the end condition `index < goal` -/
def consumeTo (goal : Nat) (cs : List Char) (index : Nat) : Option (List Ev × List Char × Nat) :=
  let w := blanks cs
  let index := index + w.1.length
  if index < goal then
    (pushN (goal - index) w.2).map (fun r => (w.1.map .push ++ [.begin .comment] ++ r.1.map .push ++ [.fin .comment], r.2, goal))
  else some (w.1.map .push, w.2, index)

/-- models: syntax.rs:70-88 with the end condition `chars.peek().is_some()` -/
def consumeAll (cs : List Char) : List Ev :=
  let w := blanks cs
  if w.2 = [] then w.1.map .push else w.1.map .push ++ [.begin .comment] ++ w.2.map .push ++ [.fin .comment]

/-- models: syntax.rs:43-67 the loop over the tokens -/
def loop : List (Loc × Ty) → List Char → Nat → Option (List Ev)
  | [], cs, _ => some (consumeAll cs)
  | (l, t) :: ts, cs, index =>
    if l.last < index then loop ts cs index
    else if t = .blank then loop ts cs index
    else (consumeTo l.start cs index).bind fun r =>
      (pushN (l.last + 1 - r.2.2) r.2.1).bind fun q =>
        (loop ts q.2 (r.2.2 + (l.last + 1 - r.2.2))).map fun es => r.1 ++ [.begin t] ++ q.1.map .push ++ [.fin t] ++ es

/-- models: syntax.rs:32-67 `scan`: `prefix.len()` counts bytes whereas the token locations count characters. -/
def highlight (find : List Char → Option Bool) (input pre : List Char) : Option (List Ev) :=
  loop ((tokens (scan (pre ++ input))).map (fun p => (p.1, tyOf find p.2))) input (byteLen pre)

/-- models: syntax.rs:91-125 `BlockingFormatter`: the calls that reach the inner formatter; `ty` is the open section. -/
def blocking : Option Ty → List Ev → List Ev
  | _, [] => []
  | _, .begin t :: es => .begin t :: blocking (some t) es
  | o, .fin _ :: es => (match o with | some t => [.fin t] | none => []) ++ blocking none es
  | o, .push c :: es =>
    if c = '\n' then
      (match o with | some t => [.fin t] | none => []) ++ [.push '\n'] ++ (match o with | some t => [.begin t] | none => []) ++ blocking o es
    else .push c :: blocking o es

end Cordy.Syntax
