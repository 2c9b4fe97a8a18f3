import Verif.Model.Parser
import Verif.Model.Scanner

/-!
# What the REPL does with the text it has

Models `compiler/mod.rs:94-121` `try_incremental_compile` with the scanner and the parser, and `repl.rs:78-118`.
-/
namespace Cordy.Continuation
open Cordy.Scan (Token ScanErr Loc)
open Cordy.Parser (PErr Ans Rule run start)

/-- models: scanner.rs:45-47 `is_eof` -/
def scanEof : ScanErr → Bool
  | .unterminatedString | .unterminatedComment => true
  | _ => false

/-- models: compiler/mod.rs:300-330 `IncrementalCompileResult`: run the code; ask for another line; report the errors. -/
inductive Answer where
  | run
  | more
  | scanErrors (es : List (Loc × ScanErr))
  | parseErrors (es : List PErr)
  deriving DecidableEq

/-- models: compiler/mod.rs:100-105, 112-117: the loop over the errors; `none` is `Aborted`. -/
def collect {ε : Type} (eof : ε → Bool) : List ε → List ε → Option (List ε)
  | [], acc => some acc
  | e :: es, acc => if eof e && acc.isEmpty then none else collect eof es (acc ++ [e])

/-- models: parser/mod.rs:210-222 `parse_incremental_repl`: the errors of the parser (`Model/Parser`, `fuel` more than it needs: `C71_ends`). -/
def parseErrs (ts : List Token) (ora : Nat → Ans) : List PErr :=
  match run (80 * ts.length + 80) .root (start ts ora) with
  | .done _ s => s.errs
  | _ => []

/-- models: compiler/mod.rs:94-121 `try_incremental_compile` with `abort_in_eof = true` -/
def answer (ora : Nat → Ans) (text : List Char) : Answer :=
  let out := Scan.scan text
  let es := Scan.errors out
  if es.isEmpty then
    let ps := parseErrs ((Scan.tokens out).map Prod.snd) ora
    if ps.isEmpty then .run
    else match collect PErr.isEof ps [] with
      | some es => .parseErrors es
      | none => .more
  else match collect (fun e => scanEof e.2) es [] with
    | some es => .scanErrors es
    | none => .more

/-- models: repl.rs:78-118 `run`: the text so far, and the prompt (`repl.rs:74-76`): whether the next line continues it. -/
structure Repl where
  buffer : List Char
  continuation : Bool
  deriving DecidableEq

/-- What one line does: nothing, or the answer for the text with this line. What is known about names depends on the text. -/
def line (ora : List Char → Nat → Ans) (s : Repl) (l : List Char) : Repl × Option Answer :=
  if l.isEmpty && !s.continuation then (s, none)
  else
    let text := s.buffer ++ l ++ ['\n']
    match answer (ora text) text with
    | .more => (⟨text, true⟩, some .more)
    | a => (⟨[], false⟩, some a)

/-- Many lines. -/
def lines (ora : List Char → Nat → Ans) (s : Repl) : List (List Char) → Repl × List Answer
  | [] => (s, [])
  | l :: ls =>
    let r := line ora s l
    let q := lines ora r.1 ls
    (q.1, r.2.toList ++ q.2)

end Cordy.Continuation
