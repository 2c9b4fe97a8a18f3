import Verif.Model.Syntax
/-!
# Locations, source lines and stack traces

Models the location arithmetic of `reporting.rs` and `RuntimeError::with_stacktrace` of `vm/error.rs`.  Texts are lists of
characters; `byteLen` is the UTF-8 length.  `none` stands for an out of range access (the process would abort).
-/
namespace Cordy.Report
open Cordy.Scan (Loc)

/-- models: `str::split('\n')` (reporting.rs:253) -/
def splitNl : List Char → List (List Char)
  | [] => [[]]
  | c :: cs =>
    if c = '\n' then [] :: splitNl cs
    else match splitNl cs with
      | [] => [[c]]
      | l :: ls => (c :: l) :: ls

/-- models: reporting.rs:251-259 the `starts` of the lines, the running sum of the byte lengths plus one, with a last entry behind
the text. -/
def startsFrom (start : Nat) : List (List Char) → List Nat
  | [] => [start]
  | l :: ls => start :: startsFrom (start + byteLen l + 1) ls

/-- models: reporting.rs:254 `line.strip_suffix('\r').unwrap_or(line)` -/
def stripCr (l : List Char) : List Char := if l.getLast? = some '\r' then l.dropLast else l

/-- models: reporting.rs:96-103 `SourceIndex`, built at 246-264.  The index is built lazily in Rust, at the first use; here it is a
function of the text, so that its staleness after `text_mut` is not modelled (the REPL begins a new entry after every report). -/
def lines (text : List Char) : List (List Char) := (splitNl text).map stripCr
def starts (text : List Char) : List Nat := startsFrom 0 (splitNl text)

/-- models: reporting.rs:155-161 `SourceEntry::lineno`.  `partition_point` (a binary search) is modelled by the length of the longest
prefix satisfying the predicate, which is the same on an increasing sequence such as `starts`. -/
def lineno (text : List Char) (loc : Loc) : Option Nat :=
  if loc.width = 0 then none else some (((starts text).takeWhile (fun u => u ≤ loc.start)).length - 1)

/-- models: reporting.rs:170-174 the `while` loop: advance while the next line starts before the end of the location. -/
def endLine (ss : List Nat) (last : Nat) (k : Nat) : Option Nat :=
  match h : ss[k + 1]? with
  | none => none
  | some u => if u < last then endLine ss last (k + 1) else some k
termination_by ss.length - k
decreasing_by
  have := (List.getElem?_eq_some_iff.1 h).1
  omega

/-- What a report shows: first and last line number (from 0), those lines, and the columns of the marker. -/
structure Shown where
  first : Nat
  last : Nat
  lines : List (List Char)
  startCol : Nat
  endCol : Nat
  deriving DecidableEq, Repr

/-- models: reporting.rs:163-244 `SourceEntry::format`: which lines are shown and where the marker goes (the text around them is
not modelled). -/
def format (text : List Char) (loc : Loc) : Option Shown :=
  let first := (lineno text loc).getD 0
  (if loc.width = 0 then some first else endLine (starts text) loc.last first).bind fun last =>
  (starts text)[first]?.bind fun s0 =>
  (starts text)[last]?.bind fun s1 =>
  (lines text)[last]?.bind fun l =>
  some {
    first, last
    lines := ((lines text).take (last + 1)).drop first
    startCol := if loc.width = 0 then byteLen l + 1 else loc.start - s0
    endCol := if loc.width = 0 then byteLen l + 3 else loc.last - s1 }

/-- models: reporting.rs:78-92 `SourceView` (names and texts), 145-151 `push`, 140-143 `lineno`, 149-151 `format` -/
abbrev View := List (List Char × List Char)
def View.push (v : View) (name text : List Char) : View := v ++ [(name, text)]
def View.format (v : View) (index : Nat) (loc : Loc) : Option (List Char × Shown) :=
  v[index]?.bind fun e => (Report.format e.2 loc).map fun s => (e.1, s)

/-! ## Stack traces -/

/-- models: vm/error.rs:154-158 `StackFrame`: the call site and an instruction of the function called (for which
`find_owning_function` gives the name), or a number of repetitions. -/
inductive Frame where
  | simple (site callee : Nat)
  | again (n : Nat)
  deriving DecidableEq, Repr

/-- models: vm/error.rs:112-137 the loop; `rets` are the `return_ip`s of the call stack from the innermost, `prev_*` the loop
variables.  `repeat_limit` is 3. -/
def trace : List Nat → Nat → Option (Nat × Nat) → Nat → List Frame
  | [], _, _, prevCount => if 3 < prevCount then [.again (prevCount - 3)] else []
  | r :: rs, prevIp, prevFrame, prevCount =>
    if 0 < r then
      let ip := r - 1
      if prevFrame = some (ip, prevIp) then
        (if prevCount + 1 ≤ 3 then [.simple ip prevIp] else []) ++ trace rs ip (some (ip, prevIp)) (prevCount + 1)
      else
        (if 3 < prevCount then [.again (prevCount - 3)] else []) ++ [.simple ip prevIp] ++ trace rs ip (some (ip, prevIp)) 0
    else trace rs prevIp prevFrame prevCount

/-- models: vm/error.rs:102-140 `with_stacktrace` -/
def stackTrace (ip : Nat) (rets : List Nat) : List Frame := trace rets ip none 0

end Cordy.Report
