/-!
# Input and output

Models the native functions `print`, `read`, `read_line`, `read_text` and `write_text`: core/mod.rs:829-834, 850-860, 941-944, 1033-1041, vm/mod.rs:963-978 and util.rs:12-19.

Texts are lists of characters; in what is read, `none` is a byte that does not belong to any character (the text is not UTF-8). The arguments of `print` are what `str` gives of them (C28).
What the operating system does with a file is part of the call. Simplified: standard output never fails (in the code a closed one is a panic), a read of standard input fails only because the text is not UTF-8.
-/
namespace Cordy.Io

/-- What comes from outside: characters, and bytes that belong to none. -/
abbrev Bytes := List (Option Char)

/-- The text, if all of it is characters. -/
def decode : Bytes → Option (List Char)
  | [] => some []
  | none :: _ => none
  | some c :: r => (decode r).map (c :: ·)

/-- Standard input (what has not been read yet) and output, and the files. -/
structure World where
  input : Bytes
  output : List Char
  files : String → Option Bytes

/-- What the operating system does when a file is opened: `fail left`: an error, and if it was a write, this is what the file is then. -/
inductive Os where
  | works
  | fails (left : Option Bytes)

/-- A call of one of the functions. -/
inductive Call where
  | print (args : List (List Char))
  | read
  | readLine
  | readText (path : String) (os : Os)
  | writeText (path : String) (text : List Char) (os : Os)

/-- What a call gives. -/
inductive Result where
  | nil
  | str (s : List Char)
  /-- an error of the language -/
  | error
  | panic
  deriving DecidableEq

/-- models: `BufRead::read_line`: up to the next line feed, with it; and what is left -/
def takeLine : Bytes → Bytes × Bytes
  | [] => ([], [])
  | c :: r => if c = some '\n' then ([c], r) else (c :: (takeLine r).1, (takeLine r).2)

/-- models: util.rs:12-19 `strip_line_ending` -/
def stripLineEnding (s : List Char) : List Char :=
  if s.getLast? = some '\n' then
    let s := s.dropLast
    if s.getLast? = some '\r' then s.dropLast else s
  else s

/-- models: core/mod.rs:1035-1038: the arguments of `print` after the first -/
def printRest : List (List Char) → List Char → List Char
  | [], out => out
  | a :: as, out => printRest as (out ++ [' '] ++ a)

/-- models: core/mod.rs:831-834, 850-853, 1033-1041: `print`, with no arguments, with one, or with more -/
def print : List (List Char) → List Char → List Char
  | [], out => out ++ ['\n']
  | [a], out => out ++ (a ++ ['\n'])
  | a :: as, out => printRest as (out ++ a) ++ ['\n']

/-- models: core/mod.rs:857: the text of a file without `\r` -/
def dropCr (s : List Char) : List Char := s.filter (· ≠ '\r')

/-- The files with one changed. -/
def setFile (files : String → Option Bytes) (path : String) (f : Option Bytes) : String → Option Bytes := fun p => if p = path then f else files p

/-- models: core/mod.rs:829-860, 941-944, vm/mod.rs:967-978: one call -/
def step : Call → World → Result × World
  | .print args, w => (.nil, { w with output := print args w.output })
  | .read, w =>
    match decode w.input with
    | some s => (.str s, { w with input := [] })
    | none => (.panic, { w with input := [] })
  | .readLine, w =>
    match decode (takeLine w.input).1 with
    | some s => (.str (stripLineEnding s), { w with input := (takeLine w.input).2 })
    | none => (.panic, { w with input := (takeLine w.input).2 })
  | .readText path .works, w =>
    match w.files path with
    | some f =>
      match decode f with
      | some s => (.str (dropCr s), w)
      | none => (.error, w)
    | none => (.error, w)
  | .readText _ (.fails _), w => (.error, w)
  | .writeText path text .works, w => (.nil, { w with files := setFile w.files path (some (text.map some)) })
  | .writeText path _ (.fails left), w => (.error, { w with files := setFile w.files path left })

/-- A sequence of calls. -/
def run : List Call → World → List Result × World
  | [], w => ([], w)
  | c :: cs, w => ((step c w).1 :: (run cs (step c w).2).1, (run cs (step c w).2).2)

end Cordy.Io
