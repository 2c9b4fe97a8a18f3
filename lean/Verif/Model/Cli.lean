import Verif.Model.Syntax
/-!
# The command line

Models `parse_args` and the choice of what to do of `cordy/src/main.rs`. Words are lists of characters. Simplified: maps and sets are lists; texts of errors are an
enumeration.
-/
namespace Cordy.Cli
open Cordy.Syntax

abbrev Word := List Char

/-- models: main.rs:232-233 `Mode` -/
inductive Mode where
  | default
  | help
  | version
  | disassembly
  | format
  deriving DecidableEq, Repr

/-- models: main.rs:221-230 `Options` -/
structure Options where
  file : Option Word := none
  args : List Word := []
  mode : Mode := .default
  optimize : Bool := false
  noLineNumbers : Bool := false
  links : List (Word × Word) := []
  noStyle : Bool := false
  formatNo : List Ty := []
  deriving DecidableEq, Repr

inductive Error where
  | modes
  | noLinkArgument
  | noEquals
  | duplicateLink
  | key
  deriving DecidableEq, Repr

/-- models: main.rs:235-244 `Mode::set` -/
def setMode (o : Options) (m : Mode) : Except Error Options := if o.mode ≠ .default then .error .modes else .ok { o with mode := m }

/-- models: `str::split_once('=')` -/
def splitOnce : Word → Option (Word × Word)
  | [] => none
  | c :: cs => if c = '=' then some ([], cs) else (splitOnce cs).map fun p => (c :: p.1, p.2)

/-- models: `str::split(',')` -/
def splitComma : Word → List Word
  | [] => [[]]
  | c :: cs => if c = ',' then [] :: splitComma cs else match splitComma cs with
    | [] => [[c]]
    | w :: ws => (c :: w) :: ws

/-- models: main.rs:121-130 -/
def keyOf (w : Word) : Option Ty :=
  if w = "keyword".toList then some .keyword
  else if w = "constant".toList then some .constant
  else if w = "native".toList then some .native
  else if w = "type".toList then some .type
  else if w = "number".toList then some .number
  else if w = "string".toList then some .string
  else if w = "syntax".toList then some .syntax
  else if w = "comment".toList then some .comment
  else none

/-- models: main.rs:117-131: the loop over the keys -/
def addKeys : List Word → Options → Except Error Options
  | [], o => .ok o
  | k :: ks, o => match keyOf k with
    | none => .error .key
    | some t => addKeys ks { o with formatNo := if t ∈ o.formatNo then o.formatNo else o.formatNo ++ [t] }

def formatNoPrefix : Word := "--format-no=".toList

/-- models: main.rs:107-113 -/
def addLink (target : Word) (o : Options) : Except Error Options :=
  match splitOnce target with
  | none => .error .noEquals
  | some (m, l) => if m ∈ o.links.map Prod.fst then .error .duplicateLink else .ok { o with links := o.links ++ [(m, l)] }

/-- models: main.rs:98-141: the loop over the arguments, after the name of the program -/
def parseLoop : List Word → Options → Except Error Options
  | [], o => .ok o
  | w :: ws, o =>
    if w = "-h".toList ∨ w = "--help".toList then (setMode o .help).bind (parseLoop ws)
    else if w = "-v".toList ∨ w = "--version".toList then (setMode o .version).bind (parseLoop ws)
    else if w = "-d".toList ∨ w = "--disassembly".toList then (setMode o .disassembly).bind (parseLoop ws)
    else if w = "-f".toList ∨ w = "--format".toList then (setMode o .format).bind (parseLoop ws)
    else if w = "-o".toList ∨ w = "--optimize".toList then parseLoop ws { o with optimize := true }
    else if w = "--no-line-numbers".toList then parseLoop ws { o with noLineNumbers := true }
    else if w = "--format-no-style".toList then parseLoop ws { o with noStyle := true }
    else if w = "-l".toList ∨ w = "--link".toList then
      match ws with
      | [] => .error .noLinkArgument
      | t :: ws => (addLink t o).bind (parseLoop ws)
    else if formatNoPrefix.isPrefixOf w then (addKeys (splitComma (w.drop formatNoPrefix.length)) o).bind (parseLoop ws)
    else .ok { o with file := some w, args := ws }

/-- models: main.rs:83-96 `parse_args` -/
def parseArgs (ws : List Word) : Except Error Options := parseLoop ws {}

/-- What the command does -/
inductive Action where
  | usage (e : Error)
  | help
  | version
  | repl (links : List (Word × Word))
  | page (file : Word) (style : Bool) (skip : List Ty)
  | listing (file : Word) (optimize lineNumbers : Bool)
  | run (file : Word) (optimize : Bool) (links : List (Word × Word)) (args : List Word)
  deriving DecidableEq, Repr

/-- models: main.rs:56-81 `main`, 151-180 `run_main`, 195-198 `run_repl` -/
def action (ws : List Word) : Action :=
  match parseArgs ws with
  | .error e => .usage e
  | .ok o =>
    if o.mode = .help then .help
    else if o.mode = .version then .version
    else match o.file with
      | none => .repl o.links
      | some f =>
        if o.mode = .format then .page f (!o.noStyle) o.formatNo
        else if o.mode = .disassembly then .listing f o.optimize (!o.noLineNumbers)
        else .run f o.optimize o.links o.args

end Cordy.Cli
