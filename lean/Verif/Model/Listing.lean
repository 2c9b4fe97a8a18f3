import Verif.Model.Peephole
import Verif.Model.Reporting
/-!
# The listing of `-d`

Models `CompileResult::disassemble` (compiler/mod.rs:225-249) and `Opcode::disassembly` (vm/opcode.rs:161-211) on the code that
`Model/Graph` emits from the blocks of `Model/Peephole`.  The location of an opcode comes with the name that `push_at` records for
it (core/mod.rs:289-306, graph.rs:207-216: a map from the opcode to the name, which `emit` reads again, so that the name belongs to
the opcode as the location does).
-/
namespace Cordy.Listing
open Cordy.Scan (Loc)
open Cordy.VM Cordy.Graph

abbrev Word := List Char

/-- models: compiler/parser/core/graph.rs:60-80 `BranchType` apart from `Jump`; the comparisons by their names -/
inductive Branch where
  | ifTrue | ifFalse | ifTruePop | ifFalsePop | testIterable | compare (op : Word) | assertTest | assertCompare (op : Word)

/-- An opcode of the code, with its location and the name recorded for it. `O` are the other opcodes. -/
abbrev Entry (O : Type) := Instr (Op O) Branch × (Loc × Option Word)

/-- models: graph.rs:156-162: the names of the opcodes that have one, in the order of the code, which is all that is kept of them -/
def namesOf {O : Type} (code : List (Entry O)) : List Word := code.filterMap fun e => e.2.2

/-- models: Rust's `{}` of an unsigned number -/
def dec (n : Nat) : Word := if n < 10 then [Nat.digitChar n] else dec (n / 10) ++ [Nat.digitChar (n % 10)]

/-- models: Rust's `{:0>width$}` -/
def pad (w : Nat) (s : Word) : Word := List.replicate (w - s.length) '0' ++ s

/-- models: Rust's `{}` of a signed number -/
def decInt (i : Int) : Word := if i < 0 then '-' :: dec i.natAbs else dec i.natAbs

/-- `name(arg)` -/
def app (name : String) (arg : Word) : Word := name.toList ++ '(' :: arg ++ [')']

/-- models: util.rs:56-60 `add_offset` of `offset + 1` -/
def target (ip : Nat) (off : Int) : Word := dec (((ip : Int) + (off + 1)) % 2 ^ 64).toNat

/-- models: opcode.rs:180-195: what is shown of an opcode of a variable without its name -/
def varText {O : Type} : Op O → Option Word
  | .storeGlobal i true => some (app "StoreGlobalPop" (dec i))
  | .storeGlobal i false => some (app "StoreGlobal" (dec i))
  | .storeLocal i true => some (app "StoreLocalPop" (dec i))
  | .storeLocal i false => some (app "StoreLocal" (dec i))
  | .pushGlobal i => some (app "PushGlobal" (dec i))
  | .pushLocal i => some (app "PushLocal" (dec i))
  | _ => none

/-- models: opcode.rs:198-209; `show` gives the text of the other opcodes -/
def plainText {O : Type} (shw : O → Word) (ip : Nat) : Instr (Op O) Branch → Word
  | .jump off => app "Jump" (target ip off)
  | .cjump .ifTrue off => app "JumpIfTrue" (target ip off)
  | .cjump .ifFalse off => app "JumpIfFalse" (target ip off)
  | .cjump .ifTruePop off => app "JumpIfTruePop" (target ip off)
  | .cjump .ifFalsePop off => app "JumpIfFalsePop" (target ip off)
  | .cjump .testIterable off => app "TestIterable" (target ip off)
  | .cjump (.compare op) off => op ++ app "Compare" (target ip off)
  | .cjump .assertTest off => app "AssertTest" (decInt off)
  | .cjump (.assertCompare op) off => app "AssertCompare" (op ++ ", ".toList ++ decInt off)
  | .op .pop => "Pop".toList
  | .op (.popN n) => app "PopN" (dec n)
  | .op (.pushUp i) => app "PushUpValue" (dec i)
  | .op (.storeUp i) => app "StoreUpValue" (dec i)
  | .op (.other o) => shw o
  | .op o => (varText o).getD []

/-- models: opcode.rs:161-211 `disassembly`: the text and the names that are left -/
def disassembly {O : Type} (shw : O → Word) (ip : Nat) (names : List Word) (i : Instr (Op O) Branch) : Word × List Word :=
  match i with
  | .op o =>
    match varText o, names with
    | some t, n :: ns => (t ++ " -> ".toList ++ n, ns)
    | some t, [] => (t, [])
    | none, ns => (plainText shw ip i, ns)
  | i => (plainText shw ip i, names)

/-- models: compiler/mod.rs:227-232: the number of digits -/
def width : Nat → Nat
  | 0 => 0
  | n + 1 => width ((n + 1) / 10) + 1

/-- models: compiler/mod.rs:239-244: the label of a line; `none` for `usize::MAX` -/
def label (w : Nat) (line last : Option Nat) : Word :=
  match line with
  | some l => if some l ≠ last then 'L' :: pad w (dec (l + 1)) ++ ": ".toList else List.replicate (w + 3) ' '
  | none => List.replicate (w + 3) ' '

/-- models: compiler/mod.rs:236-247: the loop -/
def loop {O : Type} (shw : O → Word) (lineno : Loc → Option Nat) (w : Nat) (numbers : Bool) : Nat → Option Nat → List Word → List (Entry O) → List Word
  | _, _, _, [] => []
  | ip, last, names, (i, loc, _) :: es =>
    (label w (lineno loc) last ++ (if numbers then pad 4 (dec (ip % 10000)) else []) ++ ' ' :: (disassembly shw ip names i).1) ::
      loop shw lineno w numbers (ip + 1) ((lineno loc).or last) (disassembly shw ip names i).2 es

/-- models: compiler/mod.rs:225-249 `disassemble` of the code of a text -/
def disassemble {O : Type} (shw : O → Word) (text : List Char) (numbers : Bool) (code : List (Entry O)) : List Word :=
  loop shw (Report.lineno text) (width (Report.lines text).length) numbers 0 none (namesOf code) code

end Cordy.Listing
