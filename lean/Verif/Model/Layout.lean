import Verif.Model.Graph
import Verif.Model.Calls
/-!
# Laying out the functions of a program

Models the end of a compilation (`compiler/parser/mod.rs:228-263` `teardown`): the main code and then the code of every function is appended to the
code that is already there (that of earlier lines of a REPL session, or of the program that calls `eval`), and the placeholders of the functions in the
constant table are replaced.  Constants other than functions are an abstract type `V`; how equal constants are shared is C58 (`Model/Decls.lean`).
-/
namespace Cordy.Layout
open Cordy.Graph

variable {O T L V : Type}

/-- models: semantic.rs:672-700 `ParserFunctionImpl`: what is known of a function when it has been parsed (and optimized). `text` is what
`Function::to_repr_str` will print of it (func.rs:108-110: name and parameter names), `defaults` are the blocks that start after each default value. -/
structure FnDef (O T L : Type) where
  text : String
  nparams : Nat
  variadic : Bool
  defaults : List Nat
  code : Graph.Code O T L

/-- models: func.rs:26-46 `Function`; its address, parameters and default offsets are those of `Calls.Func` -/
structure Function where
  func : Calls.Func
  tail : Nat
  text : String

/-- A constant: a value or a function. -/
inductive Const (V : Type) where
  | value (v : V)
  | fn (f : Function)

/-- models: the parts of compiler.rs `CompileResult` that the emission of code changes: the code, the locations (parallel to it), the constants. -/
structure Image (O T L V : Type) where
  code : List (Instr O T) := []
  locs : List L := []
  consts : List (Const V) := []

/-- A declaration in the constant table, in the order of the source. -/
inductive Decl (O T L V : Type) where
  | value (v : V)
  | fn (f : FnDef O T L)

/-- models: the parser's `constants` and `functions` -/
structure Parsing (O T L V : Type) where
  consts : List (Const V)
  functions : List (FnDef O T L × Nat) := []

/-- models: semantic.rs:883-890 `declare_const` of a value that is not in the table yet, and 935-953 `declare_function`: a placeholder (`nil`). -/
def declare (nil : V) (p : Parsing O T L V) : Decl O T L V → Parsing O T L V
  | .value v => { p with consts := p.consts ++ [.value v] }
  | .fn f => { consts := p.consts ++ [.value nil], functions := p.functions ++ [(f, p.consts.length)] }

/-- models: mod.rs:239-255 one turn of the loop of `teardown` over the functions, and semantic.rs:706-710 `bake` -/
def bakeFn (ph : O) (noLoc : L) (img : Image O T L V) (p : FnDef O T L × Nat) : Image O T L V :=
  let head := img.code.length
  let out := emit ph noLoc p.1.code img.code img.locs
  { code := out.1, locs := out.2.1,
    consts := img.consts.set p.2 (.fn ⟨⟨head, p.1.nparams, p.1.defaults.map (fun b => out.2.2.getD b 0 - head), p.1.variadic⟩, out.1.length - 1, p.1.text⟩) }

/-- A compilation: what is declared, and the main code. -/
structure Unit' (O T L V : Type) where
  decls : List (Decl O T L V)
  main : Graph.Code O T L

/-- models: mod.rs:228-255 `parse`…`teardown` -/
def compile (nil : V) (ph : O) (noLoc : L) (img : Image O T L V) (u : Unit' O T L V) : Image O T L V :=
  let p := u.decls.foldl (declare nil) { consts := img.consts }
  let out := emit ph noLoc u.main img.code img.locs
  p.functions.foldl (bakeFn ph noLoc) { code := out.1, locs := out.2.1, consts := p.consts }

/-- A program and the lines or `eval`s after it: each is compiled on top of the ones before. -/
def session (nil : V) (ph : O) (noLoc : L) (img : Image O T L V) (us : List (Unit' O T L V)) : Image O T L V :=
  us.foldl (compile nil ph noLoc) img

/-- models: func.rs:94-96 `contains_ip` -/
def Function.containsIp (f : Function) (ip : Nat) : Bool := decide (f.func.head ≤ ip) && decide (ip ≤ f.tail)

def ownerOf (ip : Nat) : Const V → Option String
  | .value _ => none
  | .fn f => if f.containsIp ip then some f.text else none

/-- models: vm/error.rs `find_owning_function`: the name that stack traces show for the code at `ip` -/
def owner (consts : List (Const V)) (ip : Nat) : String := (consts.findSome? (ownerOf ip)).getD "<script>"

end Cordy.Layout
