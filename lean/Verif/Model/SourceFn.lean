import Verif.Model.SourceStmt
import Verif.Model.Program
/-!
# From the text of a program with functions to its code

Statements `fn` of the main program (parser/mod.rs:462-488, 512-700), on top of `Model/SourceStmt`. What it gives is what `Model/Program` makes code from.

The names in a function are resolved here when the whole program is known; the parser resolves those that are declared later when they are (semantic.rs:1023-1080 `resolve_late_bindings`), and inserts the opcodes then. That gives the same code if there is one such use in the function, but not always if there are more: C65, which models it. So `C82` has the hypothesis `LateOnce`.

Left out (no code in the model): functions in blocks and in functions, function expressions, parameters `*x = e` (which have two default values), annotations.
-/
namespace Cordy.Source
open Cordy.Grammar
open Cordy.Scan (scan tokens errors)
open Cordy.Codegen (Expr)

/-- A function as it is written. -/
structure FnText where
  name : String
  params : List (Pat String × Option E)
  body : SBlock

/-- The names that a part of a `let` declares. -/
def Dec.vars : Dec → List String
  | .bind ps _ => Pat.varsAll ps
  | .names xs => xs

/-- models: mod.rs:462-488 `parse_named_function`: `fn f` declares the variable `f`, whose value is a constant, the function; like `let f = ...`. With `k` functions and the variables `ns` before: the rest of the main program, the functions (each with the variables of the program before it), and all variables of the main program. -/
def topLevel : Nat → List String → SBlock → SBlock × List (List String × FnText) × List String
  | _, ns, .nil => (.nil, [], ns)
  | k, ns, .cons (.fn f ps body) b =>
    let q := topLevel (k + 1) (ns ++ [f]) b
    (.cons (.lets [.bind [.name f] (.func k)]) q.1, (ns, ⟨f, ps, body⟩) :: q.2.1, q.2.2)
  | k, ns, .cons (.lets ds) b =>
    let q := topLevel k (ns ++ ds.flatMap Dec.vars) b
    (.cons (.lets ds) q.1, q.2.1, q.2.2)
  | k, ns, .cons s b =>
    let q := topLevel k ns b
    (.cons s q.1, q.2.1, q.2.2)

variable {Γ : Codegen.Sig}

/-- models: semantic.rs:1316-1333, mod.rs:985: the variables of the main program, outside of blocks, that functions can use -/
def seeing (I : Scope Γ) (glob : Nat → Γ.X) (ns : List String) : Scope Γ :=
  { I with glob := fun x => (findVar x (ns.map (⟨some ·, 0, true⟩))).map glob }

/-- models: mod.rs:545-591: the default values; a parameter without one cannot follow one with, and after `*x`, for which `[]` is the default value, there is no other than `*y`. `rest`: there was a `*x`. -/
def defaultsOf : Bool → List E → List (Pat String × Option E) → Option (List E)
  | _, ds, [] => some ds
  | _, ds, (.star _, none) :: ps => defaultsOf true (ds ++ [.list []]) ps
  | _, _, (.star _, some _) :: _ => none
  | rest, ds, (_, some e) :: ps => if rest then none else defaultsOf false (ds ++ [e]) ps
  | rest, ds, (_, none) :: ps => if rest then none else if ds.isEmpty then defaultsOf false ds ps else none

/-- Expressions, one after the other. -/
def buildAll (I : Scope Γ) : List E → Option (List (Expr Γ))
  | [] => some []
  | e :: es => (build I e).bind fun e => (buildAll I es).bind fun es => some (e :: es)

/-- models: semantic.rs:478-487 `declare_single_local`: a parameter is one variable, which has no name if it is a pattern or `_` -/
def declareParams (I : Scope Γ) : List (Pat String) → List Var → Option (List Var)
  | [], vs => some vs
  | .name x :: ps, vs | .star x :: ps, vs => (declare I 1 x vs).bind fun vs => declareParams I ps vs
  | _ :: ps, vs => declareParams I ps (vs ++ [⟨none, 1, false⟩])

/-- models: semantic.rs:489-495 `declare_pattern_locals`: the names in the patterns -/
def innerNames : List (Pat String) → List String
  | [] => []
  | .terms qs :: ps => Pat.varsAll qs ++ innerNames ps
  | _ :: ps => innerNames ps

/-- models: mod.rs:641-655: the parameters that are destructured; the next is that with number `i`, there are `k` variables before the names in it -/
def paramPats (I : Scope Γ) (slot : Nat → Γ.X) : Nat → Nat → List (Pat String) → List (Nat × Option (Nat × Γ.P))
  | _, _, [] => []
  | i, k, .terms qs :: ps => (i, some ((Pat.varsAll qs).length, I.pat (numberAll slot k qs))) :: paramPats I slot (i + 1) (k + (Pat.varsAll qs).length) ps
  | i, k, .hole :: ps | i, k, .starHole :: ps => (i, none) :: paramPats I slot (i + 1) k ps
  | i, k, .name _ :: ps | i, k, .star _ :: ps => paramPats I slot (i + 1) k ps

/-- models: mod.rs:512-700: the default values are resolved in the main program (where the name of the function is not known yet), the parameters are at depth 1, the body is at depth 2; `F.1`: the variables of the program before the function, `tops`: all of them -/
def compFn (I : Scope Γ) (slot glob : Nat → Γ.X) (tops : List String) (F : List String × FnText) : Option (Program.Fn Γ) :=
  (defaultsOf false [] F.2.params).bind fun ds =>
  (buildAll (scopeOf (seeing I glob F.1) slot []) ds).bind fun es =>
  (declareParams I (F.2.params.map Prod.fst) []).bind fun ps =>
  (declareAll I 1 (innerNames (F.2.params.map Prod.fst)) ps).bind fun vs =>
  (compB (seeing I glob tops) slot 2 false F.2.body (initFrom 0 vs)).bind fun p =>
  some { required := F.2.params.length - ds.length, defaults := es, patterns := paramPats I slot 0 F.2.params.length (F.2.params.map Prod.fst), body := p.1 }

/-- All functions. -/
def compFns (I : Scope Γ) (slot glob : Nat → Γ.X) (tops : List String) : List (List String × FnText) → Option (List (Program.Fn Γ))
  | [] => some []
  | F :: Fs => (compFn I slot glob tops F).bind fun F => (compFns I slot glob tops Fs).bind fun Fs => some (F :: Fs)

/-- models: compiler/mod.rs:40-63 `compile_internal`, parser/mod.rs:201-272: the text is that of a program, its functions are made from `fns`, the main program from `b` -/
def CompilesWith (I : Scope Γ) (slot glob : Nat → Γ.X) (text : List Char) (fns : List (Program.Fn Γ)) (b : Stmts.Block (Full.sig Γ)) : Prop :=
  errors (scan text) = [] ∧ ∃ ts n p, withBreaks false ((tokens (scan text)).map Prod.snd) = some ts ∧ pStmts n ts = some (p, []) ∧
    (∃ vs, compB (seeing I glob []) slot 0 false (topLevel 0 [] p).1 [] = some (b, vs)) ∧ compFns I slot glob (topLevel 0 [] p).2.2 (topLevel 0 [] p).2.1 = some fns

end Cordy.Source
