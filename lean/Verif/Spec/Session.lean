import Verif.Spec.Calls
/-!
# The rules of a session

The specification for C79: what a session with the interpreter (the lines that are typed) does. A line is statements, some of which may define functions. The variables of a line are there in the lines after it. If a line ends with an
expression, its value is printed. If a line fails the error is reported, what was done is done, and the session goes on.
-/
namespace Cordy.Session
open Cordy.Codegen (Out)
open Cordy.Full (sig)
open Cordy.Stmts (Block Stmt)
open Cordy.Program (Fn Prog World lang callFn withCalls)
variable {Γ : Codegen.Sig} {E S : Type}

/-- A line: its functions, and its statements. -/
structure Line (Γ : Codegen.Sig) where
  fns : List (Fn Γ)
  body : Block (sig Γ)

/-- The language after the functions `fns` have been defined. If there is an error, the variables of the session are those that all calls under way are made from; they are in the world (or `vs`, if there are no calls). -/
def here (P : Prog Γ E S) (fns : List (Fn Γ)) : Prog Γ E S :=
  { P with base := { P.base with bot := fun vs w => w.1.getLastD vs }, fns := fns }

/-- How a line ends: in `stop`, with the variables in scope. -/
inductive LineEnd (Γ : Codegen.Sig) (E S : Type) where
  | ok (vs : List Γ.V) (w : World Γ.V S)
  | ret (v : Γ.V) (w : World Γ.V S)
  | stop (r : Codegen.Stop E) (w : World Γ.V S) (vs : List Γ.V)

/-- The value of the line is printed: `print` is called. -/
def printed (P : Prog Γ E S) (n : Nat) (print : Γ.V) (v : Γ.V) (vs : List Γ.V) (w : World Γ.V S) : LineEnd Γ E S :=
  match ((withCalls P (callFn P n)).prims vs.length).call print [v] (⟨vs, rfl⟩, w) with
  | .ok _ (vs, w) => .ok vs.1 w
  | .stop r (vs, w) => .stop r w (P.base.bot vs.1 w)

/-- A line, with the variables `vs`, if `n` is enough. -/
def lineEnd (P : Prog Γ E S) (n : Nat) (print : Γ.V) (body : Block (sig Γ)) (vs : List Γ.V) (s : S) : Option (LineEnd Γ E S) :=
  match Stmts.runB (lang P n) n body vs ([], s) with
  | some (.normal vs none w) => some (.ok vs w)
  | some (.normal vs (some v) w) => some (printed P n print v vs w)
  | some (.ret v w) => some (.ret v w)
  | some (.stop (r, w, vs)) => some (.stop r w vs)
  | _ => none

/-- How many variables a statement declares for the statements after it. -/
def declares : Stmt (sig Γ) → Nat
  | .letIn l _ => l.vars
  | .decl n => n
  | _ => 0

/-- How many variables a line declares. -/
def declared : Block (sig Γ) → Nat
  | .nil => 0
  | .cons st b => declares st + declared b

/-- How many variables there are when the statement that fails starts. -/
def reached (P : Prog Γ E S) (n : Nat) : Block (sig Γ) → List Γ.V → World Γ.V S → Nat
  | .nil, vs, _ => vs.length
  | .cons st b, vs, w =>
    match Stmts.runS (lang P n) n st vs w with
    | some (.normal vs _ w) => reached P n b vs w
    | _ => vs.length

/-- How a session ends (when there are no more lines): it waits for a line, with its variables; or a line left it; or a native function panicked. `crash`: the machine is in a state it should not be in. `lost`: the rules do not say how the session goes on. -/
inductive End (Γ : Codegen.Sig) (S : Type) where
  | ready (vs : List Γ.V) (s : S)
  | quit (s : S)
  | panic
  | crash
  | lost

/-- When a line of `body` fails, and `vs` are the variables in scope: all variables that the line declares have got their values by statements before the one that fails. -/
def Whole (P : Prog Γ E S) (n : Nat) (body : Block (sig Γ)) (vs0 : List Γ.V) (s : S) (vs : List Γ.V) : Prop :=
  reached P n body vs0 ([], s) = vs0.length + declared body ∧ vs0.length + declared body ≤ vs.length

/-- The rules of a session: `fns` are the functions defined so far, `vs` the variables. `report e` is what reporting `e` does. -/
inductive Says (P : Prog Γ E S) (print : Γ.V) (report : E → S → S) : List (Fn Γ) → List Γ.V → S → List (Line Γ) → End Γ S → Prop
  | done {fns vs s} : Says P print report fns vs s [] (.ready vs s)
  | next {fns vs s l ls n vs' w x} : lineEnd (here P (fns ++ l.fns)) n print l.body vs s = some (.ok vs' w) →
      Says P print report (fns ++ l.fns) vs' w.2 ls x → Says P print report fns vs s (l :: ls) x
  /-- an error: the variables of the line stay, with the values that they have -/
  | failed {fns vs s l ls n e w vs' x} : lineEnd (here P (fns ++ l.fns)) n print l.body vs s = some (.stop (.err e) w vs') → e ≠ P.diverge →
      Whole (here P (fns ++ l.fns)) n l.body vs s vs' →
      Says P print report (fns ++ l.fns) (vs'.take (vs.length + declared l.body)) (report e w.2) ls x → Says P print report fns vs s (l :: ls) x
  | quit {fns vs s l ls n w vs'} : lineEnd (here P (fns ++ l.fns)) n print l.body vs s = some (.stop .exit w vs') → Says P print report fns vs s (l :: ls) (.quit w.2)
  | panic {fns vs s l ls n w vs'} : lineEnd (here P (fns ++ l.fns)) n print l.body vs s = some (.stop .panic w vs') → Says P print report fns vs s (l :: ls) .panic
  /-- an error before all variables of the line have a value: there is no rule what is in them -/
  | lost {fns vs s l ls n e w vs'} : lineEnd (here P (fns ++ l.fns)) n print l.body vs s = some (.stop (.err e) w vs') → e ≠ P.diverge →
      ¬ Whole (here P (fns ++ l.fns)) n l.body vs s vs' → Says P print report fns vs s (l :: ls) .lost
  /-- there is no rule for `return` outside of a function -/
  | ret {fns vs s l ls n v w} : lineEnd (here P (fns ++ l.fns)) n print l.body vs s = some (.ret v w) → Says P print report fns vs s (l :: ls) .lost

end Cordy.Session
