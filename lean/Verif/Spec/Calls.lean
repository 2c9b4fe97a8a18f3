import Verif.Spec.Exec
import Verif.Model.Full
/-!
# The rules of programs with functions

The specification for C76: what a call of a function of the program does. The rules for expressions (`Spec/Eval.lean`) and statements
(`Spec/Exec.lean`) leave open what a call does; here a call runs the body of the function by these same rules, and so on for the calls in it.

Since a program need not end, the rules have a bound `n` on the depth of calls and the turns of loops; a run that needs more gives the error
`diverge`, which is no error of the language. What a program does is what it does for some `n` without that error (`C76_rules`: it is then the same for
every such `n`).
-/
namespace Cordy.Program
open Cordy.Codegen (Out Prims)
open Cordy.Full (Runtime Vars langDoc sig)
open Cordy.Stmts (Block callBody)

/-- The world of a program: the variables of the calls under way, innermost first, without those of the function that runs; and the rest. Functions can use
variables of the functions around them, and those of the program, while these calls are under way. -/
abbrev World (V S : Type) := List (List V) × S

/-- What may need the code of a function: a call, and `a[i]` where `a` is a dict with a function as default. -/
inductive Ask (V : Type) where
  | call (f : V) (args : List V)
  | index (a i : V)

/-- What is done to answer: it is known, or it depends on the result of a function of the program, with given arguments, in a given state. So native functions that
are given functions (`map`, `sort_by`, `memoize`, …) are processes with many steps. An error in a function ends the process. -/
inductive Proc (V E S : Type) where
  | done (o : Out E S V)
  | enter (fn : Nat) (args : List V) (s : S) (next : V → S → Proc V E S)

/-- A function: how many parameters it has that need an argument, the default values of the others, the parameters that are patterns (position, number of names, pattern) or `_`, and its body. -/
structure Fn (Γ : Codegen.Sig) where
  required : Nat
  defaults : List (Codegen.Expr Γ)
  patterns : List (Nat × Option (Nat × (sig Γ).P)) := []
  body : Block (sig Γ)

/-- All expressions of the function have property `G`. -/
def Fn.each {Γ : Codegen.Sig} (G : Codegen.Expr Γ → Prop) (F : Fn Γ) : Prop := (∀ e ∈ F.defaults, G e) ∧ F.body.each G

/-- What the parser accepts: `break` and `continue` are in loops, patterns belong to parameters. -/
def Fn.ok {Γ : Codegen.Sig} (F : Fn Γ) : Prop := F.body.ok none false ∧ ∀ q ∈ F.patterns, q.1 < F.required + F.defaults.length

/-- A program: what operators, native functions etc. do, and the functions. -/
structure Prog (Γ : Codegen.Sig) (E S : Type) where
  /-- everything except calls and indexing -/
  base : Runtime Γ E (World Γ.V S)
  ask : Ask Γ.V → World Γ.V S → Proc Γ.V E (World Γ.V S)
  fns : List (Fn Γ)
  diverge : E

variable {Γ : Codegen.Sig} {E S V : Type}

/-- A process, if `run` is what functions do. -/
def Proc.run (run : Nat → List V → S → Out E S V) : Proc V E S → Out E S V
  | .done o => o
  | .enter fn args s next => (run fn args s).bind fun v s => (next v s).run run

/-- `k` variables without a value: after an error in a call they are in the world. -/
def nils (k : Nat) (nil : V) : Vars V k := ⟨List.replicate k nil, List.length_replicate ..⟩

/-- Back to the variables of the caller: `k` variables, with those values that they have now. -/
def back (k : Nat) (nil : V) : Out E (World V S) V → Out E (Vars V k × World V S) V
  | .ok v (vs' :: ws, s) => if h : vs'.length = k then .ok v (⟨vs', h⟩, (ws, s)) else .stop .panic (nils k nil, (vs' :: ws, s))
  | .ok _ ([], s) => .stop .panic (nils k nil, ([], s))
  | .stop r w => .stop r (nils k nil, w)

/-- Operators, native functions and functions together, if `run` is what functions do. During a call the variables of the caller are in the world. -/
def withCalls (P : Prog Γ E S) (run : Nat → List Γ.V → World Γ.V S → Out E (World Γ.V S) Γ.V) : Runtime Γ E (World Γ.V S) :=
  { P.base with
    prims := fun k =>
      { P.base.prims k with
        call := fun f args p => back k P.base.nil ((P.ask (.call f args) (p.1.1 :: p.2.1, p.2.2)).run run)
        index := fun a i p => back k P.base.nil ((P.ask (.index a i) (p.1.1 :: p.2.1, p.2.2)).run run) }
    truthy_eq := P.base.truthy_eq
    cmp_eq := P.base.cmp_eq }

/-- The default values of the parameters without an argument, in order: each is evaluated with the parameters before it as variables, at the time of the call. -/
def withDefaults {Δ : Stmts.Sig} {W R : Type} (Λ : Stmts.Lang Δ W R) : List Δ.X → List Δ.V → W → Except R (List Δ.V × W)
  | [], vs, w => .ok (vs, w)
  | e :: es, vs, w =>
    match Λ.eval e vs w with
    | .ok (v, vs, w) => withDefaults Λ es (vs ++ [v]) w
    | .error r => .error r

/-- How many names the patterns have. -/
def names {P : Type} (pats : List (Nat × Option (Nat × P))) : Nat := (pats.map fun q => (q.2.map Prod.fst).getD 0).sum

/-- The arguments are destructured, from the first pattern to the last. -/
def bindPatterns {Δ : Stmts.Sig} {W R : Type} (Λ : Stmts.Lang Δ W R) : List (Nat × Option (Nat × Δ.P)) → List Δ.V → W → Except R (List Δ.V × W)
  | [], vs, w => .ok (vs, w)
  | (_, none) :: pats, vs, w => bindPatterns Λ pats vs w
  | (i, some (_, p)) :: pats, vs, w =>
    match vs[i]? with
    | none => bindPatterns Λ pats vs w
    | some v =>
      match Λ.destr p v vs w with
      | .ok (vs, w) => bindPatterns Λ pats vs w
      | .error r => .error r

/-- The body of a function, after the default values `es`; the names of the patterns are variables after the parameters. -/
def callWith {Δ : Stmts.Sig} {W R : Type} (Λ : Stmts.Lang Δ W R) (fuel : Nat) (es : List Δ.X) (pats : List (Nat × Option (Nat × Δ.P))) (body : Block Δ) (args : List Δ.V) (w : W) : Option (Except R (Δ.V × W)) :=
  match withDefaults Λ es args w with
  | .ok (vs, w) =>
    match bindPatterns Λ pats (vs ++ List.replicate (names pats) Λ.nil) w with
    | .ok (vs, w) => callBody Λ fuel body vs w
    | .error r => some (.error r)
  | .error r => some (.error r)

/-- A call of function `fn`: its body is run, with the arguments as its variables. -/
def callFn (P : Prog Γ E S) : Nat → Nat → List Γ.V → World Γ.V S → Out E (World Γ.V S) Γ.V
  | 0, _, _, w => .stop (.err P.diverge) w
  | n + 1, fn, args, w =>
    match P.fns[fn]? with
    | some F =>
      if F.required ≤ args.length ∧ args.length ≤ F.required + F.defaults.length then
        match callWith (langDoc (withCalls P (callFn P n))) n (F.defaults.drop (args.length - F.required)) F.patterns F.body args w with
        | some (.ok (v, w)) => .ok v w
        | some (.error (r, w, _)) => .stop r w
        | none => .stop (.err P.diverge) w
      else .stop .panic w
    | none => .stop .panic w

/-- The language of the program, for calls of depth `n` at most. -/
abbrev lang (P : Prog Γ E S) (n : Nat) : Stmts.Lang (sig Γ) (World Γ.V S) (Full.Bad Γ.V E (World Γ.V S)) := langDoc (withCalls P (callFn P n))

/-- The result of the main program, if `n` is enough. -/
def result (P : Prog Γ E S) (n : Nat) (main : Block (sig Γ)) (s : S) : Option (Except (Full.Bad Γ.V E (World Γ.V S)) (World Γ.V S)) :=
  match Stmts.runB (lang P n) n main [] ([], s) with
  | some (.normal _ _ w) => some (.ok w)
  | some (.stop r) => some (.error r)
  | _ => none

end Cordy.Program
