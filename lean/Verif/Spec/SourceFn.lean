import Verif.Spec.SourceStmt
import Verif.Spec.Calls
import Verif.Model.SourceFn
/-!
# The meaning of a program with functions

The specification for C82, on top of that for C81 (`Spec/SourceStmt`) and C76 (`Spec/Calls`): the scopes of names in functions, and the meaning of a call.
-/
namespace Cordy.Source
open Cordy.Grammar
open Cordy.Codegen (Out)
open Cordy.Program (Prog World withCalls withDefaults bindPatterns)

variable {Γ : Codegen.Sig}

/-- A function: the number of parameters that need an argument, the default values of the others, the parameters that are patterns (position, number of names, the pattern with the names in scope) or `_`, the body with the names in scope; and what other names mean, in default values and in the body. -/
structure SFn (Γ : Codegen.Sig) where
  required : Nat
  defaults : List E
  patterns : List (Nat × Option (Nat × (Names × List (Pat String))))
  body : Stmts.Block (srcSig Γ)
  inDefaults : Scope Γ
  inBody : Scope Γ

/-- A name that is neither one of the language nor a variable of the function is a variable of the main program, the one with the place `i` among those outside of blocks. -/
def withGlobals (I : Scope Γ) (glob : Nat → Γ.X) (ns : List String) : Scope Γ := { I with glob := fun x => (place x (ns.map some)).map glob }

/-- The default value of a parameter: without arguments for it, `*x` is empty. -/
def given : Pat String × Option E → Option E
  | (.star _, none) => some (.list [])
  | (_, d) => d

/-- A parameter without a default value. -/
def needed (p : Pat String × Option E) : Bool := (given p).isNone

/-- A parameter `*x`. -/
def takesRest : Pat String × Option E → Bool
  | (.star _, _) => true
  | _ => false

/-- Parameters with default values come last, of these the `*x`, which are given no other default value. -/
def Ordered (ps : List (Pat String × Option E)) : Prop :=
  (∀ p ∈ ps.dropWhile needed, ¬ needed p) ∧ ∀ p ∈ ps.dropWhile (fun p => !takesRest p), takesRest p ∧ p.2 = none

instance (ps : List (Pat String × Option E)) : Decidable (Ordered ps) :=
  decidable_of_iff ((∀ p ∈ ps.dropWhile needed, ¬ needed p) ∧ ∀ p ∈ ps.dropWhile (fun p => !takesRest p), takesRest p ∧ p.2.isNone) (by simp [Ordered])

/-- The name of an argument. -/
def argName : Pat String → Option String
  | .name x | .star x => some x
  | _ => none

/-- The names in a pattern. -/
def argNames : Pat String → List String
  | .terms qs => Pat.varsAll qs
  | _ => []

/-- The parameters that are patterns or `_`, from number `i` on, where the names `ns` are in scope. -/
def argPatterns (ns : Names) : Nat → List (Pat String) → List (Nat × Option (Nat × (Names × List (Pat String))))
  | _, [] => []
  | i, p :: ps =>
    match p with
    | .terms qs => (i, some ((Pat.varsAll qs).length, (ns, qs))) :: argPatterns ns (i + 1) ps
    | .hole | .starHole => (i, none) :: argPatterns ns (i + 1) ps
    | .name _ | .star _ => argPatterns ns (i + 1) ps

/-- The variables of a function: its arguments, then the names in patterns. -/
def namesIn (ps : List (Pat String)) : Names := ps.map argName ++ (ps.flatMap argNames).map some

/-- The names in the parameters are different, and none is a name of the language. Default values can use the variables `before` that were declared before the function, the body can use all variables of the program. -/
def scopeFn (I : Scope Γ) (glob : Nat → Γ.X) (tops before : List String) (F : FnText) : Option (SFn Γ) :=
  let ps := F.params.map Prod.fst
  let xs := ps.filterMap argName ++ ps.flatMap argNames
  if xs.Nodup ∧ (∀ x ∈ xs, Free I [] x) ∧ Ordered F.params then
    (scopeB (withGlobals I glob tops) false (namesIn ps) F.body []).map fun b =>
      ⟨(F.params.takeWhile needed).length, (F.params.dropWhile needed).filterMap given, argPatterns (namesIn ps) 0 ps, b, withGlobals I glob before, withGlobals I glob tops⟩
  else none

/-- The statements of a block. -/
def SBlock.list : SBlock → List SStmt
  | .nil => []
  | .cons s b => s :: b.list

def SBlock.ofList : List SStmt → SBlock
  | [] => .nil
  | s :: b => .cons s (ofList b)

/-- The names that a statement adds to those of the block it is in. -/
def SStmt.declares : SStmt → List String
  | .lets ds => ds.flatMap fun | .bind ps _ => Pat.varsAll ps | .names xs => xs
  | .fn f _ _ => [f]
  | _ => []

def SStmt.isFn : SStmt → Bool
  | .fn _ _ _ => true
  | _ => false

/-- The function that a statement after the statements `pre` defines, with the names that were declared before it. -/
def SStmt.function (pre : List SStmt) : SStmt → Option (List String × FnText)
  | .fn f ps body => some (pre.flatMap SStmt.declares, ⟨f, ps, body⟩)
  | _ => none

/-- The functions of a program, in the order of the text. -/
def functionsOf (p : List SStmt) : List (List String × FnText) :=
  (List.range p.length).filterMap fun (i : Nat) => p[i]?.bind (SStmt.function (p.take i))

/-- A statement in the main program, after the statements `pre`: `fn f` is `let f = ` the function, which has the number of the functions before it. -/
def SStmt.inMain (pre : List SStmt) : SStmt → SStmt
  | .fn f _ _ => .lets [.bind [.name f] (.func (pre.countP SStmt.isFn))]
  | s => s

/-- The main program. -/
def mainOf (p : List SStmt) : SBlock := .ofList (p.mapIdx fun i s => s.inMain (p.take i))

/-- The functions and the main program; all of them see the variables that are declared anywhere in the main program outside of blocks. -/
def scopeProgram (I : Scope Γ) (glob : Nat → Γ.X) (p : SBlock) : Option (List (SFn Γ) × Stmts.Block (srcSig Γ)) :=
  match (functionsOf p.list).mapM (fun F => scopeFn I glob (p.list.flatMap SStmt.declares) F.1 F.2), scopeB (withGlobals I glob []) false [] (mainOf p.list) [] with
  | some Fs, some q => some (Fs, q)
  | _, _ => none

mutual
/-- How often a name of `xs` is loaded or stored in an expression. -/
def usesE (xs : List String) : E → Nat
  | .lit _ | .opRef _ | .opRefU _ | .fieldRef _ | .func _ => 0
  | .var x => if x ∈ xs then 1 else 0
  | .comma as _ | .list as | .set as | .dict as => usesAll xs as
  | .ite c t f => usesE xs c + usesE xs t + usesE xs f
  | .call f as => usesE xs f + usesAll xs as
  | .index a i => usesE xs a + usesE xs i
  | .slice a i j => usesE xs a + usesE xs i + usesE xs j
  | .sliceStep a i j k => usesE xs a + usesE xs i + usesE xs j + usesE xs k
  | .field a _ | .unary _ a | .secL _ a | .secR _ a | .unroll a => usesE xs a
  | .bin _ l r => usesE xs l + usesE xs r
  | .compare l ops => usesE xs l + usesOps xs ops
  | .assign .eq l r => usesE xs l + usesE xs r
  | .assign _ l r => 2 * usesE xs l + usesE xs r
def usesAll (xs : List String) : List E → Nat
  | [] => 0
  | e :: es => usesE xs e + usesAll xs es
def usesOps (xs : List String) : List (Cmp × E) → Nat
  | [] => 0
  | (_, e) :: ops => usesE xs e + usesOps xs ops
end

mutual
/-- How often in statements. -/
def SStmt.uses (xs : List String) : SStmt → Nat
  | .expr e => usesE xs e
  | .semi | .brk | .cont => 0
  | .lets ds => (ds.map fun | .bind _ e => usesE xs e | .names _ => 0).sum
  | .ite c t els => usesE xs c + t.uses xs + els.uses xs
  | .while c body els => usesE xs c + body.uses xs + els.uses xs
  | .doW body c els => body.uses xs + (match c with | some c => usesE xs c | none => 0) + els.uses xs
  | .loop body => body.uses xs
  | .for _ e body els => usesE xs e + body.uses xs + els.uses xs
  | .assert e msg => usesE xs e + (match msg with | some m => usesE xs m | none => 0)
  | .ret e => match e with | some e => usesE xs e | none => 0
  | .fn _ _ body => body.uses xs
def SBlock.uses (xs : List String) : SBlock → Nat
  | .nil => 0
  | .cons s b => s.uses xs + b.uses xs
def SElse.uses (xs : List String) : SElse → Nat
  | .none => 0
  | .els b => b.uses xs
  | .elif c t els => usesE xs c + t.uses xs + els.uses xs
  | .elifThen e => usesE xs e
end

/-- Every function uses the names that are declared after it at most once. (With two such uses the compiler may exchange them, C65.) -/
def LateOnce (p : SBlock) : Prop :=
  ∀ F ∈ functionsOf p.list, F.2.body.uses ((p.list.flatMap SStmt.declares).filter fun x => x ∉ F.1 ++ [F.2.name]) ≤ 1

/-- The names of a function are known. -/
def SFn.known (slot : Nat → Γ.X) (F : SFn Γ) : Prop :=
  (∀ e ∈ F.defaults, Known (within F.inDefaults slot []) e) ∧ F.body.each fun (e : Names × E) => Known (within F.inBody slot e.1) e.2

/-- No assignment `a->f .= g` (C36), and none of the statements that are miscompiled (C64). -/
def SFn.fine (F : SFn Γ) : Prop := (∀ e ∈ F.defaults, NoFieldDot e) ∧ (F.body.each fun (e : Names × E) => NoFieldDot e.2) ∧ F.body.ok none false

variable {Er S : Type}

/-- A call of the function with number `fn`: the default values of the parameters without an argument, then the arguments are destructured by the patterns, then the body. Calls are at most `n` deep, loops have at most `n` turns. -/
def callSrc (P : Prog Γ Er S) (slot : Nat → Γ.X) (fns : List (SFn Γ)) : Nat → Nat → List Γ.V → World Γ.V S → Out Er (World Γ.V S) Γ.V
  | 0, _, _, w => .stop (.err P.diverge) w
  | n + 1, fn, args, w =>
    match fns[fn]? with
    | some F =>
      if F.required ≤ args.length ∧ args.length ≤ F.required + F.defaults.length then
        match withDefaults (srcLang (withCalls P (callSrc P slot fns n)) F.inDefaults slot) ((F.defaults.drop (args.length - F.required)).map ([], ·)) args w with
        | .ok (vs, w') =>
          match bindPatterns (srcLang (withCalls P (callSrc P slot fns n)) F.inBody slot) F.patterns (vs ++ List.replicate (Program.names F.patterns) P.base.nil) w' with
          | .ok (vs, w') =>
            match Stmts.callBody (srcLang (withCalls P (callSrc P slot fns n)) F.inBody slot) n F.body vs w' with
            | some (.ok (v, w)) => .ok v w
            | some (.error (r, w, _)) => .stop r w
            | none => .stop (.err P.diverge) w
          | .error (r, w, _) => .stop r w
        | .error (r, w, _) => .stop r w
      else .stop .panic w
    | none => .stop .panic w

/-- The result of the main program, if `n` is enough; `P`: what operators, native functions and calls of values do. -/
def resultSrc (P : Prog Γ Er S) (I : Scope Γ) (slot glob : Nat → Γ.X) (fns : List (SFn Γ)) (n : Nat) (main : Stmts.Block (srcSig Γ)) (s : S) : Option (Except (Full.Bad Γ.V Er (World Γ.V S)) (World Γ.V S)) :=
  match Stmts.runB (srcLang (withCalls P (callSrc P slot fns n)) (withGlobals I glob []) slot) n main [] ([], s) with
  | some (.normal _ _ w) => some (.ok w)
  | some (.stop r) => some (.error r)
  | _ => none

end Cordy.Source
