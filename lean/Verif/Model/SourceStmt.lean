import Verif.Model.Source
import Verif.Model.Full
/-!
# From the text of a program to its code

The parser of statements (compiler/parser/mod.rs:274-312, 730-1085) with the names of variables (semantic.rs:964-1016, 1205-1336), on top of `Model/Source`. What it gives is what `Model/Full` makes code from.

The parser of the code resolves names and emits while it parses; here that is a second pass over the tree, in the same order. Any reported error is the result `none`.

Left out (no code in the model): functions other than the named ones of the main program (`Model/SourceFn`), structs, modules, assignments to patterns (`a, b = e`), and the expressions that `Model/Source` leaves out.
-/
namespace Cordy.Source
open Cordy.Grammar
open Cordy.Scan (scan tokens errors)
open Cordy.Codegen (Expr)

/-- One part of a `let`: a name or pattern with its value, or names without a value. A pattern without parentheses around it is the list of its terms. -/
inductive Dec where
  | bind (ps : List (Pat String)) (e : E)
  | names (xs : List String)

mutual
/-- models: the statements of mod.rs:274-303 -/
inductive SStmt where
  | expr (e : E)
  | semi
  | lets (ds : List Dec)
  | ite (c : E) (t : SBlock) (els : SElse)
  | while (c : E) (body els : SBlock)
  | doW (body : SBlock) (c : Option E) (els : SBlock)
  | loop (body : SBlock)
  | for (ps : List (Pat String)) (e : E) (body els : SBlock)
  | brk
  | cont
  | assert (e : E) (msg : Option E)
  | ret (e : Option E)
  /-- the name, the parameters with their default values, the body -/
  | fn (f : String) (ps : List (Pat String × Option E)) (body : SBlock)
inductive SBlock where
  | nil
  | cons (s : SStmt) (b : SBlock)
/-- What follows the block of an `if`. -/
inductive SElse where
  | none
  | els (b : SBlock)
  | elif (c : E) (t : SBlock) (els : SElse)
  /-- `elif c then a else b` -/
  | elifThen (e : E)
end

/-! ## Parser -/

/-- models: mod.rs:1075-1079 `parse_expression`: `parse_expr_11(false)`; a comma after it would make it a pattern -/
def pTop (n : Nat) (ts : List T) : Option (E × List T) :=
  match pExpr n ts with
  | some (e, r) => if peek r = some .comma then none else some (e, r)
  | none => none

/-- models: semantic.rs:403-405 `is_variadic` -/
def isStar : Pat String → Bool
  | .star _ | .starHole => true
  | _ => false

mutual
/-- models: mod.rs:1103-1146 `parse_lvalue` -/
def pLV : Nat → List T → Option (Pat String × List T)
  | 0, _ => none
  | n + 1, ts =>
    match ts with
    | (_, .ident x) :: r => some (.name x, r)
    | (_, .word .underscore) :: r => some (.hole, r)
    | (_, .star) :: (_, .ident x) :: r => some (.star x, r)
    | (_, .star) :: (_, .word .underscore) :: r => some (.starHole, r)
    | (_, .lparen) :: r =>
      match pTerms n r with
      | some (ps, (_, .rparen) :: r1) => some (.terms ps, r1)
      | _ => none
    | _ => none
/-- models: mod.rs:1168-1193 `parse_lvalue_terms`: with at most one `*` -/
def pTerms : Nat → List T → Option (List (Pat String) × List T)
  | 0, _ => none
  | n + 1, ts =>
    match pLV n ts with
    | some (p, r) =>
      match r with
      | (_, .comma) :: r1 =>
        match pTerms n r1 with
        | some (ps, r2) => if isStar p && ps.any isStar then none else some (p :: ps, r2)
        | none => none
      | _ => some ([p], r)
    | none => none
end

mutual
/-- models: semantic.rs:422-428 `is_trivially_empty` -/
def emptyP : Pat String → Bool
  | .hole | .starHole => true
  | .name _ | .star _ => false
  | .terms ps => emptyAll ps
def emptyAll : List (Pat String) → Bool
  | [] => true
  | p :: ps => emptyP p && emptyAll ps
end

/-- models: mod.rs:1028-1033, 1149-1166: the target of a `let` cannot be without names, nor `*x` -/
def letTarget (ps : List (Pat String)) : Bool :=
  match ps with
  | [.star _] => false
  | ps => !emptyAll ps

/-- models: mod.rs:1044-1049, semantic.rs:413-419: without a value, there are only names -/
def plainNames : List (Pat String) → Option (List String)
  | [] => some []
  | .name x :: ps => (plainNames ps).map (x :: ·)
  | _ => none

/-- models: mod.rs:1005-1060 `parse_let_statement`, after `let` -/
def pLets : Nat → List T → Option (List Dec × List T)
  | 0, _ => none
  | n + 1, ts =>
    match pTerms n ts with
    | some (ps, r) =>
      if peek r = some .eq then
        if letTarget ps then
          match pLvl n 9 r.tail with
          | some (e, r') =>
            if peek r' = some .comma then
              match pLets n r'.tail with
              | some (ds, r'') => some (.bind ps e :: ds, r'')
              | none => none
            else some ([.bind ps e], r')
          | none => none
        else none
      else
        match plainNames ps with
        | some xs => some ([.names xs], r)
        | none => none
    | none => none

/-- models: mod.rs:577-591: the default value of a parameter, if it has one; `x?` is `x = nil` -/
def pDefault (n : Nat) : List T → Option (Option E × List T)
  | (_, .word .question) :: r => some (some (.lit .nil), r)
  | (_, .eq) :: r =>
    match pExpr n r with
    | some (e, r') => some (some e, r')
    | none => none
  | r => some (none, r)

/-- models: mod.rs:512-598 `parse_function_parameters`, after `(`: names, `_`, `*_`, `*x` and patterns in parentheses; core/mod.rs:43-61 -/
def pParams : Nat → List T → Option (List (Pat String × Option E) × List T)
  | 0, _ => none
  | n + 1, ts =>
    if peek ts = some .rparen then some ([], ts.tail) else
    match pLV n ts with
    | some (p, r) =>
      match pDefault n r with
      | some (d, r1) =>
        match r1 with
        | (_, .rparen) :: r2 => some ([(p, d)], r2)
        | (_, .comma) :: r2 =>
          match pParams n r2 with
          | some (ps, r3) => some ((p, d) :: ps, r3)
          | none => none
        | _ => none
      | none => none
    | none => none

mutual
/-- models: mod.rs:274-303 `parse_statements` -/
def pStmts : Nat → List T → Option (SBlock × List T)
  | 0, _ => none
  | n + 1, ts =>
    if ts = [] ∨ peek ts = some (.word .rbrace) then some (.nil, ts)
    else match pStmt n ts with
      | some (s, r) =>
        match pStmts n r with
        | some (b, r') => some (.cons s b, r')
        | none => none
      | none => none
/-- models: mod.rs:278-300: one statement -/
def pStmt : Nat → List T → Option (SStmt × List T)
  | 0, _ => none
  | n + 1, ts =>
    match ts with
    | (_, .word .kLet) :: r =>
      match pLets n r with
      | some (ds, r') => some (.lets ds, r')
      | none => none
    | (_, .kIf) :: r =>
      match pIf n r with
      | some (.elif c t els, r') => some (.ite c t els, r')
      | some (.elifThen e, r') => some (.expr e, r')
      | _ => none
    | (_, .word .kLoop) :: r =>
      match pBlock n r with
      | some (b, r') => some (.loop b, r')
      | none => none
    | (_, .word .kWhile) :: r =>
      match pTop n r with
      | some (c, r1) =>
        match pBlock n r1 with
        | some (b, r2) =>
          match pLoopElse n r2 with
          | some (els, r3) => some (.while c b els, r3)
          | none => none
        | none => none
      | none => none
    | (_, .word .kDo) :: r =>
      match pBlock n r with
      | some (b, r1) =>
        match r1 with
        | (_, .word .kWhile) :: r2 =>
          match pTop n r2 with
          | some (c, r3) =>
            match pLoopElse n r3 with
            | some (els, r4) => some (.doW b (some c) els, r4)
            | none => none
          | none => none
        | _ =>
          match pLoopElse n r1 with
          | some (els, r2) => some (.doW b none els, r2)
          | none => none
      | none => none
    | (_, .word .kFor) :: r =>
      match pTerms n r with
      | some (ps, (_, .kIn) :: r1) =>
        match pTop n r1 with
        | some (e, r2) =>
          match pBlock n r2 with
          | some (b, r3) =>
            match pLoopElse n r3 with
            | some (els, r4) => some (.for ps e b els, r4)
            | none => none
          | none => none
        | none => none
      | _ => none
    | (_, .word .kBreak) :: r => some (.brk, r)
    | (_, .word .kContinue) :: r => some (.cont, r)
    | (_, .word .kAssert) :: r =>
      match pExpr n r with
      | some (e, r1) =>
        match r1 with
        | (_, .word .colon) :: r2 =>
          match pTop n r2 with
          | some (m, r3) => some (.assert e (some m), r3)
          | none => none
        | _ => some (.assert e none, r1)
      | none => none
    | (_, .word .semi) :: r => some (.semi, r)
    | (_, .word .kReturn) :: r =>
      match r with
      | (_, .word .rbrace) :: _ => some (.ret none, r)
      | (_, .word .semi) :: r1 => some (.ret none, r1)
      | _ =>
        match pTop n r with
        | some (e, r1) => some (.ret (some e), r1)
        | none => none
    | (_, .word .kFn) :: r =>
      match r with
      | (_, .ident f) :: (_, .lparen) :: r1 =>
        match pParams n r1 with
        | some (ps, r2) =>
          match pBody n r2 with
          | some (b, r3) => some (.fn f ps b, r3)
          | none => none
        | none => none
      | _ => none
    | _ =>
      match pTop n ts with
      | some (e, r) => some (.expr e, r)
      | none => none
/-- models: mod.rs:304-312 `parse_block_statement` -/
def pBlock : Nat → List T → Option (SBlock × List T)
  | 0, _ => none
  | n + 1, ts =>
    match ts with
    | (_, .word .lbrace) :: r =>
      match pStmts n r with
      | some (b, (_, .word .rbrace) :: r') => some (b, r')
      | _ => none
    | _ => none
/-- models: mod.rs:658-682: the body of a function, a block or `-> e` -/
def pBody : Nat → List T → Option (SBlock × List T)
  | 0, _ => none
  | n + 1, ts =>
    match ts with
    | (_, .arrow) :: r =>
      match pTop n r with
      | some (e, r') => some (.cons (.expr e) .nil, r')
      | none => none
    | _ => pBlock n ts
/-- models: mod.rs:730-790 `parse_if_statement`, after `if` or `elif` -/
def pIf : Nat → List T → Option (SElse × List T)
  | 0, _ => none
  | n + 1, ts =>
    match pExpr n ts with
    | some (c, r) =>
      if peek r = some .kThen then
        match pThen n c r with
        | some (e, r') => some (.elifThen e, r')
        | none => none
      else match pBlock n r with
        | some (t, r1) =>
          match r1 with
          | (_, .kElif) :: r2 =>
            match pIf n r2 with
            | some (els, r3) => some (.elif c t els, r3)
            | none => none
          | (_, .kElse) :: r2 =>
            match pBlock n r2 with
            | some (b, r3) => some (.elif c t (.els b), r3)
            | none => none
          | _ => some (.elif c t .none, r1)
        | none => none
    | none => none
/-- models: mod.rs:813-818, 838-843, 919-924: the `else` clause of a loop -/
def pLoopElse : Nat → List T → Option (SBlock × List T)
  | 0, _ => none
  | n + 1, ts =>
    match ts with
    | (_, .kElse) :: r => pBlock n r
    | _ => some (.nil, ts)
end

/-! ## Names -/

/-- models: semantic.rs:197-215 `Local`; without a name: a synthetic one -/
structure Var where
  name : Option String
  depth : Nat
  init : Bool

/-- models: semantic.rs:1222-1226: the last one that is initialised, its place -/
def findVar (x : String) : List Var → Option Nat
  | [] => none
  | v :: vs =>
    match findVar x vs with
    | some i => some (i + 1)
    | none => if v.name = some x ∧ v.init = true then some 0 else none

variable {Γ : Codegen.Sig}

/-- models: semantic.rs:1205-1336 `resolve_reference` in the main program: a native function, then the variables; `slot`: the variable of a place on the stack -/
def scopeOf (I : Scope Γ) (slot : Nat → Γ.X) (vs : List Var) : Scope Γ :=
  { I with name := fun x =>
      match I.name x with
      | some n => some n
      | none =>
        match findVar x vs with
        | some i => some (.variable (slot i))
        | none => (I.glob x).map .variable }

/-- models: semantic.rs:964-996 `declare_local` -/
def declare (I : Scope Γ) (depth : Nat) (x : String) (vs : List Var) : Option (List Var) :=
  if (I.name x).isSome then none
  else if vs.any fun v => v.depth = depth ∧ v.name = some x then none
  else some (vs ++ [⟨some x, depth, false⟩])

/-- models: mod.rs:1043-1052, semantic.rs:453-471: names without a value, one after the other -/
def declareAll (I : Scope Γ) (depth : Nat) : List String → List Var → Option (List Var)
  | [], vs => some vs
  | x :: xs, vs => (declare I depth x vs).bind fun vs => declareAll I depth xs vs

/-- models: semantic.rs:500-520 `initialize_locals` -/
def initFrom (n : Nat) (vs : List Var) : List Var := vs.take n ++ (vs.drop n).map fun v => { v with init := true }

mutual
/-- The names in a pattern, from left to right. -/
def Pat.vars {α : Type} : Pat α → List α
  | .name x | .star x => [x]
  | .hole | .starHole => []
  | .terms ps => Pat.varsAll ps
def Pat.varsAll {α : Type} : List (Pat α) → List α
  | [] => []
  | p :: ps => p.vars ++ Pat.varsAll ps
end

mutual
/-- models: semantic.rs:453-471 `declare_locals`: the names of a pattern are the next variables, from left to right; `k` variables before -/
def numberP (slot : Nat → Γ.X) (k : Nat) : Pat String → Pat Γ.X
  | .name _ => .name (slot k)
  | .hole => .hole
  | .starHole => .starHole
  | .star _ => .star (slot k)
  | .terms ps => .terms (numberAll slot k ps)
def numberAll (slot : Nat → Γ.X) (k : Nat) : List (Pat String) → List (Pat Γ.X)
  | [] => []
  | p :: ps => numberP slot k p :: numberAll slot (k + p.vars.length) ps
end

/-- models: mod.rs:1149-1166 `parse_bare_lvalue`, semantic.rs:536-570: one term without parentheses is not a pattern -/
def target (I : Scope Γ) (slot : Nat → Γ.X) (k : Nat) (ps : List (Pat String)) : Stmts.LV (Full.sig Γ) :=
  match ps with
  | [.name _] | [.star _] => .named
  | [.hole] | [.starHole] => .empty
  | ps => .terms (Pat.varsAll ps).length (I.pat (numberAll slot k ps))

/-- models: semantic.rs:1131-1160 `pop_locals`: the variables of this depth and below go -/
def popVars (depth : Nat) (vs : List Var) : List Var := vs.take (vs.countP fun v => v.depth < depth)

/-- Statements one after the other. -/
def appendB {Δ : Stmts.Sig} : List (Stmts.Stmt Δ) → Stmts.Block Δ → Stmts.Block Δ
  | [], b => b
  | s :: ss, b => .cons s (appendB ss b)

/-- models: mod.rs:1008-1060: the parts of a `let` -/
def compDecs (I : Scope Γ) (slot : Nat → Γ.X) (depth : Nat) : List Dec → List Var → Option (List (Stmts.Stmt (Full.sig Γ)) × List Var)
  | [], vs => some ([], vs)
  | .bind ps e :: ds, vs =>
    (declareAll I depth (Pat.varsAll ps) vs).bind fun vs' =>
    (build (scopeOf I slot vs') e).bind fun e =>
    (compDecs I slot depth ds (initFrom vs.length vs')).bind fun p => some (.letIn (target I slot vs.length ps) e :: p.1, p.2)
  | .names xs :: ds, vs =>
    (declareAll I depth xs vs).bind fun vs' =>
    (compDecs I slot depth ds (initFrom vs.length vs')).bind fun p => some (.decl xs.length :: p.1, p.2)

/-- models: mod.rs:962-990: what `assert` tests: a comparison, or another expression -/
def compTest (I : Scope Γ) : E → Option (Stmts.Test (Full.sig Γ))
  | .compare l [(c, r)] => (build I l).bind fun l => (build I r).bind fun r => some (.cmp (I.cmp c) l r false)
  | e => (build I e).map .val

/-- An expression that may be missing. -/
def compOpt (I : Scope Γ) : Option E → Option (Option (Expr Γ))
  | none => some none
  | some e => (build I e).map some

mutual
/-- models: mod.rs:274-303: the statements of a block, at a depth, in a loop or not; with the variables after them -/
def compB (I : Scope Γ) (slot : Nat → Γ.X) (depth : Nat) (lp : Bool) : SBlock → List Var → Option (Stmts.Block (Full.sig Γ) × List Var)
  | .nil, vs => some (.nil, vs)
  | .cons s b, vs =>
    (compS I slot depth lp s vs).bind fun p =>
    (compB I slot depth lp b p.2).bind fun q => some (appendB p.1 q.1, q.2)
/-- models: mod.rs:304-312 `parse_block_statement`: a scope -/
def compBlock (I : Scope Γ) (slot : Nat → Γ.X) (depth : Nat) (lp : Bool) : SBlock → List Var → Option (Stmts.Block (Full.sig Γ) × List Var)
  | b, vs => (compB I slot (depth + 1) lp b vs).bind fun p => some (p.1, popVars (depth + 1) p.2)
/-- models: mod.rs:278-300, 730-1075: one statement -/
def compS (I : Scope Γ) (slot : Nat → Γ.X) (depth : Nat) (lp : Bool) : SStmt → List Var → Option (List (Stmts.Stmt (Full.sig Γ)) × List Var)
  | .expr e, vs => (build (scopeOf I slot vs) e).bind fun e => some ([.expr e], vs)
  | .semi, vs => some ([.semi], vs)
  | .lets ds, vs => compDecs I slot depth ds vs
  | .ite c t els, vs =>
    (build (scopeOf I slot vs) c).bind fun c =>
    (compBlock I slot depth lp t vs).bind fun t =>
    (compElse I slot depth lp els t.2).bind fun els => some ([.ite c t.1 els.1], els.2)
  | .while c body els, vs =>
    (build (scopeOf I slot vs) c).bind fun c =>
    (compBlock I slot depth true body vs).bind fun body =>
    (compBlock I slot depth true els body.2).bind fun els => some ([.while c body.1 els.1], els.2)
  | .doW body c els, vs =>
    (compBlock I slot depth true body vs).bind fun body =>
    (compOpt (scopeOf I slot body.2) c).bind fun c =>
    (compBlock I slot depth true els body.2).bind fun els => some ([.doW body.1 c els.1], els.2)
  | .loop body, vs => (compBlock I slot depth true body vs).bind fun body => some ([.loop body.1], body.2)
  -- the variables of a loop have a depth of their own; after them the iterator has a place
  | .for ps e body els, vs =>
    (declareAll I (depth + 1) (Pat.varsAll ps) vs).bind fun vs' =>
    (build (scopeOf I slot vs') e).bind fun e =>
    (compBlock I slot (depth + 1) true body (initFrom vs.length vs' ++ [⟨none, depth + 1, false⟩])).bind fun body =>
    (compBlock I slot depth true els (popVars (depth + 1) body.2)).bind fun els => some ([.for (target I slot vs.length ps) e body.1 els.1], els.2)
  | .brk, vs => if lp then some ([.brk], vs) else none
  | .cont, vs => if lp then some ([.cont], vs) else none
  | .assert e msg, vs =>
    (compTest (scopeOf I slot vs) e).bind fun t =>
    (compOpt (scopeOf I slot vs) msg).bind fun m => some ([.assert t m], vs)
  | .ret e, vs => (compOpt (scopeOf I slot vs) e).bind fun e => some ([.ret e], vs)
  | .fn _ _ _, _ => none
/-- models: mod.rs:760-789: what follows the block of an `if` -/
def compElse (I : Scope Γ) (slot : Nat → Γ.X) (depth : Nat) (lp : Bool) : SElse → List Var → Option (Stmts.Else (Full.sig Γ) × List Var)
  | .none, vs => some (.none, vs)
  | .els b, vs => (compBlock I slot depth lp b vs).bind fun b => some (.els b.1, b.2)
  | .elif c t els, vs =>
    (build (scopeOf I slot vs) c).bind fun c =>
    (compBlock I slot depth lp t vs).bind fun t =>
    (compElse I slot depth lp els t.2).bind fun els => some (.elif c t.1 els.1, els.2)
  | .elifThen e, vs => (build (scopeOf I slot vs) e).bind fun e => some (.elifThen e, vs)
end

/-- models: compiler/mod.rs:40-63 `compile_internal`, parser/mod.rs:201-208 `parse`: the text is that of a program, and its code is made from `b` -/
def CompilesProgram (I : Scope Γ) (slot : Nat → Γ.X) (text : List Char) (b : Stmts.Block (Full.sig Γ)) : Prop :=
  errors (scan text) = [] ∧ ∃ ts n p, withBreaks false ((tokens (scan text)).map Prod.snd) = some ts ∧ pStmts n ts = some (p, []) ∧ ∃ vs, compB I slot 0 false p [] = some (b, vs)

end Cordy.Source
