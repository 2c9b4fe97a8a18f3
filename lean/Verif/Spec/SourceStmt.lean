import Verif.Spec.Source
import Verif.Spec.Exec
import Verif.Model.SourceStmt
/-!
# The meaning of a program

The specification for C81: a grammar of statements (docs/language.md), the scopes of variables, and the meaning of a program: the rules of statements (`Spec/Exec`), with expressions meaning what `Spec/Source` says.
-/
namespace Cordy.Source
open Cordy.Grammar
open Cordy.Scan (scan tokens errors)
open Cordy.Codegen (Out Prims)

/-! ## Grammar -/

/-- The tokens that come next would go on with an expression that stands before them: arguments, an index and the like on the same line, `->`, operators (before a `)` an operator is a function). `max =` and `min =` are assignments. -/
def goesOn : List T → Bool
  | (line, .lparen) :: _ | (line, .lsq) :: _ | (line, .lit _) :: _ | (line, .kIf) :: _ => !line
  | (line, .ident _) :: r => !line && peek r != some .eq
  | (_, .arrow) :: _ | (_, .dot) :: _ => true
  | (_, .kNot) :: r => peek r == some .kIn && peek r.tail != some .rparen
  | (_, .kIs) :: r => if peek r = some .kNot then peek r.tail != some .rparen else peek r != some .rparen
  | (_, .star) :: r | (_, .slash) :: r | (_, .percent) :: r | (_, .starstar) :: r | (_, .kIn) :: r | (_, .plus) :: r | (_, .minus) :: r | (_, .shl) :: r | (_, .shr) :: r
  | (_, .amp) :: r | (_, .bar) :: r | (_, .caret) :: r | (_, .cmp _) :: r | (_, .kAnd) :: r | (_, .kOr) :: r => peek r != some .rparen
  | _ => false

/-- The tokens that come next are an assignment operator. -/
def assigns : List T → Bool
  | (_, .eq) :: _ | (_, .asg _) :: _ => true
  | (_, .ident s) :: r => (s == "max" || s == "min") && peek r == some .eq
  | _ => false

/-- `ts` begins with the expression `e`, as long as it can be; `rest` is what follows. -/
def BeginsE (e : E) (ts rest : List T) : Prop := ∃ o t, ts = t ++ rest ∧ G .expr o (.e e) t ∧ goesOn rest = false ∧ assigns rest = false

/-- The same, for an expression that is not an assignment; a branch `else e` at its end (`o`) can be one. `max = ...` can follow, as a statement. -/
def BeginsR (e : E) (ts rest : List T) : Prop := ∃ o t, ts = t ++ rest ∧ G (.lvl 9) o (.e e) t ∧ goesOn rest = false ∧ peek rest ≠ some .eq ∧ (o = true → assigns rest = false)

/-- Kinds of phrases, with what they stand for. -/
inductive Ph where
  | stmts (b : SBlock)
  | stmt (s : SStmt)
  | block (b : SBlock)
  /-- after `if` or `elif` -/
  | cond (x : SElse)
  /-- `else { ... }` after a loop, or nothing -/
  | loopElse (b : SBlock)
  /-- after `let` -/
  | lets (ds : List Dec)
  /-- one term of a pattern -/
  | term (p : Pat String)
  /-- terms with commas in between -/
  | terms (ps : List (Pat String))
  /-- after a parameter -/
  | dflt (d : Option E)
  /-- after `(`, with `)` -/
  | params (ps : List (Pat String × Option E))
  /-- a block, or `-> e` -/
  | body (b : SBlock)

/-- `*x` or `*_` -/
def Pat.starred {α : Type} : Pat α → Prop
  | .star _ | .starHole => True
  | _ => False

/-- `GS p ts rest`: the tokens `ts` begin with the phrase `p`, and `rest` is what follows. -/
inductive GS : Ph → List T → List T → Prop where
  -- statements, up to the end or a `}`
  | done {ts} : ts = [] ∨ peek ts = some (.word .rbrace) → GS (.stmts .nil) ts ts
  | more {s b ts r r'} : GS (.stmt s) ts r → GS (.stmts b) r r' → GS (.stmts (.cons s b)) ts r'
  | block {b r r'} (l l') : GS (.stmts b) r ((l', .word .rbrace) :: r') → GS (.block b) ((l, .word .lbrace) :: r) r'
  -- an expression does not begin with `if` here (see `thenElse`), and no comma follows it
  | expr {e ts r} : peek ts ≠ some .kIf → BeginsE e ts r → peek r ≠ some .comma → GS (.stmt (.expr e)) ts r
  | semi {r} (l) : GS (.stmt .semi) ((l, .word .semi) :: r) r
  | lets {ds r r'} (l) : GS (.lets ds) r r' → GS (.stmt (.lets ds)) ((l, .word .kLet) :: r) r'
  -- patterns: names, `_`, `*x`, `*_`, patterns in parentheses; with at most one `*` between the same parentheses
  | name {x r} (l) : GS (.term (.name x)) ((l, .ident x) :: r) r
  | hole {r} (l) : GS (.term .hole) ((l, .word .underscore) :: r) r
  | star {x r} (l l') : GS (.term (.star x)) ((l, .star) :: (l', .ident x) :: r) r
  | starHole {r} (l l') : GS (.term .starHole) ((l, .star) :: (l', .word .underscore) :: r) r
  | parens {ps r r'} (l l') : GS (.terms ps) r ((l', .rparen) :: r') → GS (.term (.terms ps)) ((l, .lparen) :: r) r'
  | term1 {p ts r} : GS (.term p) ts r → peek r ≠ some .comma → GS (.terms [p]) ts r
  | termMore {p ps ts r r'} (l) : GS (.term p) ts ((l, .comma) :: r) → GS (.terms ps) r r' → (p.starred → ∀ q ∈ ps, ¬ q.starred) → GS (.terms (p :: ps)) ts r'
  -- `let x, y`; `let x = e`; `let x, (y, *z) = e, ...`; a pattern that is given a value has names, and it is not `*x` alone
  | letNames {xs ts r} : GS (.terms (xs.map .name)) ts r → peek r ≠ some .eq → GS (.lets [.names xs]) ts r
  | letLast {ps e ts r r'} (l) : GS (.terms ps) ts ((l, .eq) :: r) → Pat.varsAll ps ≠ [] → (∀ x, ps ≠ [.star x]) → BeginsR e r r' → peek r' ≠ some .comma → GS (.lets [.bind ps e]) ts r'
  | letMore {ps e ds ts r r' r''} (l l') : GS (.terms ps) ts ((l, .eq) :: r) → Pat.varsAll ps ≠ [] → (∀ x, ps ≠ [.star x]) → BeginsR e r ((l', .comma) :: r') → GS (.lets ds) r' r'' →
      GS (.lets (.bind ps e :: ds)) ts r''
  -- `if`
  | ite {c t els r r'} (l) : GS (.cond (.elif c t els)) r r' → GS (.stmt (.ite c t els)) ((l, .kIf) :: r) r'
  | thenElse {e r r'} (l) : GS (.cond (.elifThen e)) r r' → GS (.stmt (.expr e)) ((l, .kIf) :: r) r'
  | condThen {e ts r o t} : ts = t ++ r → G .cond o (.e e) t → goesOn r = false → assigns r = false → GS (.cond (.elifThen e)) ts r
  | condNone {c t ts r r'} : BeginsE c ts r → GS (.block t) r r' → peek r' ≠ some .kElif → peek r' ≠ some .kElse → GS (.cond (.elif c t .none)) ts r'
  | condElse {c t b ts r r' r''} (l) : BeginsE c ts r → GS (.block t) r ((l, .kElse) :: r') → GS (.block b) r' r'' → GS (.cond (.elif c t (.els b))) ts r''
  | condElif {c t els ts r r' r''} (l) : BeginsE c ts r → GS (.block t) r ((l, .kElif) :: r') → GS (.cond els) r' r'' → GS (.cond (.elif c t els)) ts r''
  -- loops
  | elseNone {ts} : peek ts ≠ some .kElse → GS (.loopElse .nil) ts ts
  | elseSome {b r r'} (l) : GS (.block b) r r' → GS (.loopElse b) ((l, .kElse) :: r) r'
  | loop {b r r'} (l) : GS (.block b) r r' → GS (.stmt (.loop b)) ((l, .word .kLoop) :: r) r'
  | while {c b els r r1 r2 r3} (l) : BeginsE c r r1 → GS (.block b) r1 r2 → GS (.loopElse els) r2 r3 → GS (.stmt (.while c b els)) ((l, .word .kWhile) :: r) r3
  | doOnce {b els r r1 r2} (l) : GS (.block b) r r1 → peek r1 ≠ some (.word .kWhile) → GS (.loopElse els) r1 r2 → GS (.stmt (.doW b none els)) ((l, .word .kDo) :: r) r2
  | doWhile {b c els r r1 r2 r3} (l l') : GS (.block b) r ((l', .word .kWhile) :: r1) → BeginsE c r1 r2 → peek r2 ≠ some .comma → GS (.loopElse els) r2 r3 →
      GS (.stmt (.doW b (some c) els)) ((l, .word .kDo) :: r) r3
  | for {ps e b els r r0 r1 r2 r3} (l l') : GS (.terms ps) r ((l', .kIn) :: r0) → BeginsE e r0 r1 → GS (.block b) r1 r2 → GS (.loopElse els) r2 r3 →
      GS (.stmt (.for ps e b els)) ((l, .word .kFor) :: r) r3
  | brk {r} (l) : GS (.stmt .brk) ((l, .word .kBreak) :: r) r
  | cont {r} (l) : GS (.stmt .cont) ((l, .word .kContinue) :: r) r
  -- `assert e`, `assert e : message`
  | assert {e r r'} (l) : BeginsE e r r' → peek r' ≠ some (.word .colon) → GS (.stmt (.assert e none)) ((l, .word .kAssert) :: r) r'
  | assertMsg {e m r r' r''} (l l') : BeginsE e r ((l', .word .colon) :: r') → BeginsE m r' r'' → peek r'' ≠ some .comma →
      GS (.stmt (.assert e (some m))) ((l, .word .kAssert) :: r) r''
  -- `return` without a value stands before `}` or `;`
  | retNil {r} (l) : peek r = some (.word .rbrace) → GS (.stmt (.ret none)) ((l, .word .kReturn) :: r) r
  | retSemi {r} (l l') : GS (.stmt (.ret none)) ((l, .word .kReturn) :: (l', .word .semi) :: r) r
  | ret {e r r'} (l) : BeginsE e r r' → peek r' ≠ some .comma → GS (.stmt (.ret (some e))) ((l, .word .kReturn) :: r) r'
  -- functions: `fn f(x, y = e, z?) { ... }`, `fn f(x) -> e`
  | dfltNone {ts} : peek ts ≠ some .eq → peek ts ≠ some (.word .question) → GS (.dflt none) ts ts
  | dfltNil {r} (l) : GS (.dflt (some (.lit .nil))) ((l, .word .question) :: r) r
  | dfltSome {e r r'} (l) : BeginsE e r r' → GS (.dflt (some e)) ((l, .eq) :: r) r'
  | paramsNil {r} (l) : GS (.params []) ((l, .rparen) :: r) r
  | paramsLast {p d ts r r'} (l) : GS (.term p) ts r → GS (.dflt d) r ((l, .rparen) :: r') → GS (.params [(p, d)]) ts r'
  | paramsMore {p d ps ts r r' r''} (l) : GS (.term p) ts r → GS (.dflt d) r ((l, .comma) :: r') → GS (.params ps) r' r'' → GS (.params ((p, d) :: ps)) ts r''
  | bodyBlock {b ts r} : GS (.block b) ts r → GS (.body b) ts r
  | bodyExpr {e r r'} (l) : BeginsE e r r' → peek r' ≠ some .comma → GS (.body (.cons (.expr e) .nil)) ((l, .arrow) :: r) r'
  | fn {f ps b r r' r''} (l l' l'') : GS (.params ps) r r' → GS (.body b) r' r'' → GS (.stmt (.fn f ps b)) ((l, .word .kFn) :: (l', .ident f) :: (l'', .lparen) :: r) r''

/-- The text is that of the program `p`: no errors in its tokens, and they follow the grammar, to the end. -/
def ReadsProgram (text : List Char) (p : SBlock) : Prop :=
  errors (scan text) = [] ∧ ∃ ts, List.Forall₂ (fun t k => t.1 = k.1 ∧ Stands t.2 k.2) (marked ((tokens (scan text)).map Prod.snd)) ts ∧ GS (.stmts p) ts []

/-! ## Scopes -/

/-- The names of the variables in scope, oldest first; a variable without a name is the iterator of a loop. -/
abbrev Names := List (Option String)

/-- Statements whose expressions are the trees of the parser, each with the names in scope where it stands; and so are the patterns, with the names in scope after them. -/
abbrev srcSig (Γ : Codegen.Sig) : Stmts.Sig := ⟨Γ.V, Names × E, Names × List (Pat String), Γ.C, Empty, Empty⟩

variable {Γ : Codegen.Sig}

/-- `x` can be declared, where the names `here` were declared in the same block: not twice, and not a name that the language has. -/
def Free (I : Scope Γ) (here : Names) (x : String) : Prop := I.name x = none ∧ some x ∉ here

instance (I : Scope Γ) (here : Names) (x : String) : Decidable (Free I here x) :=
  decidable_of_iff ((I.name x).isNone = true ∧ some x ∉ here) (by simp [Free, Option.isNone_iff_eq_none])

/-- What `assert` tests: a comparison, both sides of which are in its message, or another expression. -/
def tested (I : Scope Γ) (ns : Names) : E → Stmts.Test (srcSig Γ)
  | .compare l [(c, r)] => .cmp (I.cmp c) (ns, l) (ns, r) false
  | e => .val (ns, e)

/-- What is assigned to, where the names `ns` are in scope: a single name (or `*x`), nothing (`_`), or a pattern. -/
def into (ns : Names) (ps : List (Pat String)) : Stmts.LV (srcSig Γ) :=
  match ps with
  | [.name _] | [.star _] => .named
  | [.hole] | [.starHole] => .empty
  | ps => .terms (Pat.varsAll ps).length (ns ++ (Pat.varsAll ps).map some, ps)

/-- The parts of a `let`: the variable is in scope after its own part; `outer`: the names of the blocks around, `here`: those declared in the block before. -/
def scopeDecs (I : Scope Γ) (outer : Names) : List Dec → Names → Option (List (Stmts.Stmt (srcSig Γ)) × Names)
  | [], here => some ([], here)
  | .bind ps e :: ds, here =>
    if (Pat.varsAll ps).Nodup ∧ ∀ x ∈ Pat.varsAll ps, Free I here x then
      (scopeDecs I outer ds (here ++ (Pat.varsAll ps).map some)).map fun p => (.letIn (into (outer ++ here) ps) (outer ++ here, e) :: p.1, p.2)
    else none
  | .names xs :: ds, here =>
    if xs.Nodup ∧ ∀ x ∈ xs, Free I here x then (scopeDecs I outer ds (here ++ xs.map some)).map fun p => (.decl xs.length :: p.1, p.2) else none

mutual
/-- Every expression with the names in scope; `none` if a name is declared twice in a block, or `break` or `continue` is not in a loop (`lp`). -/
def scopeB (I : Scope Γ) (lp : Bool) (outer : Names) : SBlock → Names → Option (Stmts.Block (srcSig Γ))
  | .nil, _ => some .nil
  | .cons (.lets ds) b, here =>
    match scopeDecs I outer ds here with
    | some (ss, here) => (scopeB I lp outer b here).map (appendB ss)
    | none => none
  | .cons s b, here =>
    match scopeS I lp (outer ++ here) s, scopeB I lp outer b here with
    | some s, some b => some (.cons s b)
    | _, _ => none
def scopeS (I : Scope Γ) (lp : Bool) (ns : Names) : SStmt → Option (Stmts.Stmt (srcSig Γ))
  | .expr e => some (.expr (ns, e))
  | .semi => some .semi
  | .lets _ => none
  | .ite c t els =>
    match scopeB I lp ns t [], scopeElse I lp ns els with
    | some t, some els => some (.ite (ns, c) t els)
    | _, _ => none
  | .while c body els =>
    match scopeB I true ns body [], scopeB I true ns els [] with
    | some body, some els => some (.while (ns, c) body els)
    | _, _ => none
  | .doW body c els =>
    match scopeB I true ns body [], scopeB I true ns els [] with
    | some body, some els => some (.doW body (c.map (ns, ·)) els)
    | _, _ => none
  | .loop body => (scopeB I true ns body []).map .loop
  -- the variables of the loop are in scope in its body only
  | .for ps e body els =>
    if (Pat.varsAll ps).Nodup ∧ ∀ x ∈ Pat.varsAll ps, Free I [] x then
      match scopeB I true (ns ++ (Pat.varsAll ps).map some ++ [none]) body [], scopeB I true ns els [] with
      | some body, some els => some (.for (into ns ps) (ns, e) body els)
      | _, _ => none
    else none
  | .brk => if lp then some .brk else none
  | .cont => if lp then some .cont else none
  | .assert e msg => some (.assert (tested I ns e) (msg.map (ns, ·)))
  | .ret e => some (.ret (e.map (ns, ·)))
  -- functions: see `mainOf`
  | .fn _ _ _ => none
def scopeElse (I : Scope Γ) (lp : Bool) (ns : Names) : SElse → Option (Stmts.Else (srcSig Γ))
  | .none => some .none
  | .els b => (scopeB I lp ns b []).map .els
  | .elif c t els =>
    match scopeB I lp ns t [], scopeElse I lp ns els with
    | some t, some els => some (.elif (ns, c) t els)
    | _, _ => none
  | .elifThen e => some (.elifThen (ns, e))
end

/-- The place of the last variable of that name. -/
def place (x : String) : Names → Option Nat
  | [] => none
  | n :: ns =>
    match place x ns with
    | some i => some (i + 1)
    | none => if n = some x then some 0 else none

/-- What names mean among the variables `ns`: those that the language has are not variables; in a function, other names are variables of the program. -/
def within (I : Scope Γ) (slot : Nat → Γ.X) (ns : Names) : Scope Γ :=
  { I with name := fun x =>
      match I.name x with
      | some n => some n
      | none =>
        match place x ns with
        | some i => some (.variable (slot i))
        | none => (I.glob x).map .variable }

mutual
/-- A pattern with other names. -/
def Pat.map {α β : Type} (f : α → β) : Pat α → Pat β
  | .name x => .name (f x)
  | .hole => .hole
  | .starHole => .starHole
  | .star x => .star (f x)
  | .terms ps => .terms (Pat.mapAll f ps)
def Pat.mapAll {α β : Type} (f : α → β) : List (Pat α) → List (Pat β)
  | [] => []
  | p :: ps => p.map f :: Pat.mapAll f ps
end

/-- The variables of a pattern, where the names `ns` are in scope. -/
def patIn (I : Scope Γ) (slot : Nat → Γ.X) (p : Names × List (Pat String)) : Γ.P := I.pat (Pat.mapAll (fun x => slot ((place x p.1).getD 0)) p.2)

/-! ## Meaning -/
variable {Er S : Type}

/-- The language: expressions mean what `Spec/Source` says, the rest is that of the runtime; `Ρ.prims.pattern`: what a pattern does (C39). -/
def srcLang (Ρ : Full.Runtime Γ Er S) (I : Scope Γ) (slot : Nat → Γ.X) : Stmts.Lang (srcSig Γ) S (Full.Bad Γ.V Er S) where
  nil := Ρ.nil
  truthy := Ρ.truthy
  eval p vs s := Full.ofOut Ρ.bot (value (Ρ.prims vs.length) (within I slot p.1) p.2 (⟨vs, rfl⟩, s))
  destr p v vs s :=
    match Full.ofOut Ρ.bot ((Ρ.prims vs.length).pattern (patIn I slot p) [] v (⟨vs, rfl⟩, s)) with
    | .ok (_, vs, s) => .ok (vs, s)
    | .error r => .error r
  iter v vs s :=
    match Ρ.iter v s with
    | .ok it s => .ok (it, s)
    | .stop r s => .error (r, s, Ρ.bot vs s)
  next := Ρ.next
  cmp := Ρ.cmp
  cmpMsg := Ρ.cmpMsg
  failed msg c vs s := (.err (Ρ.failed msg c s), s, Ρ.bot vs s)
  eval_len := by
    intro e vs s v vs' s' h
    unfold Full.ofOut at h
    split at h
    · rename_i a p _
      injection h with h
      injection h with h1 h2
      injection h2 with h2 h3
      rw [← h2]; exact p.1.2
    · cases h
  destr_len := by
    intro p v vs s vs' s' h
    unfold Full.ofOut at h
    split at h
    · rename_i h'
      split at h'
      · rename_i a q _
        injection h' with h'
        injection h' with h1 h2
        injection h2 with h2 h3
        injection h with h
        injection h with h4 h5
        rw [← h4, ← h2]; exact q.1.2
      · cases h'
    · cases h

end Cordy.Source
