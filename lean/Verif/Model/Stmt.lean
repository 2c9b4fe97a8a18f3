import Verif.Model.Bld
/-!
# Statements

Models the code that the parser emits for statements (`compiler/parser/mod.rs:191-312, 605-1075`, with the loop and scope tables of `semantic.rs`), into the control flow graph of `Model/Graph.lean`, and the opcodes of `vm/mod.rs` that this code uses.

The code of an expression is a parameter (`Em`), and so are its opcodes; `Model/Full.lean` puts that of `Model/Expr.lean` there. Simplified: the destructuring of a pattern is one opcode (C39). Names are resolved (C44): what matters here is how many variables there are, and in which scope. Left out: `LiftUpValue` (C43), `IncGlobalCount`, declarations of functions, structs and modules, source locations.
-/
namespace Cordy.Stmts
open Cordy.Builder (Bld)

/-- What statements are made of: values, expressions, patterns, comparison operators; the opcodes and branches in the code of expressions. -/
structure Sig where
  (V X P C O T : Type)

/-! ## Syntax -/

/-- models: `LValue` (semantic.rs:303-330): a name, `_`, or a pattern with `n` names. -/
inductive LV (Γ : Sig) where
  | named
  | empty
  | terms (n : Nat) (p : Γ.P)

/-- How many variables it declares. -/
def LV.vars {Γ : Sig} : LV Γ → Nat
  | .named => 1
  | .empty => 0
  | .terms n _ => n

/-- What `assert` tests: a comparison (the operands in their order, or in the other order), or any other expression. -/
inductive Test (Γ : Sig) where
  | val (e : Γ.X)
  | cmp (c : Γ.C) (l r : Γ.X) (swap : Bool)

mutual
/-- models: the statements of parser/mod.rs:275-303. -/
inductive Stmt (Γ : Sig) where
  /-- an expression, or `if c then a else b` -/
  | expr (e : Γ.X)
  /-- `;` -/
  | semi
  | letIn (l : LV Γ) (e : Γ.X)
  /-- `let a, b` -/
  | decl (n : Nat)
  | ite (c : Γ.X) (t : Block Γ) (els : Else Γ)
  /-- without an `else` clause `els` is empty -/
  | while (c : Γ.X) (body els : Block Γ)
  | doW (body : Block Γ) (c : Option Γ.X) (els : Block Γ)
  | loop (body : Block Γ)
  | for (l : LV Γ) (e : Γ.X) (body els : Block Γ)
  | brk
  | cont
  | ret (e : Option Γ.X)
  | assert (t : Test Γ) (msg : Option Γ.X)
inductive Block (Γ : Sig) where
  | nil
  | cons (s : Stmt Γ) (b : Block Γ)
inductive Else (Γ : Sig) where
  | none
  | els (b : Block Γ)
  | elif (c : Γ.X) (t : Block Γ) (els : Else Γ)
  /-- `elif c then a else b`: the expression `if c then a else b` -/
  | elifThen (e : Γ.X)
end

/-! ## Opcodes -/

/-- models: vm/opcode.rs; `x o`: an opcode of an expression. -/
inductive Op (Γ : Sig) where
  | x (o : Γ.O)
  | nil
  | pop
  | swap
  | load (i : Nat)
  | store (i : Nat)
  | pattern (p : Γ.P)
  | initIter
  | ret
  | exit
  | assertFailed
  /-- `PopN`, `StoreLocal(i, true)` and the like: only the block optimiser makes these -/
  | popN (n : Nat)
  | storePop (i : Nat)
  | xPop (o : Γ.O)

/-- models: graph.rs:60-63. -/
inductive Br (Γ : Sig) where
  | x (t : Γ.T)
  | ifFalsePop
  | ifTruePop
  | testIter
  | assertTest
  | assertCmp (c : Γ.C)

/-! ## What the parts mean -/

/-- The meaning of expressions, patterns and the like on the variables in scope (oldest first) and the rest of the state `S`. An error is an `R`. -/
structure Lang (Γ : Sig) (S R : Type) where
  nil : Γ.V
  truthy : Γ.V → S → Bool
  eval : Γ.X → List Γ.V → S → Except R (Γ.V × List Γ.V × S)
  /-- destructure a value into the variables -/
  destr : Γ.P → Γ.V → List Γ.V → S → Except R (List Γ.V × S)
  /-- the iterator of a value; the variables matter only for what is known of an error -/
  iter : Γ.V → List Γ.V → S → Except R (Γ.V × S)
  /-- the iterator after the next value, and the value; or the end -/
  next : Γ.V → S → Option (Γ.V × Γ.V)
  cmp : Γ.C → Γ.V → Γ.V → S → Bool
  /-- `Expected 1 to be equal to 2` -/
  cmpMsg : Γ.C → Γ.V → Γ.V → S → Γ.V
  /-- the error of an assertion: the message, and that of the comparison or `nil` -/
  failed : Γ.V → Γ.V → List Γ.V → S → R
  /-- no variable comes or goes -/
  eval_len : ∀ e vs s v vs' s', eval e vs s = .ok (v, vs', s') → vs'.length = vs.length
  destr_len : ∀ p v vs s vs' s', destr p v vs s = .ok (vs', s') → vs'.length = vs.length

/-! ## Running -/

/-- The stack of the function's frame, oldest first, and everything else. -/
structure Mach (Γ : Sig) (S : Type) where
  st : List Γ.V
  s : S

/-- How a run ends. -/
inductive Stop (Γ : Sig) (S R : Type) where
  | ret (v : Γ.V) (s : S)
  /-- the end of the program: what is left on the stack -/
  | exit (st : List Γ.V) (s : S)
  | err (r : R)
  /-- the stack is empty where a value is needed (Rust: a panic) -/
  | crash

variable {Γ : Sig} {S R : Type}

/-- What the opcodes of the machine do: those of statements by the meaning of the parts, and those of expressions as given. -/
structure Machine (Γ : Sig) (S R : Type) extends Lang Γ S R where
  xop : Γ.O → Mach Γ S → Except (Stop Γ S R) (Mach Γ S)
  xtest : Γ.T → Mach Γ S → Except (Stop Γ S R) (Bool × Mach Γ S)
  /-- a store that pops: `StoreLocal(i, true)` etc. -/
  xpop : Γ.O → Mach Γ S → Except (Stop Γ S R) (Mach Γ S) := fun _ _ => .error .crash

instance : Coe (Machine Γ S R) (Lang Γ S R) := ⟨Machine.toLang⟩

/-- models: vm/mod.rs:295-345, 434-438, 621-645. Stricter than Rust: storing a value into its own place on the stack is a crash (C64: it never happens). -/
def exec (Λ : Machine Γ S R) : Op Γ → Mach Γ S → Except (Stop Γ S R) (Mach Γ S)
  | .x o, m => Λ.xop o m
  | .nil, m => .ok ⟨m.st ++ [Λ.nil], m.s⟩
  | .pop, m => if m.st.isEmpty then .error .crash else .ok ⟨m.st.dropLast, m.s⟩
  | .swap, m =>
    match m.st.getLast?, m.st.dropLast.getLast? with
    | some y, some x => .ok ⟨m.st.dropLast.dropLast ++ [y, x], m.s⟩
    | _, _ => .error .crash
  | .load i, m =>
    match m.st[i]? with
    | some v => .ok ⟨m.st ++ [v], m.s⟩
    | none => .error .crash
  | .store i, m =>
    match m.st.getLast? with
    | some v => if i < m.st.dropLast.length then .ok ⟨m.st.set i v, m.s⟩ else .error .crash
    | none => .error .crash
  | .pattern p, m =>
    match m.st.getLast? with
    | some v =>
      match Λ.destr p v m.st.dropLast m.s with
      | .ok (vs, s) => .ok ⟨vs ++ [v], s⟩
      | .error r => .error (.err r)
    | none => .error .crash
  | .initIter, m =>
    match m.st.getLast? with
    | some v =>
      match Λ.iter v m.st.dropLast m.s with
      | .ok (it, s) => .ok ⟨m.st.dropLast ++ [it], s⟩
      | .error r => .error (.err r)
    | none => .error .crash
  | .ret, m =>
    match m.st.getLast? with
    | some v => .error (.ret v m.s)
    | none => .error .crash
  | .exit, m => .error (.exit m.st m.s)
  | .assertFailed, m =>
    match m.st.getLast?, m.st.dropLast.getLast? with
    | some msg, some c => .error (.err (Λ.failed msg c m.st.dropLast.dropLast m.s))
    | _, _ => .error .crash
  | .popN n, m => if n ≤ m.st.length then .ok ⟨m.st.take (m.st.length - n), m.s⟩ else .error .crash
  | .storePop i, m =>
    match m.st.getLast? with
    | some v => if i < m.st.dropLast.length then .ok ⟨m.st.dropLast.set i v, m.s⟩ else .error .crash
    | none => .error .crash
  | .xPop o, m => Λ.xpop o m

/-- models: vm/mod.rs:266-290, 439-450, 621-643: does it jump? -/
def test (Λ : Machine Γ S R) : Br Γ → Mach Γ S → Except (Stop Γ S R) (Bool × Mach Γ S)
  | .x t, m => Λ.xtest t m
  | .ifFalsePop, m =>
    match m.st.getLast? with
    | some v => .ok (!Λ.truthy v m.s, ⟨m.st.dropLast, m.s⟩)
    | none => .error .crash
  | .ifTruePop, m =>
    match m.st.getLast? with
    | some v => .ok (Λ.truthy v m.s, ⟨m.st.dropLast, m.s⟩)
    | none => .error .crash
  | .testIter, m =>
    match m.st.getLast? with
    | some it =>
      match Λ.next it m.s with
      | some (it', v) => .ok (false, ⟨m.st.dropLast ++ [it', v], m.s⟩)
      | none => .ok (true, m)
    | none => .error .crash
  | .assertTest, m =>
    match m.st.getLast? with
    | some v => if Λ.truthy v m.s then .ok (true, ⟨m.st.dropLast, m.s⟩) else .ok (false, ⟨m.st.dropLast ++ [Λ.nil], m.s⟩)
    | none => .error .crash
  | .assertCmp c, m =>
    match m.st.getLast?, m.st.dropLast.getLast? with
    | some r, some l =>
      if Λ.cmp c l r m.s then .ok (true, ⟨m.st.dropLast.dropLast, m.s⟩)
      else .ok (false, ⟨m.st.dropLast.dropLast ++ [Λ.cmpMsg c l r m.s], m.s⟩)
    | _, _ => .error .crash

def sem (Λ : Machine Γ S R) : Graph.Sem (Op Γ) (Br Γ) (Mach Γ S) (Stop Γ S R) := ⟨exec Λ, test Λ⟩

/-! ## The parser -/

/-- models: `emit_expr` (codegen.rs:69-276): `em k e b` emits the code of `e`, which can name the first `k` variables. -/
abbrev Em (Γ : Sig) := Nat → Γ.X → Bld (Op Γ) (Br Γ) → Bld (Op Γ) (Br Γ)

/-- models: `Loop` (semantic.rs:60-85). -/
structure Loop where
  start : Nat
  breaks : List Nat
  enclosing : Nat
  inner : Nat

/-- The state of the parser that matters: the code, the scopes of the variables of the function (oldest first), the scope depth, is there a `Pop` to be emitted (`delay_pop_from_expression_statement`), the loops around, innermost first. -/
structure PS (Γ : Sig) where
  b : Bld (Op Γ) (Br Γ)
  locals : List Nat
  scope : Nat
  flag : Bool
  loops : List Loop

namespace PS
def push (ps : PS Γ) (o : Op Γ) : PS Γ := { ps with b := ps.b.push o }
/-- models: core/mod.rs `emit_optimized_expr`. -/
def expr (em : Em Γ) (ps : PS Γ) (k : Nat) (e : Γ.X) : PS Γ := { ps with b := em k e ps.b }
def branchForward (ps : PS Γ) : PS Γ := { ps with b := ps.b.branchForward }
def joinForward (ps : PS Γ) (i : Nat) (ty : Graph.BranchType (Br Γ)) : PS Γ := { ps with b := ps.b.joinForward i ty }
def joinReverse (ps : PS Γ) (i : Nat) (ty : Graph.BranchType (Br Γ)) : PS Γ := { ps with b := ps.b.joinReverse i ty }

/-- models: core/mod.rs:195-201. -/
def delayedPop (ps : PS Γ) : PS Γ := if ps.flag then { ps.push .pop with flag := false } else ps

/-- models: core/mod.rs:204-209. -/
def pops (ps : PS Γ) : Nat → PS Γ
  | 0 => ps
  | n + 1 => pops (ps.push .pop) n

def nils (ps : PS Γ) : Nat → PS Γ
  | 0 => ps
  | n + 1 => nils (ps.push .nil) n

/-- models: semantic.rs:964-1012: `n` variables in the current scope. -/
def declare (ps : PS Γ) (n : Nat) : PS Γ := { ps with locals := ps.locals ++ List.replicate n ps.scope }

/-- How many variables are in the scopes from `d` on. -/
def above (ps : PS Γ) (d : Nat) : Nat := (ps.locals.filter (fun x => decide (d ≤ x))).length

/-- models: semantic.rs:1131-1170, `pop_locals(Some(d), true, true, _)`. -/
def popLocals (ps : PS Γ) (d : Nat) : PS Γ :=
  { ps.pops (ps.above d) with locals := ps.locals.take (ps.locals.length - ps.above d) }

/-- models: semantic.rs:1131-1170, `pop_locals(Some(d), false, true, _)`. -/
def emitPops (ps : PS Γ) (d : Nat) : PS Γ := ps.pops (ps.above d)

/-- models: semantic.rs:850-856. -/
def beginLoop (ps : PS Γ) : PS Γ :=
  { ps with b := ps.b.branchReverse, loops := ⟨ps.b.done.length + 1, [], ps.scope + 1, ps.scope + 1⟩ :: ps.loops }

/-- models: semantic.rs:863-869. -/
def beginForLoop (ps : PS Γ) : PS Γ :=
  { ps with b := ps.b.branchReverse, loops := ⟨ps.b.done.length + 1, [], ps.scope, ps.scope + 1⟩ :: ps.loops }

def joinAll (ps : PS Γ) : List Nat → PS Γ
  | [] => ps
  | i :: is => joinAll (ps.joinForward i none) is

/-- models: semantic.rs:872-876. -/
def endLoop (ps : PS Γ) : PS Γ :=
  match ps.loops with
  | [] => ps
  | l :: ls => joinAll { ps with loops := ls } l.breaks

/-- Leave a scope. -/
def leave (ps : PS Γ) : PS Γ := { ps.popLocals ps.scope with scope := ps.scope - 1 }

/-- models: parser/mod.rs:304-312 `parse_block_statement` and the `push_delayed_pop` that follows it everywhere. -/
def block (ps : PS Γ) (body : PS Γ → PS Γ) : PS Γ :=
  let ps := ps.delayedPop
  let ps := body { ps with scope := ps.scope + 1 }
  ps.leave.delayedPop

/-- The start of the innermost loop (`continue`). -/
def start (ps : PS Γ) : Nat :=
  match ps.loops with
  | [] => 0
  | l :: _ => l.start
end PS

/-- models: semantic.rs:532-545 `emit_destructuring(_, false)`; `i`: the first variable of the `LV`. -/
def emitAssign (l : LV Γ) (i : Nat) (ps : PS Γ) : PS Γ :=
  match l with
  | .named => (ps.push (.store i)).push .pop
  | .empty => ps.push .pop
  | .terms _ p => (ps.push (.pattern p)).push .pop

/-- models: parser/mod.rs:1005-1060, one binding with a value. -/
def emitLet (em : Em Γ) (l : LV Γ) (e : Γ.X) (ps : PS Γ) : PS Γ :=
  let k := ps.locals.length
  match l with
  | .named => (ps.declare 1).expr em k e
  | .empty => (ps.expr em k e).push .pop
  | .terms n p => ((((ps.declare n).nils n).expr em k e).push (.pattern p)).push .pop

/-- models: parser/mod.rs:960-985. -/
def emitTest (em : Em Γ) (t : Test Γ) (ps : PS Γ) : PS Γ × Br Γ :=
  let k := ps.locals.length
  match t with
  | .val e => (ps.expr em k e, .assertTest)
  | .cmp c l r swap =>
    if swap then (((ps.expr em k r).expr em k l).push .swap, .assertCmp c)
    else ((ps.expr em k l).expr em k r, .assertCmp c)

/-- An expression, or `nil`. -/
def emitOpt (em : Em Γ) (e : Option Γ.X) (ps : PS Γ) : PS Γ :=
  match e with
  | some e => ps.expr em ps.locals.length e
  | none => ps.push .nil

/-- models: parser/mod.rs:872-893: the variables of a `for` loop, and the iterator. -/
def forInit (em : Em Γ) (l : LV Γ) (e : Γ.X) (ps : PS Γ) : PS Γ :=
  let k := ps.locals.length
  let ps := { ps with scope := ps.scope + 1 }
  let ps := (ps.declare l.vars).nils l.vars
  (((ps.expr em k e).declare 1).push .initIter)

mutual
/-- models: parser/mod.rs:275-303 and the functions it calls. -/
def emitS (em : Em Γ) : Stmt Γ → PS Γ → PS Γ
  -- parser/mod.rs:1064-1069, 746-752
  | .expr e, ps =>
    let ps := ps.delayedPop
    { ps.expr em ps.locals.length e with flag := true }
  | .semi, ps => ps.delayedPop
  -- parser/mod.rs:1005-1060
  | .letIn l e, ps => emitLet em l e ps.delayedPop
  | .decl n, ps => (ps.delayedPop.declare n).nils n
  -- parser/mod.rs:730-790
  | .ite c t els, ps =>
    let ps := ps.delayedPop
    let ps := ps.expr em ps.locals.length c
    let i := ps.b.done.length
    let ps := ps.branchForward.block (emitB em t)
    emitElse em els i ps
  -- parser/mod.rs:792-822
  | .while c body els, ps =>
    let ps := ps.delayedPop.beginLoop
    let start := ps.start
    let ps := ps.expr em ps.locals.length c
    let i := ps.b.done.length
    let ps := ps.branchForward.block (emitB em body)
    let ps := (ps.joinReverse start none).joinForward i (some .ifFalsePop)
    (ps.block (emitB em els)).endLoop
  -- parser/mod.rs:825-847
  | .doW body c els, ps =>
    let ps := ps.beginLoop
    let start := ps.start
    let ps := ps.block (emitB em body)
    let ps := match c with
      | some c => (ps.expr em ps.locals.length c).joinReverse start (some .ifTruePop)
      | none => ps
    (ps.block (emitB em els)).endLoop
  -- parser/mod.rs:849-870
  | .loop body, ps =>
    let ps := ps.delayedPop.beginLoop
    let start := ps.start
    let ps := ps.block (emitB em body)
    (ps.joinReverse start none).endLoop
  -- parser/mod.rs:872-927
  | .for l e body els, ps =>
    let ps := ps.delayedPop
    let k := ps.locals.length
    let ps := (forInit em l e ps).beginForLoop
    let start := ps.start
    let i := ps.b.done.length
    let ps := emitAssign l k ps.branchForward
    let ps := ps.block (emitB em body)
    let ps := (ps.joinReverse start none).joinForward i (some .testIter)
    (ps.leave.block (emitB em els)).endLoop
  -- parser/mod.rs:929-942
  | .brk, ps =>
    let ps := ps.delayedPop
    match ps.loops with
    | [] => ps
    | l :: ls =>
      let ps := ps.emitPops l.enclosing
      { ps.branchForward with loops := { l with breaks := l.breaks ++ [ps.b.done.length] } :: ls }
  -- parser/mod.rs:944-957
  | .cont, ps =>
    let ps := ps.delayedPop
    match ps.loops with
    | [] => ps
    | l :: _ => (ps.emitPops l.inner).joinReverse l.start none
  -- parser/mod.rs:702-728
  | .ret e, ps => (emitOpt em e ps.delayedPop).push .ret
  -- parser/mod.rs:959-1000
  | .assert t msg, ps =>
    let (ps, ty) := emitTest em t ps.delayedPop
    let i := ps.b.done.length
    let ps := emitOpt em msg ps.branchForward
    (ps.push .assertFailed).joinForward i (some ty)
/-- models: parser/mod.rs:275-303: statements one after the other. -/
def emitB (em : Em Γ) : Block Γ → PS Γ → PS Γ
  | .nil, ps => ps
  | .cons s b, ps => emitB em b (emitS em s ps)
/-- models: parser/mod.rs:762-789: what follows the block of an `if`, whose condition is tested at the end of block `i`. -/
def emitElse (em : Em Γ) : Else Γ → Nat → PS Γ → PS Γ
  | .none, i, ps => ps.joinForward i (some .ifFalsePop)
  | .els b, i, ps =>
    let j := ps.b.done.length
    let ps := ps.branchForward.joinForward i (some .ifFalsePop)
    (ps.block (emitB em b)).joinForward j none
  | .elif c t els, i, ps =>
    let j := ps.b.done.length
    let ps := ps.branchForward.joinForward i (some .ifFalsePop)
    let ps := ps.delayedPop
    let ps := ps.expr em ps.locals.length c
    let i' := ps.b.done.length
    let ps := ps.branchForward.block (emitB em t)
    (emitElse em els i' ps).joinForward j none
  | .elifThen e, i, ps =>
    let j := ps.b.done.length
    let ps := ps.branchForward.joinForward i (some .ifFalsePop)
    let ps := ps.delayedPop
    { (ps.expr em ps.locals.length e).joinForward j none with flag := true }
end

/-- models: parser/mod.rs:605-700 `parse_function_body`, from the point where the `n` parameters are declared: a block with its statements. -/
def emitBody (em : Em Γ) (n : Nat) (body : Block Γ) : PS Γ :=
  let ps := emitB em body ⟨.empty, List.replicate n 1, 2, false, []⟩
  let ps := if ps.flag then ps else ps.push .nil
  ps.push .ret

/-- models: parser/mod.rs:201-208 `parse`: a whole program. -/
def emitProgram (em : Em Γ) (body : Block Γ) : PS Γ :=
  let ps := (emitB em body ⟨.empty, [], 0, false, []⟩).delayedPop
  (ps.popLocals 0).push .exit

end Cordy.Stmts
