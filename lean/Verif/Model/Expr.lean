import Verif.Model.Bld
/-!
# Expressions, the code generated for them and the opcodes it uses

Models `compiler/parser/codegen.rs` on the control flow graph of `Model/Graph.lean`, and the opcodes of `vm/mod.rs` that it emits.

What the operators, the variables, the heap objects and the functions do is a parameter (`Prims`): they act on a state `Σ` (variables,
heap, input and output) and give a value or an error.  A call is one action: that a called function returns exactly one value and leaves
the operand stack of its caller alone is C42.
-/
namespace Cordy.Codegen
open Cordy.Builder (Bld)

/-- The kinds of things that occur in an expression: values, unary, binary and comparison operators, variables (a local, global or
captured variable), captures of a closure, destructuring patterns, errors found while compiling. -/
structure Sig where
  V : Type
  U : Type
  B : Type
  C : Type
  X : Type
  Q : Type
  P : Type
  F : Type

/-- models: vm/opcode.rs `LiteralType` -/
inductive LitTy where
  | list | vector | set | dict
  deriving DecidableEq, Repr

/-- models: semantic.rs `LValueReference`, the kinds that can be loaded: variables (also `self`), a field or method of `self`. Methods without `self`
and native functions are constants. Late bound globals are `var` (they become `PushGlobal`, semantic.rs:1034). -/
inductive LVal (Γ : Sig) where
  | var (x : Γ.X)
  | thisField (x : Γ.X) (fi : Nat)
  | thisMethod (x : Γ.X) (m : Γ.V)

mutual
/-- models: expr/mod.rs:18-115 `ExprType` after `process_expr` (codegen.rs:18-45), that is without the transient kinds. Source locations are left out. In
`swapField` and `arrayOp` the operator `none` is the marker for `.=` (`BinaryOp::NotEqual`, expr/mod.rs:112). -/
inductive Expr (Γ : Sig) where
  /-- `Nil`, `Bool`, `Int`, `Complex`, `Str`, `NativeFunction`, `Field` and methods -/
  | const (v : Γ.V)
  | exit
  /-- an operation on constants that fails: the program is then not run, codegen.rs:93 -/
  | error (f : Γ.F)
  | function (v : Γ.V) (caps : List Γ.Q)
  | call (f : Expr Γ) (args : Args Γ)
  | compose (arg f : Expr Γ)
  | load (x : LVal Γ)
  | unary (op : Γ.U) (a : Expr Γ)
  | binary (op : Γ.B) (l r : Expr Γ) (swap : Bool)
  | compare (l : Expr Γ) (c : Chain Γ)
  | literal (ty : LitTy) (args : Args Γ)
  | sliceLit (a b : Expr Γ)
  | sliceLit3 (a b c : Expr Γ)
  | and (a b : Expr Γ)
  | or (a b : Expr Γ)
  | index (a i : Expr Γ)
  | slice (a b c : Expr Γ)
  | sliceStep (a b c d : Expr Γ)
  | ite (c t e : Expr Γ)
  | getField (a : Expr Γ) (fi : Nat)
  | setField (a : Expr Γ) (fi : Nat) (r : Expr Γ)
  | swapField (a : Expr Γ) (fi : Nat) (op : Option Γ.B) (r : Expr Γ)
  | assign (x : LVal Γ) (r : Expr Γ)
  | pattern (targets : Exprs Γ) (p : Γ.P) (r : Expr Γ)
  | arraySet (a i r : Expr Γ)
  | arrayOp (a i : Expr Γ) (op : Option Γ.B) (r : Expr Γ)
/-- Arguments of a call and elements of a literal: `e` or `...e`. -/
inductive Args (Γ : Sig) where
  | nil
  | plain (e : Expr Γ) (rest : Args Γ)
  | unroll (e : Expr Γ) (rest : Args Γ)
/-- The comparisons after the first operand; there is at least one (two in a `Compare`). -/
inductive Chain (Γ : Sig) where
  | last (op : Γ.C) (e : Expr Γ)
  | more (op : Γ.C) (e : Expr Γ) (rest : Chain Γ)
/-- The arrays, indices and structs assigned to in a pattern. -/
inductive Exprs (Γ : Sig) where
  | nil
  | cons (e : Expr Γ) (rest : Exprs Γ)
end

def Args.length {Γ : Sig} : Args Γ → Nat
  | .nil => 0
  | .plain _ r => r.length + 1
  | .unroll _ r => r.length + 1
def Exprs.length {Γ : Sig} : Exprs Γ → Nat
  | .nil => 0
  | .cons _ r => r.length + 1

/-- Why an evaluation stops: an error, the keyword `exit`; or an abort of the process, which does not happen (C36). -/
inductive Stop (E : Type) where
  | err (e : E)
  | exit
  | panic

/-- The result of an action: a value and the new state, or a stop. -/
inductive Out (E S α : Type) where
  | ok (a : α) (s : S)
  | stop (r : Stop E) (s : S)

namespace Out
variable {E S α β : Type}
def bind (o : Out E S α) (f : α → S → Out E S β) : Out E S β :=
  match o with
  | ok a s => f a s
  | stop r s => stop r s
end Out

/-- What operators, variables, objects and functions do. -/
structure Prims (Γ : Sig) (E S : Type) where
  bool : Bool → Γ.V
  /-- the error of an operation that failed while compiling -/
  raise : Γ.F → E
  /-- `to_bool`, vm/value/mod.rs:312-327 -/
  truthy : Γ.V → S → Bool
  unary : Γ.U → Γ.V → S → Out E S Γ.V
  binary : Γ.B → Γ.V → Γ.V → S → Out E S Γ.V
  cmp : Γ.C → Γ.V → Γ.V → S → Bool
  /-- `BinaryOp::from(CompareOp)` and `BinaryOp::NotEqual` -/
  ofCmp : Γ.C → Γ.B
  ne : Γ.B
  /-- models: vm/operator.rs:87-103 with 118-127: a comparison operator gives the boolean and has no effect -/
  ofCmp_spec : ∀ c l r s, binary (ofCmp c) l r s = .ok (bool (cmp c l r s)) s
  load : Γ.X → S → Out E S Γ.V
  store : Γ.X → Γ.V → S → Out E S Unit
  toClosure : Γ.V → S → Out E S Γ.V
  capture : Γ.Q → Γ.V → S → Out E S Γ.V
  /-- the elements of a spread argument -/
  iter : Γ.V → S → Out E S (List Γ.V)
  /-- the elements a spread value adds to a literal: for a dict, its elements must be pairs, and both parts are added -/
  spread : LitTy → Γ.V → S → Out E S (List Γ.V)
  mkLit : LitTy → List Γ.V → S → Out E S Γ.V
  slice2 : Γ.V → Γ.V → S → Out E S Γ.V
  slice3 : Γ.V → Γ.V → Γ.V → S → Out E S Γ.V
  index : Γ.V → Γ.V → S → Out E S Γ.V
  slice : Γ.V → Γ.V → Γ.V → S → Out E S Γ.V
  sliceStep : Γ.V → Γ.V → Γ.V → Γ.V → S → Out E S Γ.V
  getField : Γ.V → Nat → S → Out E S Γ.V
  setField : Γ.V → Nat → Γ.V → S → Out E S Γ.V
  /-- `self` and a method: the method with `self` as first argument -/
  bindMethod : Γ.V → Γ.V → S → Out E S Γ.V
  setIndex : Γ.V → Γ.V → Γ.V → S → Out E S Unit
  pattern : Γ.P → List Γ.V → Γ.V → S → Out E S Unit
  call : Γ.V → List Γ.V → S → Out E S Γ.V

/-! ## Code generation -/

/-- models: vm/opcode.rs `Opcode`, the straight-line ones used in expressions. The values of constants stand for their numbers. `store` keeps the value
on the stack (`StoreLocal(_, false)` etc.). -/
inductive Op (Γ : Sig) where
  | const (v : Γ.V)
  | exit
  /-- not an opcode: stands for a compile error, after which no code is run. Raising the error here makes running total. -/
  | fail (f : Γ.F)
  | mkClosure
  | capture (q : Γ.Q)
  | unroll (first : Bool)
  | call (n : Nat) (any : Bool)
  | swap
  | pop
  | load (x : Γ.X)
  | store (x : Γ.X)
  | unary (op : Γ.U)
  | binary (op : Γ.B)
  | litBegin (ty : LitTy) (n : Nat)
  | litAcc (n : Nat)
  | litUnroll
  | litEnd
  | slice2
  | slice3
  | index
  | indexPeek
  | slice
  | sliceStep
  | getField (fi : Nat)
  | getFieldPeek (fi : Nat)
  | setField (fi : Nat)
  | getMethod (m : Γ.V)
  /-- `k` is the number of values its array and field targets take from the stack -/
  | pattern (p : Γ.P) (k : Nat)
  | storeArray

/-- models: graph.rs:60-63 `BranchType` with vm/opcode.rs: conditional jumps used in expressions -/
inductive Br (Γ : Sig) where
  | ifFalse
  | ifFalsePop
  | ifTrue
  | ifTruePop
  | compare (c : Γ.C)

variable {Γ : Sig}

/-- Where the code goes: the code of an expression is a part of that of a program, with opcodes `O` and branches `T` (`BranchType`); and how comparisons become
operators: `BinaryOp::from(CompareOp)`, `BinaryOp::NotEqual`. -/
structure Target (Γ : Sig) (O T : Type) where
  op : Op Γ → O
  br : Br Γ → T
  ofCmp : Γ.C → Γ.B
  ne : Γ.B

variable {O T : Type}

/-- models: codegen.rs:291-298 `emit_closure_and_closed_locals` -/
def emitCaptures (H : Target Γ O T) (caps : List Γ.Q) (b : Bld O T) : Bld O T :=
  if caps.isEmpty then b else caps.foldl (fun b q => b.push (H.op (.capture q))) (b.push (H.op .mkClosure))

/-- models: core/mod.rs:216-243 `push_load_lvalue` -/
def emitLoad (H : Target Γ O T) (x : LVal Γ) (b : Bld O T) : Bld O T :=
  match x with
  | .var x => b.push (H.op (.load x))
  | .thisField x fi => (b.push (H.op (.load x))).push (H.op (.getField fi))
  | .thisMethod x m => (b.push (H.op (.load x))).push (H.op (.getMethod m))

/-- models: core/mod.rs:245-249 `push_store_lvalue_prefix` -/
def emitStorePrefix (H : Target Γ O T) (x : LVal Γ) (b : Bld O T) : Bld O T :=
  match x with
  | .thisField x _ => b.push (H.op (.load x))
  | _ => b

/-- models: core/mod.rs:252-281 `push_store_lvalue` with the prefix pushed. Assigning a method is a compile error. -/
def emitStore (H : Target Γ O T) (x : LVal Γ) (b : Bld O T) : Bld O T :=
  match x with
  | .var x => b.push (H.op (.store x))
  | .thisField _ fi => b.push (H.op (.setField fi))
  | .thisMethod _ _ => b

/-- models: codegen.rs:151-154: `for (op, cmp) in compare_ops { join_forward(..) }` -/
def joinAll (H : Target Γ O T) (pend : List (Γ.C × Nat)) (b : Bld O T) : Bld O T := pend.foldl (fun b p => b.joinForward p.2 (some (H.br (.compare p.1)))) b

/-- models: codegen.rs:163-167: `if acc > 0 { LiteralAcc(acc) }` -/
def emitAcc (H : Target Γ O T) (acc : Nat) (b : Bld O T) : Bld O T := if acc > 0 then b.push (H.op (.litAcc acc)) else b

mutual
/-- models: codegen.rs:69-276 `emit_expr` -/
def emitExpr (H : Target Γ O T) : Expr Γ → Bld O T → Bld O T
  | .const v, b => b.push (H.op (.const v))
  | .exit, b => b.push (H.op .exit)
  | .error f, b => b.push (H.op (.fail f))
  | .function v caps, b => emitCaptures H caps (b.push (H.op (.const v)))
  | .call f args, b =>
    let r := emitArgs H args (emitExpr H f b) false
    r.1.push (H.op (.call args.length r.2))
  | .compose arg f, b => ((emitExpr H f (emitExpr H arg b)).push (H.op .swap)).push (H.op (.call 1 false))
  | .load x, b => emitLoad H x b
  | .unary op a, b => (emitExpr H a b).push (H.op (.unary op))
  | .binary op l r swap, b =>
    (if swap then (emitExpr H l (emitExpr H r b)).push (H.op .swap) else emitExpr H r (emitExpr H l b)).push (H.op (.binary op))
  | .compare l c, b =>
    let r := emitChain H c (emitExpr H l b) []
    joinAll H r.2 r.1
  | .literal ty args, b => (emitElems H args (b.push (H.op (.litBegin ty args.length))) 0).push (H.op .litEnd)
  | .sliceLit a₁ a₂, b => (emitExpr H a₂ (emitExpr H a₁ b)).push (H.op .slice2)
  | .sliceLit3 a₁ a₂ a₃, b => (emitExpr H a₃ (emitExpr H a₂ (emitExpr H a₁ b))).push (H.op .slice3)
  | .and l r, b =>
    let b₁ := emitExpr H l b
    (emitExpr H r (b₁.branchForward.push (H.op .pop))).joinForward b₁.done.length (some (H.br .ifFalse))
  | .or l r, b =>
    let b₁ := emitExpr H l b
    (emitExpr H r (b₁.branchForward.push (H.op .pop))).joinForward b₁.done.length (some (H.br .ifTrue))
  | .index a i, b => (emitExpr H i (emitExpr H a b)).push (H.op .index)
  | .slice a₁ a₂ a₃, b => (emitExpr H a₃ (emitExpr H a₂ (emitExpr H a₁ b))).push (H.op .slice)
  | .sliceStep a₁ a₂ a₃ a₄, b => (emitExpr H a₄ (emitExpr H a₃ (emitExpr H a₂ (emitExpr H a₁ b)))).push (H.op .sliceStep)
  | .ite c t e, b =>
    let b₁ := emitExpr H c b
    let b₂ := emitExpr H t b₁.branchForward
    (emitExpr H e (b₂.branchForward.joinForward b₁.done.length (some (H.br .ifFalsePop)))).joinForward b₂.done.length none
  | .getField a fi, b => (emitExpr H a b).push (H.op (.getField fi))
  | .setField a fi r, b => (emitExpr H r (emitExpr H a b)).push (H.op (.setField fi))
  | .swapField a fi op r, b =>
    ((emitExpr H r ((emitExpr H a b).push (H.op (.getFieldPeek fi)))).push (H.op (.binary (op.getD H.ne)))).push (H.op (.setField fi))
  | .assign x r, b => emitStore H x (emitExpr H r (emitStorePrefix H x b))
  | .pattern ts p r, b => (emitExpr H r (emitExprs H ts b)).push (H.op (.pattern p ts.length))
  | .arraySet a i r, b => (emitExpr H r (emitExpr H i (emitExpr H a b))).push (H.op .storeArray)
  | .arrayOp a i op r, b =>
    let b₁ := emitExpr H r ((emitExpr H i (emitExpr H a b)).push (H.op .indexPeek))
    match op with
    | none => ((b₁.push (H.op .swap)).push (H.op (.call 1 false))).push (H.op .storeArray)
    | some op => (b₁.push (H.op (.binary op))).push (H.op .storeArray)
/-- models: codegen.rs:99-109: the arguments of a call; the flag tells whether one was spread -/
def emitArgs (H : Target Γ O T) : Args Γ → Bld O T → Bool → Bld O T × Bool
  | .nil, b, u => (b, u)
  | .plain e rest, b, u => emitArgs H rest (emitExpr H e b) u
  | .unroll e rest, b, u => emitArgs H rest ((emitExpr H e b).push (H.op (.unroll (!u)))) true
/-- models: codegen.rs:156-180: the elements of a literal -/
def emitElems (H : Target Γ O T) : Args Γ → Bld O T → Nat → Bld O T
  | .nil, b, acc => emitAcc H acc b
  | .plain e rest, b, acc => emitElems H rest (emitExpr H e b) (acc + 1)
  | .unroll e rest, b, acc => emitElems H rest ((emitExpr H e (emitAcc H acc b)).push (H.op .litUnroll)) 0
/-- models: codegen.rs:137-149: the comparisons, and the branches that are joined after the last one -/
def emitChain (H : Target Γ O T) : Chain Γ → Bld O T → List (Γ.C × Nat) → Bld O T × List (Γ.C × Nat)
  | .last op e, b, pend => ((emitExpr H e b).push (H.op (.binary (H.ofCmp op))), pend)
  | .more op e rest, b, pend =>
    let b₁ := emitExpr H e b
    emitChain H rest b₁.branchForward (pend ++ [(op, b₁.done.length)])
/-- models: semantic.rs:592-602: the targets of a pattern -/
def emitExprs (H : Target Γ O T) : Exprs Γ → Bld O T → Bld O T
  | .nil, b => b
  | .cons e rest, b => emitExprs H rest (emitExpr H e b)
end

variable {E S : Type}

/-! ## The machine -/

/-- The machine: operand stack (top first), literals under construction (innermost first), counters of spread arguments (innermost first), and the rest. -/
structure Mach (Γ : Sig) (S : Type) where
  stack : List Γ.V
  lits : List (LitTy × List Γ.V)
  unroll : List Int
  s : S

/-- What ends a run: the stop, and the state. -/
abbrev Halt (E S : Type) := Stop E × S

/-- models: `self.push(op(...)?)` -/
def pushOut (m : Mach Γ S) (st : List Γ.V) (o : Out E S Γ.V) : Except (Halt E S) (Mach Γ S) :=
  match o with
  | .ok v s => .ok { m with stack := v :: st, s := s }
  | .stop r s => .error (r, s)

/-- models: an operation without a result, `op(...)?` -/
def doOut (m : Mach Γ S) (st : List Γ.V) (o : Out E S Unit) : Except (Halt E S) (Mach Γ S) :=
  match o with
  | .ok _ s => .ok { m with stack := st, s := s }
  | .stop r s => .error (r, s)

def crash (m : Mach Γ S) : Except (Halt E S) (Mach Γ S) := .error (.panic, m.s)

/-- models: vm/mod.rs:262-645: one opcode -/
def exec (P : Prims Γ E S) : Op Γ → Mach Γ S → Except (Halt E S) (Mach Γ S)
  | .const v, m => .ok { m with stack := v :: m.stack }
  | .exit, m => .error (.exit, m.s)
  | .fail f, m => .error (.err (P.raise f), m.s)
  | .mkClosure, m => match m.stack with
    | v :: st => pushOut m st (P.toClosure v m.s)
    | _ => crash m
  | .capture q, m => match m.stack with
    | v :: st => pushOut m st (P.capture q v m.s)
    | _ => crash m
  | .unroll first, m => match m.stack with
    | v :: st =>
      match (if first then 0 :: m.unroll else m.unroll) with
      | n :: us => match P.iter v m.s with
        | .ok xs s => .ok { m with stack := xs.reverse ++ st, unroll := (n + ((xs.length : Int) - 1)) :: us, s := s }
        | .stop r s => .error (r, s)
      | [] => crash m
    | _ => crash m
  | .call n any, m =>
    match (if any then match m.unroll with | k :: us => some (((n : Int) + k).toNat, us) | [] => none else some (n, m.unroll)) with
    | some (k, us) =>
      match m.stack.drop k with
      | f :: st => if k ≤ m.stack.length then pushOut { m with unroll := us } st (P.call f (m.stack.take k).reverse m.s) else crash m
      | [] => crash m
    | none => crash m
  | .swap, m => match m.stack with
    | a :: b :: st => .ok { m with stack := b :: a :: st }
    | _ => crash m
  | .pop, m => match m.stack with
    | _ :: st => .ok { m with stack := st }
    | _ => crash m
  | .load x, m => pushOut m m.stack (P.load x m.s)
  | .store x, m => match m.stack with
    | v :: st => doOut m (v :: st) (P.store x v m.s)
    | _ => crash m
  | .unary op, m => match m.stack with
    | v :: st => pushOut m st (P.unary op v m.s)
    | _ => crash m
  | .binary op, m => match m.stack with
    | r :: l :: st => pushOut m st (P.binary op l r m.s)
    | _ => crash m
  | .litBegin ty _, m => .ok { m with lits := (ty, []) :: m.lits }
  | .litAcc n, m => match m.lits with
    | (ty, xs) :: ls => if n ≤ m.stack.length then .ok { m with stack := m.stack.drop n, lits := (ty, xs ++ (m.stack.take n).reverse) :: ls } else crash m
    | [] => crash m
  | .litUnroll, m => match m.stack, m.lits with
    | v :: st, (ty, xs) :: ls => match P.spread ty v m.s with
      | .ok ys s => .ok { m with stack := st, lits := (ty, xs ++ ys) :: ls, s := s }
      | .stop r s => .error (r, s)
    | _, _ => crash m
  | .litEnd, m => match m.lits with
    | (ty, xs) :: ls => pushOut { m with lits := ls } m.stack (P.mkLit ty xs m.s)
    | [] => crash m
  | .slice2, m => match m.stack with
    | b :: a :: st => pushOut m st (P.slice2 a b m.s)
    | _ => crash m
  | .slice3, m => match m.stack with
    | c :: b :: a :: st => pushOut m st (P.slice3 a b c m.s)
    | _ => crash m
  | .index, m => match m.stack with
    | i :: a :: st => pushOut m st (P.index a i m.s)
    | _ => crash m
  | .indexPeek, m => match m.stack with
    | i :: a :: st => pushOut m (i :: a :: st) (P.index a i m.s)
    | _ => crash m
  | .slice, m => match m.stack with
    | c :: b :: a :: st => pushOut m st (P.slice a b c m.s)
    | _ => crash m
  | .sliceStep, m => match m.stack with
    | d :: c :: b :: a :: st => pushOut m st (P.sliceStep a b c d m.s)
    | _ => crash m
  | .getField fi, m => match m.stack with
    | a :: st => pushOut m st (P.getField a fi m.s)
    | _ => crash m
  | .getFieldPeek fi, m => match m.stack with
    | a :: st => pushOut m (a :: st) (P.getField a fi m.s)
    | _ => crash m
  | .setField fi, m => match m.stack with
    | v :: a :: st => pushOut m st (P.setField a fi v m.s)
    | _ => crash m
  | .getMethod f, m => match m.stack with
    | a :: st => pushOut m st (P.bindMethod a f m.s)
    | _ => crash m
  | .pattern p k, m => match m.stack with
    | v :: st => if k ≤ st.length then doOut m (v :: st.drop k) (P.pattern p (st.take k).reverse v m.s) else crash m
    | _ => crash m
  | .storeArray, m => match m.stack with
    | v :: i :: a :: st => doOut m (a :: st) (P.setIndex a i v m.s)
    | _ => crash m

/-- models: vm/mod.rs:267-298, 584-599: conditional jumps: whether to jump, and the new state -/
def execTest (P : Prims Γ E S) : Br Γ → Mach Γ S → Except (Halt E S) (Bool × Mach Γ S)
  | .ifFalse, m => match m.stack with
    | v :: _ => .ok (!P.truthy v m.s, m)
    | [] => .error (.panic, m.s)
  | .ifFalsePop, m => match m.stack with
    | v :: st => .ok (!P.truthy v m.s, { m with stack := st })
    | [] => .error (.panic, m.s)
  | .ifTrue, m => match m.stack with
    | v :: _ => .ok (P.truthy v m.s, m)
    | [] => .error (.panic, m.s)
  | .ifTruePop, m => match m.stack with
    | v :: st => .ok (P.truthy v m.s, { m with stack := st })
    | [] => .error (.panic, m.s)
  | .compare c, m => match m.stack with
    | r :: l :: st =>
      if P.cmp c l r m.s then .ok (false, { m with stack := r :: st }) else .ok (true, { m with stack := P.bool false :: st })
    | _ => .error (.panic, m.s)

/-- The meaning of the opcodes for `Model/Graph.lean`. -/
def sem (P : Prims Γ E S) : Graph.Sem (Op Γ) (Br Γ) (Mach Γ S) (Halt E S) := ⟨exec P, execTest P⟩

/-- The code of an expression alone. -/
def Target.own (P : Prims Γ E S) : Target Γ (Op Γ) (Br Γ) := ⟨id, id, P.ofCmp, P.ne⟩

end Cordy.Codegen
