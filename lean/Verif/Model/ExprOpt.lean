import Verif.Spec.Eval
/-!
# Optimisation of expressions

Models `compiler/parser/expr/optimizer.rs` on the expressions of `Model/Expr.lean`.
-/
namespace Cordy.Codegen

/-- What the optimiser knows about constants: which values are native functions and which operators they are, and the results of operators on
constants. -/
structure Consts (Γ : Sig) where
  /-- the constants that are folded: nil, bool, int, complex, str. models: optimizer.rs:155-164 `into_const` -/
  foldable : Γ.V → Bool
  /-- 2 nil, bool, int, str and native functions; 1 methods; 0 complex and field accessors. models: optimizer.rs:174-201 `purity`, for constants -/
  cpurity : Γ.V → Nat
  truthy : Γ.V → Bool
  /-- models: `UnaryOp.apply` and `BinaryOp.apply` on constants -/
  foldU : Γ.U → Γ.V → Except Γ.F Γ.V
  foldB : Γ.B → Γ.V → Γ.V → Except Γ.F Γ.V
  /-- the operator a native function is. models: core/mod.rs:202-226 `as_binary_operator` -/
  binOp : Γ.V → Option Γ.B
  /-- the operator it is with its operands swapped: `swap().as_binary_operator()` -/
  swapOp : Γ.V → Option Γ.B
  /-- models: core/mod.rs:195 `is_operator` -/
  isOperator : Γ.V → Bool
  /-- `min_nargs` of a native function, 0 for other constants. models: core/mod.rs:469-476 and optimizer.rs:203-208 `is_partial` -/
  minNargs : Γ.V → Nat
  isMin : Γ.V → Bool
  isMax : Γ.V → Bool
  isInt : Γ.V → Bool
  minInt : Γ.V
  maxInt : Γ.V
  /-- `ValueErrorEvalListMustHaveUnitLength(n)` -/
  badList : Nat → Γ.F
  /-- not in the code: variables that always have a value (locals). Used by the `exact` choices only. -/
  total : Γ.X → Bool

variable {Γ : Sig}

def Args.anyUnroll : Args Γ → Bool
  | .nil => false
  | .plain _ r => r.anyUnroll
  | .unroll _ _ => true
def Args.append : Args Γ → Args Γ → Args Γ
  | .nil, b => b
  | .plain e r, b => .plain e (r.append b)
  | .unroll e r, b => .unroll e (r.append b)

/-- models: optimizer.rs:203-208 `is_partial` -/
def isPartial (c : Consts Γ) (f : Expr Γ) (n : Nat) : Bool :=
  match f with
  | .const v => n < c.minNargs v
  | _ => false

/-- The decisions in which the optimiser can be compared with more careful ones: when two expressions may be evaluated in the other order, whether
swapped operators on constants are folded with the operands the wrong way around, whether `x . [a:b]` is made `x[a:b]`, and whether
`x . [a, b]` is made a compile error. -/
structure Choices (Γ : Sig) where
  canReorder : Expr Γ → Expr Γ → Bool
  swapBug : Bool
  slices : Bool
  badLists : Bool

mutual
/-- models: optimizer.rs:174-201 `purity`: 0 `None`, 1 `Weak`, 2 `Strong`; with `litStrong` false, collection literals are at most `Weak`, and `None` with a
spread element. -/
def purity (c : Consts Γ) (litStrong : Bool) : Expr Γ → Nat
  | .const v => c.cpurity v
  | .exit => 2
  | .function _ _ => 2
  | .load _ => 1
  | .unary _ a => purity c litStrong a
  | .binary _ l r _ => min (purity c litStrong l) (purity c litStrong r)
  | .or l r => min (purity c litStrong l) (purity c litStrong r)
  | .and l r => min (purity c litStrong l) (purity c litStrong r)
  | .literal _ args =>
    if litStrong then purityArgs c litStrong args else if args.anyUnroll then 0 else min 1 (purityArgs c litStrong args)
  | .ite a b d => min (min (purity c litStrong a) (purity c litStrong b)) (purity c litStrong d)
  | .call f args =>
    if args.anyUnroll then 0 else if isPartial c f args.length then min (purity c litStrong f) (purityArgs c litStrong args) else 0
  | .compose a f => if isPartial c f 1 then min (purity c litStrong f) (purity c litStrong a) else 0
  | _ => 0
def purityArgs (c : Consts Γ) (litStrong : Bool) : Args Γ → Nat
  | .nil => 2
  | .plain e r => min (purity c litStrong e) (purityArgs c litStrong r)
  | .unroll e r => min (purity c litStrong e) (purityArgs c litStrong r)
end

/-- models: optimizer.rs:166-172 `can_reorder` -/
def canReorder (c : Consts Γ) (litStrong : Bool) (a b : Expr Γ) : Bool :=
  match purity c litStrong a with
  | 2 => true
  | 1 => purity c litStrong b != 0
  | _ => purity c litStrong b == 2

/-- models: optimizer.rs: the decisions in the code -/
def actual (c : Consts Γ) : Choices Γ := ⟨canReorder c true, true, true, true⟩
/-- Not in the code: as `actual`, but collection literals count as expressions that must not be moved past effects, and swapped operators on
constants are computed as they should be. -/
def safe (c : Consts Γ) : Choices Γ := ⟨canReorder c false, false, true, true⟩

def isValue : Expr Γ → Bool
  | .const _ | .function _ _ => true
  | _ => false
mutual
/-- Expressions that cannot fail: values, locals, lists of such, partial calls with such arguments. -/
def noStop (c : Consts Γ) : Expr Γ → Bool
  | .const _ | .function _ _ => true
  | .load (.var x) => c.total x
  | .call f args => isPartial c f args.length && noStopArgs c args
  | .literal .list args => noStopArgs c args
  | _ => false
def noStopArgs (c : Consts Γ) : Args Γ → Bool
  | .nil => true
  | .plain e r => noStop c e && noStopArgs c r
  | .unroll _ _ => false
end
/-- Not in the code: only reorder where not even the error can be another one. -/
def exact (c : Consts Γ) : Choices Γ :=
  ⟨fun a b => isValue a || isValue b || (purity c false a != 0 && purity c false b != 0 && (noStop c a || noStop c b)), false, false, false⟩

/-- models: expr/mod.rs:389-394 `Expr::result` -/
def resultExpr (r : Except Γ.F Γ.V) : Expr Γ :=
  match r with
  | .ok v => .const v
  | .error f => .error f

/-- models: optimizer.rs:28-31 -/
def visitUnary (c : Consts Γ) (op : Γ.U) (a : Expr Γ) : Expr Γ :=
  match a with
  | .const v => if c.foldable v then resultExpr (c.foldU op v) else .unary op (.const v)
  | a => .unary op a

/-- models: optimizer.rs:33-39 -/
def visitBin (c : Consts Γ) (ch : Choices Γ) (op : Γ.B) (l r : Expr Γ) (swap : Bool) : Expr Γ :=
  match l, r with
  | .const a, .const b =>
    if c.foldable a && c.foldable b then resultExpr (if swap && ch.swapBug then c.foldB op b a else c.foldB op a b)
    else .binary op (.const a) (.const b) swap
  | l, r => .binary op l r swap

/-- models: optimizer.rs:41-77, without the merging of calls: the function is a constant -/
def visitCallConst (c : Consts Γ) (ch : Choices Γ) (v : Γ.V) (args : Args Γ) : Expr Γ :=
  match args with
  | .plain a (.plain b .nil) =>
    match c.binOp v with
    | some op => visitBin c ch op a b false
    | none =>
      match c.swapOp v with
      | some op => visitBin c ch op b a (!ch.canReorder b a)
      | none => .call (.const v) args
  | .plain (.const w) .nil =>
    if (c.isMin v || c.isMax v) && c.isInt w then .const (if c.isMin v then c.minInt else c.maxInt) else .call (.const v) args
  | args => .call (.const v) args

/-- models: optimizer.rs:41-92. A merged call is visited again (optimizer.rs:87-88); its function is a constant. -/
def visitCall (c : Consts Γ) (ch : Choices Γ) (f : Expr Γ) (args : Args Γ) : Expr Γ :=
  match f with
  | .const v => visitCallConst c ch v args
  | .call (.const v) inner => if !inner.anyUnroll && isPartial c (.const v) inner.length then visitCallConst c ch v (inner.append args) else .call f args
  | f => .call f args

/-- models: optimizer.rs:113-136: `x . f` where `f` is not a literal -/
def visitComposeOther (c : Consts Γ) (ch : Choices Γ) (x f : Expr Γ) : Expr Γ :=
  if ch.canReorder f x then visitCall c ch f (.plain x .nil)
  else match f with
    | .call (.const v) (.plain r .nil) =>
      if c.isOperator v then
        match c.binOp v with
        | some op => .binary op r x true
        | none =>
          match c.swapOp v with
          | some op => .binary op x r false
          | none => .compose x f
      else .compose x f
    | f => .compose x f

/-- models: optimizer.rs:97-136 -/
def visitCompose (c : Consts Γ) (ch : Choices Γ) (x f : Expr Γ) : Expr Γ :=
  match f with
  | .literal .list (.plain i .nil) => .index x i
  | .literal .list args => if !args.anyUnroll && ch.badLists then .error (c.badList args.length) else visitComposeOther c ch x f
  | .sliceLit a b => if ch.slices then .slice x a b else visitComposeOther c ch x f
  | .sliceLit3 a b d => if ch.slices then .sliceStep x a b d else visitComposeOther c ch x f
  | f => visitComposeOther c ch x f

/-- models: optimizer.rs:139-142 -/
def visitIte (c : Consts Γ) (cond t e : Expr Γ) : Expr Γ :=
  match cond with
  | .const v => if c.foldable v then (if c.truthy v then t else e) else .ite cond t e
  | cond => .ite cond t e

mutual
/-- models: expr/mod.rs:177-209 `walk` with the visitor of optimizer.rs:15-146: operands first, then the expression itself. The targets of a pattern
are not visited (expr/mod.rs:202). -/
def opt (c : Consts Γ) (ch : Choices Γ) : Expr Γ → Expr Γ
  | .const v => .const v
  | .exit => .exit
  | .error f => .error f
  | .function v caps => .function v caps
  | .call f args => visitCall c ch (opt c ch f) (optArgs c ch args)
  | .compose x f => visitCompose c ch (opt c ch x) (opt c ch f)
  | .load x => .load x
  | .unary op a => visitUnary c op (opt c ch a)
  | .binary op l r swap => visitBin c ch op (opt c ch l) (opt c ch r) swap
  | .compare l ch' => .compare (opt c ch l) (optChain c ch ch')
  | .literal ty args => .literal ty (optArgs c ch args)
  | .sliceLit a b => .sliceLit (opt c ch a) (opt c ch b)
  | .sliceLit3 a b d => .sliceLit3 (opt c ch a) (opt c ch b) (opt c ch d)
  | .and a b => .and (opt c ch a) (opt c ch b)
  | .or a b => .or (opt c ch a) (opt c ch b)
  | .index a i => .index (opt c ch a) (opt c ch i)
  | .slice x a b => .slice (opt c ch x) (opt c ch a) (opt c ch b)
  | .sliceStep x a b d => .sliceStep (opt c ch x) (opt c ch a) (opt c ch b) (opt c ch d)
  | .ite a t e => visitIte c (opt c ch a) (opt c ch t) (opt c ch e)
  | .getField a fi => .getField (opt c ch a) fi
  | .setField a fi r => .setField (opt c ch a) fi (opt c ch r)
  | .swapField a fi op r => .swapField (opt c ch a) fi op (opt c ch r)
  | .assign x r => .assign x (opt c ch r)
  | .pattern ts p r => .pattern ts p (opt c ch r)
  | .arraySet a i r => .arraySet (opt c ch a) (opt c ch i) (opt c ch r)
  | .arrayOp a i op r => .arrayOp (opt c ch a) (opt c ch i) op (opt c ch r)
def optArgs (c : Consts Γ) (ch : Choices Γ) : Args Γ → Args Γ
  | .nil => .nil
  | .plain e r => .plain (opt c ch e) (optArgs c ch r)
  | .unroll e r => .unroll (opt c ch e) (optArgs c ch r)
def optChain (c : Consts Γ) (ch : Choices Γ) : Chain Γ → Chain Γ
  | .last op e => .last op (opt c ch e)
  | .more op e r => .more op (opt c ch e) (optChain c ch r)
end

end Cordy.Codegen
