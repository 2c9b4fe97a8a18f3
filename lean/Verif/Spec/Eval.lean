import Verif.Model.Expr
/-!
# The evaluation rules of expressions

The specification for C36–C38, C45 and C35: the value of an expression, without code or a stack.  Operands are evaluated left to right; an
error (or `exit`) in one ends the evaluation.
-/
namespace Cordy.Codegen
variable {Γ : Sig} {E S : Type}

/-- Make the captures of a closure one after the other. -/
def captureAll (P : Prims Γ E S) : List Γ.Q → Γ.V → S → Out E S Γ.V
  | [], v, s => .ok v s
  | q :: qs, v, s => (P.capture q v s).bind fun v s => captureAll P qs v s

/-- The value of a name. -/
def evalLVal (P : Prims Γ E S) : LVal Γ → S → Out E S Γ.V
  | .var x, s => P.load x s
  | .thisField x fi, s => (P.load x s).bind fun v s => P.getField v fi s
  | .thisMethod x m, s => (P.load x s).bind fun v s => P.bindMethod v m s

mutual
/-- The evaluation rules; `fc old f` is the new value of a field after `a->x .= f` where it was `old`. -/
def evalW (P : Prims Γ E S) (fc : Γ.V → Γ.V → S → Out E S Γ.V) : Expr Γ → S → Out E S Γ.V
  | .const v, s => .ok v s
  | .exit, s => .stop .exit s
  | .error f, s => .stop (.err (P.raise f)) s
  -- a function that captures nothing is the function itself
  | .function v caps, s => if caps.isEmpty then .ok v s else (P.toClosure v s).bind fun c s => captureAll P caps c s
  -- the function, then the arguments, then the call
  | .call f args, s => (evalW P fc f s).bind fun fv s => (evalArgsW P fc P.iter args s).bind fun vs s => P.call fv vs s
  -- `x . f`: first `x`, then `f`
  | .compose x f, s => (evalW P fc x s).bind fun xv s => (evalW P fc f s).bind fun fv s => P.call fv [xv] s
  | .load x, s => evalLVal P x s
  | .unary op a, s => (evalW P fc a s).bind fun v s => P.unary op v s
  -- a swapped operator evaluates its right operand first
  | .binary op l r swap, s =>
    if swap then (evalW P fc r s).bind fun rv s => (evalW P fc l s).bind fun lv s => P.binary op lv rv s
    else (evalW P fc l s).bind fun lv s => (evalW P fc r s).bind fun rv s => P.binary op lv rv s
  | .compare l c, s => (evalW P fc l s).bind fun lv s => evalChainW P fc c lv s
  | .literal ty args, s => (evalArgsW P fc (P.spread ty) args s).bind fun vs s => P.mkLit ty vs s
  | .sliceLit a b, s => (evalW P fc a s).bind fun x s => (evalW P fc b s).bind fun y s => P.slice2 x y s
  | .sliceLit3 a b c, s => (evalW P fc a s).bind fun x s => (evalW P fc b s).bind fun y s => (evalW P fc c s).bind fun z s => P.slice3 x y z s
  -- the deciding operand
  | .and a b, s => (evalW P fc a s).bind fun v s => if P.truthy v s then evalW P fc b s else .ok v s
  | .or a b, s => (evalW P fc a s).bind fun v s => if P.truthy v s then .ok v s else evalW P fc b s
  | .index a i, s => (evalW P fc a s).bind fun x s => (evalW P fc i s).bind fun y s => P.index x y s
  | .slice a b c, s => (evalW P fc a s).bind fun x s => (evalW P fc b s).bind fun y s => (evalW P fc c s).bind fun z s => P.slice x y z s
  | .sliceStep a b c d, s =>
    (evalW P fc a s).bind fun x s => (evalW P fc b s).bind fun y s => (evalW P fc c s).bind fun z s => (evalW P fc d s).bind fun w s => P.sliceStep x y z w s
  | .ite c t e, s => (evalW P fc c s).bind fun v s => if P.truthy v s then evalW P fc t s else evalW P fc e s
  | .getField a fi, s => (evalW P fc a s).bind fun v s => P.getField v fi s
  | .setField a fi r, s => (evalW P fc a s).bind fun v s => (evalW P fc r s).bind fun w s => P.setField v fi w s
  -- `a->x op= r`: the old value is read before `r` is evaluated; `a->x .= r` calls `r` with the old value
  | .swapField a fi op r, s =>
    (evalW P fc a s).bind fun v s => (P.getField v fi s).bind fun old s => (evalW P fc r s).bind fun w s =>
      (match op with | some op => P.binary op old w s | none => fc old w s).bind fun new s => P.setField v fi new s
  -- an assignment gives the assigned value
  | .assign x r, s =>
    match x with
    | .var x => (evalW P fc r s).bind fun v s => (P.store x v s).bind fun _ s => .ok v s
    | .thisField x fi => (P.load x s).bind fun v s => (evalW P fc r s).bind fun w s => P.setField v fi w s
    | .thisMethod _ _ => evalW P fc r s
  -- arrays, indices and structs of the targets, then the right side, then the assignments
  | .pattern ts p r, s => (evalExprsW P fc ts s).bind fun vs s => (evalW P fc r s).bind fun v s => (P.pattern p vs v s).bind fun _ s => .ok v s
  -- assignments to an element give the collection
  | .arraySet a i r, s =>
    (evalW P fc a s).bind fun x s => (evalW P fc i s).bind fun y s => (evalW P fc r s).bind fun z s => (P.setIndex x y z s).bind fun _ s => .ok x s
  | .arrayOp a i op r, s =>
    (evalW P fc a s).bind fun x s => (evalW P fc i s).bind fun y s => (P.index x y s).bind fun old s => (evalW P fc r s).bind fun w s =>
      (match op with | some op => P.binary op old w s | none => P.call w [old] s).bind fun new s => (P.setIndex x y new s).bind fun _ s => .ok x s
/-- The values of arguments or elements; a spread one stands for its elements. -/
def evalArgsW (P : Prims Γ E S) (fc : Γ.V → Γ.V → S → Out E S Γ.V) (spread : Γ.V → S → Out E S (List Γ.V)) : Args Γ → S → Out E S (List Γ.V)
  | .nil, s => .ok [] s
  | .plain e rest, s => (evalW P fc e s).bind fun v s => (evalArgsW P fc spread rest s).bind fun vs s => .ok (v :: vs) s
  | .unroll e rest, s =>
    (evalW P fc e s).bind fun v s => (spread v s).bind fun xs s => (evalArgsW P fc spread rest s).bind fun vs s => .ok (xs ++ vs) s
/-- A chain of comparisons that begins with the value `l`: the first comparison that is false ends it. -/
def evalChainW (P : Prims Γ E S) (fc : Γ.V → Γ.V → S → Out E S Γ.V) : Chain Γ → Γ.V → S → Out E S Γ.V
  | .last op e, l, s => (evalW P fc e s).bind fun r s => .ok (P.bool (P.cmp op l r s)) s
  | .more op e rest, l, s => (evalW P fc e s).bind fun r s => if P.cmp op l r s then evalChainW P fc rest r s else .ok (P.bool false) s
def evalExprsW (P : Prims Γ E S) (fc : Γ.V → Γ.V → S → Out E S Γ.V) : Exprs Γ → S → Out E S (List Γ.V)
  | .nil, s => .ok [] s
  | .cons e rest, s => (evalW P fc e s).bind fun v s => (evalExprsW P fc rest s).bind fun vs s => .ok (v :: vs) s
end

/-- `a->x .= f` as documented: the field gets the result of `f` on its old value. -/
def fcDoc (P : Prims Γ E S) (old f : Γ.V) (s : S) : Out E S Γ.V := P.call f [old] s
/-- `a->x .= f` as it is compiled (codegen.rs:246-252): the field gets whether its old value and `f` are different. -/
def fcCode (P : Prims Γ E S) (old f : Γ.V) (s : S) : Out E S Γ.V := P.binary P.ne old f s

/-- The value of an expression by the rules of the language. -/
abbrev eval (P : Prims Γ E S) (e : Expr Γ) (s : S) : Out E S Γ.V := evalW P (fcDoc P) e s

mutual
/-- Expressions without `a->x .= f`. -/
def Expr.NoFieldCompose : Expr Γ → Prop
  | .const _ | .exit | .error _ | .function _ _ | .load _ => True
  | .call f args => f.NoFieldCompose ∧ args.NoFieldCompose
  | .compose a b | .binary _ a b _ | .sliceLit a b | .and a b | .or a b | .index a b | .setField a _ b => a.NoFieldCompose ∧ b.NoFieldCompose
  | .unary _ a | .getField a _ | .assign _ a => a.NoFieldCompose
  | .compare l c => l.NoFieldCompose ∧ c.NoFieldCompose
  | .literal _ args => args.NoFieldCompose
  | .sliceLit3 a b c | .slice a b c | .ite a b c | .arraySet a b c => a.NoFieldCompose ∧ b.NoFieldCompose ∧ c.NoFieldCompose
  | .sliceStep a b c d => a.NoFieldCompose ∧ b.NoFieldCompose ∧ c.NoFieldCompose ∧ d.NoFieldCompose
  | .swapField a _ op b => op ≠ none ∧ a.NoFieldCompose ∧ b.NoFieldCompose
  | .pattern ts _ r => ts.NoFieldCompose ∧ r.NoFieldCompose
  | .arrayOp a b _ c => a.NoFieldCompose ∧ b.NoFieldCompose ∧ c.NoFieldCompose
def Args.NoFieldCompose : Args Γ → Prop
  | .nil => True
  | .plain e r => e.NoFieldCompose ∧ r.NoFieldCompose
  | .unroll e r => e.NoFieldCompose ∧ r.NoFieldCompose
def Chain.NoFieldCompose : Chain Γ → Prop
  | .last _ e => e.NoFieldCompose
  | .more _ e r => e.NoFieldCompose ∧ r.NoFieldCompose
def Exprs.NoFieldCompose : Exprs Γ → Prop
  | .nil => True
  | .cons e r => e.NoFieldCompose ∧ r.NoFieldCompose
end

end Cordy.Codegen
