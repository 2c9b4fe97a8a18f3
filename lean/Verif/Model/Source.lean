import Verif.Model.Scanner
import Verif.Model.Grammar
import Verif.Model.Expr
/-!
# From the text of an expression to its code

Puts together the scanner (`Model/Scanner`), the parser of expressions (`Model/Grammar`), the trees that it builds (compiler/parser/expr/mod.rs, codegen.rs:15-45) and the code generator (`Model/Expr`).

Left out (no code in the model): function expressions, slice literals `[a:b]`, patterns, `self` and its fields by their bare names.
-/
namespace Cordy.Source
open Cordy.Scan (Token scan tokens errors)
open Cordy.Grammar
open Cordy.Codegen (Sig Expr Args Chain LVal)

/-- The tokens of the scanner that the parsers of expressions (`Model/Grammar`) and statements (`Model/SourceStmt`) know. -/
def tok : Token → Option Tok
  | .identifier s => some (.ident (String.ofList s))
  | .string s => some (.lit (.str s))
  | .int v => some (.lit (.int v))
  | .complex v => some (.lit (.complex v))
  | .kTrue => some (.lit (.bool true))
  | .kFalse => some (.lit (.bool false))
  | .kNil => some (.lit .nil)
  | .kExit => some (.lit .exit)
  | .openParen => some .lparen
  | .closeParen => some .rparen
  | .openSquare => some .lsq
  | .closeSquare => some .rsq
  | .comma => some .comma
  | .arrow => some .arrow
  | .ellipsis => some .ellipsis
  | .kIf => some .kIf
  | .kThen => some .kThen
  | .kElif => some .kElif
  | .kElse => some .kElse
  | .mul => some .star
  | .div => some .slash
  | .mod => some .percent
  | .pow => some .starstar
  | .kIs => some .kIs
  | .kIn => some .kIn
  | .kNot => some .kNot
  | .not => some .bang
  | .plus => some .plus
  | .minus => some .minus
  | .leftShift => some .shl
  | .rightShift => some .shr
  | .bitwiseAnd => some .amp
  | .bitwiseOr => some .bar
  | .bitwiseXor => some .caret
  | .dot => some .dot
  | .lessThan => some (.cmp .lt)
  | .lessThanEquals => some (.cmp .le)
  | .greaterThan => some (.cmp .gt)
  | .greaterThanEquals => some (.cmp .ge)
  | .doubleEquals => some (.cmp .eq)
  | .notEquals => some (.cmp .ne)
  | .logicalAnd => some .kAnd
  | .logicalOr => some .kOr
  | .equals => some .eq
  | .plusEquals => some (.asg .add)
  | .minusEquals => some (.asg .sub)
  | .mulEquals => some (.asg .mul)
  | .divEquals => some (.asg .div)
  | .andEquals => some (.asg .and)
  | .orEquals => some (.asg .or)
  | .xorEquals => some (.asg .xor)
  | .leftShiftEquals => some (.asg .shl)
  | .rightShiftEquals => some (.asg .shr)
  | .modEquals => some (.asg .mod)
  | .powEquals => some (.asg .pow)
  | .dotEquals => some (.asg .dot)
  | .kLet => some (.word .kLet)
  | .kWhile => some (.word .kWhile)
  | .kLoop => some (.word .kLoop)
  | .kFor => some (.word .kFor)
  | .kDo => some (.word .kDo)
  | .kBreak => some (.word .kBreak)
  | .kContinue => some (.word .kContinue)
  | .kAssert => some (.word .kAssert)
  | .kFn => some (.word .kFn)
  | .kReturn => some (.word .kReturn)
  | .questionMark => some (.word .question)
  | .underscore => some (.word .underscore)
  | .openBrace => some (.word .lbrace)
  | .closeBrace => some (.word .rbrace)
  | .semicolon => some (.word .semi)
  | .colon => some (.word .colon)
  | _ => none

/-- models: core/mod.rs:137-167 `peek`, `peek_no_newline`: the parser skips `NewLine` tokens, but can see that there is one before a token -/
def withBreaks : Bool → List Token → Option (List T)
  | _, [] => some []
  | b, t :: ts =>
    if t = .newLine then withBreaks true ts
    else match tok t, withBreaks false ts with
      | some t, some ts => some ((b, t) :: ts)
      | _, _ => none

/-- What a name stands for: a variable, or a constant (a native or user function, a type, a module). -/
inductive Name (Γ : Sig) where
  | variable (x : Γ.X)
  | constant (v : Γ.V)

/-- models: semantic.rs:292-304 `LValue`: a name, `_`, `*_`, `*x`, or terms in parentheses -/
inductive Pat (α : Type) where
  | name (x : α)
  | hole
  | starHole
  | star (x : α)
  | terms (ps : List (Pat α))

/-- What is in scope, and the operators. -/
structure Scope (Γ : Sig) where
  /-- the values of literals; `exit` is none -/
  lit : Lit → Γ.V
  name : String → Option (Name Γ)
  /-- the number of a field name -/
  field : String → Option Nat
  /-- `(->f)` -/
  fieldFn : Nat → Γ.V
  prefixOp : Prefix → Γ.U
  /-- the operators but `.`, `and`, `or` -/
  infixOp : Infix → Γ.B
  cmp : Cmp → Γ.C
  /-- models: `BinaryOp::from(CompareOp)` -/
  ofCmp : Γ.C → Γ.B
  /-- `+=` etc. but `.=` -/
  asgOp : AsgOp → Γ.B
  maxOp : Γ.B
  minOp : Γ.B
  /-- the operators as functions; `swapped`: with the operands exchanged (core/mod.rs:227-262 `swap`) -/
  opFn : SecOp → Γ.V
  swapped : SecOp → Γ.V
  prefixFn : Prefix → Γ.V
  /-- models: semantic.rs:572-622 `build_pattern`: the pattern that is executed, with its variables -/
  pat : List (Pat Γ.X) → Γ.P
  /-- the functions of the program, by number (`Constant`) -/
  func : Nat → Γ.V := fun _ => lit .nil
  /-- in a function: the variables of the program (`PushGlobal`, `StoreGlobal`) -/
  glob : String → Option Γ.X := fun _ => none

variable {Γ : Sig}

/-- models: expr/mod.rs:283-330 `assign`, `op_assign`: the operator of an assignment; `none` for `=`, `some none` for `.=` -/
def Scope.asg (I : Scope Γ) : Asg → Option (Option Γ.B)
  | .eq => none
  | .op .dot => some none
  | .op a => some (some (I.asgOp a))
  | .max => some (some I.maxOp)
  | .min => some (some I.minOp)

/-- models: expr/mod.rs:283-345: assignment to a variable -/
def asgVar (x : Γ.X) (r : Expr Γ) : Option (Option Γ.B) → Expr Γ
  | none => .assign (.var x) r
  | some none => .assign (.var x) (.compose (.load (.var x)) r)
  | some (some op) => .assign (.var x) (.binary op (.load (.var x)) r false)

/-- assignment to an element -/
def asgIndex (a i r : Expr Γ) : Option (Option Γ.B) → Expr Γ
  | none => .arraySet a i r
  | some op => .arrayOp a i op r

/-- assignment to a field -/
def asgField (a : Expr Γ) (f : Nat) (r : Expr Γ) : Option (Option Γ.B) → Expr Γ
  | none => .setField a f r
  | some op => .swapField a f op r

/-- models: mod.rs:1200-1257, expr/mod.rs:347-352 `lvalue`: a name -/
def Name.expr : Name Γ → Expr Γ
  | .variable x => .load (.var x)
  | .constant v => .const v

/-- models: codegen.rs:35-39: parentheses around one expression, or a vector -/
def commaExpr (trailing : Bool) : Args Γ → Expr Γ
  | .plain x .nil => if trailing then .literal .vector (.plain x .nil) else x
  | xs => .literal .vector xs

/-- models: expr/mod.rs:371-381 `compare` -/
def compareExpr (I : Scope Γ) (l : Expr Γ) : List (Γ.C × Expr Γ) → Expr Γ
  | [] => l
  | (c, r) :: ops =>
    match chain c r ops with
    | .last c r => .binary (I.ofCmp c) l r false
    | ch => .compare l ch
where
  chain (c : Γ.C) (r : Expr Γ) : List (Γ.C × Expr Γ) → Chain Γ
    | [] => .last c r
    | (c', r') :: ops => .more c r (chain c' r' ops)

/-- models: mod.rs:1796-1980: the operators -/
def infixExpr (I : Scope Γ) (op : Infix) (l r : Expr Γ) : Expr Γ :=
  match op with
  | .dot => .compose l r
  | .land => .and l r
  | .lor => .or l r
  | op => .binary (I.infixOp op) l r false

mutual
/-- models: the constructors of expr/mod.rs as the parser uses them (mod.rs:1198-2090), then codegen.rs:15-45 `process_expr`; `none`: an error is reported -/
def build (I : Scope Γ) : E → Option (Expr Γ)
  | .lit .exit => some .exit
  | .lit l => some (.const (I.lit l))
  | .func k => some (.const (I.func k))
  | .var s => (I.name s).map Name.expr
  | .comma as tr => (buildArgs I as).map (commaExpr tr)
  | .list as => (buildArgs I as).map (.literal .list ·)
  | .set as => (buildArgs I as).map (.literal .set ·)
  | .dict as => (buildArgs I as).map (.literal .dict ·)
  | .ite c t f =>
    match build I c, build I t, build I f with
    | some c, some t, some f => some (.ite c t f)
    | _, _, _ => none
  | .call f as =>
    match build I f, buildArgs I as with
    | some f, some as => some (.call f as)
    | _, _ => none
  | .index a i =>
    match build I a, build I i with
    | some a, some i => some (.index a i)
    | _, _ => none
  | .slice a i j =>
    match build I a, build I i, build I j with
    | some a, some i, some j => some (.slice a i j)
    | _, _, _ => none
  | .sliceStep a i j k =>
    match build I a, build I i, build I j, build I k with
    | some a, some i, some j, some k => some (.sliceStep a i j k)
    | _, _, _, _ => none
  | .field a f =>
    match build I a, I.field f with
    | some a, some f => some (.getField a f)
    | _, _ => none
  | .unary p a => (build I a).map (.unary (I.prefixOp p) ·)
  | .bin op l r =>
    match build I l, build I r with
    | some l, some r => some (infixExpr I op l r)
    | _, _ => none
  | .compare l ops =>
    match build I l, buildOps I ops with
    | some l, some ops => some (compareExpr I l ops)
    | _, _ => none
  | .assign op (.var s) r =>
    match I.name s, build I r with
    | some (.variable x), some r => some (asgVar x r (I.asg op))
    | _, _ => none
  | .assign op (.index a i) r =>
    match build I a, build I i, build I r with
    | some a, some i, some r => some (asgIndex a i r (I.asg op))
    | _, _, _ => none
  | .assign op (.field a f) r =>
    match build I a, I.field f, build I r with
    | some a, some f, some r => some (asgField a f r (I.asg op))
    | _, _, _ => none
  | .assign _ _ _ => none
  | .fieldRef f => (I.field f).map fun f => .const (I.fieldFn f)
  | .unroll _ => none
  | .opRef op => some (.const (I.opFn op))
  | .opRefU p => some (.const (I.prefixFn p))
  | .secL op e => (build I e).map fun e => .call (.const (I.swapped op)) (.plain e .nil)
  | .secR op e => (build I e).map fun e => .call (.const (I.opFn op)) (.plain e .nil)
/-- arguments and elements -/
def buildArgs (I : Scope Γ) : List E → Option (Args Γ)
  | [] => some .nil
  | .unroll e :: es =>
    match build I e, buildArgs I es with
    | some e, some es => some (.unroll e es)
    | _, _ => none
  | e :: es =>
    match build I e, buildArgs I es with
    | some e, some es => some (.plain e es)
    | _, _ => none
/-- comparisons -/
def buildOps (I : Scope Γ) : List (Cmp × E) → Option (List (Γ.C × Expr Γ))
  | [] => some []
  | (c, e) :: ops =>
    match build I e, buildOps I ops with
    | some e, some ops => some ((I.cmp c, e) :: ops)
    | _, _ => none
end

/-- models: compiler/mod.rs:94-121 `try_incremental_compile` with parser/mod.rs:224-228 `parse_incremental_eval`, 1075-1079 `parse_expression`: the text is that of an expression, and `x` is what its code is made from. After a
whole expression there is no comma: so `parse_expr_11(false)` does here what `parse_expr_11(true)` does, which is `pExpr`. -/
def Compiles (I : Scope Γ) (text : List Char) (x : Expr Γ) : Prop :=
  errors (scan text) = [] ∧ ∃ ts n e, withBreaks false ((tokens (scan text)).map Prod.snd) = some ts ∧ pExpr n ts = some (e, []) ∧ build I e = some x

end Cordy.Source
