import Verif.Spec.Grammar
import Verif.Spec.Eval
import Verif.Model.Source
import Verif.Lemmas.Scanner
/-!
# The meaning of an expression

The specification for C80: the value of the tree of an expression, by the rules of docs/language.md. What operators, functions and variables do (`Prims`) and what names are in scope (`Scope`) is given.
-/
namespace Cordy.Source
open Cordy.Grammar
open Cordy.Scan (scan tokens errors)
open Cordy.Codegen (Sig Out Prims)
variable {Γ : Sig} {Er S : Type}

/-- `x op y`, where `.` calls `y` with `x`; `and`, `or` are not here -/
def apply (P : Prims Γ Er S) (I : Scope Γ) (op : Infix) (x y : Γ.V) (s : S) : Out Er S Γ.V :=
  match op with
  | .dot => P.call y [x] s
  | op => P.binary (I.infixOp op) x y s

/-- The new value in an assignment: `old` is the old one, `v` that of the right side. -/
def assigned (P : Prims Γ Er S) (I : Scope Γ) (a : Asg) (old v : Γ.V) (s : S) : Out Er S Γ.V :=
  match a with
  | .eq => .ok v s
  | .op .dot => P.call v [old] s
  | .op a => P.binary (I.asgOp a) old v s
  | .max => P.binary I.maxOp old v s
  | .min => P.binary I.minOp old v s

/-- A value of parts: of a single part without a trailing comma it is the part, otherwise a vector. -/
def parens (P : Prims Γ Er S) (as : List E) (trailing : Bool) (vs : List Γ.V) (s : S) : Out Er S Γ.V :=
  match as, trailing, vs with
  | [.unroll _], _, vs => P.mkLit .vector vs s
  | [_], false, [v] => .ok v s
  | _, _, vs => P.mkLit .vector vs s

mutual
/-- The value of an expression. Operands are evaluated left to right, each once; an error ends the evaluation. -/
def value (P : Prims Γ Er S) (I : Scope Γ) : E → S → Out Er S Γ.V
  | .lit .exit, s => .stop .exit s
  | .lit l, s => .ok (I.lit l) s
  | .func k, s => .ok (I.func k) s
  | .var x, s =>
    match I.name x with
    | some (.variable x) => P.load x s
    | some (.constant v) => .ok v s
    | none => .stop .panic s
  | .comma as tr, s => (values P I (P.spread .vector) as s).bind fun vs s => parens P as tr vs s
  | .list as, s => (values P I (P.spread .list) as s).bind fun vs s => P.mkLit .list vs s
  | .set as, s => (values P I (P.spread .set) as s).bind fun vs s => P.mkLit .set vs s
  | .dict as, s => (values P I (P.spread .dict) as s).bind fun vs s => P.mkLit .dict vs s
  | .ite c t f, s => (value P I c s).bind fun v s => if P.truthy v s then value P I t s else value P I f s
  | .call f as, s => (value P I f s).bind fun f s => (values P I P.iter as s).bind fun vs s => P.call f vs s
  | .index a i, s => (value P I a s).bind fun a s => (value P I i s).bind fun i s => P.index a i s
  | .slice a i j, s => (value P I a s).bind fun a s => (value P I i s).bind fun i s => (value P I j s).bind fun j s => P.slice a i j s
  | .sliceStep a i j k, s => (value P I a s).bind fun a s => (value P I i s).bind fun i s => (value P I j s).bind fun j s => (value P I k s).bind fun k s => P.sliceStep a i j k s
  | .field a f, s => (value P I a s).bind fun a s => P.getField a ((I.field f).getD 0) s
  | .unary p a, s => (value P I a s).bind fun v s => P.unary (I.prefixOp p) v s
  -- the second operand is evaluated only if the first does not decide
  | .bin .land l r, s => (value P I l s).bind fun v s => if P.truthy v s then value P I r s else .ok v s
  | .bin .lor l r, s => (value P I l s).bind fun v s => if P.truthy v s then .ok v s else value P I r s
  | .bin op l r, s => (value P I l s).bind fun x s => (value P I r s).bind fun y s => apply P I op x y s
  | .compare l [], s => value P I l s
  | .compare l (op :: ops), s => (value P I l s).bind fun x s => compared P I (op :: ops) x s
  -- the value of an assignment is that assigned; to an element, the collection; to a field, what `setField` gives
  | .assign .eq (.var x) r, s =>
    match I.name x with
    | some (.variable x) => (value P I r s).bind fun v s => (P.store x v s).bind fun _ s => .ok v s
    | _ => .stop .panic s
  | .assign op (.var x) r, s =>
    match I.name x with
    | some (.variable x) => (P.load x s).bind fun old s => (value P I r s).bind fun v s => (assigned P I op old v s).bind fun v s => (P.store x v s).bind fun _ s => .ok v s
    | _ => .stop .panic s
  | .assign .eq (.index a i) r, s =>
    (value P I a s).bind fun a s => (value P I i s).bind fun i s => (value P I r s).bind fun v s => (P.setIndex a i v s).bind fun _ s => .ok a s
  | .assign op (.index a i) r, s =>
    (value P I a s).bind fun a s => (value P I i s).bind fun i s => (P.index a i s).bind fun old s => (value P I r s).bind fun v s =>
      (assigned P I op old v s).bind fun v s => (P.setIndex a i v s).bind fun _ s => .ok a s
  | .assign .eq (.field a f) r, s => (value P I a s).bind fun a s => (value P I r s).bind fun v s => P.setField a ((I.field f).getD 0) v s
  | .assign op (.field a f) r, s =>
    (value P I a s).bind fun a s => (P.getField a ((I.field f).getD 0) s).bind fun old s => (value P I r s).bind fun v s =>
      (assigned P I op old v s).bind fun v s => P.setField a ((I.field f).getD 0) v s
  | .assign _ _ _, s => .stop .panic s
  | .fieldRef f, s => .ok (I.fieldFn ((I.field f).getD 0)) s
  | .unroll _, s => .stop .panic s
  | .opRef op, s => .ok (I.opFn op) s
  | .opRefU p, s => .ok (I.prefixFn p) s
  -- `(op x)` and `(x op)`: the operator with one operand
  | .secL op x, s => (value P I x s).bind fun x s => P.call (I.swapped op) [x] s
  | .secR op x, s => (value P I x s).bind fun x s => P.call (I.opFn op) [x] s
/-- Arguments and elements: `...x` stands for the elements of `x`. -/
def values (P : Prims Γ Er S) (I : Scope Γ) (spread : Γ.V → S → Out Er S (List Γ.V)) : List E → S → Out Er S (List Γ.V)
  | [], s => .ok [] s
  | .unroll e :: es, s => (value P I e s).bind fun v s => (spread v s).bind fun xs s => (values P I spread es s).bind fun vs s => .ok (xs ++ vs) s
  | e :: es, s => (value P I e s).bind fun v s => (values P I spread es s).bind fun vs s => .ok (v :: vs) s
/-- A chain of comparisons, `x` is the value before it: the first that is false ends it. -/
def compared (P : Prims Γ Er S) (I : Scope Γ) : List (Cmp × E) → Γ.V → S → Out Er S Γ.V
  | [], _, s => .ok (P.bool true) s
  | (c, e) :: ops, x, s => (value P I e s).bind fun y s => if P.cmp (I.cmp c) x y s then compared P I ops y s else .ok (P.bool false) s
end

mutual
/-- The expression makes sense: its names are known, what is assigned to is a variable, an element or a field. -/
def Known (I : Scope Γ) : E → Prop
  | .lit _ | .opRef _ | .opRefU _ | .func _ => True
  | .var x => I.name x ≠ none
  | .comma as _ | .list as | .set as | .dict as => KnownAll I as
  | .ite c t f => Known I c ∧ Known I t ∧ Known I f
  | .call f as => Known I f ∧ KnownAll I as
  | .index a i => Known I a ∧ Known I i
  | .slice a i j => Known I a ∧ Known I i ∧ Known I j
  | .sliceStep a i j k => Known I a ∧ Known I i ∧ Known I j ∧ Known I k
  | .field a f => Known I a ∧ I.field f ≠ none
  | .unary _ a | .secL _ a | .secR _ a => Known I a
  | .bin _ l r => Known I l ∧ Known I r
  | .compare l ops => Known I l ∧ KnownOps I ops
  | .assign _ (.var x) r => (∃ y, I.name x = some (.variable y)) ∧ Known I r
  | .assign _ (.index a i) r => Known I a ∧ Known I i ∧ Known I r
  | .assign _ (.field a f) r => Known I a ∧ I.field f ≠ none ∧ Known I r
  | .assign _ _ _ => False
  | .fieldRef f => I.field f ≠ none
  | .unroll _ => False
def KnownAll (I : Scope Γ) : List E → Prop
  | [] => True
  | .unroll e :: es => Known I e ∧ KnownAll I es
  | e :: es => Known I e ∧ KnownAll I es
def KnownOps (I : Scope Γ) : List (Cmp × E) → Prop
  | [] => True
  | (_, e) :: ops => Known I e ∧ KnownOps I ops
end

mutual
/-- No assignment `a->f .= g` in it (which the compiler gets wrong, C36). -/
def NoFieldDot : E → Prop
  | .lit _ | .opRef _ | .opRefU _ | .var _ | .fieldRef _ | .func _ => True
  | .comma as _ | .list as | .set as | .dict as => NoFieldDotAll as
  | .ite c t f => NoFieldDot c ∧ NoFieldDot t ∧ NoFieldDot f
  | .call f as => NoFieldDot f ∧ NoFieldDotAll as
  | .index a i => NoFieldDot a ∧ NoFieldDot i
  | .slice a i j => NoFieldDot a ∧ NoFieldDot i ∧ NoFieldDot j
  | .sliceStep a i j k => NoFieldDot a ∧ NoFieldDot i ∧ NoFieldDot j ∧ NoFieldDot k
  | .field a _ | .unary _ a | .secL _ a | .secR _ a | .unroll a => NoFieldDot a
  | .bin _ l r => NoFieldDot l ∧ NoFieldDot r
  | .compare l ops => NoFieldDot l ∧ NoFieldDotOps ops
  | .assign op (.field a _) r => op ≠ .op .dot ∧ NoFieldDot a ∧ NoFieldDot r
  | .assign _ l r => NoFieldDot l ∧ NoFieldDot r
def NoFieldDotAll : List E → Prop
  | [] => True
  | e :: es => NoFieldDot e ∧ NoFieldDotAll es
def NoFieldDotOps : List (Cmp × E) → Prop
  | [] => True
  | (_, e) :: ops => NoFieldDot e ∧ NoFieldDotOps ops
end

/-- How the words and signs of expressions are written. -/
def written : Tok → Option String
  | .lit .nil => some "nil" | .lit .exit => some "exit" | .lit (.bool true) => some "true" | .lit (.bool false) => some "false"
  | .lit _ | .ident _ => none
  | .lparen => some "(" | .rparen => some ")" | .lsq => some "[" | .rsq => some "]" | .comma => some "," | .arrow => some "->" | .ellipsis => some "..."
  | .kIf => some "if" | .kThen => some "then" | .kElif => some "elif" | .kElse => some "else"
  | .star => some "*" | .slash => some "/" | .percent => some "%" | .starstar => some "**" | .kIs => some "is" | .kIn => some "in" | .kNot => some "not" | .bang => some "!"
  | .plus => some "+" | .minus => some "-" | .shl => some "<<" | .shr => some ">>" | .amp => some "&" | .bar => some "|" | .caret => some "^" | .dot => some "."
  | .cmp .lt => some "<" | .cmp .le => some "<=" | .cmp .gt => some ">" | .cmp .ge => some ">=" | .cmp .eq => some "==" | .cmp .ne => some "!="
  | .kAnd => some "and" | .kOr => some "or"
  | .eq => some "="
  | .asg .add => some "+=" | .asg .sub => some "-=" | .asg .mul => some "*=" | .asg .div => some "/=" | .asg .and => some "&=" | .asg .or => some "|=" | .asg .xor => some "^="
  | .asg .shl => some "<<=" | .asg .shr => some ">>=" | .asg .mod => some "%=" | .asg .pow => some "**=" | .asg .dot => some ".="
  | .word .kLet => some "let" | .word .kWhile => some "while" | .word .kLoop => some "loop" | .word .kFor => some "for" | .word .kDo => some "do" | .word .kBreak => some "break"
  | .word .kContinue => some "continue" | .word .kAssert => some "assert" | .word .lbrace => some "{" | .word .rbrace => some "}" | .word .semi => some ";" | .word .colon => some ":"
  | .word .kFn => some "fn" | .word .kReturn => some "return" | .word .question => some "?" | .word .underscore => some "_"

/-- A token of the scanner is a token of an expression. -/
inductive Stands : Scan.Token → Tok → Prop
  | word {t k w} : written k = some w → (w.toList, t) ∈ Scan.keywords ++ Scan.operators → Stands t k
  | ident (s) : Stands (.identifier s) (.ident (String.ofList s))
  | str (s) : Stands (.string s) (.lit (.str s))
  | int (v) : Stands (.int v) (.lit (.int v))
  | complex (v) : Stands (.complex v) (.lit (.complex v))

/-- The tokens but the line breaks, each with: is there a line break directly before it? -/
def marked (ts : List Scan.Token) : List (Bool × Scan.Token) :=
  (((none :: ts.map some).zip ts).filter fun p => p.2 ≠ .newLine).map fun p => (p.1 == some .newLine, p.2)

/-- The text is that of an expression, with the tree `e`: no errors in its tokens, and they follow the grammar (`Spec/Grammar`). -/
def Reads (text : List Char) (e : E) : Prop :=
  errors (scan text) = [] ∧ ∃ ts o, List.Forall₂ (fun t k => t.1 = k.1 ∧ Stands t.2 k.2) (marked ((tokens (scan text)).map Prod.snd)) ts ∧ G .expr o (.e e) ts

/-- A number, if it is one that the language has. -/
def small (i : Int) : Option Int := if -(2 ^ 62) ≤ i ∧ i < 2 ^ 62 then some i else none

/-- Calculating with integers: division rounds down, the remainder has the sign of the divisor. -/
def calcOp : Infix → Int → Int → Option Int
  | .add, x, y => small (x + y)
  | .sub, x, y => small (x - y)
  | .mul, x, y => small (x * y)
  | .div, x, y => if y = 0 then none else small (Int.fdiv x y)
  | .mod, x, y => if y = 0 then none else small (Int.fmod x y)
  | .pow, x, y => if 0 ≤ y ∧ y < 2 ^ 32 then small (x ^ y.toNat) else none
  | _, _, _ => none

/-- The value of an expression of integers: numbers, parentheses, `-x`, and `+ - * / % **`; `none` if something is too large, or divided by zero, or there is something else. -/
def arith : E → Option Int
  | .lit (.int v) => small v
  | .comma [e] false => arith e
  | .unary .neg e => (arith e).bind fun x => small (-x)
  | .bin op l r => (arith l).bind fun x => (arith r).bind fun y => calcOp op x y
  | _ => none

end Cordy.Source
