/-!
# The expression parser

Models the expression part of `compiler/parser/mod.rs` (1198-2075) over tokens. A token comes with the information if there is a line break before it: the parser skips line breaks (`peek`, `advance`, core/mod.rs:150-192) except where
it asks for a token on the same line (`peek_no_newline`).

Simplified: names are not resolved; any reported error is the result `none` (there is no recovery: a program with an error is not run). Left out: function expressions, slices, set, dict and slice literals,
the targets `_`, `*x` and the assignment to patterns.
-/
namespace Cordy.Grammar

inductive Cmp where
  | lt | le | gt | ge | eq | ne
  deriving DecidableEq, Repr

inductive Infix where
  | mul | div | mod | pow | is | isNot | isIn | notIn
  | add | sub
  | shl | shr
  | and | or | xor
  | dot
  | land | lor
  deriving DecidableEq, Repr

inductive Prefix where
  | neg | not | lnot
  deriving DecidableEq, Repr

/-- models: the assignment operators that are one token, mod.rs:2029-2042 -/
inductive AsgOp where
  | add | sub | mul | div | and | or | xor | shl | shr | mod | pow | dot
  deriving DecidableEq, Repr

/-- models: the assignments, mod.rs:2026-2064 -/
inductive Asg where
  | eq | op (a : AsgOp) | max | min
  deriving DecidableEq, Repr

/-- models: the tokens that are an expression by themselves, mod.rs:1200-1218 -/
inductive Lit where
  | nil | exit
  | bool (b : Bool)
  | int (v : Int)
  | complex (v : Int)
  | str (s : List Char)
  deriving DecidableEq, Repr

instance (n : Nat) : OfNat Lit n := ⟨.int n⟩

/-- models: scanner.rs `ScanToken`: words and signs of statements, which are not part of the expressions considered -/
inductive Word where
  | kLet | kWhile | kLoop | kFor | kDo | kBreak | kContinue | kAssert
  | kFn | kReturn
  | lbrace | rbrace | semi | colon | question | underscore
  deriving DecidableEq, Repr

/-- models: scanner.rs `ScanToken`, those of the expressions considered. `asg` are the tokens `=`, `+=`, ...; `max=` and `min=` are two tokens. -/
inductive Tok where
  | lit (l : Lit)
  | ident (s : String)
  | lparen | rparen | lsq | rsq | comma | arrow | ellipsis
  | kIf | kThen | kElif | kElse
  | star | slash | percent | starstar | kIs | kIn | kNot | bang
  | plus | minus | shl | shr | amp | bar | caret | dot
  | cmp (c : Cmp)
  | kAnd | kOr
  | eq | asg (a : AsgOp)
  | word (w : Word)
  deriving DecidableEq, Repr

/-- A token with: is there a line break before it? -/
abbrev T := Bool × Tok

/-- An operator that can be used as a function in parentheses. -/
inductive SecOp where
  | inf (op : Infix)
  | cmp (c : Cmp)
  deriving DecidableEq, Repr

/-- models: expr/mod.rs `ExprType`, as the parser builds it. `comma` is an expression in parentheses, with a trailing comma or not; `secL op e` is `(op e)`, `secR op e` is `(e op)`. -/
inductive E where
  | lit (l : Lit)
  | var (s : String)
  | comma (args : List E) (trailing : Bool)
  | list (args : List E)
  | set (args : List E)
  /-- a key, its value, a key, ...; `...d` stands by itself -/
  | dict (args : List E)
  | ite (c t f : E)
  | call (f : E) (args : List E)
  | index (a i : E)
  | slice (a i j : E)
  | sliceStep (a i j k : E)
  | field (a : E) (f : String)
  | unary (op : Prefix) (e : E)
  | bin (op : Infix) (l r : E)
  | compare (l : E) (ops : List (Cmp × E))
  | assign (op : Asg) (l r : E)
  | fieldRef (f : String)
  | unroll (e : E)
  | opRef (op : SecOp)
  | opRefU (op : Prefix)
  | secL (op : SecOp) (e : E)
  | secR (op : SecOp) (e : E)
  /-- the function of a statement `fn`, by its number; it is not written as an expression -/
  | func (k : Nat)

/-- models: core/mod.rs:150-152 `peek`, the next token -/
def peek (ts : List T) : Option Tok := ts.head?.map (·.2)

/-- models: mod.rs:1640-1653, a prefix operator -/
def prefixOf : Tok → Option Prefix
  | .minus => some .neg
  | .bang => some .not
  | .kNot => some .lnot
  | _ => none

/-- models: mod.rs:1634-1655 `parse_expr_2_prefix_operators` -/
def prefixes : List T → List Prefix × List T
  | [] => ([], [])
  | (b, t) :: ts =>
    match prefixOf t with
    | some p => let (ps, r) := prefixes ts; (p :: ps, r)
    | none => ([], (b, t) :: ts)

/-- models: mod.rs:1801-1822, the operators of `parse_expr_3` with what is left after it -/
def op3 : List T → Option (Infix × List T)
  | (_, .star) :: r => some (.mul, r)
  | (_, .slash) :: r => some (.div, r)
  | (_, .percent) :: r => some (.mod, r)
  | (_, .starstar) :: r => some (.pow, r)
  | (_, .kIs) :: (_, .kNot) :: r => some (.isNot, r)
  | (_, .kIs) :: r => some (.is, r)
  | (_, .kIn) :: r => some (.isIn, r)
  | (_, .kNot) :: (_, .kIn) :: r => some (.notIn, r)
  | _ => none

/-- models: the operators of `parse_expr_4` (mod.rs:1850-1854), `_5` (1873-1877), `_6` (1896-1901), `_7` (1918), `_9` (1963-1967) -/
def opAt (k : Nat) (ts : List T) : Option (Infix × List T) :=
  match k with
  | 3 => op3 ts
  | 4 => match ts with
    | (_, .plus) :: r => some (.add, r)
    | (_, .minus) :: r => some (.sub, r)
    | _ => none
  | 5 => match ts with
    | (_, .shl) :: r => some (.shl, r)
    | (_, .shr) :: r => some (.shr, r)
    | _ => none
  | 6 => match ts with
    | (_, .amp) :: r => some (.and, r)
    | (_, .bar) :: r => some (.or, r)
    | (_, .caret) :: r => some (.xor, r)
    | _ => none
  | 7 => match ts with
    | (_, .dot) :: r => some (.dot, r)
    | _ => none
  | 9 => match ts with
    | (_, .kAnd) :: r => some (.land, r)
    | (_, .kOr) :: r => some (.lor, r)
    | _ => none
  | _ => none

/-- models: mod.rs:1934-1942 -/
def cmpAt : List T → Option (Cmp × List T)
  | (_, .cmp c) :: r => some (c, r)
  | _ => none

/-- models: mod.rs:1823, 1856, 1879, 1903, 1943, 1969: the operator is followed by `)`; not checked for `.` (1913-1928) -/
def blocked (op : Infix) (r : List T) : Bool := op != .dot && peek r == some .rparen

/-- models: mod.rs:1382-1417 `parse_binary_operator_left`, 1419-1456 `parse_binary_operator_right`, with what is left -/
def secOp (ts : List T) : Option (SecOp × List T) :=
  match op3 ts with
  | some (op, r) => some (.inf op, r)
  | none =>
    match ts with
    | (_, .plus) :: r => some (.inf .add, r)
    | (_, .shl) :: r => some (.inf .shl, r)
    | (_, .shr) :: r => some (.inf .shr, r)
    | (_, .amp) :: r => some (.inf .and, r)
    | (_, .bar) :: r => some (.inf .or, r)
    | (_, .caret) :: r => some (.inf .xor, r)
    | (_, .cmp c) :: r => some (.cmp c, r)
    | _ => none

/-- models: mod.rs:1370-1380 `parse_unary_operator` -/
def unaryRef : List T → Option (Prefix × List T)
  | (_, .minus) :: r => some (.neg, r)
  | (_, .bang) :: r => some (.not, r)
  | (_, .kNot) :: r => if peek r = some .kIn then none else some (.lnot, r)
  | _ => none

/-- models: the pattern `Some(Comma | CloseParen | CloseBrace | CloseSquareBracket)` -/
def endsArg (r : List T) : Bool :=
  match peek r with
  | some .comma | some .rparen | some .rsq | some (.word .rbrace) => true
  | _ => false

/-- models: mod.rs:2026-2064: an assignment operator with what is left -/
def asgAt : List T → Option (Asg × List T)
  | (_, .eq) :: r => some (.eq, r)
  | (_, .asg a) :: r => some (.op a, r)
  | (_, .ident s) :: (_, .eq) :: r =>
    if s = "max" then some (.max, r) else if s = "min" then some (.min, r) else none
  | _ => none

/-- models: expr/mod.rs:283-330 `assign`, `op_assign`: what can be assigned to, without patterns. For `=`, an expression in parentheses would be a pattern. -/
def assignable : E → Bool
  | .var _ => true
  | .index _ _ => true
  | .field _ _ => true
  | _ => false

/-- models: expr/mod.rs `is_unroll` -/
def isUnroll : E → Bool
  | .unroll _ => true
  | _ => false

/-- models: mod.rs:1556-1577, an entry of a set or dict that begins with the argument `a`: what it adds, if the literal is a dict (`none`: not known yet), and the rest; `v` is the argument after a `:` -/
def entry (d : Option Bool) (a : E) (r : List T) (v : Option (E × List T)) : Option (List E × Option Bool × List T) :=
  if isUnroll a then some ([a], d, r)
  else if peek r = some (.word .colon) ∧ d ≠ some false then
    match v with
    | some (b, r') => some ([a, b], some true, r')
    | none => none
  else if d = some true then none
  else some ([a], some false, r)

/-- models: mod.rs:1671-1674, 1693-1701, 1722-1725, a bound of a slice: nothing (`nil`) before one of the tokens `stops`, or an expression, of which `e` is the result -/
def orNil (stops : List Tok) (ts : List T) (e : Option (E × List T)) : Option (E × List T) :=
  match peek ts with
  | some t => if t ∈ stops then some (.lit .nil, ts) else e
  | none => e

mutual
/-- models: mod.rs:1198-1257 `parse_expr_1_terminal` -/
def pTerm : Nat → List T → Option (E × List T)
  | 0, _ => none
  | n + 1, ts =>
    match ts with
    | (_, .lit v) :: r => some (.lit v, r)
    | (_, .ident s) :: r => some (.var s, r)
    | (_, .lparen) :: r =>
      match pArgs n .rparen r with
      | some (as, tr, (_, .rparen) :: r') => some (.comma as tr, r')
      | _ => none
    | (_, .lsq) :: r =>
      if peek r = some .rsq then some (.list [], r.tail)
      else match pArgs n .rsq r with
        | some (as, _, (_, .rsq) :: r') => some (.list as, r')
        | _ => none
    | (_, .word .lbrace) :: r =>
      if peek r = some (.word .rbrace) then some (.set [], r.tail)
      else match pEntries n none r with
        | some (as, d, (_, .word .rbrace) :: r') => some (if d = some true then .dict as else .set as, r')
        | _ => none
    | (_, .kIf) :: r =>
      match pExpr n r with
      | some (c, r') => pThen n c r'
      | none => none
    | _ => none
/-- models: mod.rs:1551-1583, the loop of `parse_expr_1_dict_or_set_literal`, and core/mod.rs:43-61 -/
def pEntries : Nat → Option Bool → List T → Option (List E × Option Bool × List T)
  | 0, _, _ => none
  | n + 1, d, ts =>
    match pArg n ts with
    | some (a, r) =>
      match entry d a r (pArg n r.tail) with
      | some (es, d', r1) =>
        if peek r1 = some .comma then
          if peek r1.tail = some (.word .rbrace) then some (es, d', r1.tail)
          else match pEntries n d' r1.tail with
            | some (es', d'', r2) => some (es ++ es', d'', r2)
            | none => none
        else if peek r1 = some (.word .rbrace) then some (es, d', r1)
        else none
      | none => none
    | none => none
/-- models: mod.rs:1588-1616 `parse_inline_then_else` -/
def pThen : Nat → E → List T → Option (E × List T)
  | 0, _, _ => none
  | n + 1, c, ts =>
    match ts with
    | (_, .kThen) :: r =>
      match pExpr n r with
      | some (t, (_, .kElif) :: r1) =>
        match pExpr n r1 with
        | some (c2, r2) =>
          match pThen n c2 r2 with
          | some (f, r3) => some (.ite c t f, r3)
          | none => none
        | none => none
      | some (t, (_, .kElse) :: r1) =>
        match pExpr n r1 with
        | some (f, r2) => some (.ite c t f, r2)
        | none => none
      | _ => none
    | _ => none
/-- models: mod.rs:1290-1308 `parse_comma_expr` (after the bracket), 1458-1498 (a list literal), core/mod.rs:43-61: the arguments, if there is a trailing comma, and the rest, with the closing token -/
def pArgs : Nat → Tok → List T → Option (List E × Bool × List T)
  | 0, _, _ => none
  | n + 1, close, ts =>
    match pArg n ts with
    | some (a, r) =>
      if peek r = some .comma then
        if peek r.tail = some close then some ([a], true, r.tail)
        else match pArgs n close r.tail with
          | some (as, tr, r') => some (a :: as, tr, r')
          | none => none
      else if peek r = some close then some ([a], false, r)
      else none
    | none => none
/-- models: mod.rs:1310-1368 `parse_comma_expr_arg` -/
def pArg : Nat → List T → Option (E × List T)
  | 0, _ => none
  | n + 1, ts =>
    match unaryRef ts with
    | some (p, r) => if endsArg r then some (.opRefU p, r) else pArgE n ts
    | none => pArgE n ts
/-- models: mod.rs:1321-1368, after the check for a single unary operator -/
def pArgE : Nat → List T → Option (E × List T)
  | 0, _ => none
  | n + 1, ts =>
    match ts with
    | (_, .arrow) :: r =>
      match r with
      | (_, .ident f) :: r' => some (.fieldRef f, r')
      | _ => none
    | (_, .ellipsis) :: r =>
      match pExpr n r with
      | some (e, r') => some (.unroll e, r')
      | none => none
    | _ =>
      match secOp ts with
      | some (op, r) =>
        if endsArg r then some (.opRef op, r)
        else match pExpr n r with
          | some (e, r') => some (.secL op e, r')
          | none => none
      | none =>
        match pExpr n ts with
        | some (e, r) =>
          match secOp r with
          | some (op, r') => if endsArg r' then some (.secR op e, r') else some (e, r)
          | none => some (e, r)
        | none => none
/-- models: mod.rs:1657-1776 `parse_expr_2_suffix_operators` -/
def pSuffix : Nat → E → List T → Option (E × List T)
  | 0, _, _ => none
  | n + 1, acc, ts =>
    match ts with
    | (false, .lparen) :: r =>
      if peek r = some .rparen then pSuffix n (.call acc []) r.tail
      else match pArgs n .rparen r with
        | some (as, _, (_, .rparen) :: r') => pSuffix n (.call acc as) r'
        | _ => none
    | (false, .lsq) :: r =>
      match orNil [.word .colon] r (pExpr n r) with
      | some (i, (_, .rsq) :: r') => pSuffix n (.index acc i) r'
      | some (i, (_, .word .colon) :: r') =>
        match orNil [.word .colon, .rsq] r' (pExpr n r') with
        | some (j, (_, .rsq) :: r2) => pSuffix n (.slice acc i j) r2
        | some (j, (_, .word .colon) :: r2) =>
          match orNil [.rsq] r2 (pExpr n r2) with
          | some (k, (_, .rsq) :: r3) => pSuffix n (.sliceStep acc i j k) r3
          | _ => none
        | _ => none
      | _ => none
    | (false, .ident s) :: r =>
      if peek r = some .eq then some (acc, (false, .ident s) :: r)
      else pSuffix n (.call acc [.var s]) r
    | (false, .lit v) :: r => pSuffix n (.call acc [.lit v]) r
    | (false, .kIf) :: r =>
      match pTerm n ((false, .kIf) :: r) with
      | some (a, r') => pSuffix n (.call acc [a]) r'
      | none => none
    | (_, .arrow) :: r =>
      match r with
      | (_, .ident f) :: r' => pSuffix n (.field acc f) r'
      | _ => none
    | _ => some (acc, ts)
/-- models: mod.rs:1618-1632 `parse_expr_2_unary` -/
def pUnary : Nat → List T → Option (E × List T)
  | 0, _ => none
  | n + 1, ts =>
    match pTerm n (prefixes ts).2 with
    | some (e, r) =>
      match pSuffix n e r with
      | some (e', r') => some ((prefixes ts).1.foldr .unary e', r')
      | none => none
    | none => none
/-- models: mod.rs:1796-1980 `parse_expr_3` to `parse_expr_9`; `k` is 3 to 9, and 2 for `parse_expr_2_unary` -/
def pLvl : Nat → Nat → List T → Option (E × List T)
  | 0, _, _ => none
  | n + 1, k, ts =>
    if k ≤ 2 then pUnary n ts
    else match pLvl n (k - 1) ts with
      | some (e, r) =>
        if k = 8 then
          match pChain n r with
          | some ([], r') => some (e, r')
          | some (op :: ops, r') => some (.compare e (op :: ops), r')
          | none => none
        else pLoop n k e r
      | none => none
/-- models: the loops of `parse_expr_3` .. `_7` and `_9` -/
def pLoop : Nat → Nat → E → List T → Option (E × List T)
  | 0, _, _, _ => none
  | n + 1, k, acc, ts =>
    match opAt k ts with
    | some (op, r) =>
      if blocked op r then some (acc, ts)
      else match pLvl n (k - 1) r with
        | some (e, r') => pLoop n k (.bin op acc e) r'
        | none => none
    | none => some (acc, ts)
/-- models: the loop of `parse_expr_8`, mod.rs:1930-1957 -/
def pChain : Nat → List T → Option (List (Cmp × E) × List T)
  | 0, _ => none
  | n + 1, ts =>
    match cmpAt ts with
    | some (op, r) =>
      if peek r = some .rparen then some ([], ts)
      else match pLvl n 7 r with
        | some (e, r') =>
          match pChain n r' with
          | some (ops, r'') => some ((op, e) :: ops, r'')
          | none => none
        | none => none
    | none => some ([], ts)
/-- models: mod.rs:2012-2090 `parse_expr_11` with `comma` true, which is `parse_expr` (1088-1090) -/
def pExpr : Nat → List T → Option (E × List T)
  | 0, _ => none
  | n + 1, ts =>
    match pLvl n 9 ts with
    | some (l, r) =>
      match asgAt r with
      | some (op, r') =>
        if assignable l then
          match pExpr n r' with
          | some (e, r'') => some (.assign op l e, r'')
          | none => none
        else none
      | none => some (l, r)
    | none => none
end

end Cordy.Grammar
