import Verif.Model.Grammar
/-!
# The documented grammar of expressions

From `docs/language.md`, "Precedence and Associativity": a table of the operators with their levels; all are associative to the left except assignment. A grammar in the usual form: an operand of an operator is an expression of a higher precedence (a lower
level); on the left also of the same level. Comparisons form chains (`a < b < c`).

The expressions `if c then a else b` have no end mark: they extend to the right as far as possible. `G nt o r ts` says that the tokens `ts` form the phrase `r` of kind `nt`; `o` says that they end with such an open branch.
-/
namespace Cordy.Grammar

/-- docs/language.md:140-149, the binary operators without comparisons -/
def level : Infix → Nat
  | .mul | .div | .mod | .pow | .is | .isNot | .isIn | .notIn => 3
  | .add | .sub => 4
  | .shl | .shr => 5
  | .and | .or | .xor => 6
  | .dot => 7
  | .land | .lor => 9

/-- How operators are written. -/
def spell : Infix → List Tok
  | .mul => [.star]
  | .div => [.slash]
  | .mod => [.percent]
  | .pow => [.starstar]
  | .is => [.kIs]
  | .isNot => [.kIs, .kNot]
  | .isIn => [.kIn]
  | .notIn => [.kNot, .kIn]
  | .add => [.plus]
  | .sub => [.minus]
  | .shl => [.shl]
  | .shr => [.shr]
  | .and => [.amp]
  | .or => [.bar]
  | .xor => [.caret]
  | .dot => [.dot]
  | .land => [.kAnd]
  | .lor => [.kOr]

def spellPrefix : Prefix → Tok
  | .neg => .minus
  | .not => .bang
  | .lnot => .kNot

def spellAsg : Asg → List Tok
  | .eq => [.eq]
  | .max => [.ident "max", .eq]
  | .min => [.ident "min", .eq]
  | .op a => [.asg a]

/-- The operators that make functions in parentheses: `(+)`, `(< 3)`, `(3 *)`; `-` is a unary operator there, and `.`, `and`, `or` are not functions. -/
def Sectional : SecOp → Prop
  | .inf op => op ≠ .sub ∧ op ≠ .dot ∧ op ≠ .land ∧ op ≠ .lor
  | .cmp _ => True

def spellSec : SecOp → List Tok
  | .inf op => spell op
  | .cmp c => [.cmp c]

inductive Nt where
  | term | cond | suf
  | lvl (k : Nat)
  | chain | expr
  /-- a bound of a slice -/
  | bound
  /-- an argument; `next` comes next -/
  | arg (next : Tok)
  /-- an entry of a dict: a pair or `...d` -/
  | entry (next : Tok)
  | entries
  | args (close : Tok)

inductive Res where
  | e (x : E)
  /-- arguments, with a trailing comma or not; entries, with a pair or not -/
  | es (l : List E) (flag : Bool)
  | ch (ops : List (Cmp × E))

inductive G : Nt → Bool → Res → List T → Prop where
  -- level 1: terminals
  | lit (b n) : G .term false (.e (.lit n)) [(b, .lit n)]
  | var (b s) : G .term false (.e (.var s)) [(b, .ident s)]
  | paren (b b') {o as tr ts} : G (.args .rparen) o (.es as tr) ts → G .term false (.e (.comma as tr)) ((b, .lparen) :: ts ++ [(b', .rparen)])
  | list0 (b b') : G .term false (.e (.list [])) [(b, .lsq), (b', .rsq)]
  | list (b b') {o as tr ts} : G (.args .rsq) o (.es as tr) ts → G .term false (.e (.list as)) ((b, .lsq) :: ts ++ [(b', .rsq)])
  | set0 (b b') : G .term false (.e (.set [])) [(b, .word .lbrace), (b', .word .rbrace)]
  | set (b b') {o as tr ts} : G (.args (.word .rbrace)) o (.es as tr) ts → G .term false (.e (.set as)) ((b, .word .lbrace) :: ts ++ [(b', .word .rbrace)])
  | dict (b b') {o as ts} : G .entries o (.es as true) ts → G .term false (.e (.dict as)) ((b, .word .lbrace) :: ts ++ [(b', .word .rbrace)])
  | ite (b) {o r ts} : G .cond o r ts → G .term true r ((b, .kIf) :: ts)
  -- `c then t else f`, `c then t elif ...`
  | condElse (b b') {oc ot oe c t f tc tt tf} : G .expr oc (.e c) tc → G .expr ot (.e t) tt → G .expr oe (.e f) tf →
      G .cond true (.e (.ite c t f)) (tc ++ (b, .kThen) :: tt ++ (b', .kElse) :: tf)
  | condElif (b b') {oc ot oe c t f tc tt tf} : G .expr oc (.e c) tc → G .expr ot (.e t) tt → G .cond oe (.e f) tf →
      G .cond true (.e (.ite c t f)) (tc ++ (b, .kThen) :: tt ++ (b', .kElif) :: tf)
  -- level 1: calls and index on the same line, arguments without parentheses; `->`
  | ofTerm {o r ts} : G .term o r ts → G .suf o r ts
  | call0 (b) {f ts} : G .suf false (.e f) ts → G .suf false (.e (.call f [])) (ts ++ [(false, .lparen), (b, .rparen)])
  | call (b) {o f ts as tr ta} : G .suf false (.e f) ts → G (.args .rparen) o (.es as tr) ta →
      G .suf false (.e (.call f as)) (ts ++ (false, .lparen) :: ta ++ [(b, .rparen)])
  | index (b) {o a ts i ti} : G .suf false (.e a) ts → G .expr o (.e i) ti →
      G .suf false (.e (.index a i)) (ts ++ (false, .lsq) :: ti ++ [(b, .rsq)])
  | slice (b b') {o o' a ts i ti j tj} : G .suf false (.e a) ts → G .bound o (.e i) ti → G .bound o' (.e j) tj →
      G .suf false (.e (.slice a i j)) (ts ++ (false, .lsq) :: ti ++ (b, .word .colon) :: tj ++ [(b', .rsq)])
  | sliceStep (b b' b'') {o o' o'' a ts i ti j tj k tk} : G .suf false (.e a) ts → G .bound o (.e i) ti → G .bound o' (.e j) tj → G .bound o'' (.e k) tk →
      G .suf false (.e (.sliceStep a i j k)) (ts ++ (false, .lsq) :: ti ++ (b, .word .colon) :: tj ++ (b', .word .colon) :: tk ++ [(b'', .rsq)])
  | noBound : G .bound false (.e (.lit .nil)) []
  | bound {o x ts} : G .expr o (.e x) ts → G .bound o (.e x) ts
  | bareLit (n) {f ts} : G .suf false (.e f) ts → G .suf false (.e (.call f [.lit n])) (ts ++ [(false, .lit n)])
  | bareVar (s) {f ts} : G .suf false (.e f) ts → G .suf false (.e (.call f [.var s])) (ts ++ [(false, .ident s)])
  | bareIf {o f ts x tx} : G .suf false (.e f) ts → G .cond o (.e x) tx → G .suf true (.e (.call f [x])) (ts ++ (false, .kIf) :: tx)
  | field (b b' s) {a ts} : G .suf false (.e a) ts → G .suf false (.e (.field a s)) (ts ++ [(b, .arrow), (b', .ident s)])
  -- level 2: prefix operators
  | ofSuf {o r ts} : G .suf o r ts → G (.lvl 2) o r ts
  | unary (b p) {o x ts} : G (.lvl 2) o (.e x) ts → G (.lvl 2) o (.e (.unary p x)) ((b, spellPrefix p) :: ts)
  -- levels 3 to 9
  | lift {k o r ts} : 2 ≤ k → k < 9 → G (.lvl k) o r ts → G (.lvl (k + 1)) o r ts
  | bin (op) {o l r tl top tr} : G (.lvl (level op)) false (.e l) tl → G (.lvl (level op - 1)) o (.e r) tr → top.map (·.2) = spell op →
      (op = .is → peek tr ≠ some .kNot) → G (.lvl (level op)) o (.e (.bin op l r)) (tl ++ top ++ tr)
  | compare {o l ops tl tc} : G (.lvl 7) false (.e l) tl → G .chain o (.ch ops) tc → G (.lvl 8) o (.e (.compare l ops)) (tl ++ tc)
  | cmp1 (b c) {o x ts} : G (.lvl 7) o (.e x) ts → G .chain o (.ch [(c, x)]) ((b, .cmp c) :: ts)
  | cmpMore (b c) {o x ops ts tc} : G (.lvl 7) false (.e x) ts → G .chain o (.ch ops) tc → G .chain o (.ch ((c, x) :: ops)) ((b, .cmp c) :: ts ++ tc)
  -- level 10: assignment, to the right
  | ofLvl {o r ts} : G (.lvl 9) o r ts → G .expr o r ts
  | assign (a) {o l r tl ta tr} : G (.lvl 9) false (.e l) tl → assignable l = true → ta.map (·.2) = spellAsg a → G .expr o (.e r) tr →
      G .expr o (.e (.assign a l r)) (tl ++ ta ++ tr)
  -- arguments
  | argExpr (next) {o x ts} : G .expr o (.e x) ts → G (.arg next) false (.e x) ts
  | argUnary (next b p) : next ≠ .word .colon → G (.arg next) false (.e (.opRefU p)) [(b, spellPrefix p)]
  | argField (next b b' s) : G (.arg next) false (.e (.fieldRef s)) [(b, .arrow), (b', .ident s)]
  | argUnroll (next b) {o x ts} : G .expr o (.e x) ts → G (.arg next) false (.e (.unroll x)) ((b, .ellipsis) :: ts)
  | argOp (next op) {top} : next ≠ .word .colon → Sectional op → top.map (·.2) = spellSec op → G (.arg next) false (.e (.opRef op)) top
  | argLeft (next op) {o x top ts} : Sectional op → top.map (·.2) = spellSec op → (op = .inf .is → peek ts ≠ some .kNot) → G .expr o (.e x) ts →
      G (.arg next) false (.e (.secL op x)) (top ++ ts)
  | argRight (op) {o x ts top} : Sectional op → G .expr o (.e x) ts → top.map (·.2) = spellSec op → G (.arg .rparen) false (.e (.secR op x)) (ts ++ top)
  | args1 {close o x ts} : G (.arg close) o (.e x) ts → G (.args close) false (.es [x] false) ts
  | argsTrail (b) {close o x ts} : G (.arg .comma) o (.e x) ts → G (.args close) false (.es [x] true) (ts ++ [(b, .comma)])
  | argsMore (b) {close o o' x ts as tr tas} : G (.arg .comma) o (.e x) ts → G (.args close) o' (.es as tr) tas →
      G (.args close) false (.es (x :: as) tr) (ts ++ (b, .comma) :: tas)
  -- entries of a dict: `key: value`, and dicts to be included
  | entUnroll {next o x ts} : G (.arg next) o (.e (.unroll x)) ts → G (.entry next) false (.es [.unroll x] false) ts
  | entPair (b) {next o o' x v ts tv} : G (.arg (.word .colon)) o (.e x) ts → isUnroll x = false → G (.arg next) o' (.e v) tv →
      G (.entry next) false (.es [x, v] true) (ts ++ (b, .word .colon) :: tv)
  | ent1 {o es p ts} : G (.entry (.word .rbrace)) o (.es es p) ts → G .entries false (.es es p) ts
  | entTrail (b) {o es p ts} : G (.entry .comma) o (.es es p) ts → G .entries false (.es es p) (ts ++ [(b, .comma)])
  | entMore (b) {o o' es p ts es' p' ts'} : G (.entry .comma) o (.es es p) ts → G .entries o' (.es es' p') ts' →
      G .entries false (.es (es ++ es') (p || p')) (ts ++ (b, .comma) :: ts')

end Cordy.Grammar
