import Verif.Model.Scanner

/-!
# The grammar of Cordy (specification for C71)

A context free grammar over the tokens of the language, with two assertions that take no tokens: `adj` (the next token is on the same line) and `look` (the next token is one of these).
Line breaks may stand before every token (`Gen.tok`). Written from the language reference (docs/language.md) and the grammar comments of the parser; it does not mention the parser's model.
-/
namespace Cordy.Language
open Cordy.Scan (Token)
open Cordy.Scan.Token

/-- Classes of tokens. -/
inductive Cls where
  | is (t : Token)
  | oneOf (ts : List Token)
  | name | int | complex | str
  /-- the names `max` and `min` -/
  | minMax

def Cls.ok : Cls → Token → Bool
  | .is t, u => t == u
  | .oneOf ts, u => ts.contains u
  | .name, .identifier _ => true
  | .int, .int _ => true
  | .complex, .complex _ => true
  | .str, .string _ => true
  | .minMax, .identifier s => s == ['m', 'a', 'x'] || s == ['m', 'i', 'n']
  | _, _ => false

/-- The nonterminals. A `…List` stands for what is between two brackets. -/
inductive NT where
  | program | evalText | stmts | block
  | structDecl | moduleDecl | fieldList | methodList (self : Bool) | nativeDecl | nativeList | nativeSig
  | annotated | fnStmt | fnExpr | params (self : Bool) | paramList | fnBody
  | returnStmt | ifChain | whileStmt | doStmt | loopStmt | forStmt | breakStmt | continueStmt | assertStmt | letStmt | letList | exprStmt
  | lvalue | lvalues
  | term | parens | elementsTail | arg | spread | element | listOrSlice | listTail | sliceTail | dictOrSet
  | entries | dictEntries | setEntries | ifExpr | thenElse
  | unary | prefixes | suffixes
  | e3 | e4 | e5 | e6 | e7 | e8 | e9 | e10 | expr (commas : Bool)
  | l3 | l4 | l5 | l6 | l7 | l8 | l9 | l10
  deriving DecidableEq

inductive Sym where
  | tok (c : Cls)
  | nt (n : NT)
  /-- no line break before the next token -/
  | adj
  /-- the next token is one of these -/
  | look (cs : List Cls)

/-- One token; one of several tokens; a nonterminal; a name. -/
def k (t : Token) : Sym := .tok (.is t)
def oneOf (ts : List Token) : Sym := .tok (.oneOf ts)
def n (x : NT) : Sym := .nt x
def name : Sym := .tok .name
def next (ts : List Token) : Sym := .look [.oneOf ts]

/-- `item , more`; `item ,` and `item` before the closing bracket. -/
def csv (item : List Sym) (close : Token) (more : NT) : List (List Sym) :=
  [item ++ [k comma, n more], item ++ [k comma, next [close]], item ++ [next [close]]]

/-- Both with and without. -/
def opt (ss : List Sym) : List (List Sym) := [[], ss]

/-- Concatenation of alternatives. -/
def cat (xs ys : List (List Sym)) : List (List Sym) := xs.flatMap fun x => ys.map fun y => x ++ y

/-- What follows a binary operator `(op` or precedes it. -/
def closers : List Token := [comma, closeParen, closeBrace, closeSquare]

/-- The operators that may stand alone in parentheses, but for the unary ones. -/
def sections : List (List Sym) :=
  [[oneOf [mul, div, pow, mod, kIn, kIs, plus, leftShift, rightShift, bitwiseAnd, bitwiseOr, bitwiseXor,
     lessThan, lessThanEquals, greaterThan, greaterThanEquals, doubleEquals, notEquals]],
   [k kNot, k kIn], [k kIs, k kNot]]

/-- `[a]`, `[a : b]`, `[a : b : c]` after the `[`, where `a`, `b`, `c` are optional in the last two. -/
def slices (x : Sym) : List (List Sym) :=
  cat (opt [x]) (cat [[k colon]] (cat (opt [x]) [[k closeSquare]])) ++
  cat (opt [x]) (cat [[k colon]] (cat (opt [x]) (cat [[k colon]] (cat (opt [x]) [[k closeSquare]]))))

def assignOps : List Token :=
  [equals, plusEquals, minusEquals, mulEquals, divEquals, andEquals, orEquals, xorEquals, leftShiftEquals, rightShiftEquals,
   modEquals, powEquals, dotEquals]

open NT in
/-- The productions. -/
def prods : NT → List (List Sym)
  | program => [[n stmts]]
  -- the argument of `eval`
  | evalText => [[n (expr false)]]
  | stmts =>
    [[], [k semicolon, n stmts]] ++
    [annotated, fnStmt, returnStmt, letStmt, loopStmt, whileStmt, doStmt, forStmt, breakStmt, continueStmt, assertStmt,
     structDecl, moduleDecl, nativeDecl, exprStmt].map (fun x => [n x, n stmts]) ++
    [[next [kIf], n ifChain, n stmts]]
  | block => [[k openBrace, n stmts, k closeBrace]]
  -- declarations
  | structDecl => cat [[k kStruct, name, k openParen, n fieldList, k closeParen]] (opt [k openBrace, n (methodList true), k closeBrace])
  | fieldList => [[], [name, n fieldList], [name, k comma, n fieldList]]
  | moduleDecl => cat [[k kModule, name]] (opt [k openBrace, n (methodList false), k closeBrace])
  | methodList self => [[], [k kFn, name, n (params self), n fnBody, n (methodList self)]]
  | nativeDecl => [[k kNative, k kModule, name, k openBrace, n nativeList, k closeBrace]]
  | nativeList => [[], [k kFn, n nativeSig, n nativeList]]
  | nativeSig => [[name, n (params false)]]
  | annotated => [[k «at», n (expr false), n annotated], [k «at», n (expr false), n fnStmt]]
  | fnStmt => [[k kFn, name, n (params false), n fnBody], [next [kFn], n exprStmt]]
  | fnExpr => [[k kFn, n (params false), n fnBody]]
  | params self =>
    [[k openParen, k closeParen], [k openParen, n paramList, k closeParen]] ++
    (if self then [[k openParen, k kSelf, k closeParen], [k openParen, k kSelf, k comma, k closeParen],
      [k openParen, k kSelf, k comma, n paramList, k closeParen]] else [])
  | paramList =>
    csv [n lvalue] closeParen paramList ++ csv [n lvalue, k questionMark] closeParen paramList ++
    csv [n lvalue, k equals, n (expr true)] closeParen paramList
  | fnBody => [[k openBrace, n stmts, k closeBrace], [k arrow, n (expr false)]]
  -- statements
  | returnStmt => [[k kReturn, k semicolon], [k kReturn, n (expr false)], [k kReturn, next [closeBrace]]]
  | ifChain => cat [[oneOf [kIf, kElif], n (expr true)]]
      [[n block], [n block, next [kElif], n ifChain], [n block, k kElse, n block], [next [kThen], n thenElse]]
  | whileStmt => cat [[k kWhile, n (expr false), n block]] (opt [k kElse, n block])
  | doStmt => cat [[k kDo, n block]] (cat (opt [k kWhile, n (expr false)]) (opt [k kElse, n block]))
  | loopStmt => [[k kLoop, n block]]
  | forStmt => cat [[k kFor, n lvalues, k kIn, n (expr false), n block]] (opt [k kElse, n block])
  | breakStmt => [[k kBreak]]
  | continueStmt => [[k kContinue]]
  | assertStmt => cat [[k kAssert, n (expr true)]] (opt [k colon, n (expr false)])
  | letStmt => [[k kLet, n letList]]
  | letList => cat [[n lvalues]] (cat (opt [k equals, n e9]) (opt [k comma, n letList]))
  | exprStmt => [[n (expr false)]]
  | lvalue => [[name], [k underscore], [k mul, name], [k mul, k underscore], [k openParen, n lvalues, k closeParen]]
  | lvalues => [[n lvalue], [n lvalue, k comma, n lvalues]]
  -- terms
  | term =>
    [[oneOf [kNil, kTrue, kFalse, kExit, underscore, kSelf]], [.tok .int], [.tok .complex], [.tok .str], [name],
     [k mul, k underscore], [k mul, name], [n parens], [n listOrSlice], [n dictOrSet], [n fnExpr], [n ifExpr]]
  | parens => [[k openParen, n element, n elementsTail, k closeParen]]
  | elementsTail => [[k comma, n element, n elementsTail], [k comma, next [closeParen]], [next [closeParen]]]
  | element => [[n arg], [n spread]]
  | spread => [[k ellipsis, n (expr true)]]
  | arg =>
    [[n (expr true)], [oneOf [minus, not, kNot], next closers], [k arrow, name]] ++
    cat sections [[n (expr true)], [next closers]] ++ cat [[n (expr true)]] (cat sections [[next closers]])
  | listOrSlice => [[k openSquare, k closeSquare], [k openSquare, n element, k closeSquare],
      [k openSquare, n sliceTail], [k openSquare, n element, n sliceTail], [k openSquare, n element, n listTail, k closeSquare]]
  | listTail => [[k comma, n element, n listTail], [k comma, next [closeSquare]], [next [closeSquare]]]
  | sliceTail => cat [[k colon]] (cat (opt [n element]) [[k closeSquare]]) ++
      cat [[k colon]] (cat (opt [n element]) (cat [[k colon]] (cat (opt [n element]) [[k closeSquare]])))
  | dictOrSet => [[k openBrace, k closeBrace], [k openBrace, n entries, k closeBrace]]
  | entries => csv [n spread] closeBrace entries ++ csv [n arg] closeBrace setEntries ++ csv [n arg, k colon, n element] closeBrace dictEntries
  | dictEntries => csv [n spread] closeBrace dictEntries ++ csv [n arg, k colon, n element] closeBrace dictEntries
  | setEntries => csv [n spread] closeBrace setEntries ++ csv [n arg] closeBrace setEntries
  | ifExpr => [[k kIf, n (expr true), n thenElse]]
  | thenElse => [[k kThen, n (expr true), k kElif, n (expr true), n thenElse], [k kThen, n (expr true), k kElse, n (expr true)]]
  -- operators
  | unary => [[n prefixes, n term, n suffixes]]
  | prefixes => [[], [oneOf [minus, not, kNot], n prefixes]]
  | suffixes =>
    [[], [.adj, k openParen, k closeParen, n suffixes], [.adj, next [openParen], n parens, n suffixes], [k arrow, name, n suffixes],
     [.adj, .look [.name, .int, .complex, .str, .oneOf [kFn, kNil, kTrue, kFalse, kExit, kIf, «at»]], n term, n suffixes]] ++
    cat [[.adj, k openSquare]] (cat ([[n (expr true), k closeSquare]] ++ slices (n (expr true))) [[n suffixes]])
  | e3 => [[n unary, n l3]]
  | l3 => [[], [oneOf [mul, div, mod, pow, kIs, kIn], n unary, n l3], [k kIs, k kNot, n unary, n l3], [k kNot, k kIn, n unary, n l3]]
  | e4 => [[n e3, n l4]]
  | l4 => [[], [oneOf [plus, minus], n e3, n l4]]
  | e5 => [[n e4, n l5]]
  | l5 => [[], [oneOf [leftShift, rightShift], n e4, n l5]]
  | e6 => [[n e5, n l6]]
  | l6 => [[], [oneOf [bitwiseAnd, bitwiseOr, bitwiseXor], n e5, n l6]]
  | e7 => [[n e6, n l7]]
  | l7 => [[], [k dot, n e6, n l7]]
  | e8 => [[n e7, n l8]]
  | l8 => [[], [oneOf [lessThan, lessThanEquals, greaterThan, greaterThanEquals, doubleEquals, notEquals], n e7, n l8]]
  | e9 => [[n e8, n l9]]
  | l9 => [[], [oneOf [logicalAnd, logicalOr], n e8, n l9]]
  | e10 => [[n e9, n l10]]
  | l10 => [[], [k comma, n e7, n l10]]
  | expr commas =>
    cat [[n (if commas then e9 else e10)]] [[], [oneOf assignOps, n (expr commas)], [.tok .minMax, k equals, n (expr commas)]]

/-- The next token that is not a line break. -/
def nextTok (ts : List Token) : Option Token := (ts.filter (fun t => t != newLine)).head?

mutual
/-- `Gen ss w rest`: the tokens `w`, when `rest` follows, are a sentence of `ss`. -/
inductive Gen : List Sym → List Token → List Token → Prop where
  | nil (rest) : Gen [] [] rest
  | tok {c t ss w rest} (lines : Nat) : c.ok t = true → Gen ss w rest → Gen (.tok c :: ss) (List.replicate lines newLine ++ t :: w) rest
  | nt {x ss u v rest} : Der x u (v ++ rest) → Gen ss v rest → Gen (.nt x :: ss) (u ++ v) rest
  | adj {ss w rest} : (w ++ rest).head? ≠ some newLine → Gen ss w rest → Gen (.adj :: ss) w rest
  | look {cs ss w rest t} : nextTok (w ++ rest) = some t → cs.any (fun c => c.ok t) = true → Gen ss w rest → Gen (.look cs :: ss) w rest
/-- `Der x w rest`: the tokens `w`, when `rest` follows, are derived from `x`. -/
inductive Der : NT → List Token → List Token → Prop where
  | prod {x ss w rest} : ss ∈ prods x → Gen ss w rest → Der x w rest
end

end Cordy.Language

/-! ## Brackets -/

namespace Cordy.Language
open Cordy.Scan (Token)

/-- The closing bracket that belongs to an opening one. -/
def closer : Token → Option Token
  | .openParen => some .closeParen
  | .openSquare => some .closeSquare
  | .openBrace => some .closeBrace
  | _ => none

def isCloser : Token → Bool
  | .closeParen | .closeSquare | .closeBrace => true
  | _ => false

/-- Reads a token; the list has the closing brackets still expected. `none`: a closing bracket is not the expected one. -/
def bracket (t : Token) (expected : List Token) : Option (List Token) :=
  match closer t with
  | some c => some (c :: expected)
  | none =>
    if isCloser t then
      if expected.head? = some t then some expected.tail else none
    else some expected

def brackets : List Token → List Token → Option (List Token)
  | [], expected => some expected
  | t :: ts, expected => (bracket t expected).bind (brackets ts)

/-- Every bracket is closed by one of its kind, properly nested. -/
def Balanced (ts : List Token) : Prop := brackets ts [] = some []

end Cordy.Language
