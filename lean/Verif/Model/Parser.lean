import Verif.Model.Scanner

/-!
# The parser: which tokens are accepted, error recovery

Models every rule of `compiler/parser/mod.rs` (201-2086) and the token handling of `compiler/parser/core/mod.rs`, on the token lists of `Model/Scanner`.
What a rule emits is left out (C33-C45, C57, C64-C66 are about that). The errors that depend on names, scopes, patterns or constant folding ("semantic" errors, and the two errors about assignment
targets that also start error recovery) are over-approximated: at every place where the code resolves or declares a name, builds an assignment or emits code, the model asks an arbitrary oracle if an error is raised.
The theorems hold for every oracle.

A rule is a program `Prog` in the token operations of `core/mod.rs`, that may call other rules; a `loop` is a rule that calls itself. `run` interprets it; its fuel is the depth of calls.
-/
namespace Cordy.Parser
open Cordy.Scan (Token)

/-- models: errors.rs:84-107 `ParserErrorType`, those that are about the next token; `semantic` stands for the others (108-137). -/
inductive ErrTy where
  | unexpectedTokenAfterEoF
  | expectedToken (t : Token)
  | expectedExpressionTerminal | expectedCommaOrEndOfArguments | expectedCommaOrEndOfList | expectedCommaOrEndOfComma
  | expectedCommaOrEndOfDict | expectedCommaOrEndOfSet | expectedColonOrEndOfSlice
  | expectedFunctionNameAfterFn | expectedFunctionBlockOrArrowAfterFn | expectedParameterOrEndOfList | expectedCommaOrEndOfParameters
  | expectedUnderscoreOrVariableNameAfterVariadicInPattern | expectedUnderscoreOrVariableNameOrPattern
  | expectedAnnotationOrNamedFunction | expectedStructNameAfterStruct | expectedFieldNameAfterArrow | expectedFieldNameInStruct
  | expectedFunctionInStruct
  | semantic
  deriving DecidableEq, Repr

/-- models: errors.rs:9-13 `ParserError`: the kind, the token it was given (`none` at the end of the input), how much of the input was left (the location). -/
structure PErr where
  ty : ErrTy
  got : Option Token
  left : Nat
  deriving DecidableEq, Repr

/-- models: errors.rs:21-77 `is_eof` -/
def PErr.isEof (e : PErr) : Bool :=
  match e.ty with
  | .unexpectedTokenAfterEoF => false
  | .semantic => false
  | _ => e.got.isNone

/-- What the part of the parser that is not modelled does at one place: nothing, report an error, report an error and start error recovery. -/
inductive Ans where
  | ok | semantic | lexical
  deriving DecidableEq, Repr

/-- models: parser/mod.rs:77-125 `Parser`: `input`, `error_recovery`, `errors` (in the order they were found; repeated errors are not dropped). `ora` answers at the `n`-th place. -/
structure St where
  input : List Token
  recov : Bool
  errs : List PErr
  ora : Nat → Ans
  n : Nat

/-- models: the functions of parser/mod.rs; the name of a `loop` inside a function ends with `Loop`. -/
inductive Rule where
  | root | evalRoot | statements | block
  | structOrModule (m : Bool) | structLoop | methodLoop (m : Bool) | nativeModule | nativeLoop | nativeFunction
  | annotated | namedFunction | exprFunction | params (self restrict : Bool) | paramLoop (restrict : Bool) | functionBody
  | returnS | ifS | whileS | doS | loopS | forS | breakS | continueS | assertS | letS | letLoop | exprStatement
  | lvalue | lvalueTerms
  | terminal | commaExpr | commaLoop | commaArg | listOrSlice | listLoop | sliceLit | dictOrSet | dictLoop (isDict : Option Bool)
  | ifThenElse | thenElse
  | unary | prefixLoop | suffixLoop
  | e3 | e4 | e5 | e6 | e7 | e8 | e9 | e10 | e11 (comma : Bool)
  | l3 | l4 | l5 | l6 | l7 | l8 | l9 | l10
  deriving DecidableEq, Repr

/-- A rule's program. `call` gives the `bool` (or: is it `Some`?) that the function returns; `false` if it returns nothing. -/
inductive Prog (α : Type) where
  | ret (a : α)
  | peek (k : Nat) (f : Option Token → Prog α)
  | peekNN (f : Option Token → Prog α)
  | adv (f : Option Token → Prog α)
  | call (r : Rule) (f : Bool → Prog α)
  | err (ty : ErrTy) (f : Prog α)
  | resync (t : Token) (f : Prog α)
  | sem (f : Prog α)
  | panic

namespace Prog

def bind : Prog α → (α → Prog β) → Prog β
  | .ret a, g => g a
  | .peek k f, g => .peek k fun o => (f o).bind g
  | .peekNN f, g => .peekNN fun o => (f o).bind g
  | .adv f, g => .adv fun o => (f o).bind g
  | .call r f, g => .call r fun b => (f b).bind g
  | .err ty f, g => .err ty (f.bind g)
  | .resync t f, g => .resync t (f.bind g)
  | .sem f, g => .sem (f.bind g)
  | .panic, _ => .panic

instance : Monad Prog where
  pure := .ret
  bind := .bind

end Prog

/-- models: core/mod.rs:151-153 `peek`, `peek2`, `peek3` -/
def peek : Prog (Option Token) := .peek 0 .ret
def peek2 : Prog (Option Token) := .peek 1 .ret
def peek3 : Prog (Option Token) := .peek 2 .ret
/-- models: core/mod.rs:137-145 `peek_no_newline` -/
def peekNN : Prog (Option Token) := .peekNN .ret
/-- models: core/mod.rs:169-176 `advance`, `advance_with` -/
def adv : Prog (Option Token) := .adv .ret
def call (r : Rule) : Prog Bool := .call r .ret
/-- models: core/mod.rs:312-322 `error_with`, `error` -/
def err (ty : ErrTy) : Prog Unit := .err ty (.ret ())
/-- models: core/mod.rs:77-109 `expect_resync` -/
def resync (t : Token) : Prog Unit := .resync t (.ret ())
/-- A place where the part that is not modelled may report an error. -/
def sem : Prog Unit := .sem (.ret ())

/-- models: core/mod.rs:62-71 `expect` -/
def expect (t : Token) : Prog Unit := do
  match ← peek with
  | some u => if u = t then discard adv else err (.expectedToken t)
  | none => err (.expectedToken t)

/-- models: core/mod.rs:41-59 `parse_optional_trailing_comma` -/
def trailingComma (close : Token) (ty : ErrTy) : Prog Bool := do
  match ← peek with
  | some .comma => do
    discard adv
    return (← peek) == some close
  | some t => if t = close then return true else do err ty; return true
  | none => do err ty; return true

/-- models: core/mod.rs:113-118 `advance_identifier` -/
def advanceIdentifier : Prog Unit := do
  match ← adv with
  | some (.identifier _) => pure ()
  | _ => Prog.panic

/-- models: core/mod.rs:121-132 `expect_identifier` -/
def expectIdentifier (ty : ErrTy) : Prog Unit := do
  match ← peek with
  | some (.identifier _) => advanceIdentifier
  | _ => err ty

/-- models: semantic.rs:894-920 `begin_module` -/
def beginModule : Prog Unit := do
  sem
  expectIdentifier .expectedStructNameAfterStruct
  sem

/-- models: mod.rs:1786-1794 `parse_expr_2_field_access` -/
def fieldAccess : Prog Unit := do
  discard adv
  expectIdentifier .expectedFieldNameAfterArrow
  sem

/-- models: mod.rs:1075-1079 `parse_expression`: the expression is parsed, then emitted. -/
def expression : Prog Unit := do
  discard (call (.e11 false))
  sem

/-- models: mod.rs:1081-1085 `parse_expression_restricted` -/
def expressionRestricted : Prog Unit := do
  discard (call .e9)
  sem

/-- models: mod.rs:1088-1090 `parse_expr` -/
def expr : Prog Unit := discard (call (.e11 true))

/-- models: the patterns `Some(Comma | CloseParen | CloseBrace | CloseSquareBracket)` of mod.rs:1316, 1343, 1357 -/
def closes : Option Token → Bool
  | some .comma | some .closeParen | some .closeBrace | some .closeSquare => true
  | _ => false

/-- models: mod.rs:1370-1380 `parse_unary_operator` (is it one?) -/
def unaryOperator : Prog Bool := do
  match ← peek with
  | some .minus => return true
  | some .not => return true
  | some .kNot => return (← peek2) != some .kIn
  | _ => return false

/-- models: mod.rs:1382-1417 `parse_binary_operator_left`: is there an operator, and is it two tokens long? -/
def binaryLeft : Prog (Option Bool) := do
  match ← peek with
  | some .mul | some .div | some .pow | some .mod | some .kIn => return some false
  | some .kNot => do if (← peek2) = some .kIn then return some true else return none
  | some .kIs => do if (← peek2) = some .kNot then return some true else return some false
  | some .plus | some .leftShift | some .rightShift | some .bitwiseAnd | some .bitwiseOr | some .bitwiseXor
  | some .lessThan | some .lessThanEquals | some .greaterThan | some .greaterThanEquals | some .doubleEquals | some .notEquals =>
    return some false
  | _ => return none

/-- models: mod.rs:1419-1456 `parse_binary_operator_right`: the same cases. -/
def binaryRight : Prog (Option Bool) := binaryLeft

/-- models: mod.rs:1801-1822, the operators of `parse_expr_3`: is there one, and is it two tokens long? -/
def op3 : Prog (Option Bool) := do
  match ← peek with
  | some .mul | some .div | some .mod | some .pow | some .kIn => return some false
  | some .kIs => do if (← peek2) = some .kNot then return some true else return some false
  | some .kNot => do if (← peek2) = some .kIn then return some true else return none
  | _ => return none

/-- models: mod.rs:1850-1854 -/
def op4 : Option Token → Bool
  | some .plus | some .minus => true
  | _ => false
/-- models: mod.rs:1873-1877 -/
def op5 : Option Token → Bool
  | some .leftShift | some .rightShift => true
  | _ => false
/-- models: mod.rs:1896-1901 -/
def op6 : Option Token → Bool
  | some .bitwiseAnd | some .bitwiseOr | some .bitwiseXor => true
  | _ => false
/-- models: mod.rs:1935-1943 -/
def op8 : Option Token → Bool
  | some .lessThan | some .lessThanEquals | some .greaterThan | some .greaterThanEquals | some .doubleEquals | some .notEquals => true
  | _ => false
/-- models: mod.rs:1963-1967 -/
def op9 : Option Token → Bool
  | some .logicalAnd | some .logicalOr => true
  | _ => false

/-- models: the loops of mod.rs:1849-1865, 1872-1888, 1895-1909, 1934-1955, 1962-1978 (`parse_expr_4`, `5`, `6`, `8`, `9`). -/
def binLoop (isOp : Option Token → Bool) (operand self : Rule) : Prog Bool := do
  if isOp (← peek) then do
    if (← peek2) = some .closeParen then return false
    else do
      discard adv
      discard (call operand)
      call self
  else return false

/-- models: mod.rs:2028-2042, the assignment operators of one token. -/
def asgOp : Option Token → Bool
  | some .equals | some .plusEquals | some .minusEquals | some .mulEquals | some .divEquals | some .andEquals | some .orEquals
  | some .xorEquals | some .leftShiftEquals | some .rightShiftEquals | some .modEquals | some .powEquals | some .dotEquals => true
  | _ => false

/-- models: mod.rs:1762, the tokens that may start an argument without parentheses (besides names and `fn`). -/
def bareStart : Token → Bool
  | .kNil | .kTrue | .kFalse | .kExit | .int _ | .complex _ | .string _ | .at | .kIf => true
  | _ => false

/-- The names `max` and `min`. -/
def isMinMax (s : List Char) : Bool := s = ['m', 'a', 'x'] || s = ['m', 'i', 'n']

/-- models: mod.rs:1669-1730, the part of `parse_expr_2_suffix_operators` after `[`. -/
def indexSuffix : Prog Unit := do
  discard adv
  match ← peek with
  | some .colon => pure ()
  | _ => expr
  match ← peek with
  | some .closeSquare => discard adv
  | some .colon => do
    discard adv
    match ← peek with
    | some .closeSquare => discard adv
    | o => do
      if o = some .colon then pure () else expr
      match ← peek with
      | some .closeSquare => discard adv
      | some .colon => do
        discard adv
        match ← peek with
        | some .closeSquare => pure ()
        | _ => expr
        expect .closeSquare
      | _ => err .expectedColonOrEndOfSlice
  | _ => err .expectedColonOrEndOfSlice

/-- models: mod.rs:1661-1773, one round of `parse_expr_2_suffix_operators`, given the token on the same line: is there another one? -/
def suffix (o : Option Token) : Prog Bool := do
  match o with
  | some .openParen => do
    match ← peek2 with
    | some .closeParen => do discard adv; discard adv; return true
    | some _ => do discard (call .commaExpr); return true
    | none => do err .expectedCommaOrEndOfArguments; return true
  | some .openSquare => do indexSuffix; return true
  | some t => do
    let bare ← (match t with
      | .identifier _ => do return (← peek2) != some .equals
      | .kFn => do return (← peek2) == some .openParen
      | t => return bareStart t : Prog Bool)
    if bare then do discard (call .terminal); return true
    else arrow
  | none => arrow
where
  /-- models: mod.rs:1766-1772 -/
  arrow : Prog Bool := do
    match ← peek with
    | some .arrow => do fieldAccess; return true
    | _ => return false

/-- models: mod.rs:577-591, the default of a parameter. -/
def paramDefault : Prog Unit := do
  match ← peek with
  | some .questionMark => discard adv
  | some .equals => do discard adv; expr
  | _ => sem

/-- models: mod.rs:1310-1368 `parse_comma_expr_arg`; the result is `is_unroll`. -/
def commaArg : Prog Bool := do
  let u ← unaryOperator
  let c ← (if u then do return closes (← peek2) else return false : Prog Bool)
  if c then do discard adv; return false
  else match ← peek with
  | some .arrow => do fieldAccess; return false
  | some .ellipsis => do discard adv; expr; return true
  | _ => do
    match ← binaryLeft with
    | some long => do
      discard adv
      if long then discard adv else pure ()
      let o ← peek
      if closes o then return false else do expr; return false
    | none => do
      expr
      match ← binaryRight with
      | some long => do
        let o ← (if long then peek3 else peek2)
        if closes o then do
          discard adv
          if long then discard adv else pure ()
          return false
        else return false
      | none => return false

/-- models: mod.rs:1198-1258 `parse_expr_1_terminal` -/
def terminal : Prog Bool := do
  match ← peek with
  | some .kNil | some .kTrue | some .kFalse | some .kExit | some (.int _) | some (.complex _) | some (.string _) | some .underscore => do
    discard adv; return false
  | some .mul => do
    match ← peek2 with
    | some .underscore => do discard adv; discard adv; return false
    | some (.identifier _) => do discard adv; advanceIdentifier; sem; return false
    | _ => do err .expectedExpressionTerminal; return false
  | some (.identifier _) => do advanceIdentifier; sem; return false
  | some .kSelf => do discard adv; sem; return false
  | some .openParen => call .commaExpr
  | some .openSquare => call .listOrSlice
  | some .openBrace => call .dictOrSet
  | some .kFn => call .exprFunction
  | some .kIf => call .ifThenElse
  | _ => do err .expectedExpressionTerminal; return false

/-- models: parser/mod.rs:201-2086, function by function. -/
def body : Rule → Prog Bool
  -- 201-208 `parse`, 230-272 `teardown` (also of 210-222, the REPL)
  | .root => do
    discard (call .statements)
    sem
    match ← peek with
    | some _ => do err .unexpectedTokenAfterEoF; return false
    | none => return false
  -- 224-228 `parse_incremental_eval`
  | .evalRoot => do
    expression
    sem
    match ← peek with
    | some _ => do err .unexpectedTokenAfterEoF; return false
    | none => return false
  -- 274-303 `parse_statements`
  | .statements => do
    match ← peek with
    | some .at => do discard (call .annotated); call .statements
    | some .kFn => do discard (call .namedFunction); call .statements
    | some .kReturn => do discard (call .returnS); call .statements
    | some .kLet => do discard (call .letS); call .statements
    | some .kIf => do discard (call .ifS); call .statements
    | some .kLoop => do discard (call .loopS); call .statements
    | some .kWhile => do discard (call .whileS); call .statements
    | some .kDo => do discard (call .doS); call .statements
    | some .kFor => do discard (call .forS); call .statements
    | some .kBreak => do discard (call .breakS); call .statements
    | some .kContinue => do discard (call .continueS); call .statements
    | some .kAssert => do discard (call .assertS); call .statements
    | some .kStruct => do discard (call (.structOrModule false)); call .statements
    | some .kModule => do discard (call (.structOrModule true)); call .statements
    | some .kNative => do discard (call .nativeModule); call .statements
    | some .closeBrace => return false
    | some .semicolon => do discard adv; call .statements
    | some _ => do discard (call .exprStatement); call .statements
    | none => return false
  -- 305-314 `parse_block_statement`
  | .block => do
    expect .openBrace
    discard (call .statements)
    resync .closeBrace
    return false
  -- 316-382 `parse_struct_or_module`
  | .structOrModule m => do
    discard adv
    beginModule
    if m then pure () else do
      expect .openParen
      discard (call .structLoop)
      resync .closeParen
    match ← peek with
    | some .openBrace => do
      discard adv
      discard (call (.methodLoop m))
      resync .closeBrace
      return false
    | _ => return false
  -- 332-350
  | .structLoop => do
    match ← peek with
    | some (.identifier _) => do
      advanceIdentifier
      sem
      match ← peek with
      | some .comma => do discard adv; call .structLoop
      | _ => call .structLoop
    | some .closeParen => return false
    | _ => do err .expectedFieldNameInStruct; return false
  -- 360-378
  | .methodLoop m => do
    match ← peek with
    | some .closeBrace => return false
    | some .kFn => do
      discard adv
      expectIdentifier .expectedFunctionNameAfterFn
      discard (call (.params (!m) false))
      sem
      discard (call .functionBody)
      call (.methodLoop m)
    | _ => do err .expectedFunctionInStruct; return false
  -- 384-409 `parse_native_module`
  | .nativeModule => do
    discard adv
    expect .kModule
    beginModule
    expect .openBrace
    discard (call .nativeLoop)
    resync .closeBrace
    return false
  -- 394-405
  | .nativeLoop => do
    match ← peek with
    | some .closeBrace => return false
    | some .kFn => do
      discard adv
      discard (call .nativeFunction)
      call .nativeLoop
    | _ => do err .expectedFunctionInStruct; return false
  -- 411-446 `parse_native_module_function`
  | .nativeFunction => do
    expectIdentifier .expectedFunctionNameAfterFn
    discard (call (.params false true))
    sem
    return false
  -- 448-460 `parse_annotated_named_function`
  | .annotated => do
    discard adv
    expression
    match ← peek with
    | some .at => call .annotated
    | some .kFn => call .namedFunction
    | _ => do err .expectedAnnotationOrNamedFunction; return false
  -- 462-488 `parse_named_function`
  | .namedFunction => do
    if (← peek2) = some .openParen then call .exprStatement
    else do
      discard adv
      expectIdentifier .expectedFunctionNameAfterFn
      discard (call (.params false false))
      sem
      call .functionBody
  -- 490-502 `parse_expression_function`
  | .exprFunction => do
    discard adv
    discard (call (.params false false))
    sem
    call .functionBody
  -- 512-599 `parse_function_parameters`
  | .params self restrict => do
    expect .openParen
    match ← peek with
    | some .closeParen => do discard adv; return false
    | o => do
      let done ← (if self && o == some .kSelf then do
          discard adv
          if ← trailingComma .closeParen .expectedCommaOrEndOfParameters then do discard adv; return true
          else return false
        else return false : Prog Bool)
      if done then return false
      else do
        discard (call (.paramLoop restrict))
        resync .closeParen
        return false
  -- 546-596
  | .paramLoop restrict => do
    if ← call .lvalue then sem else err .expectedParameterOrEndOfList
    paramDefault
    if ← trailingComma .closeParen .expectedCommaOrEndOfParameters then return false
    else call (.paramLoop restrict)
  -- 606-705 `parse_function_body`
  | .functionBody => do
    sem
    match ← peek with
    | some .openBrace => do
      discard adv
      discard (call .statements)
      resync .closeBrace
      return false
    | some .arrow => do
      discard adv
      expression
      return false
    | _ => do
      err .expectedFunctionBlockOrArrowAfterFn
      resync .closeBrace
      return false
  -- 707-728 `parse_return_statement`
  | .returnS => do
    discard adv
    match ← peek with
    | some .closeBrace => return false
    | some .semicolon => do discard adv; return false
    | _ => do expression; return false
  -- 732-789 `parse_if_statement` (also at `elif`)
  | .ifS => do
    discard adv
    expr
    if (← peek) = some .kThen then do
      discard (call .thenElse)
      sem
      return false
    else do
      sem
      discard (call .block)
      match ← peek with
      | some .kElif => call .ifS
      | some .kElse => do discard adv; call .block
      | _ => return false
  -- 791-821 `parse_while_statement`
  | .whileS => do
    discard adv
    expression
    discard (call .block)
    match ← peek with
    | some .kElse => do discard adv; call .block
    | _ => return false
  -- 824-845 `parse_do_while_statement`
  | .doS => do
    discard adv
    discard (call .block)
    match ← peek with
    | some .kWhile => do discard adv; expression
    | _ => pure ()
    match ← peek with
    | some .kElse => do discard adv; call .block
    | _ => return false
  -- 847-868 `parse_loop_statement`
  | .loopS => do
    discard adv
    call .block
  -- 870-928 `parse_for_statement`
  | .forS => do
    discard adv
    discard (call .lvalueTerms)
    expect .kIn
    sem
    expression
    sem
    discard (call .block)
    match ← peek with
    | some .kElse => do discard adv; call .block
    | _ => return false
  -- 930-943 `parse_break_statement`
  | .breakS => do discard adv; sem; return false
  -- 945-958 `parse_continue_statement`
  | .continueS => do discard adv; sem; return false
  -- 960-1001 `parse_assert_statement`
  | .assertS => do
    discard adv
    expr
    sem
    match ← peek with
    | some .colon => do discard adv; expression; return false
    | _ => return false
  -- 1005-1066 `parse_let_statement`
  | .letS => do
    discard adv
    call .letLoop
  -- 1010-1065
  | .letLoop => do
    if ← call .lvalueTerms then do
      match ← peek with
      | some .equals => do
        sem
        discard adv
        sem
        expressionRestricted
        sem
      | _ => sem
      match ← peek with
      | some .comma => do discard adv; call .letLoop
      | _ => return false
    else return false
  -- 1068-1073 `parse_expression_statement`
  | .exprStatement => do expression; return false
  -- 1105-1145 `parse_lvalue`; the result: is it `Some`?
  | .lvalue => do
    match ← peek with
    | some (.identifier _) => do advanceIdentifier; return true
    | some .underscore => do discard adv; return true
    | some .mul => do
      discard adv
      match ← peek with
      | some (.identifier _) => do advanceIdentifier; return true
      | some .underscore => do discard adv; return true
      | _ => do err .expectedUnderscoreOrVariableNameAfterVariadicInPattern; return false
    | some .openParen => do
      discard adv
      let terms ← call .lvalueTerms
      expect .closeParen
      return terms
    | _ => do err .expectedUnderscoreOrVariableNameOrPattern; return false
  -- 1165-1193 `parse_lvalue_terms`; also 1148-1163 `parse_bare_lvalue`
  | .lvalueTerms => do
    if ← call .lvalue then do
      sem
      match ← peek with
      | some .comma => do discard adv; call .lvalueTerms
      | _ => return true
    else return false
  -- 1198-1258 `parse_expr_1_terminal`
  | .terminal => terminal
  -- 1290-1308 `parse_comma_expr`
  | .commaExpr => do
    discard adv
    discard (call .commaArg)
    discard (call .commaLoop)
    resync .closeParen
    return false
  -- 1296-1304
  | .commaLoop => do
    if ← trailingComma .closeParen .expectedCommaOrEndOfComma then return false
    else do
      discard (call .commaArg)
      call .commaLoop
  | .commaArg => commaArg
  -- 1458-1499 `parse_expr_1_list_or_slice_literal`
  | .listOrSlice => do
    discard adv
    match ← peek with
    | some .closeSquare => do discard adv; return false
    | some .colon => call .sliceLit
    | _ => do
      discard (call .commaArg)
      match ← peek with
      | some .closeSquare => do discard adv; return false
      | some .colon => call .sliceLit
      | o => do
        if o = some .comma then pure () else err .expectedCommaOrEndOfList
        discard (call .listLoop)
        expect .closeSquare
        return false
  -- 1490-1495
  | .listLoop => do
    if ← trailingComma .closeSquare .expectedCommaOrEndOfList then return false
    else do
      discard (call .commaArg)
      call .listLoop
  -- 1501-1537 `parse_expr_1_slice_literal`
  | .sliceLit => do
    discard adv
    match ← peek with
    | some .closeSquare => do discard adv; sem; return false
    | o => do
      if o = some .colon then pure () else discard (call .commaArg)
      match ← peek with
      | some .closeSquare => do discard adv; sem; return false
      | some .colon => do
        discard adv
        match ← peek with
        | some .closeSquare => pure ()
        | _ => discard (call .commaArg)
        expect .closeSquare
        sem
        return false
      | _ => do err .expectedColonOrEndOfSlice; return false
  -- 1541-1586 `parse_expr_1_dict_or_set_literal`
  | .dictOrSet => do
    discard adv
    match ← peek with
    | some .closeBrace => do discard adv; return false
    | _ => do
      discard (call (.dictLoop none))
      resync .closeBrace
      return false
  -- 1553-1581
  | .dictLoop isDict => do
    let unroll ← call .commaArg
    let isDict ← (if unroll then return isDict
      else match isDict with
      | some true => do
        expect .colon
        discard (call .commaArg)
        return some true
      | some false => return some false
      | none => do
        match ← peek with
        | some .colon => do
          discard adv
          discard (call .commaArg)
          return some true
        | _ => return some false : Prog (Option Bool))
    if ← trailingComma .closeBrace (if isDict = some true then .expectedCommaOrEndOfDict else .expectedCommaOrEndOfSet) then return false
    else call (.dictLoop isDict)
  -- 1588-1595 `parse_inline_if_then_else`
  | .ifThenElse => do
    discard adv
    expr
    call .thenElse
  -- 1597-1616 `parse_inline_then_else`
  | .thenElse => do
    expect .kThen
    expr
    match ← peek with
    | some .kElif => do
      discard adv
      expr
      call .thenElse
    | _ => do
      expect .kElse
      expr
      return false
  -- 1618-1632 `parse_expr_2_unary`
  | .unary => do
    discard (call .prefixLoop)
    discard (call .terminal)
    call .suffixLoop
  -- 1634-1655 `parse_expr_2_prefix_operators`
  | .prefixLoop => do
    match ← peek with
    | some .minus => do discard adv; call .prefixLoop
    | some .not => do discard adv; call .prefixLoop
    | some .kNot => do discard adv; call .prefixLoop
    | _ => return false
  -- 1657-1776 `parse_expr_2_suffix_operators`, 1778-1783 `parse_expr_2_bare_suffix`
  | .suffixLoop => do
    if ← suffix (← peekNN) then call .suffixLoop else return false
  -- 1796-1844 `parse_expr_3`
  | .e3 => do discard (call .unary); call .l3
  | .l3 => do
    match ← op3 with
    | some long => do
      if (← (if long then peek3 else peek2)) = some .closeParen then return false
      else do
        discard adv
        if long then discard adv else pure ()
        discard (call .unary)
        call .l3
    | none => return false
  -- 1846-1867 `parse_expr_4`
  | .e4 => do discard (call .e3); call .l4
  | .l4 => binLoop op4 .e3 .l4
  -- 1869-1890 `parse_expr_5`
  | .e5 => do discard (call .e4); call .l5
  | .l5 => binLoop op5 .e4 .l5
  -- 1892-1911 `parse_expr_6`
  | .e6 => do discard (call .e5); call .l6
  | .l6 => binLoop op6 .e5 .l6
  -- 1913-1928 `parse_expr_7`
  | .e7 => do discard (call .e6); call .l7
  | .l7 => do
    match ← peek with
    | some .dot => do
      discard adv
      discard (call .e6)
      call .l7
    | _ => return false
  -- 1930-1957 `parse_expr_8`
  | .e8 => do discard (call .e7); call .l8
  | .l8 => binLoop op8 .e7 .l8
  -- 1959-1980 `parse_expr_9`
  | .e9 => do discard (call .e8); call .l9
  | .l9 => binLoop op9 .e8 .l9
  -- 1982-2003 `parse_expr_10`
  | .e10 => do discard (call .e9); call .l10
  | .l10 => do
    match ← peek with
    | some .comma => do
      match ← peek2 with
      | some .closeParen => return false
      | some .equals => return false
      | _ => do
        discard adv
        discard (call .e7)
        call .l10
    | _ => return false
  -- 2012-2086 `parse_expr_11`
  | .e11 comma => do
    discard (call (if comma then .e9 else .e10))
    let o ← peek
    let op ← (match o with
      | some (.identifier s) =>
        if isMinMax s then do
          if (← peek2) = some .equals then do discard adv; return true else return false
        else return false
      | o => return asgOp o : Prog Bool)
    if op then do
      discard adv
      discard (call (.e11 comma))
      sem
      return false
    else return false

/-! ## The token operations and the interpreter -/

/-- models: core/mod.rs:155-167 `peek_lookahead`: the tokens that are seen: no line breaks, nothing during error recovery. -/
def vis (s : St) : List Token := if s.recov then [] else s.input.filter (fun t => t != .newLine)

/-- models: core/mod.rs:137-145 `peek_no_newline` -/
def front (s : St) : Option Token := if s.recov then none else s.input.head?

/-- models: core/mod.rs:180-192 `advance_both`, without the locations. -/
def advance (s : St) : Option Token × St :=
  if s.recov then (none, s)
  else match s.input.dropWhile (fun t => t == .newLine) with
    | [] => (none, { s with input := [] })
    | t :: rest => (some t, { s with input := rest })

/-- models: core/mod.rs:338-346 `do_error` -/
def doError (s : St) (ty : ErrTy) (got : Option Token) (lexical : Bool) : St :=
  { s with errs := if s.recov then s.errs else s.errs ++ [⟨ty, got, s.input.length⟩], recov := s.recov || lexical }

/-- models: core/mod.rs:88-107: tokens are dropped up to the first `t`. -/
def skipTo (t : Token) : List Token → Option (List Token)
  | [] => none
  | u :: us => if u = t then some us else skipTo t us

/-- models: core/mod.rs:77-109 `expect_resync`; line breaks left at the end of the input are dropped. -/
def doResync (s : St) (t : Token) : St :=
  if (vis s)[0]? = some t then (advance s).2
  else match skipTo t s.input with
    | some rest => { s with input := rest, recov := false }
    | none =>
      if s.recov then { s with input := [], recov := false }
      else doError { s with input := [] } (.expectedToken t) none true

/-- The answer of the oracle. -/
def doSem (s : St) : St :=
  let s' := { s with n := s.n + 1 }
  match s.ora s.n with
  | .ok => s'
  | .semantic => doError s' .semantic none false
  | .lexical => doError s' .semantic none true

/-- The result of running a rule: `more` if the fuel is used up. -/
inductive Res (α : Type) where
  | done (a : α) (s : St)
  | more
  | panic

/-- Runs a program; `f` runs the rules that are called. -/
def runP (f : Rule → St → Res Bool) : Prog α → St → Res α
  | .ret a, s => .done a s
  | .peek k g, s => runP f (g (vis s)[k]?) s
  | .peekNN g, s => runP f (g (front s)) s
  | .adv g, s => runP f (g (advance s).1) (advance s).2
  | .call r g, s =>
    match f r s with
    | .done b s' => runP f (g b) s'
    | .more => .more
    | .panic => .panic
  | .err ty g, s => runP f g (doError s ty (vis s)[0]? true)
  | .resync t g, s => runP f g (doResync s t)
  | .sem g, s => runP f g (doSem s)
  | .panic, _ => .panic

/-- Runs a rule, with at most `n` calls nested. -/
def run : Nat → Rule → St → Res Bool
  | 0, _, _ => .more
  | n + 1, r, s => runP (run n) (body r) s

/-- models: parser/mod.rs:185-199 `Parser::new` -/
def start (input : List Token) (ora : Nat → Ans) : St := ⟨input, false, [], ora, 0⟩

end Cordy.Parser
