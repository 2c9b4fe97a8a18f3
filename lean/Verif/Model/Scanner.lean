import Verif.Model.Strings
/-!
# The scanner

Models `compiler/scanner.rs`.  The mutable scanner (`chars`, `cursor`, `tokens`, `errors`) becomes: remaining characters,
cursor, and the outputs (tokens and errors in the order they are pushed).  The source index of a location is omitted
(it is the same for every output of one scan).
-/
namespace Cordy.Scan
open Cordy.Str

/-- models: scanner.rs:80-163 `ScanToken` -/
inductive Token where
  | identifier (s : List Char) | string (s : List Char) | int (i : Int) | complex (i : Int)
  | kLet | kFn | kReturn | kIf | kElif | kElse | kThen | kLoop | kWhile | kFor | kIn | kIs | kNot | kBreak | kContinue | kDo
  | kTrue | kFalse | kNil | kStruct | kExit | kAssert | kModule | kSelf | kNative
  | equals | plusEquals | minusEquals | mulEquals | divEquals | andEquals | orEquals | xorEquals | leftShiftEquals
  | rightShiftEquals | modEquals | powEquals | dotEquals
  | plus | minus | mul | div | bitwiseAnd | bitwiseOr | bitwiseXor | mod | pow | leftShift | rightShift
  | not | logicalAnd | logicalOr
  | notEquals | doubleEquals | lessThan | lessThanEquals | greaterThan | greaterThanEquals
  | openParen | closeParen | openSquare | closeSquare | openBrace | closeBrace
  | comma | dot | colon | arrow | underscore | semicolon | at | ellipsis | questionMark
  | newLine
  deriving DecidableEq, Repr

/-- models: scanner.rs:56-63 `ScanErrorType` -/
inductive ScanErr where
  | invalidNumericPrefix (c : Char) | invalidNumericValue | invalidCharacter (c : Char)
  | unterminatedString | unterminatedComment
  deriving DecidableEq, Repr

/-- models: reporting.rs:12-28 `Location` (without the source index) -/
structure Loc where
  start : Nat
  width : Nat
  deriving DecidableEq, Repr

/-- models: reporting.rs:39 `Location::end` -/
def Loc.last (l : Loc) : Nat := l.start + l.width - 1

/-- One push to `tokens` or `errors`. -/
inductive Out where
  | tok (l : Loc) (t : Token)
  | err (l : Loc) (e : ScanErr)
  deriving DecidableEq, Repr

/-- models: scanner.rs:518-520 `push` -/
def push (cur w : Nat) (t : Token) : Out := .tok ⟨cur - w, w⟩ t
/-- models: scanner.rs:527-532 `push_err`; `cursor - width + offset` wraps back in release builds when `cursor < width`. -/
def pushErr (cur offset w : Nat) (e : ScanErr) : Out := .err ⟨cur + offset - w, w⟩ e
/-- models: scanner.rs:535-542 `push_err_at` -/
def pushErrAt (cur start w : Nat) (e : ScanErr) : Out := .err ⟨start, (cur - start) + w⟩ e

/-- models: scanner.rs:567-576 `advance`: consuming `\n` pushes a `NewLine` token; `cur` is the cursor before. -/
def nl (c : Char) (cur : Nat) : List Out := if c = '\n' then [push (cur + 1) 1 .newLine] else []

/-- Character classes of the `match` arms. -/
def isLetter (c : Char) : Bool := ('a' ≤ c && c ≤ 'z') || ('A' ≤ c && c ≤ 'Z')
def isDigit (c : Char) : Bool := '0' ≤ c && c ≤ '9'
def isIdent (c : Char) : Bool := isLetter c || isDigit c || c == '_'
def isHex (c : Char) : Bool := isDigit c || ('A' ≤ c && c ≤ 'F') || ('a' ≤ c && c ≤ 'f')
def isBin (c : Char) : Bool := c == '0' || c == '1'
def isBlank (c : Char) : Bool := c == ' ' || c == '\t' || c == '\r' || c == '\n'

/-- models: scanner.rs:223-228: the loop collecting an identifier: characters and rest. -/
def spanIdent : List Char → List Char × List Char
  | [] => ([], [])
  | c :: cs => if isIdent c then (c :: (spanIdent cs).1, (spanIdent cs).2) else ([], c :: cs)

/-- models: scanner.rs:238-247, 255-264, 288-297: digits with underscores: the digits, how many underscores, the rest. -/
def spanDigits (p : Char → Bool) : List Char → List Char × Nat × List Char
  | [] => ([], 0, [])
  | c :: cs =>
    let r := spanDigits p cs
    if p c then (c :: r.1, r.2.1, r.2.2)
    else if c = '_' then (r.1, r.2.1 + 1, r.2.2)
    else ([], 0, c :: cs)

/-- models: scanner.rs:460-489 -/
def keywords : List (List Char × Token) :=
  [("let".toList, .kLet), ("fn".toList, .kFn), ("return".toList, .kReturn), ("if".toList, .kIf), ("elif".toList, .kElif),
   ("else".toList, .kElse), ("then".toList, .kThen), ("loop".toList, .kLoop), ("while".toList, .kWhile), ("for".toList, .kFor),
   ("in".toList, .kIn), ("is".toList, .kIs), ("not".toList, .kNot), ("break".toList, .kBreak), ("continue".toList, .kContinue),
   ("do".toList, .kDo), ("true".toList, .kTrue), ("false".toList, .kFalse), ("nil".toList, .kNil), ("struct".toList, .kStruct),
   ("exit".toList, .kExit), ("assert".toList, .kAssert), ("module".toList, .kModule), ("self".toList, .kSelf),
   ("native".toList, .kNative), ("and".toList, .logicalAnd), ("or".toList, .logicalOr)]

/-- models: scanner.rs:457-492 `screen_identifier` -/
def screenIdentifier (s : List Char) : Token :=
  match keywords.find? (fun k => k.1 == s) with
  | some k => k.2
  | none => .identifier s

/-- models: scanner.rs:496-503: is there a complex suffix? -/
def isCplx : List Char → Bool
  | c :: _ => c == 'i' || c == 'j'
  | [] => false

/-- models: scanner.rs:494-514 `screen_int`: `rest` and the cursor after the digits; `extra` counts skipped underscores. -/
def screenInt (digits : List Char) (radix extra : Nat) (rest : List Char) (cur : Nat) : List Out × List Char × Nat :=
  let cplx := isCplx rest
  let n := if cplx then 1 else 0
  let len := digits.length + extra + n + (if radix ≠ 10 then 2 else 0)
  (match parseI64 radix digits with
   | some v => [push (cur + n) len (if cplx then .complex v else .int v)]
   | none => [pushErr (cur + n) 0 len .invalidNumericValue], rest.drop n, cur + n)

/-- Result of the string loop: buffer, whether the closing quote was found, newline tokens, rest, cursor. -/
structure StrRes where
  buf : List Char
  closed : Bool
  outs : List Out
  rest : List Char
  cur : Nat

/-- models: scanner.rs:302-344: the string loop. -/
def strLoop (q : Char) : Bool → List Char → List Out → List Char → Nat → StrRes
  | _, buf, outs, [], cur => ⟨buf, false, outs, [], cur⟩
  | esc, buf, outs, c :: cs, cur =>
    let outs := outs ++ nl c cur
    if c = '\'' ∨ c = '"' then
      if esc then strLoop q false (buf ++ [c]) outs cs (cur + 1)
      else if q ≠ c then strLoop q false (buf ++ [c]) outs cs (cur + 1)
      else ⟨buf, true, outs, cs, cur + 1⟩
    else if c = '\\' then
      if esc then strLoop q false (buf ++ ['\\']) outs cs (cur + 1)
      else strLoop q true buf outs cs (cur + 1)
    else if c = '\r' then strLoop q esc buf outs cs (cur + 1)
    else if c = 'n' ∧ esc then strLoop q false (buf ++ ['\n']) outs cs (cur + 1)
    else if c = 'r' ∧ esc then strLoop q false (buf ++ ['\r']) outs cs (cur + 1)
    else if c = 't' ∧ esc then strLoop q false (buf ++ ['\t']) outs cs (cur + 1)
    else strLoop q false (buf ++ ((if esc then ['\\'] else []) ++ [c])) outs cs (cur + 1)

/-- models: scanner.rs:298-345: a string literal after its opening quote. -/
def scanString (q : Char) (rest : List Char) (cur : Nat) : List Out × List Char × Nat :=
  let r := strLoop q false [] [] rest cur
  let e := if r.closed then [] else [pushErrAt r.cur cur 1 .unterminatedString]
  (r.outs ++ e ++ [push r.cur (r.cur - cur + 1) (.string r.buf)], r.rest, r.cur)

/-- models: scanner.rs:387-394: a line comment; `rest` still begins with the second slash. -/
def lineComment : List Char → Nat → List Out × List Char × Nat
  | [], cur => ([], [], cur)
  | c :: cs, cur => if c = '\n' then (nl c cur, cs, cur + 1) else lineComment cs (cur + 1)

/-- models: scanner.rs:397-416: a block comment; `rest` still begins with the opening star. -/
def blockComment (start : Nat) : List Char → Nat → List Out × List Char × Nat
  | [], cur => ([pushErrAt cur start 2 .unterminatedComment], [], cur)
  | ['*'], cur => ([pushErrAt (cur + 1) start 2 .unterminatedComment], [], cur + 1)
  | '*' :: '/' :: cs, cur => ([], cs, cur + 2)
  | '*' :: c :: cs, cur => (nl c (cur + 1) ++ (blockComment start cs (cur + 2)).1, (blockComment start cs (cur + 2)).2)
  | c :: cs, cur => (nl c cur ++ (blockComment start cs (cur + 1)).1, (blockComment start cs (cur + 1)).2)

/-- models: scanner.rs:234-284: a number that begins with `0`. -/
def scanZero (rest : List Char) (cur : Nat) : List Out × List Char × Nat :=
  match rest with
  | 'x' :: cs =>
    let r := spanDigits isHex cs
    screenInt r.1 16 r.2.1 r.2.2 (cur + 1 + (r.1.length + r.2.1))
  | 'b' :: cs =>
    let r := spanDigits isBin cs
    screenInt r.1 2 r.2.1 r.2.2 (cur + 1 + (r.1.length + r.2.1))
  | 'i' :: cs => ([push (cur + 1) 2 (.int 0)], cs, cur + 1)
  | 'j' :: cs => ([push (cur + 1) 2 (.int 0)], cs, cur + 1)
  | c :: cs =>
    if isIdent c then ([pushErr cur 1 2 (.invalidNumericPrefix c)], c :: cs, cur)
    else ([push cur 1 (.int 0)], c :: cs, cur)
  | [] => ([push cur 1 (.int 0)], [], cur)

/-- models: scanner.rs:348-447: operators and punctuation: the token(s) with their widths and the rest; `none`: not an operator.
`..` that is not `...` gives two `Dot` tokens. -/
def scanOp (c : Char) (rest : List Char) : Option (List (Nat × Token) × List Char) :=
  match c, rest with
  | '!', '=' :: r => some ([(2, .notEquals)], r)
  | '!', r => some ([(1, .not)], r)
  | '=', '=' :: r => some ([(2, .doubleEquals)], r)
  | '=', r => some ([(1, .equals)], r)
  | '>', '>' :: '=' :: r => some ([(3, .rightShiftEquals)], r)
  | '>', '>' :: r => some ([(2, .rightShift)], r)
  | '>', '=' :: r => some ([(2, .greaterThanEquals)], r)
  | '>', r => some ([(1, .greaterThan)], r)
  | '<', '<' :: '=' :: r => some ([(3, .leftShiftEquals)], r)
  | '<', '<' :: r => some ([(2, .leftShift)], r)
  | '<', '=' :: r => some ([(2, .lessThanEquals)], r)
  | '<', r => some ([(1, .lessThan)], r)
  | '+', '=' :: r => some ([(2, .plusEquals)], r)
  | '+', r => some ([(1, .plus)], r)
  | '-', '=' :: r => some ([(2, .minusEquals)], r)
  | '-', '>' :: r => some ([(2, .arrow)], r)
  | '-', r => some ([(1, .minus)], r)
  | '*', '=' :: r => some ([(2, .mulEquals)], r)
  | '*', '*' :: '=' :: r => some ([(3, .powEquals)], r)
  | '*', '*' :: r => some ([(2, .pow)], r)
  | '*', r => some ([(1, .mul)], r)
  | '/', '=' :: r => some ([(2, .divEquals)], r)
  | '/', r => some ([(1, .div)], r)
  | '|', '=' :: r => some ([(2, .orEquals)], r)
  | '|', r => some ([(1, .bitwiseOr)], r)
  | '&', '=' :: r => some ([(2, .andEquals)], r)
  | '&', r => some ([(1, .bitwiseAnd)], r)
  | '^', '=' :: r => some ([(2, .xorEquals)], r)
  | '^', r => some ([(1, .bitwiseXor)], r)
  | '%', '=' :: r => some ([(2, .modEquals)], r)
  | '%', r => some ([(1, .mod)], r)
  | '.', '=' :: r => some ([(2, .dotEquals)], r)
  | '.', '.' :: '.' :: r => some ([(3, .ellipsis)], r)
  | '.', '.' :: r => some ([(1, .dot), (1, .dot)], r)
  | '.', r => some ([(1, .dot)], r)
  | '(', r => some ([(1, .openParen)], r)
  | ')', r => some ([(1, .closeParen)], r)
  | '[', r => some ([(1, .openSquare)], r)
  | ']', r => some ([(1, .closeSquare)], r)
  | '{', r => some ([(1, .openBrace)], r)
  | '}', r => some ([(1, .closeBrace)], r)
  | ',', r => some ([(1, .comma)], r)
  | ':', r => some ([(1, .colon)], r)
  | '_', r => some ([(1, .underscore)], r)
  | ';', r => some ([(1, .semicolon)], r)
  | '@', r => some ([(1, .at)], r)
  | '?', r => some ([(1, .questionMark)], r)
  | _, _ => none

/-- The operator tokens at their positions: the first begins at `start`. -/
def place (start : Nat) : List (Nat × Token) → List Out
  | [] => []
  | (w, t) :: ts => push (start + w) w t :: place (start + w) ts

/-- models: scanner.rs:212-453: one iteration of the main loop for character `c`; `cur` is the cursor after it. -/
def step (c : Char) (rest : List Char) (cur : Nat) : List Out × List Char × Nat :=
  if isBlank c then (nl c (cur - 1), rest, cur)
  else if isLetter c then
    let r := spanIdent rest
    ([push (cur + r.1.length) (r.1.length + 1) (screenIdentifier (c :: r.1))], r.2, cur + r.1.length)
  else if c = '0' then scanZero rest cur
  else if isDigit c then
    let r := spanDigits isDigit rest
    screenInt (c :: r.1) 10 r.2.1 r.2.2 (cur + (r.1.length + r.2.1))
  else if c = '\'' ∨ c = '"' then scanString c rest cur
  else if c = '/' ∧ rest.head? = some '/' then lineComment rest cur
  else if c = '/' ∧ rest.head? = some '*' then blockComment cur rest cur
  else match scanOp c rest with
    | some (ts, r) => (place (cur - 1) ts, r, cur + (rest.length - r.length))
    | none => ([pushErr cur 0 1 (.invalidCharacter c)], rest, cur)

/-! ## The loop terminates -/

theorem spanIdent_split : ∀ cs, (spanIdent cs).1 ++ (spanIdent cs).2 = cs
  | [] => rfl
  | c :: cs => by
    rw [spanIdent]; split
    · simp [spanIdent_split cs]
    · rfl

theorem spanDigits_length (p) : ∀ cs, (spanDigits p cs).1.length + (spanDigits p cs).2.1 + (spanDigits p cs).2.2.length = cs.length
  | [] => rfl
  | c :: cs => by
    have := spanDigits_length p cs
    simp only [spanDigits]; split
    · simp; omega
    · split
      · simp; omega
      · simp

theorem screenInt_length (ds radix extra rest cur) :
    (screenInt ds radix extra rest cur).2.2 + (screenInt ds radix extra rest cur).2.1.length = cur + rest.length := by
  unfold screenInt
  rcases rest with _ | ⟨x, xs⟩
  · simp [isCplx]
  · simp only []
    split <;> simp; omega

theorem strLoop_length (q) : ∀ (cs : List Char) (esc : Bool) (buf : List Char) (outs : List Out) (cur : Nat),
    (strLoop q esc buf outs cs cur).cur + (strLoop q esc buf outs cs cur).rest.length = cur + cs.length
  | [], esc, buf, outs, cur => by simp [strLoop]
  | c :: cs, esc, buf, outs, cur => by
    rw [strLoop]
    repeat' split
    all_goals first
      | (rw [strLoop_length q cs]; simp; omega)
      | (simp; omega)

theorem lineComment_length : ∀ (cs : List Char) (cur : Nat),
    (lineComment cs cur).2.2 + (lineComment cs cur).2.1.length = cur + cs.length
  | [], cur => by simp [lineComment]
  | c :: cs, cur => by
    rw [lineComment]; split
    · simp; omega
    · rw [lineComment_length cs]; simp; omega

theorem blockComment_length (start) : ∀ (cs : List Char) (cur : Nat),
    (blockComment start cs cur).2.2 + (blockComment start cs cur).2.1.length = cur + cs.length := by
  intro cs cur
  fun_induction blockComment start cs cur <;> simp_all <;> omega

theorem scanOp_length (c rest ts r) (h : scanOp c rest = some (ts, r)) : r.length ≤ rest.length := by
  unfold scanOp at h
  split at h <;> cases h <;> simp <;> omega

theorem scanZero_length (rest cur) : (scanZero rest cur).2.2 + (scanZero rest cur).2.1.length = cur + rest.length := by
  unfold scanZero
  split
  · rename_i cs; have := spanDigits_length isHex cs; rw [screenInt_length]; simp; omega
  · rename_i cs; have := spanDigits_length isBin cs; rw [screenInt_length]; simp; omega
  · simp; omega
  · simp; omega
  · split <;> simp
  · simp

/-- The cursor counts the consumed characters, and the rest does not grow. -/
theorem step_length (c rest cur) : (step c rest cur).2.2 + (step c rest cur).2.1.length = cur + rest.length := by
  unfold step
  split; · simp
  split
  · have := congrArg List.length (spanIdent_split rest); simp at this; simp; omega
  split; · exact scanZero_length rest cur
  split
  · have := spanDigits_length isDigit rest; rw [screenInt_length]; omega
  split
  · exact strLoop_length ..
  split; · exact lineComment_length rest cur
  split; · exact blockComment_length cur rest cur
  split
  · rename_i h; have := scanOp_length _ _ _ _ h; simp; omega
  · simp

theorem screenInt_cur (ds radix extra rest cur) : cur ≤ (screenInt ds radix extra rest cur).2.2 := by
  unfold screenInt; simp

theorem strLoop_cur (q) : ∀ (cs : List Char) (esc : Bool) (buf : List Char) (outs : List Out) (cur : Nat),
    cur ≤ (strLoop q esc buf outs cs cur).cur
  | [], esc, buf, outs, cur => by simp [strLoop]
  | c :: cs, esc, buf, outs, cur => by
    rw [strLoop]
    repeat' split
    all_goals first
      | (refine le_trans ?_ (strLoop_cur q cs _ _ _ _); omega)
      | simp

theorem lineComment_cur : ∀ (cs : List Char) (cur : Nat), cur ≤ (lineComment cs cur).2.2
  | [], cur => by simp [lineComment]
  | c :: cs, cur => by
    rw [lineComment]; split
    · simp
    · exact le_trans (by omega) (lineComment_cur cs _)

theorem blockComment_cur (start) : ∀ (cs : List Char) (cur : Nat), cur ≤ (blockComment start cs cur).2.2 := by
  intro cs cur
  fun_induction blockComment start cs cur <;> simp_all <;> omega

theorem scanZero_cur (rest cur) : cur ≤ (scanZero rest cur).2.2 := by
  unfold scanZero
  split
  · exact le_trans (by omega) (screenInt_cur ..)
  · exact le_trans (by omega) (screenInt_cur ..)
  · simp
  · simp
  · split <;> simp
  · simp

theorem step_cur (c rest cur) : cur ≤ (step c rest cur).2.2 := by
  unfold step
  split; · simp
  split; · simp
  split; · exact scanZero_cur rest cur
  split; · exact le_trans (by omega) (screenInt_cur ..)
  split; · exact strLoop_cur ..
  split; · exact lineComment_cur rest cur
  split; · exact blockComment_cur cur rest cur
  split
  · simp
  · simp

theorem step_rest_le (c rest cur) : (step c rest cur).2.1.length ≤ rest.length := by
  have := step_length c rest cur; have := step_cur c rest cur; omega

/-- models: scanner.rs:209-455 `scan`: the main loop from a cursor. -/
def scanFrom (text : List Char) (cur : Nat) : List Out :=
  match text with
  | [] => []
  | c :: cs =>
    (step c cs (cur + 1)).1 ++ scanFrom (step c cs (cur + 1)).2.1 (step c cs (cur + 1)).2.2
termination_by text.length
decreasing_by have := step_rest_le c cs (cur + 1); simp; omega

/-- models: scanner.rs:14-28 `scan` -/
def scan (text : List Char) : List Out := scanFrom text 0

/-- The token and error vectors of a scan. -/
def tokens (os : List Out) : List (Loc × Token) := os.filterMap (fun o => match o with | .tok l t => some (l, t) | _ => none)
def errors (os : List Out) : List (Loc × ScanErr) := os.filterMap (fun o => match o with | .err l e => some (l, e) | _ => none)

end Cordy.Scan
