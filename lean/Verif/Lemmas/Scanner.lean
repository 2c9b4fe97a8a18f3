import Verif.Model.Scanner
import Verif.Lemmas.Strings
/-! The lexical grammar as a specification, and the lemmas that tie every step of the scanner to it. -/
namespace Cordy.Scan
open Cordy.Str

/-! ## Specification: the lexical grammar -/

/-- Operators and punctuation. -/
def operators : List (List Char × Token) :=
  [("!=".toList, .notEquals), ("!".toList, .not), ("==".toList, .doubleEquals), ("=".toList, .equals),
   (">>=".toList, .rightShiftEquals), (">>".toList, .rightShift), (">=".toList, .greaterThanEquals), (">".toList, .greaterThan),
   ("<<=".toList, .leftShiftEquals), ("<<".toList, .leftShift), ("<=".toList, .lessThanEquals), ("<".toList, .lessThan),
   ("+=".toList, .plusEquals), ("+".toList, .plus), ("-=".toList, .minusEquals), ("->".toList, .arrow), ("-".toList, .minus),
   ("*=".toList, .mulEquals), ("**=".toList, .powEquals), ("**".toList, .pow), ("*".toList, .mul), ("/=".toList, .divEquals),
   ("/".toList, .div), ("|=".toList, .orEquals), ("|".toList, .bitwiseOr), ("&=".toList, .andEquals), ("&".toList, .bitwiseAnd),
   ("^=".toList, .xorEquals), ("^".toList, .bitwiseXor), ("%=".toList, .modEquals), ("%".toList, .mod), (".=".toList, .dotEquals),
   ("...".toList, .ellipsis), (".".toList, .dot), ("(".toList, .openParen), (")".toList, .closeParen), ("[".toList, .openSquare),
   ("]".toList, .closeSquare), ("{".toList, .openBrace), ("}".toList, .closeBrace), (",".toList, .comma), (":".toList, .colon),
   ("_".toList, .underscore), (";".toList, .semicolon), ("@".toList, .at), ("?".toList, .questionMark)]

/-- The digits (with underscores dropped) of `body` denote `v` in this radix, and `v` fits an `i64`. -/
def Denotes (radix : Nat) (body : List Char) (v : Int) : Prop :=
  ∃ ds : List Nat, (body.filter (· ≠ '_')).map (toDigit radix) = ds.map some ∧ ds ≠ [] ∧
    v = (ds.foldl (fun acc d => acc * radix + d) 0 : Nat) ∧ v < 2 ^ 63

/-- The contents of a string literal in quotes `q`, and the characters they denote. -/
inductive Body (q : Char) : List Char → List Char → Prop
  | nil : Body q [] []
  /-- any character but the quote, the backslash and carriage return stands for itself -/
  | plain {c b v} : c ≠ q → c ≠ '\\' → c ≠ '\r' → Body q b v → Body q (c :: b) (c :: v)
  /-- a carriage return in the source is dropped -/
  | cr {b v} : Body q b v → Body q ('\r' :: b) v
  | escN {b v} : Body q b v → Body q ('\\' :: 'n' :: b) ('\n' :: v)
  | escR {b v} : Body q b v → Body q ('\\' :: 'r' :: b) ('\r' :: v)
  | escT {b v} : Body q b v → Body q ('\\' :: 't' :: b) ('\t' :: v)
  /-- backslash and both quotes can be escaped -/
  | escSelf {c b v} : c = '\\' ∨ c = '\'' ∨ c = '"' → Body q b v → Body q ('\\' :: c :: b) (c :: v)
  /-- a backslash before any other character stands for itself -/
  | escOther {c b v} : c ∉ ['n', 'r', 't', '\\', '\'', '"', '\r'] → Body q b v → Body q ('\\' :: c :: b) ('\\' :: c :: v)
  /-- a carriage return after a backslash is dropped -/
  | escCr {b v} : Body q ('\\' :: b) v → Body q ('\\' :: '\r' :: b) v

/-- The spelling of a token. -/
inductive Spells : List Char → Token → Prop
  | keyword {s t} : (s, t) ∈ keywords → Spells s t
  | op {s t} : (s, t) ∈ operators → Spells s t
  | ident {c cs} : isLetter c = true → (∀ d ∈ cs, isIdent d = true) → (∀ t, (c :: cs, t) ∉ keywords) → Spells (c :: cs) (.identifier (c :: cs))
  | zero : Spells ['0'] (.int 0)
  | zeroI : Spells ['0', 'i'] (.int 0)
  | zeroJ : Spells ['0', 'j'] (.int 0)
  | dec {b v} : Denotes 10 b v → Spells b (.int v)
  | hex {b v} : Denotes 16 b v → Spells ('0' :: 'x' :: b) (.int v)
  | bin {b v} : Denotes 2 b v → Spells ('0' :: 'b' :: b) (.int v)
  | cplx {s v x} : Spells s (.int v) → x = 'i' ∨ x = 'j' → Spells (s ++ [x]) (.complex v)
  | str {q b v} : q = '\'' ∨ q = '"' → Body q b v → Spells (q :: (b ++ [q])) (.string v)

/-- A piece of source text: a blank, a comment, a token, or something erroneous. -/
inductive Seg where
  | blank (c : Char)
  | comment (s : List Char)
  | tok (s : List Char) (t : Token)
  | openComment (s : List Char)
  | openString (s : List Char) (v : List Char)
  | bad (s : List Char)

def Seg.text : Seg → List Char
  | .blank c => [c]
  | .comment s => s
  | .tok s _ => s
  | .openComment s => s
  | .openString s _ => s
  | .bad s => s

/-- The token a piece gives (an unterminated string still gives one). -/
def Seg.token : Seg → Option Token
  | .tok _ t => some t
  | .openString _ v => some (.string v)
  | _ => none

/-- The erroneous pieces. -/
def Seg.isBad : Seg → Bool
  | .blank _ | .comment _ | .tok _ _ => false
  | _ => true

def Seg.Valid : Seg → Prop
  | .blank c => c ∈ [' ', '\t', '\r', '\n']
  | .comment s => (∃ b, s = '/' :: '/' :: b ∧ '\n' ∉ b.dropLast) ∨ (∃ b, s = '/' :: '*' :: (b ++ ['/']))
  | .tok s t => Spells s t
  | .openComment s => ∃ b, s = '/' :: '*' :: b
  | .openString s _ => ∃ b, s = '\'' :: b ∨ s = '"' :: b
  | .bad s => s ≠ []

/-- The tokens of the pieces, with their places, when the first piece begins at `pos`. -/
def segTokens : Nat → List Seg → List (Loc × Token)
  | _, [] => []
  | pos, s :: ss => (match s.token with | some t => [(⟨pos, s.text.length⟩, t)] | none => []) ++ segTokens (pos + s.text.length) ss

/-- The places of the line feeds. -/
def newlines : Nat → List Char → List (Loc × Token)
  | _, [] => []
  | pos, c :: cs => (if c = '\n' then [(⟨pos, 1⟩, Token.newLine)] else []) ++ newlines (pos + 1) cs

def texts (segs : List Seg) : List Char := segs.flatMap Seg.text

/-- The tokens other than line ends; the line ends. -/
def proper (os : List Out) : List (Loc × Token) := (tokens os).filter (fun p => p.2 ≠ .newLine)
def lineEnds (os : List Out) : List (Loc × Token) := (tokens os).filter (fun p => p.2 = .newLine)

/-! ## Helpers -/

@[simp] theorem proper_nil : proper [] = [] := rfl
@[simp] theorem lineEnds_nil : lineEnds [] = [] := rfl
@[simp] theorem errors_nil : errors [] = [] := rfl
theorem proper_append (a b) : proper (a ++ b) = proper a ++ proper b := by simp [proper, tokens]
theorem lineEnds_append (a b) : lineEnds (a ++ b) = lineEnds a ++ lineEnds b := by simp [lineEnds, tokens]
theorem errors_append (a b) : errors (a ++ b) = errors a ++ errors b := by simp [errors]
theorem newlines_append : ∀ (a b : List Char) (pos), newlines pos (a ++ b) = newlines pos a ++ newlines (pos + a.length) b
  | [], b, pos => rfl
  | c :: a, b, pos => by
    simp only [List.cons_append, newlines, newlines_append a b, List.length_cons, List.append_assoc]
    rw [show pos + 1 + a.length = pos + (a.length + 1) by omega]
theorem segTokens_append : ∀ (a b : List Seg) (pos), segTokens pos (a ++ b) = segTokens pos a ++ segTokens (pos + (texts a).length) b
  | [], b, pos => rfl
  | s :: a, b, pos => by
    simp only [List.cons_append, segTokens, segTokens_append a b, texts, List.flatMap_cons, List.length_append, List.append_assoc]
    rw [Nat.add_assoc]
theorem newlines_none (pos : Nat) (s : List Char) (h : '\n' ∉ s) : newlines pos s = [] := by
  induction s generalizing pos with
  | nil => rfl
  | cons c cs ih =>
    simp at h
    rw [newlines, if_neg (fun e => h.1 e.symm), ih _ h.2]; rfl
theorem nl_tokens (c : Char) (cur : Nat) : proper (nl c cur) = [] ∧ lineEnds (nl c cur) = newlines cur [c] ∧ errors (nl c cur) = [] := by
  unfold nl
  by_cases h : c = '\n'
  · rw [if_pos h]; simp [proper, lineEnds, errors, tokens, push, newlines, h]
  · rw [if_neg h]; simp [newlines, h]

/-- What one step of the scanner does, in terms of the grammar. -/
structure Step (c : Char) (cs : List Char) (cur : Nat) (o : List Out) (r : List Char) (segs : List Seg) : Prop where
  split : c :: cs = texts segs ++ r
  valid : ∀ s ∈ segs, s.Valid
  proper : proper o = segTokens cur segs
  lineEnds : lineEnds o = newlines cur (texts segs)
  errors : errors o = [] ↔ ∀ s ∈ segs, s.isBad = false

theorem step_tok {c cs cur o r} (s : List Char) (t : Token) (hs : c :: cs = s ++ r) (hv : Spells s t) (ht : t ≠ .newLine)
    (hn : '\n' ∉ s) (ho : o = [.tok ⟨cur, s.length⟩ t]) : ∃ segs, Step c cs cur o r segs := by
  refine ⟨[.tok s t], by simpa [texts, Seg.text] using hs, by simpa [Seg.Valid] using hv, ?_, ?_, ?_⟩
  · subst ho; simp [proper, tokens, segTokens, Seg.token, Seg.text, ht]
  · subst ho; rw [newlines_none]; · simp [Scan.lineEnds, tokens, ht]
    simpa [texts, Seg.text] using hn
  · subst ho; simp [Scan.errors, Seg.isBad]

theorem step_bad {c cs cur o r} (s : List Char) (l : Loc) (e : ScanErr) (hs : c :: cs = s ++ r) (hne : s ≠ [])
    (hn : '\n' ∉ s) (ho : o = [.err l e]) : ∃ segs, Step c cs cur o r segs := by
  refine ⟨[.bad s], by simpa [texts, Seg.text] using hs, by simpa [Seg.Valid] using hne, ?_, ?_, ?_⟩
  · subst ho; simp [Scan.proper, tokens, segTokens, Seg.token]
  · subst ho; rw [newlines_none]; · simp [Scan.lineEnds, tokens]
    simpa [texts, Seg.text] using hn
  · subst ho; simp [Scan.errors, Seg.isBad]

/-! ## Identifiers and numbers -/

theorem spanIdent_mem : ∀ cs, ∀ d ∈ (spanIdent cs).1, isIdent d = true
  | [], d, h => by simp [spanIdent] at h
  | c :: cs, d, h => by
    rw [spanIdent] at h
    split at h
    · rename_i hc
      rcases List.mem_cons.1 h with rfl | h
      · exact hc
      · exact spanIdent_mem cs d h
    · simp at h

theorem not_nl_ident (c : Char) (h : isIdent c = true) : c ≠ '\n' := by rintro rfl; revert h; decide
theorem isIdent_of_letter (c : Char) (h : isLetter c = true) : isIdent c = true := by simp [isIdent, h]

theorem screenIdentifier_spells (c : Char) (cs : List Char) (hc : isLetter c = true) (h : ∀ d ∈ cs, isIdent d = true) :
    Spells (c :: cs) (screenIdentifier (c :: cs)) ∧ screenIdentifier (c :: cs) ≠ .newLine := by
  unfold screenIdentifier
  split
  · rename_i k hk
    have h1 := List.mem_of_find?_eq_some hk
    have h2 := List.find?_some hk
    simp only [beq_iff_eq] at h2
    rw [← h2]
    refine ⟨.keyword (by simpa using h1), ?_⟩
    have : ∀ k ∈ keywords, k.2 ≠ Token.newLine := by decide
    exact this k h1
  · rename_i hk
    refine ⟨.ident hc h (fun t ht => ?_), by simp⟩
    have := List.find?_eq_none.1 hk _ ht
    simp at this

/-- `spanDigits` returns the longest run of digits and underscores. -/
theorem spanDigits_spec (p : Char → Bool) (hp : p '_' = false) : ∀ cs, ∃ body, cs = body ++ (spanDigits p cs).2.2 ∧
    (∀ c ∈ body, p c = true ∨ c = '_') ∧ (spanDigits p cs).1 = body.filter (· ≠ '_') ∧
    body.length = (spanDigits p cs).1.length + (spanDigits p cs).2.1 ∧
    (∀ c, (spanDigits p cs).2.2.head? = some c → p c = false ∧ c ≠ '_')
  | [] => ⟨[], by simp [spanDigits]⟩
  | c :: cs => by
    obtain ⟨body, h1, h2, h3, h4, h5⟩ := spanDigits_spec p hp cs
    simp only [spanDigits]
    by_cases hc : p c = true
    · have hne : c ≠ '_' := by rintro rfl; simp [hp] at hc
      rw [if_pos hc]
      exact ⟨c :: body, by simpa using h1, by simpa [hc] using h2, by simp [hne, h3], by simp; omega, h5⟩
    · rw [if_neg hc]
      by_cases hu : c = '_'
      · rw [if_pos hu]
        exact ⟨c :: body, by simpa using h1, by simpa [hu] using h2, by simp [hu, h3], by simp; omega, h5⟩
      · rw [if_neg hu]
        exact ⟨[], by simp, by simp, by simp, by simp, by simp; exact ⟨by simpa using hc, hu⟩⟩

theorem checked_some (i : Int) (h : -(2 ^ 63) ≤ i) (h' : i < 2 ^ 63) : checked i = some i := by rw [checked, if_pos ⟨h, h'⟩]
theorem checked_none (i : Int) (h : 2 ^ 63 ≤ i) : checked i = none := by rw [checked, if_neg (by omega)]

theorem parseLoop_fail_mul {b : Nat} {neg : Bool} {acc : Int} {c : Char} {cs : List Char} (h1 : checked (acc * b) = none) :
    parseLoop b neg acc (c :: cs) = none := by
  rw [parseLoop, h1]
theorem parseLoop_fail_add {b : Nat} {neg : Bool} {acc m : Int} {c : Char} {cs : List Char} {d : Nat}
    (h1 : checked (acc * b) = some m) (h0 : toDigit b c = some d) (h2 : checked (if neg then m - d else m + d) = none) :
    parseLoop b neg acc (c :: cs) = none := by
  rw [parseLoop, h1, h0]; simp only []; rw [h2]

/-- Reading digits: exact, or overflow. -/
theorem parseLoop_digits (b : Nat) (hb : 1 ≤ b) : ∀ (cs : List Char) (ds : List Nat) (acc : Nat), cs.map (toDigit b) = ds.map some →
    (acc : Int) < 2 ^ 63 →
    ((numFrom b acc ds : Int) < 2 ^ 63 → parseLoop b false acc cs = some (numFrom b acc ds : Int)) ∧
    (2 ^ 63 ≤ (numFrom b acc ds : Int) → parseLoop b false acc cs = none) := by
  intro cs
  induction cs with
  | nil =>
    intro ds acc h hacc
    cases ds with
    | nil => exact ⟨fun _ => rfl, fun h => by simp [numFrom] at h; omega⟩
    | cons _ _ => simp at h
  | cons c cs ih =>
    intro ds acc h hacc
    cases ds with
    | nil => simp at h
    | cons d ds =>
      simp only [List.map_cons, List.cons.injEq] at h
      obtain ⟨hc, hcs⟩ := h
      have hge := numFrom_ge b hb ds (acc * b + d)
      have he : numFrom b acc (d :: ds) = numFrom b (acc * b + d) ds := rfl
      rw [he]
      have hpos : (0 : Int) ≤ ((acc * b : Nat) : Int) := by positivity
      have hcast : ((acc * b : Nat) : Int) = (acc : Int) * b := by push_cast; rfl
      by_cases h1 : (acc : Int) * b < 2 ^ 63
      · have e1 := checked_some ((acc : Int) * b) (by omega) h1
        by_cases h2 : (acc : Int) * b + d < 2 ^ 63
        · have e2 := checked_some ((acc : Int) * b + d) (by omega) h2
          have hacc' : ((acc * b + d : Nat) : Int) < 2 ^ 63 := by push_cast; exact h2
          have e2' : checked (if false = true then (acc : Int) * b - d else (acc : Int) * b + d) = some (((acc * b + d : Nat)) : Int) := by
            rw [if_neg Bool.false_ne_true, e2]; push_cast; rfl
          rw [parseLoop_step e1 hc e2']
          exact ih ds (acc * b + d) hcs hacc'
        · have hbig : (2 : Int) ^ 63 ≤ ((acc * b + d : Nat) : Int) := by push_cast; omega
          refine ⟨fun h => by omega, fun _ => ?_⟩
          have e2 := checked_none ((acc : Int) * b + d) (by omega)
          exact parseLoop_fail_add (neg := false) e1 hc (by rw [if_neg Bool.false_ne_true]; exact e2)
      · have e1 := checked_none ((acc : Int) * b) (by omega)
        have hbig : (2 : Int) ^ 63 ≤ ((acc * b + d : Nat) : Int) := by push_cast; omega
        exact ⟨fun h => by omega, fun _ => parseLoop_fail_mul e1⟩

theorem parseI64_digits (b : Nat) (hb : 1 ≤ b) (cs : List Char) (ds : List Nat) (h : cs.map (toDigit b) = ds.map some) (hne : ds ≠ []) :
    ((numFrom b 0 ds : Int) < 2 ^ 63 → parseI64 b cs = some (numFrom b 0 ds : Int)) ∧
    (2 ^ 63 ≤ (numFrom b 0 ds : Int) → parseI64 b cs = none) := by
  have hp : parseI64 b cs = parseLoop b false 0 cs := by
    cases cs with
    | nil => cases ds <;> simp_all
    | cons c cs =>
      cases ds with
      | nil => simp at h
      | cons d ds =>
        simp only [List.map_cons, List.cons.injEq] at h
        have h1 : c ≠ '+' := by rintro rfl; simp [toDigit] at h
        have h2 : c ≠ '-' := by rintro rfl; simp [toDigit] at h
        unfold parseI64; split <;> simp_all
  rw [hp]
  exact parseLoop_digits b hb cs ds 0 h (by norm_num)

theorem isDigit_iff (c : Char) : isDigit c = true ↔ 48 ≤ c.toNat ∧ c.toNat ≤ 57 := by
  simp [isDigit, Char.le_def, UInt32.le_iff_toNat_le]

theorem toDigit_of (b : Nat) (c : Char) (h : (b = 10 ∧ isDigit c = true) ∨ (b = 16 ∧ isHex c = true) ∨ (b = 2 ∧ isBin c = true)) :
    ∃ d, toDigit b c = some d := by
  have hd : (48 ≤ c.toNat ∧ c.toNat ≤ 57) ∧ 10 ≤ b → ∃ d, toDigit b c = some d := by
    rintro ⟨h, hb⟩
    refine ⟨c.toNat - 48, ?_⟩
    simp only [toDigit, if_pos h]; rw [if_pos (by omega)]
  rcases h with ⟨rfl, h⟩ | ⟨rfl, h⟩ | ⟨rfl, h⟩
  · exact hd ⟨(isDigit_iff c).1 h, by omega⟩
  · simp only [isHex, Bool.or_eq_true, Bool.and_eq_true, decide_eq_true_eq] at h
    rcases h with (h | h) | h
    · exact hd ⟨(isDigit_iff c).1 h, by omega⟩
    · have h' : 65 ≤ c.toNat ∧ c.toNat ≤ 70 := by simpa [Char.le_def, UInt32.le_iff_toNat_le] using h
      refine ⟨c.toNat - 55, ?_⟩
      simp only [toDigit]
      rw [if_neg (by omega), if_neg (by omega), if_pos (by omega)]; simp only []; rw [if_pos (by omega)]
    · have h' : 97 ≤ c.toNat ∧ c.toNat ≤ 102 := by simpa [Char.le_def, UInt32.le_iff_toNat_le] using h
      refine ⟨c.toNat - 87, ?_⟩
      simp only [toDigit]
      rw [if_neg (by omega), if_pos (by omega)]; simp only []; rw [if_pos (by omega)]
  · simp [isBin] at h
    rcases h with rfl | rfl
    · exact ⟨0, by decide⟩
    · exact ⟨1, by decide⟩

theorem digits_list (b : Nat) (cs : List Char) (h : ∀ c ∈ cs, ∃ d, toDigit b c = some d) :
    ∃ ds : List Nat, cs.map (toDigit b) = ds.map some := by
  induction cs with
  | nil => exact ⟨[], rfl⟩
  | cons c cs ih =>
    obtain ⟨d, hd⟩ := h c (by simp)
    obtain ⟨ds, hds⟩ := ih (fun c hc => h c (by simp [hc]))
    exact ⟨d :: ds, by simp [hd, hds]⟩

/-- The digits of a body parse to a number exactly when they denote one. -/
theorem parse_denotes (b : Nat) (hb : b = 10 ∨ b = 16 ∨ b = 2) (body : List Char)
    (h : ∀ c ∈ body.filter (· ≠ '_'), ∃ d, toDigit b c = some d) :
    match parseI64 b (body.filter (· ≠ '_')) with
    | some v => Denotes b body v
    | none => ∀ v, ¬ Denotes b body v := by
  obtain ⟨ds, hds⟩ := digits_list b _ h
  by_cases hne : ds = []
  · subst hne
    have : body.filter (· ≠ '_') = [] := by simpa using hds
    rw [this]
    show ∀ v, ¬ Denotes b body v
    rintro v ⟨ds, h1, h2, _⟩
    rw [this] at h1
    cases ds with
    | nil => exact h2 rfl
    | cons _ _ => simp at h1
  · obtain ⟨h1, h2⟩ := parseI64_digits b (by omega) _ ds hds hne
    by_cases hlt : (numFrom b 0 ds : Int) < 2 ^ 63
    · rw [h1 hlt]
      exact ⟨ds, hds, hne, rfl, hlt⟩
    · rw [h2 (by omega)]
      rintro v ⟨ds', h1', _, hv, hlt'⟩
      rw [hds] at h1'
      have : ds = ds' := List.map_injective_iff.2 (Option.some_injective _) h1'
      subst this
      rw [hv] at hlt'
      exact hlt hlt'

theorem isCplx_iff (rest : List Char) : isCplx rest = true ↔ ∃ x r, rest = x :: r ∧ (x = 'i' ∨ x = 'j') := by
  cases rest with
  | nil => simp [isCplx]
  | cons x r => simp [isCplx]

/-- A whole numeric literal: `pre` is the prefix, `body` digits and underscores. -/
theorem screenInt_step {c cs cur} (pre body rest : List Char) (radix extra : Nat) (k : Nat)
    (hr : radix = 10 ∧ pre = [] ∨ radix = 16 ∧ pre = ['0', 'x'] ∨ radix = 2 ∧ pre = ['0', 'b'])
    (hs : c :: cs = pre ++ body ++ rest) (hpb : pre ++ body ≠ [])
    (hd : ∀ d ∈ body.filter (· ≠ '_'), ∃ x, toDigit radix d = some x) (hnl : '\n' ∉ body)
    (hl : body.length = (body.filter (· ≠ '_')).length + extra) (hk : k = cur + pre.length + body.length) :
    ∃ segs, Step c cs cur (screenInt (body.filter (· ≠ '_')) radix extra rest k).1
      (screenInt (body.filter (· ≠ '_')) radix extra rest k).2.1 segs := by
  have hpd := parse_denotes radix (by omega) body hd
  have hplen : pre.length = (if radix ≠ 10 then 2 else 0) := by
    rcases hr with ⟨rfl, rfl⟩ | ⟨rfl, rfl⟩ | ⟨rfl, rfl⟩ <;> rfl
  have hnlp : '\n' ∉ pre := by rcases hr with ⟨_, rfl⟩ | ⟨_, rfl⟩ | ⟨_, rfl⟩ <;> decide
  have hne : pre ++ body ++ rest ≠ [] := by rw [← hs]; simp
  have hspell : ∀ v, Denotes radix body v → Spells (pre ++ body) (.int v) := by
    intro v hv
    rcases hr with ⟨rfl, rfl⟩ | ⟨rfl, rfl⟩ | ⟨rfl, rfl⟩
    · exact .dec hv
    · exact .hex hv
    · exact .bin hv
  unfold screenInt
  by_cases hc : isCplx rest = true
  · obtain ⟨x, r, rfl, hx⟩ := (isCplx_iff rest).1 hc
    have hxn : x ≠ '\n' := by rcases hx with rfl | rfl <;> decide
    have hsplit : c :: cs = (pre ++ body ++ [x]) ++ r := by rw [hs]; simp
    have hnn : '\n' ∉ pre ++ body ++ [x] := by simp [hnlp, hnl]; exact fun h => hxn h.symm
    simp only [hc, if_true]
    cases hp : parseI64 radix (body.filter (· ≠ '_')) with
    | some v =>
      rw [hp] at hpd
      refine step_tok _ (.complex v) hsplit (.cplx (hspell v hpd) hx) (by simp) hnn ?_
      simp only [push, List.length_append, List.length_cons, List.length_nil]
      congr 2
      congr 1 <;> omega
    | none =>
      exact step_bad _ _ _ hsplit (by simp) hnn rfl
  · have hc : isCplx rest = false := by simpa using hc
    have hnn : '\n' ∉ pre ++ body := by simp [hnlp, hnl]
    simp only [hc, Bool.false_eq_true, if_false, List.drop_zero]
    cases hp : parseI64 radix (body.filter (· ≠ '_')) with
    | some v =>
      rw [hp] at hpd
      refine step_tok _ (.int v) hs (hspell v hpd) (by simp) hnn ?_
      simp only [push, List.length_append]
      congr 2
      congr 1 <;> omega
    | none =>
      exact step_bad (pre ++ body) _ _ hs hpb hnn rfl

end Cordy.Scan
