import Verif.Lemmas.ScannerStep
import Verif.Props.Strings
/-!
# C29 scanning, C30 integer literals, C31 string literals, C32 comments

The lexical grammar the theorems refer to (`Spells`, `Body`, `Denotes`, `Seg`) is at the head of `Lemmas/Scanner.lean`.
-/
namespace Cordy.Scan
open Cordy.Str

theorem scanFrom_spec (text : List Char) (cur : Nat) : ∃ segs, text = texts segs ∧ (∀ s ∈ segs, s.Valid) ∧
    proper (scanFrom text cur) = segTokens cur segs ∧ lineEnds (scanFrom text cur) = newlines cur text ∧
    (errors (scanFrom text cur) = [] ↔ ∀ s ∈ segs, s.isBad = false) := by
  induction hn : text.length using Nat.strongRecOn generalizing text cur with
  | ind n ih =>
    rw [scanFrom.eq_def]
    cases text with
    | nil => exact ⟨[], rfl, by simp, by simp [segTokens], by simp [newlines], by simp⟩
    | cons c cs =>
      obtain ⟨segs, hst⟩ := step_spec c cs cur
      have hle := step_rest_le c cs (cur + 1)
      have hlen := step_length c cs (cur + 1)
      obtain ⟨segs', h1, h2, h3, h4, h5⟩ := ih _ (by rw [← hn]; simp; omega) (step c cs (cur + 1)).2.1 (step c cs (cur + 1)).2.2 rfl
      have hk : (step c cs (cur + 1)).2.2 = cur + (texts segs).length := by
        have := congrArg List.length hst.split
        simp at this; omega
      refine ⟨segs ++ segs', ?_, ?_, ?_, ?_, ?_⟩
      · rw [hst.split]; conv_lhs => rw [h1]
        simp [texts]
      · intro s hs
        rcases List.mem_append.1 hs with hs | hs
        · exact hst.valid s hs
        · exact h2 s hs
      · simp only []
        rw [proper_append, hst.proper, h3, segTokens_append, hk]
      · simp only []
        rw [lineEnds_append, hst.lineEnds, h4, hk, ← newlines_append, ← hst.split]
      · simp only []
        rw [errors_append]
        constructor
        · intro he
          obtain ⟨e1, e2⟩ := List.append_eq_nil_iff.1 he
          intro s hs
          rcases List.mem_append.1 hs with hs | hs
          · exact hst.errors.1 e1 s hs
          · exact h5.1 e2 s hs
        · intro hb
          rw [hst.errors.2 (fun s hs => hb s (List.mem_append_left _ hs)), h5.2 (fun s hs => hb s (List.mem_append_right _ hs))]; rfl

/-- **C29** scanning (which is a total function) accounts for every character: the text is cut into pieces, each a blank, a comment, a
correctly spelled token, or an erroneous piece; the tokens that are not line ends are those of the pieces, in source order, at their
places and with their widths; the line-end tokens are exactly the line feeds of the text (those within strings and comments
included); and the scan reports no error exactly when no piece is erroneous. -/
theorem C29_accounts (text : List Char) : ∃ segs, text = texts segs ∧ (∀ s ∈ segs, s.Valid) ∧
    proper (scan text) = segTokens 0 segs ∧ lineEnds (scan text) = newlines 0 text ∧
    (errors (scan text) = [] ↔ ∀ s ∈ segs, s.isBad = false) := scanFrom_spec text 0

theorem segTokens_within (segs : List Seg) (pos : Nat) : ∀ p ∈ segTokens pos segs,
    pos ≤ p.1.start ∧ p.1.start + p.1.width ≤ pos + (texts segs).length := by
  induction segs generalizing pos with
  | nil => simp [segTokens]
  | cons s ss ih =>
    intro p hp
    simp only [texts, List.flatMap_cons, List.length_append]
    rcases List.mem_append.1 hp with hp | hp
    · cases ht : s.token with
      | none => rw [ht] at hp; simp at hp
      | some t => rw [ht] at hp; simp at hp; subst hp; simp
    · have := ih _ p hp
      simp only [texts] at this
      omega

theorem segTokens_pairwise (segs : List Seg) (pos : Nat) :
    (segTokens pos segs).Pairwise (fun a b => a.1.start + a.1.width ≤ b.1.start) := by
  induction segs generalizing pos with
  | nil => simp [segTokens]
  | cons s ss ih =>
    rw [segTokens, List.pairwise_append]
    refine ⟨?_, ih _, ?_⟩
    · cases s.token <;> simp
    · intro a ha b hb
      have := segTokens_within ss _ b hb
      cases ht : s.token with
      | none => rw [ht] at ha; simp at ha
      | some t => rw [ht] at ha; simp at ha; subst ha; simp; omega

/-- **C29** tokens other than line ends lie inside the text, do not overlap, and come in source order. -/
theorem C29_intervals (text : List Char) :
    (∀ p ∈ proper (scan text), p.1.start + p.1.width ≤ text.length) ∧
    (proper (scan text)).Pairwise (fun a b => a.1.start + a.1.width ≤ b.1.start) := by
  obtain ⟨segs, h1, _, h3, _⟩ := C29_accounts text
  rw [h3]
  refine ⟨fun p hp => ?_, segTokens_pairwise _ _⟩
  have := segTokens_within segs 0 p hp
  rw [← h1] at this; omega

/-- **C29** in a text without errors, every token that is not a line end covers a spelling of itself. -/
theorem C29_spelling (text : List Char) (he : errors (scan text) = []) :
    ∀ p ∈ proper (scan text), Spells ((text.drop p.1.start).take p.1.width) p.2 := by
  obtain ⟨segs, h1, h2, h3, _, h5⟩ := C29_accounts text
  have hb := h5.1 he
  rw [h3]
  have key : ∀ (segs : List Seg) (pre : List Char), (∀ s ∈ segs, s.Valid) → (∀ s ∈ segs, s.isBad = false) →
      ∀ p ∈ segTokens pre.length segs, Spells (((pre ++ texts segs).drop p.1.start).take p.1.width) p.2 := by
    intro segs
    induction segs with
    | nil => intro pre _ _ p hp; simp [segTokens] at hp
    | cons s ss ih =>
      intro pre hv hb p hp
      rcases List.mem_append.1 hp with hp | hp
      · have hvs := hv s (by simp)
        have hbs := hb s (by simp)
        cases s <;> simp [Seg.token, Seg.isBad] at hp hbs
        subst hp
        simpa [texts, Seg.text, Seg.Valid] using hvs
      · have := ih (pre ++ s.text) (fun s hs => hv s (by simp [hs])) (fun s hs => hb s (by simp [hs])) p (by simpa using hp)
        simpa [texts] using this
  have := key segs [] h2 hb
  simpa [← h1] using this

/-- **C29 (violation)** a line feed inside a string is reported as a token before the string that contains it, so the complete token
list is not in source order. -/
theorem C29_violation_order : tokens (scan ['\'', '\n', '\'']) = [(⟨1, 1⟩, .newLine), (⟨0, 3⟩, .string ['\n'])] := by
  simp [scan, scanFrom, step, isBlank, isLetter, isDigit, scanString, strLoop, nl, push, tokens]

/-- **C29 (violation)** the location of an unterminated string runs past the end of the text. -/
theorem C29_violation_error_location : errors (scan ['\'', 'a']) = [(⟨1, 2⟩, .unterminatedString)] := by
  simp [scan, scanFrom, step, isBlank, isLetter, isDigit, scanString, strLoop, nl, push, pushErrAt, errors]

example : scan ['x', ' ', '/', '*', 'c', '*', '/', '+', '='] = [.tok ⟨0, 1⟩ (.identifier ['x']), .tok ⟨7, 2⟩ .plusEquals] := by
  simp [scan, scanFrom, step, isBlank, isLetter, isDigit, isIdent, spanIdent, screenIdentifier, keywords, blockComment, scanOp, place, nl, push]

/-! ## Scanning printed tokens -/

/-- A canonical spelling: quotes and escapes for strings, decimal for numbers. -/
def quoteChar (c : Char) : List Char :=
  if c = '\\' then ['\\', '\\'] else if c = '\'' then ['\\', '\''] else if c = '\n' then ['\\', 'n']
  else if c = '\r' then ['\\', 'r'] else if c = '\t' then ['\\', 't'] else [c]

def quote (s : List Char) : List Char := '\'' :: (s.flatMap quoteChar ++ ['\''])

theorem strLoop_quote (rest : List Char) : ∀ (s buf : List Char) (cur : Nat),
    ∃ k, strLoop '\'' false buf [] (s.flatMap quoteChar ++ ('\'' :: rest)) cur = ⟨buf ++ s, true, [], rest, k⟩ := by
  intro s
  induction s with
  | nil => intro buf cur; exact ⟨cur + 1, by simp [strLoop, nl]⟩
  | cons c cs ih =>
    intro buf cur
    rw [List.flatMap_cons, List.append_assoc]
    by_cases h1 : c = '\\'
    · subst h1
      obtain ⟨k, hk⟩ := ih (buf ++ ['\\']) (cur + 1 + 1)
      exact ⟨k, by simp [quoteChar, strLoop, nl] at hk ⊢; exact hk⟩
    by_cases h2 : c = '\''
    · subst h2
      obtain ⟨k, hk⟩ := ih (buf ++ ['\'']) (cur + 1 + 1)
      exact ⟨k, by simp [quoteChar, strLoop, nl] at hk ⊢; exact hk⟩
    by_cases h3 : c = '\n'
    · subst h3
      obtain ⟨k, hk⟩ := ih (buf ++ ['\n']) (cur + 1 + 1)
      exact ⟨k, by simp [quoteChar, strLoop, nl] at hk ⊢; exact hk⟩
    by_cases h4 : c = '\r'
    · subst h4
      obtain ⟨k, hk⟩ := ih (buf ++ ['\r']) (cur + 1 + 1)
      exact ⟨k, by simp [quoteChar, strLoop, nl] at hk ⊢; exact hk⟩
    by_cases h5 : c = '\t'
    · subst h5
      obtain ⟨k, hk⟩ := ih (buf ++ ['\t']) (cur + 1 + 1)
      exact ⟨k, by simp [quoteChar, strLoop, nl] at hk ⊢; exact hk⟩
    obtain ⟨k, hk⟩ := ih (buf ++ [c]) (cur + 1)
    refine ⟨k, ?_⟩
    simp only [quoteChar, if_neg h1, if_neg h2, if_neg h3, if_neg h4, if_neg h5, List.cons_append, List.nil_append]
    rw [strLoop]
    simp only [nl, if_neg h3, List.append_nil]
    by_cases h6 : c = '"'
    · subst h6
      rw [if_pos (.inr rfl), if_neg (by simp), if_pos (by decide), hk]; simp
    · rw [if_neg (by simp [h2, h6]), if_neg h1, if_neg h4, if_neg (by simp), if_neg (by simp), if_neg (by simp)]
      simp only [Bool.false_eq_true, if_false, List.nil_append]
      rw [hk]; simp

/-- The step for a string literal scans it whole. -/
theorem step_quote (s rest : List Char) (cur : Nat) :
    ∃ l k, step '\'' (s.flatMap quoteChar ++ ('\'' :: rest)) cur = ([.tok l (.string s)], rest, k) := by
  obtain ⟨k, hk⟩ := strLoop_quote rest s [] cur
  refine ⟨⟨k - (k - cur + 1), k - cur + 1⟩, k, ?_⟩
  have : step '\'' (s.flatMap quoteChar ++ ('\'' :: rest)) cur = scanString '\'' (s.flatMap quoteChar ++ ('\'' :: rest)) cur := rfl
  rw [this]
  simp [scanString, hk, push]

/-- **C31** every string has a literal that scans back to it: one token, no error. -/
theorem C31_quote (s : List Char) : (tokens (scan (quote s))).map Prod.snd = [.string s] ∧ errors (scan (quote s)) = [] := by
  obtain ⟨l, k, hk⟩ := step_quote s [] 1
  have : scan (quote s) = [.tok l (.string s)] := by
    unfold scan quote
    rw [scanFrom]
    have e : (0 + 1) = 1 := rfl
    rw [e, hk]
    simp only []
    rw [scanFrom]; rfl
  rw [this]; simp [tokens, errors]

/-- **C31** the characters of a literal: if the scan of a closed literal (a quote, a body, the same quote) succeeds as one token, the
body denotes the string under the escape rules; and conversely every token of a string spells a body that denotes it. -/
theorem C31_denotes (text : List Char) (he : errors (scan text) = []) (l : Loc) (v : List Char) (h : (l, Token.string v) ∈ tokens (scan text)) :
    ∃ q body, (q = '\'' ∨ q = '"') ∧ (text.drop l.start).take l.width = q :: (body ++ [q]) ∧ Body q body v := by
  have hm : (l, Token.string v) ∈ proper (scan text) := by
    simp only [proper, List.mem_filter]; exact ⟨h, by simp⟩
  have hs := C29_spelling text he _ hm
  simp only [] at hs
  generalize (text.drop l.start).take l.width = w at hs
  generalize ht : Token.string v = t at hs
  cases hs with
  | keyword hk =>
    subst ht
    have : ∀ p ∈ keywords, ∀ v, p.2 ≠ Token.string v := by
      intro p hp v; revert p; simp [keywords]
    exact absurd rfl (this _ hk v)
  | op hk =>
    subst ht
    have : ∀ p ∈ operators, ∀ v, p.2 ≠ Token.string v := by
      intro p hp v; revert p; simp [operators]
    exact absurd rfl (this _ hk v)
  | str hq hb => cases ht; exact ⟨_, _, hq, rfl, hb⟩
  | _ => cases ht

/-- **C31** each escape denotes its character (`Body` is deterministic on these forms). -/
theorem C31_escapes : Body '\'' ['\\', 'n', '\\', 'r', '\\', 't', '\\', '\\', '\\', '\'', '\\', '"'] ['\n', '\r', '\t', '\\', '\'', '"'] :=
  .escN (.escR (.escT (.escSelf (.inl rfl) (.escSelf (.inr (.inl rfl)) (.escSelf (.inr (.inr rfl)) .nil)))))

/-- **C31** the value of a literal is determined by its body. -/
theorem C31_unique (q : Char) (b v w : List Char) (h1 : Body q b v) (h2 : Body q b w) : v = w := by
  induction h1 generalizing w with
  | nil => cases h2; rfl
  | plain hq hb hr _ ih =>
    cases h2 with
    | plain _ _ _ h => rw [ih _ h]
    | cr => exact absurd rfl hr
    | _ => exact absurd rfl hb
  | cr _ ih =>
    cases h2 with
    | plain _ _ hr _ => exact absurd rfl hr
    | cr h => exact ih _ h
  | escN _ ih =>
    cases h2 with
    | plain _ hb _ _ => exact absurd rfl hb
    | escN h => rw [ih _ h]
    | escSelf hc _ => simp at hc
    | escOther hc _ => simp at hc
  | escR _ ih =>
    cases h2 with
    | plain _ hb _ _ => exact absurd rfl hb
    | escR h => rw [ih _ h]
    | escSelf hc _ => simp at hc
    | escOther hc _ => simp at hc
  | escT _ ih =>
    cases h2 with
    | plain _ hb _ _ => exact absurd rfl hb
    | escT h => rw [ih _ h]
    | escSelf hc _ => simp at hc
    | escOther hc _ => simp at hc
  | escSelf hc _ ih =>
    cases h2 with
    | plain _ hb _ _ => exact absurd rfl hb
    | escN h => simp at hc
    | escR h => simp at hc
    | escT h => simp at hc
    | escSelf _ h => rw [ih _ h]
    | escOther hc' _ => simp at hc'; tauto
    | escCr _ => simp at hc
  | escOther hc _ ih =>
    cases h2 with
    | plain _ hb _ _ => exact absurd rfl hb
    | escN h => simp at hc
    | escR h => simp at hc
    | escT h => simp at hc
    | escSelf hc' h => simp at hc; tauto
    | escOther _ h => rw [ih _ h]
    | escCr _ => simp at hc
  | escCr _ ih =>
    cases h2 with
    | plain _ hb _ _ => exact absurd rfl hb
    | escSelf hc _ => simp at hc
    | escOther hc _ => simp at hc
    | escCr h => exact ih _ h


/-! ## C30 -/

/-- The prefix, radix and digits of the three kinds of literal. -/
def Radix (pre : List Char) (radix : Nat) (p : Char → Bool) : Prop :=
  (pre = [] ∧ radix = 10 ∧ p = isDigit) ∨ (pre = ['0', 'x'] ∧ radix = 16 ∧ p = isHex) ∨ (pre = ['0', 'b'] ∧ radix = 2 ∧ p = isBin)

theorem spanDigits_exact (p : Char → Bool) (hp : p '_' = false) (rest : List Char) (hr : ∀ c, rest.head? = some c → p c = false ∧ c ≠ '_') :
    ∀ body : List Char, (∀ c ∈ body, p c = true ∨ c = '_') →
    spanDigits p (body ++ rest) = (body.filter (· ≠ '_'), body.length - (body.filter (· ≠ '_')).length, rest)
  | [], _ => by
    cases rest with
    | nil => rfl
    | cons c cs => obtain ⟨h1, h2⟩ := hr c rfl; simp [spanDigits, h1, h2]
  | c :: body, h => by
    have ih := spanDigits_exact p hp rest hr body (fun c hc => h c (by simp [hc]))
    simp only [List.cons_append, spanDigits, ih]
    have hle := List.length_filter_le (· ≠ '_') body
    rcases h c (by simp) with hc | hc
    · have hne : c ≠ '_' := by rintro rfl; simp [hp] at hc
      rw [if_pos hc]; simp [hne]
    · rw [if_neg (by simp [hc, hp]), if_pos hc]
      subst hc
      simp; simp at hle; omega

/-- **C30** a decimal, hexadecimal or binary literal, underscores included, followed by anything that does not continue it, scans to
one token with exactly the value its digits denote if that is below 2^63, and otherwise to an error over the literal; scanning goes on
after it. -/
theorem C30_literal (pre body rest : List Char) (radix : Nat) (p : Char → Bool) (hr : Radix pre radix p)
    (hb : ∀ c ∈ body, p c = true ∨ c = '_') (hf : pre = [] → ∃ d ds, body = d :: ds ∧ isDigit d = true ∧ d ≠ '0')
    (hrest : ∀ c, rest.head? = some c → p c = false ∧ c ≠ '_' ∧ c ≠ 'i' ∧ c ≠ 'j') (cur : Nat) :
    (∀ v, Denotes radix body v → scanFrom (pre ++ body ++ rest) cur =
      .tok ⟨cur, (pre ++ body).length⟩ (.int v) :: scanFrom rest (cur + (pre ++ body).length)) ∧
    ((∀ v, ¬ Denotes radix body v) → scanFrom (pre ++ body ++ rest) cur =
      .err ⟨cur, (pre ++ body).length⟩ .invalidNumericValue :: scanFrom rest (cur + (pre ++ body).length)) := by
  have hpu : p '_' = false := by rcases hr with ⟨_, _, rfl⟩ | ⟨_, _, rfl⟩ | ⟨_, _, rfl⟩ <;> decide
  have hcx : isCplx rest = false := by
    cases rest with
    | nil => rfl
    | cons c cs => obtain ⟨_, _, h1, h2⟩ := hrest c rfl; simp [isCplx, h1, h2]
  have hle := List.length_filter_le (· ≠ '_') body
  have hspan := spanDigits_exact p hpu rest (fun c hc => ⟨(hrest c hc).1, (hrest c hc).2.1⟩) body hb
  have hdig : ∀ d ∈ body.filter (· ≠ '_'), ∃ x, toDigit radix d = some x := by
    intro d hd
    obtain ⟨h1, h2⟩ := List.mem_filter.1 hd
    rcases hb d h1 with h | h
    · apply toDigit_of
      rcases hr with ⟨_, rfl, rfl⟩ | ⟨_, rfl, rfl⟩ | ⟨_, rfl, rfl⟩
      · exact .inl ⟨rfl, h⟩
      · exact .inr (.inl ⟨rfl, h⟩)
      · exact .inr (.inr ⟨rfl, h⟩)
    · simp [h] at h2
  have hpd := parse_denotes radix (by rcases hr with ⟨_, rfl, _⟩ | ⟨_, rfl, _⟩ | ⟨_, rfl, _⟩ <;> simp) body hdig
  -- the scan of the literal
  have hstep : ∃ c cs, pre ++ body ++ rest = c :: cs ∧ step c cs (cur + 1) =
      screenInt (body.filter (· ≠ '_')) radix (body.length - (body.filter (· ≠ '_')).length) rest (cur + (pre ++ body).length) := by
    rcases hr with ⟨rfl, rfl, rfl⟩ | ⟨rfl, rfl, rfl⟩ | ⟨rfl, rfl, rfl⟩
    · obtain ⟨d, ds, rfl, hd, hd0⟩ := hf rfl
      have hdu : d ≠ '_' := by rintro rfl; revert hd; decide
      have hspan' := spanDigits_exact isDigit hpu rest (fun c hc => ⟨(hrest c hc).1, (hrest c hc).2.1⟩) ds (fun c hc => hb c (by simp [hc]))
      refine ⟨d, ds ++ rest, rfl, ?_⟩
      have h1 : isBlank d = false := by
        by_contra hc
        simp only [isBlank, Bool.not_eq_false, Bool.or_eq_true, beq_iff_eq] at hc
        rcases hc with ((hc | hc) | hc) | hc <;> subst hc <;> revert hd <;> decide
      have h2 : isLetter d = false := by
        have := (isDigit_iff d).1 hd
        by_contra hc
        simp [isLetter, Char.le_def, UInt32.le_iff_toNat_le] at hc
        have e : d.val.toNat = d.toNat := rfl
        omega
      unfold step
      rw [if_neg (by simp [h1]), if_neg (by simp [h2]), if_neg hd0, if_pos hd]
      simp only [hspan']
      have hf : (d :: ds).filter (· ≠ '_') = d :: ds.filter (· ≠ '_') := by simp [hdu]
      have hle' := List.length_filter_le (· ≠ '_') ds
      rw [hf]
      simp only [List.nil_append, List.length_cons, Nat.add_sub_add_right]
      congr 1
      omega
    · refine ⟨'0', 'x' :: (body ++ rest), rfl, ?_⟩
      show scanZero ('x' :: (body ++ rest)) (cur + 1) = _
      simp only [scanZero, hspan]
      congr 1
      simp only [List.length_append, List.length_cons, List.length_nil]; omega
    · refine ⟨'0', 'b' :: (body ++ rest), rfl, ?_⟩
      show scanZero ('b' :: (body ++ rest)) (cur + 1) = _
      simp only [scanZero, hspan]
      congr 1
      simp only [List.length_append, List.length_cons, List.length_nil]; omega
  obtain ⟨c, cs, he, hstep⟩ := hstep
  have hpl : pre.length = (if radix ≠ 10 then 2 else 0) := by
    rcases hr with ⟨rfl, rfl, _⟩ | ⟨rfl, rfl, _⟩ | ⟨rfl, rfl, _⟩ <;> rfl
  have hscan : scanFrom (pre ++ body ++ rest) cur =
      (match parseI64 radix (body.filter (· ≠ '_')) with
        | some v => [Out.tok ⟨cur, (pre ++ body).length⟩ (.int v)]
        | none => [Out.err ⟨cur, (pre ++ body).length⟩ .invalidNumericValue]) ++ scanFrom rest (cur + (pre ++ body).length) := by
    rw [he, scanFrom, hstep]
    unfold screenInt
    simp only [hcx, Bool.false_eq_true, if_false, List.drop_zero, Nat.add_zero, ← hpl]
    have hw : (body.filter (· ≠ '_')).length + (body.length - (body.filter (· ≠ '_')).length) + pre.length = (pre ++ body).length := by
      rw [List.length_append]; omega
    rw [hw]
    congr 1
    cases parseI64 radix (body.filter (· ≠ '_')) <;> simp [push, pushErr]
  rw [hscan]
  constructor
  · intro v hv
    cases hp : parseI64 radix (body.filter (· ≠ '_')) with
    | none => rw [hp] at hpd; exact absurd hv (hpd v)
    | some w =>
      rw [hp] at hpd
      obtain ⟨ds, h1, h2, h3, _⟩ := hv
      obtain ⟨ds', h1', h2', h3', _⟩ := hpd
      rw [h1] at h1'
      have : ds = ds' := List.map_injective_iff.2 (Option.some_injective _) h1'
      subst this
      rw [h3, h3']; rfl
  · intro hv
    cases hp : parseI64 radix (body.filter (· ≠ '_')) with
    | none => rfl
    | some w => rw [hp] at hpd; exact absurd hpd (hv w)

/-- The literal `0x_fF` denotes 255. -/
example : Denotes 16 ['_', 'f', 'F'] 255 := ⟨[15, 15], by decide, by decide, by decide, by decide⟩
example : scan ['0', 'x', '_', 'f', 'F'] = [.tok ⟨0, 5⟩ (.int 255)] := by
  have h := (C30_literal ['0', 'x'] ['_', 'f', 'F'] [] 16 isHex (.inr (.inl ⟨rfl, rfl, rfl⟩)) (by decide) (by simp) (by simp) 0).1 255
    ⟨[15, 15], by decide, by decide, by decide, by decide⟩
  have hn : scanFrom [] 5 = [] := by rw [scanFrom]
  simp only [List.append_nil] at h
  exact h.trans (by rw [show (0 + (['0', 'x'] ++ ['_', 'f', 'F']).length) = 5 from rfl, hn]; rfl)

/-- **C30** the value a literal is compiled to (semantic of constants: the scanned number made into a value) is exact below 2^62. -/
theorem C30_value_partial (v : Int) (h0 : 0 ≤ v) (h : v < 2 ^ 62) : Str.boxInt v = .int v := boxInt_exact v ⟨by omega, h⟩

/-- **C30 (violation)** literals from 2^62 to 2^63 - 1 are accepted by the scanner but wrap to negative values: `4611686018427387904`
evaluates to -4611686018427387904. -/
theorem C30_violation_wraps : scan "4611686018427387904".toList = [.tok ⟨0, 19⟩ (.int (2 ^ 62))] ∧ Str.boxInt (2 ^ 62) = .int (-(2 ^ 62)) := by
  constructor
  · have h := (C30_literal [] "4611686018427387904".toList [] 10 isDigit (.inl ⟨rfl, rfl, rfl⟩) (by decide)
      (fun _ => ⟨_, _, rfl, by decide, by decide⟩) (by simp) 0).1 (2 ^ 62)
      ⟨[4, 6, 1, 1, 6, 8, 6, 0, 1, 8, 4, 2, 7, 3, 8, 7, 9, 0, 4], by decide, by decide, by decide, by decide⟩
    have hn : scanFrom [] 19 = [] := by rw [scanFrom]
    refine h.trans ?_
    show _ :: scanFrom [] 19 = _
    rw [hn]; rfl
  · rfl

/-! ## C32 -/

theorem lineComment_exact (rest : List Char) : ∀ (body : List Char) (cur : Nat), '\n' ∉ body →
    lineComment (body ++ '\n' :: rest) cur = ([push (cur + body.length + 1) 1 .newLine], rest, cur + body.length + 1) ∧
    lineComment body cur = ([], [], cur + body.length)
  | [], cur, _ => by simp [lineComment, nl]
  | c :: body, cur, h => by
    simp at h
    obtain ⟨h1, h2⟩ := lineComment_exact rest body (cur + 1) h.2
    have hc : c ≠ '\n' := fun e => h.1 e.symm
    simp only [List.cons_append, lineComment, if_neg hc, h1, h2, List.length_cons]
    rw [show cur + 1 + body.length = cur + (body.length + 1) by omega]; exact ⟨rfl, rfl⟩

/-- **C32** a line comment reaches up to the end of its line: it leaves only the line end, and scanning goes on with the next line. -/
theorem C32_line (body rest : List Char) (h : '\n' ∉ body) (cur : Nat) :
    scanFrom ('/' :: '/' :: (body ++ '\n' :: rest)) cur =
      .tok ⟨cur + 2 + body.length, 1⟩ .newLine :: scanFrom rest (cur + 2 + body.length + 1) ∧
    scanFrom ('/' :: '/' :: body) cur = [] := by
  obtain ⟨h1, h2⟩ := lineComment_exact rest ('/' :: body) (cur + 1) (by simpa using h)
  constructor
  · rw [scanFrom]
    have e : step '/' ('/' :: (body ++ '\n' :: rest)) (cur + 1) = lineComment (('/' :: body) ++ '\n' :: rest) (cur + 1) := rfl
    rw [e, h1]
    simp only [push, List.length_cons, List.cons_append, List.nil_append]
    rw [show cur + 1 + (body.length + 1) + 1 = cur + 2 + body.length + 1 by omega]; rfl
  · rw [scanFrom]
    have e : step '/' ('/' :: body) (cur + 1) = lineComment ('/' :: body) (cur + 1) := rfl
    rw [e, h2]
    simp only [List.nil_append]; rw [scanFrom]

/-- Comment bodies in which every star is followed by some other character than a slash, reading stars in pairs with the character
after them (in particular every text without a star). -/
inductive Plain : List Char → Prop
  | nil : Plain []
  | char {c cs} : c ≠ '*' → Plain cs → Plain (c :: cs)
  | star {c cs} : c ≠ '/' → Plain cs → Plain ('*' :: c :: cs)

theorem plain_of_no_star (s : List Char) (h : '*' ∉ s) : Plain s := by
  induction s with
  | nil => exact .nil
  | cons c cs ih => simp at h; exact .char (fun e => h.1 e.symm) (ih h.2)

def asOuts (l : List (Loc × Token)) : List Out := l.map (fun p => .tok p.1 p.2)

theorem nl_asOuts (c : Char) (cur : Nat) : nl c cur = asOuts (newlines cur [c]) := by
  by_cases h : c = '\n' <;> simp [nl, asOuts, newlines, h, push]

theorem asOuts_append (a b) : asOuts (a ++ b) = asOuts a ++ asOuts b := by simp [asOuts]

theorem blockComment_plain (start : Nat) (rest body : List Char) (h : Plain body) : ∀ cur,
    blockComment start (body ++ '*' :: '/' :: rest) cur = (asOuts (newlines cur body), rest, cur + body.length + 2) := by
  induction h with
  | nil => intro cur; simp [blockComment, newlines, asOuts]
  | @char c cs hc _ ih =>
    intro cur
    rw [List.cons_append, blockComment.eq_5 _ _ _ _ (by intro a; exact absurd a hc) (by intro _ a; exact absurd a hc) (by intro _ _ a; exact absurd a hc), ih]
    rw [nl_asOuts, show c :: cs = [c] ++ cs from rfl, newlines_append, asOuts_append]
    simp; omega
  | @star c cs hc _ ih =>
    intro cur
    rw [List.cons_append, List.cons_append, blockComment.eq_4 _ _ _ _ hc, ih]
    rw [nl_asOuts, show '*' :: c :: cs = ['*'] ++ ([c] ++ cs) from rfl, newlines_append, newlines_append, asOuts_append, asOuts_append]
    simp [newlines, asOuts]; omega

/-- **C32** a block comment whose body is not empty, does not begin with a slash and has no pending star at its end is skipped up to
its closing `*/`: it leaves only the line ends inside it, and scanning goes on after it. The full property would have no condition on
the body but that it does not contain `*/`. -/
theorem C32_block_partial (x : Char) (body rest : List Char) (hx : x ≠ '/') (h : Plain body) (cur : Nat) :
    scanFrom ('/' :: '*' :: x :: (body ++ '*' :: '/' :: rest)) cur =
      asOuts (newlines (cur + 2) (x :: body)) ++ scanFrom rest (cur + 3 + body.length + 2) := by
  rw [scanFrom]
  have e : step '/' ('*' :: x :: (body ++ '*' :: '/' :: rest)) (cur + 1) =
      blockComment (cur + 1) (('*' :: x :: body) ++ '*' :: '/' :: rest) (cur + 1) := rfl
  rw [e, blockComment_plain _ _ _ (.star hx h)]
  simp only [List.length_cons]
  rw [show cur + 1 + (body.length + 1 + 1) + 2 = cur + 3 + body.length + 2 by omega]
  congr 1

example : scan ['/', '*', '\n', '*', '/', '1'] = [.tok ⟨2, 1⟩ .newLine, .tok ⟨5, 1⟩ (.int 1)] := by
  have := C32_block_partial '\n' [] ['1'] (by decide) .nil 0
  refine this.trans ?_
  simp [scanFrom, step, isBlank, isLetter, isDigit, screenInt, spanDigits, isCplx, parseI64, parseLoop, checked, toDigit, push, asOuts, newlines]

/-- **C32 (violations)** the scanner does not consume the opening star before it looks for the closing one, and it skips the
character after a star unseen: `/**/` is not closed, `/*/` is a complete comment, and a comment that ends in `**/` is not closed. -/
theorem C32_violations :
    errors (scan ['/', '*', '*', '/']) = [(⟨1, 5⟩, .unterminatedComment)] ∧
    scan ['/', '*', '/', 'x'] = [.tok ⟨3, 1⟩ (.identifier ['x'])] ∧
    errors (scan ['/', '*', ' ', '*', '*', '/']) = [(⟨1, 7⟩, .unterminatedComment)] := by
  refine ⟨?_, ?_, ?_⟩ <;>
  simp [scan, scanFrom, step, isBlank, isLetter, isDigit, isIdent, spanIdent, screenIdentifier, keywords, blockComment, nl, push, pushErrAt, errors]

/-! ## Printed tokens scan back -/

/-- The tokens that have a canonical spelling: all but negative numbers (which the scanner never makes), identifiers that are not
identifiers, and the complex literal zero (`0i` is the int zero). -/
def Printable : Token → Prop
  | .identifier s => ∃ c cs, s = c :: cs ∧ isLetter c = true ∧ (∀ d ∈ cs, isIdent d = true) ∧ (∀ t, (s, t) ∉ keywords)
  | .int i => 0 ≤ i ∧ i < 2 ^ 63
  | .complex i => 0 < i ∧ i < 2 ^ 63
  | _ => True

/-- The canonical spelling. -/
def spell (t : Token) : List Char :=
  match t with
  | .identifier s => s
  | .string s => quote s
  | .int i => decText i
  | .complex i => decText i ++ ['i']
  | .newLine => ['\n']
  | t => match (keywords ++ operators).find? (fun p => p.2 = t) with
    | some p => p.1
    | none => []

theorem digitChar_props (d : Nat) (hd : d < 10) : isDigit (digitChar d) = true ∧ digitChar d ≠ '_' ∧ (digitChar d = '0' → d = 0) ∧
    isBlank (digitChar d) = false ∧ isLetter (digitChar d) = false := by
  interval_cases d <;> decide

/-- Scanning a positive decimal number, with or without a complex suffix. -/
theorem step_decText (i : Int) (h0 : 0 < i) (h : i < 2 ^ 63) (suffix rest : List Char) (hs : suffix = [] ∨ suffix = ['i']) (cur : Nat) :
    ∃ c cs l k, decText i ++ suffix ++ ' ' :: rest = c :: cs ∧
      step c cs cur = ([.tok l (if suffix = [] then .int i else .complex i)], ' ' :: rest, k) := by
  have hdt : decText i = natText 10 i.natAbs := by rw [decText, if_neg (by omega)]
  obtain ⟨h1, h2, h3, h4, _⟩ := digitsAux_spec 10 (by omega) i.natAbs
  have hp : parseI64 10 (natText 10 i.natAbs) = some i := by
    rw [parseI64_natText 10 _ (by omega) (by omega) (by omega)]; congr 1; omega
  rw [hdt]
  rcases hd : digitsAux 10 i.natAbs [] with _ | ⟨x, xs⟩
  · exact absurd hd h3
  · have hn : natText 10 i.natAbs = digitChar x :: xs.map digitChar := by rw [natText, hd]; rfl
    rw [hd] at h1
    obtain ⟨p1, p2, p3, p4, p5⟩ := digitChar_props x (h1 x (by simp))
    have hx0 : digitChar x ≠ '0' := by
      intro e
      have := p3 e
      subst this
      have := h4 (by rw [hd]; rfl)
      omega
    have hall : ∀ c ∈ xs.map digitChar, isDigit c = true ∨ c = '_' := by
      intro c hc
      obtain ⟨d, hd, rfl⟩ := List.mem_map.1 hc
      exact .inl (digitChar_props d (h1 d (by simp [hd]))).1
    have hfil : (xs.map digitChar).filter (· ≠ '_') = xs.map digitChar := by
      apply List.filter_eq_self.2
      intro c hc
      obtain ⟨d, hd, rfl⟩ := List.mem_map.1 hc
      simpa using (digitChar_props d (h1 d (by simp [hd]))).2.1
    have hspan := spanDigits_exact isDigit (by decide) (suffix ++ ' ' :: rest) (by
      rcases hs with rfl | rfl <;> simp <;> decide) (xs.map digitChar) hall
    rw [hfil] at hspan
    have hst : step (digitChar x) (xs.map digitChar ++ (suffix ++ ' ' :: rest)) cur =
        screenInt (natText 10 i.natAbs) 10 0 (suffix ++ ' ' :: rest) (cur + xs.length) := by
      unfold step
      rw [if_neg (by simp [p4]), if_neg (by simp [p5]), if_neg hx0, if_pos p1]
      simp only [hspan, hn]
      simp
    have hw : digitChar x :: (xs.map digitChar ++ (suffix ++ ' ' :: rest)) = natText 10 i.natAbs ++ suffix ++ ' ' :: rest := by
      rw [hn]; simp only [List.cons_append, List.append_assoc]
    obtain ⟨l, k, hlk⟩ : ∃ l k, screenInt (natText 10 i.natAbs) 10 0 (suffix ++ ' ' :: rest) (cur + xs.length) =
        ([.tok l (if suffix = [] then .int i else .complex i)], ' ' :: rest, k) := by
      rcases hs with rfl | rfl
      · refine ⟨⟨cur + xs.length + 0 - ((natText 10 i.natAbs).length + 0 + 0 + 0), (natText 10 i.natAbs).length + 0 + 0 + 0⟩, cur + xs.length + 0, ?_⟩
        simp only [screenInt, hp, isCplx, List.nil_append, push]
        rfl
      · refine ⟨⟨cur + xs.length + 1 - ((natText 10 i.natAbs).length + 0 + 1 + 0), (natText 10 i.natAbs).length + 0 + 1 + 0⟩, cur + xs.length + 1, ?_⟩
        simp only [screenInt, hp, isCplx, List.cons_append, List.nil_append, push]
        rfl
    exact ⟨_, _, l, k, hw.symm, hst.trans hlk⟩

theorem spanIdent_exact (rest : List Char) (hr : ∀ c, rest.head? = some c → isIdent c = false) : ∀ cs : List Char, (∀ d ∈ cs, isIdent d = true) →
    spanIdent (cs ++ rest) = (cs, rest)
  | [], _ => by
    cases rest with
    | nil => rfl
    | cons c r => simp [spanIdent, hr c rfl]
  | c :: cs, h => by
    simp [spanIdent, h c (by simp), spanIdent_exact rest hr cs (fun d hd => h d (by simp [hd]))]

theorem step_spell (t : Token) (h : Printable t) (rest : List Char) (cur : Nat) :
    ∃ c cs l k, spell t ++ ' ' :: rest = c :: cs ∧ step c cs cur = ([.tok l t], ' ' :: rest, k) := by
  cases t with
  | identifier s =>
    obtain ⟨c, cs, rfl, hc, hcs, hk⟩ := h
    refine ⟨c, cs ++ ' ' :: rest, ⟨cur + cs.length - (cs.length + 1), cs.length + 1⟩, cur + cs.length, rfl, ?_⟩
    have hb : isBlank c = false := by
      by_contra h
      simp only [isBlank, Bool.not_eq_false, Bool.or_eq_true, beq_iff_eq] at h
      rcases h with ((h | h) | h) | h <;> subst h <;> revert hc <;> decide
    have hsc : screenIdentifier (c :: cs) = .identifier (c :: cs) := by
      unfold screenIdentifier
      rw [List.find?_eq_none.2]
      rintro ⟨a, b⟩ hm e
      simp only [beq_iff_eq] at e
      subst e
      exact hk b hm
    unfold step
    rw [if_neg (by simp [hb]), if_pos hc]
    simp only [spanIdent_exact (' ' :: rest) (by simp; decide) cs hcs, hsc, push]
  | string s =>
    obtain ⟨l, k, hk⟩ := step_quote s (' ' :: rest) cur
    exact ⟨'\'', s.flatMap quoteChar ++ ('\'' :: ' ' :: rest), l, k, by simp [spell, quote], hk⟩
  | int i =>
    obtain ⟨h0, h1⟩ := h
    by_cases hz : i = 0
    · subst hz
      exact ⟨'0', ' ' :: rest, ⟨cur - 1, 1⟩, cur, by simp [spell, decText, natText, digitsAux, digitChar], rfl⟩
    · have := step_decText i (by omega) h1 [] rest (.inl rfl) cur
      simpa [spell] using this
  | complex i =>
    obtain ⟨h0, h1⟩ := h
    have := step_decText i h0 h1 ['i'] rest (.inr rfl) cur
    simpa [spell] using this
  | newLine => exact ⟨'\n', ' ' :: rest, ⟨cur - 1 + 1 - 1, 1⟩, cur, rfl, rfl⟩
  | _ => exact ⟨_, _, _, _, rfl, rfl⟩

/-- **C29** printing tokens (separated by blanks) and scanning the text gives them back, with no error: every token sequence is the
scan of some text. -/
theorem C29_roundtrip (ts : List Token) (h : ∀ t ∈ ts, Printable t) :
    (tokens (scan (ts.flatMap (fun t => spell t ++ [' '])))).map Prod.snd = ts ∧
    errors (scan (ts.flatMap (fun t => spell t ++ [' ']))) = [] := by
  have key : ∀ (ts : List Token) (cur : Nat), (∀ t ∈ ts, Printable t) →
      (tokens (scanFrom (ts.flatMap (fun t => spell t ++ [' '])) cur)).map Prod.snd = ts ∧
      errors (scanFrom (ts.flatMap (fun t => spell t ++ [' '])) cur) = [] := by
    intro ts
    induction ts with
    | nil => intro cur _; rw [List.flatMap_nil, scanFrom]; simp [tokens, errors]
    | cons t ts ih =>
      intro cur h
      obtain ⟨c, cs, l, k, h1, h2⟩ := step_spell t (h t (by simp)) (ts.flatMap (fun t => spell t ++ [' '])) (cur + 1)
      have e : (t :: ts).flatMap (fun t => spell t ++ [' ']) = c :: cs := by
        rw [List.flatMap_cons, List.append_assoc]; exact h1
      have hb : ∀ (r : List Char) (k : Nat), scanFrom (' ' :: r) k = scanFrom r (k + 1) := by
        intro r k
        rw [scanFrom]
        have : step ' ' r (k + 1) = ([], r, k + 1) := rfl
        rw [this]; rfl
      obtain ⟨i1, i2⟩ := ih (k + 1) (fun t ht => h t (by simp [ht]))
      rw [e, scanFrom, h2]
      simp only [hb]
      constructor
      · simpa [tokens] using i1
      · simpa [errors] using i2
  exact key ts 0 h

example : Printable (.complex 3) ∧ Printable (.string ['\'', '\n']) ∧ Printable .powEquals := ⟨⟨by decide, by decide⟩, trivial, trivial⟩

end Cordy.Scan
