import Verif.Model.Continuation
import Verif.Lemmas.ParserPrefixRules
import Verif.Lemmas.ParserPrefixSteps
import Verif.Lemmas.ScannerAppend
import Verif.Props.Parser

/-!
# C72: the REPL asks for another line when the text so far is the beginning of a program

`answer ora text` is what the REPL does with the text it has: run it, ask for another line, or report errors. `ora` stands for the errors that depend on names and scopes.
A text that ends with a line break (or is empty) is a beginning of a program that runs: `answer ora (a ++ b) = .run`.
-/
namespace Cordy.Continuation
open Cordy.Scan (Token ScanErr Loc Lines)
open Cordy.Parser (PErr Ans Rule Parsed toksOf dense Ex)

theorem collect_acc {ε : Type} (eof : ε → Bool) : ∀ (es acc : List ε), acc ≠ [] → collect eof es acc = some (acc ++ es) := by
  intro es
  induction es with
  | nil => intro acc _; rw [collect, List.append_nil]
  | cons e es ih =>
    intro acc h
    have : acc.isEmpty = false := by cases acc <;> simp_all
    rw [collect, this]
    simp only [Bool.and_false, Bool.false_eq_true, if_false]
    rw [ih _ (by simp), List.append_assoc]
    rfl

theorem collect_cons {ε : Type} (eof : ε → Bool) (e : ε) (es : List ε) : collect eof (e :: es) [] = if eof e then none else some (e :: es) := by
  rw [collect]
  cases eof e with
  | true => rfl
  | false => simp only [Bool.false_and, Bool.false_eq_true, if_false]; rw [collect_acc _ _ _ (by simp)]; rfl

theorem parsed_errs (ts : List Token) (ora : Nat → Ans) (errs : List PErr) : Parsed .root ts ora errs ↔ parseErrs ts ora = errs := by
  obtain ⟨b, s, h⟩ := Parser.C71_ends .root ts ora
  have h0 := h _ (Nat.le_refl _)
  obtain ⟨e, h1, h2⟩ := Parser.C71_deterministic .root ts ora
  have hp : Parsed .root ts ora s.errs := ⟨_, b, s, h0, rfl⟩
  have : parseErrs ts ora = s.errs := by unfold parseErrs; rw [h0]
  rw [this]
  refine ⟨fun hx => ?_, fun hx => hx ▸ hp⟩
  rw [h2 _ hp, h2 _ hx]

/-- The four answers. -/
theorem answer_scan {text : List Char} {l : Loc} {e : ScanErr} {es : List (Loc × ScanErr)} (h : Scan.errors (Scan.scan text) = (l, e) :: es) (ora : Nat → Ans) :
    answer ora text = if scanEof e then .more else .scanErrors ((l, e) :: es) := by
  unfold answer
  simp only [h, List.isEmpty_cons, Bool.false_eq_true, if_false, collect_cons]
  cases scanEof e <;> rfl

theorem answer_parse {text : List Char} (h : Scan.errors (Scan.scan text) = []) (ora : Nat → Ans) :
    answer ora text = match parseErrs (toksOf text) ora with
      | [] => .run
      | e :: es => if e.isEof then .more else .parseErrors (e :: es) := by
  unfold answer
  simp only [h, List.isEmpty_nil, if_true]
  change (if (parseErrs (toksOf text) ora).isEmpty = true then _ else match collect PErr.isEof (parseErrs (toksOf text) ora) [] with | some es => _ | none => _) = _
  cases parseErrs (toksOf text) ora with
  | nil => rfl
  | cons e es =>
    simp only [List.isEmpty_cons, Bool.false_eq_true, if_false, collect_cons]
    cases e.isEof <;> rfl

/-- The text runs exactly if the scanner and the parser have no errors. -/
theorem answer_run {text : List Char} {ora : Nat → Ans} : answer ora text = .run ↔ Scan.errors (Scan.scan text) = [] ∧ Parsed .root (toksOf text) ora [] := by
  rw [parsed_errs]
  cases hs : Scan.errors (Scan.scan text) with
  | nil =>
    rw [answer_parse hs]
    cases parseErrs (toksOf text) ora with
    | nil => simp
    | cons e es => cases he : e.isEof <;> simp [he]
  | cons x es =>
    obtain ⟨l, e⟩ := x
    rw [answer_scan hs]
    cases scanEof e <;> simp

/-- Tokens: if `w ++ v` has no errors, then the first error of `w` is about names, or about its end, or about its last token which is one of a few. -/
theorem tokens_prefix {w v : List Token} {ora ora' : Nat → Ans} (h : Parsed .root (w ++ v) ora []) {e : PErr} {es : List PErr} (hw : Parsed .root w ora' (e :: es)) :
    e.ty = .semantic ∨ e.isEof = true ∨ ∃ t, Ex t = true ∧ e.got = some t ∧ (dense w).getLast? = some t := by
  obtain ⟨b1, s1, h1⟩ := Parser.C71_ends .root w ora'
  obtain ⟨b2, s2, h2⟩ := Parser.C71_ends .root (w ++ v) ora
  obtain ⟨m, _⟩ : ∃ m, m = max (80 * w.length + 80) (80 * (w ++ v).length + 80) := ⟨_, rfl⟩
  have h1 := h1 m (by omega)
  have h2 := h2 m (by omega)
  have e1 := (parsed_errs _ _ _).mp ⟨m, b1, s1, h1, rfl⟩
  have e2 := (parsed_errs _ _ _).mp ⟨m, b2, s2, h2, rfl⟩
  rw [(parsed_errs _ _ _).mp h] at e2
  rw [(parsed_errs _ _ _).mp hw] at e1
  have hk : Parser.Lock w v (Parser.start w ora') (Parser.start (w ++ v) ora) :=
    ⟨⟨rfl, rfl⟩, ⟨rfl, rfl⟩, rfl, List.suffix_refl _⟩
  rcases Parser.L_run Parser.CL_all Parser.Takes_all Parser.Steps_all m .root _ _ _ _ _ _ hk trivial h1 h2 e2.symm with ⟨_, hl, _⟩ | hd
  · have := hl.c1.errs
    rw [← e1] at this
    cases this
  · rcases hd with ⟨e', es', h3, h4⟩ | ⟨_, h3, _⟩
    · rw [← e1] at h3
      cases h3
      exact h4
    · rw [← e1] at h3
      cases h3

theorem scan_prefix (a b : List Char) (ha : a = [] ∨ Lines a) :
    (∃ v, toksOf (a ++ b) = toksOf a ++ v ∧ Scan.errors (Scan.scan a) <+: Scan.errors (Scan.scan (a ++ b))) ∨
    ∃ l e es, Scan.errors (Scan.scan a) = es ++ [(l, e)] ∧ scanEof e = true ∧ es <+: Scan.errors (Scan.scan (a ++ b)) := by
  rcases Scan.scanFrom_append b a.length a 0 (Nat.le_refl _) ha with h | ⟨o, u, h1, h2, l, e, h3, h4⟩
  · left
    have h' : Scan.scan (a ++ b) = Scan.scan a ++ Scan.scanFrom b (0 + a.length) := h
    refine ⟨(Scan.tokens (Scan.scanFrom b (0 + a.length))).map Prod.snd, ?_, ?_⟩
    · unfold toksOf
      rw [h', Scan.tokens, List.filterMap_append, List.map_append]
      rfl
    · rw [h', Scan.errors_append]
      exact List.prefix_append _ _
  · right
    have h1' : Scan.scan a = o ++ u := h1
    refine ⟨l, e, Scan.errors o, ?_, ?_, ?_⟩
    · rw [h1', Scan.errors_append, h3]
    · rcases h4 with rfl | rfl <;> rfl
    · obtain ⟨x, hx⟩ := h2
      have hx' : o ++ x = Scan.scan (a ++ b) := hx
      rw [← hx', Scan.errors_append]
      exact List.prefix_append _ _

/-- The reports that the full property does not allow: the first error is about a name, or about the last token of the text `a` which is one of six. -/
def Exceptional (a : List Char) (x : Answer) : Prop :=
  ∃ e es, x = .parseErrors (e :: es) ∧
    (e.ty = .semantic ∨ ∃ t, e.got = some t ∧ (dense (toksOf a)).getLast? = some t ∧
      (t = .openParen ∨ t = .mul ∨ t = .kNot ∨ t = .kFn ∨ t = .identifier "min".toList ∨ t = .identifier "max".toList))

/-- If a text that ends with a line break is the beginning of a program that runs, then the REPL runs it, or asks for another line, or the error it reports first is about a name, or about
the last token of the text, which is one of `(`, `*`, `not`, `fn`, `min`, `max`. The full property does not allow the last two. -/
theorem C72_beginning_partial {a b : List Char} {ora ora' : Nat → Ans} (ha : a = [] ∨ Lines a) (h : answer ora (a ++ b) = .run) :
    answer ora' a = .run ∨ answer ora' a = .more ∨
    Exceptional a (answer ora' a) := by
  obtain ⟨h1, h2⟩ := answer_run.mp h
  rcases scan_prefix a b ha with ⟨v, h3, h4⟩ | ⟨l, e, es, h3, h4, h5⟩
  · rw [h1] at h4
    have h4 := List.prefix_nil.mp h4
    rw [h3] at h2
    rw [answer_parse h4]
    cases hp : parseErrs (toksOf a) ora' with
    | nil => exact Or.inl rfl
    | cons e es =>
      right
      have := tokens_prefix h2 ((parsed_errs _ _ _).mpr hp)
      dsimp only
      cases he : e.isEof with
      | true => left; rfl
      | false =>
        right
        refine ⟨e, es, rfl, ?_⟩
        rcases this with h | h | ⟨t, h, h', h''⟩
        · exact Or.inl h
        · rw [he] at h; cases h
        · refine Or.inr ⟨t, h', h'', ?_⟩
          unfold Ex at h
          split at h <;> first
            | cases h; done
            | simp
          · rename_i s
            simpa [Parser.isMinMax, or_comm] using h
  · rw [h1] at h5
    have h5 := List.prefix_nil.mp h5
    rw [h5] at h3
    rw [answer_scan h3, h4]
    exact Or.inr (Or.inl rfl)

/-- What is reported is final: after an error of the scanner no further text helps. -/
theorem C72_scan_error_final {a b : List Char} {ora ora' : Nat → Ans} (ha : a = [] ∨ Lines a) {es : List (Loc × ScanErr)} (h : answer ora a = .scanErrors es) :
    answer ora' (a ++ b) ≠ .run := by
  intro hr
  rcases C72_beginning_partial (ora' := ora) ha hr with h1 | h1 | ⟨_, _, h1, _⟩ <;> rw [h] at h1 <;> cases h1

/-- After a syntax error at a token that is not the last, or not one of the six, no further text helps. -/
theorem C72_syntax_error_final {a b : List Char} {ora ora' : Nat → Ans} (ha : a = [] ∨ Lines a) {e : PErr} {es : List PErr} (h : answer ora a = .parseErrors (e :: es))
    (hs : e.ty ≠ .semantic) {t : Token} (ht : e.got = some t)
    (hl : (dense (toksOf a)).getLast? ≠ some t ∨ (t ≠ .openParen ∧ t ≠ .mul ∧ t ≠ .kNot ∧ t ≠ .kFn ∧ t ≠ .identifier "min".toList ∧ t ≠ .identifier "max".toList)) :
    answer ora' (a ++ b) ≠ .run := by
  intro hr
  rcases C72_beginning_partial (ora' := ora) ha hr with h1 | h1 | ⟨e', es', h1, h2⟩
  · rw [h] at h1; cases h1
  · rw [h] at h1; cases h1
  · rw [h] at h1
    cases h1
    rcases h2 with h2 | ⟨t', h2, h3, h4⟩
    · exact hs h2
    · rw [ht] at h2
      cases h2
      rcases hl with hl | ⟨g1, g2, g3, g4, g5, g6⟩
      · exact hl h3
      · rcases h4 with h4 | h4 | h4 | h4 | h4 | h4 <;> contradiction

/-! ## Line by line -/

/-- The text of lines. -/
def join : List (List Char) → List Char
  | [] => []
  | l :: ls => l ++ '\n' :: join ls

theorem join_append (xs ys : List (List Char)) : join (xs ++ ys) = join xs ++ join ys := by
  induction xs with
  | nil => rfl
  | cons x xs ih => rw [List.cons_append, join, join, ih]; simp

theorem join_lines : ∀ ls : List (List Char), ls = [] ∨ Lines (join ls) := by
  intro ls
  induction ls with
  | nil => exact Or.inl rfl
  | cons l ls ih =>
    right
    rcases ih with rfl | ih
    · simp [join, Lines]
    · rw [join, Lines, List.getLast?_append, List.getLast?_cons, ih]
      rfl

theorem lines_buffer {ora : List Char → Nat → Ans} {ora' : Nat → Ans} : ∀ (ls : List (List Char)) (s : Repl), (s.buffer = [] ∨ Lines s.buffer) → ls ≠ [] →
    (s.continuation = false → ls.head? ≠ some []) → answer ora' (s.buffer ++ join ls) = .run →
    ∃ k x rest, k < ls.length ∧ (lines ora s ls).2 = List.replicate k .more ++ x :: rest ∧
      (x = .run ∨ Exceptional (s.buffer ++ join (ls.take (k + 1))) x ∨ (x = .more ∧ k + 1 = ls.length)) := by
  intro ls
  induction ls with
  | nil => intro s _ h; exact absurd rfl h
  | cons l ls ih =>
    intro s hb _ hc hr
    have h0 : (l.isEmpty && !s.continuation) = false := by
      cases hl : l with
      | nil =>
        cases hx : s.continuation with
        | true => rfl
        | false => exact absurd (by rw [hl]; rfl) (hc hx)
      | cons x xs => rfl
    have ht : s.buffer ++ join (l :: ls) = (s.buffer ++ l ++ ['\n']) ++ join ls := by simp [join]
    have hL : Lines (s.buffer ++ l ++ ['\n']) := by simp [Lines]
    rw [ht] at hr
    have ht1 : s.buffer ++ join ((l :: ls).take (0 + 1)) = s.buffer ++ l ++ ['\n'] := by simp [join]
    have key : ∀ x, answer (ora (s.buffer ++ l ++ ['\n'])) (s.buffer ++ l ++ ['\n']) = x → x ≠ .more →
        (lines ora s (l :: ls)).2 = List.replicate 0 .more ++ x :: (lines ora ⟨[], false⟩ ls).2 := by
      intro x hx hm
      have : line ora s l = (⟨[], false⟩, some x) := by
        unfold line
        rw [h0]
        simp only [Bool.false_eq_true, if_false]
        rw [hx]
        cases x <;> first | rfl | exact absurd rfl hm
      rw [lines, this]
      rfl
    rcases C72_beginning_partial (ora' := ora (s.buffer ++ l ++ ['\n'])) (Or.inr hL) hr with h | h | h
    · exact ⟨0, _, _, by simp, key _ h (by intro hx; cases hx), Or.inl rfl⟩
    · have hline : line ora s l = (⟨s.buffer ++ l ++ ['\n'], true⟩, some .more) := by
        unfold line
        rw [h0]
        simp only [Bool.false_eq_true, if_false]
        rw [h]
      by_cases hls : ls = []
      · subst hls
        refine ⟨0, .more, [], by simp, ?_, Or.inr (Or.inr ⟨rfl, rfl⟩)⟩
        rw [lines, hline]
        rfl
      · obtain ⟨k, x, rest, hk, h1, h2⟩ := ih ⟨s.buffer ++ l ++ ['\n'], true⟩ (Or.inr hL) hls (by intro hx; cases hx) hr
        refine ⟨k + 1, x, rest, by simpa using hk, ?_, ?_⟩
        · rw [lines, hline]
          simp only [Option.toList_some]
          rw [h1]
          rfl
        · rcases h2 with h2 | h2 | ⟨h2, h3⟩
          · exact Or.inl h2
          · right; left
            have : s.buffer ++ join ((l :: ls).take (k + 1 + 1)) = (s.buffer ++ l ++ ['\n']) ++ join (ls.take (k + 1)) := by
              rw [List.take_succ_cons, join]; simp
            rw [this]
            exact h2
          · exact Or.inr (Or.inr ⟨h2, by simp [h3]⟩)
    · obtain ⟨e, es, hx, h'⟩ := h
      refine ⟨0, _, _, by simp, key _ hx (by intro hy; cases hy), Or.inr (Or.inl ?_)⟩
      rw [ht1]
      exact ⟨e, es, rfl, h'⟩

/-- A program that runs is entered line by line. The prompt is for a continuation until a beginning of the program was run, or an exceptional error is reported; at the latest the whole
program is run (the names are those known at each line, and at the last line they are those of the whole program). -/
theorem C72_lines_partial {ora : List Char → Nat → Ans} {ls : List (List Char)} (hne : ls ≠ []) (hf : ls.head? ≠ some [])
    (h : answer (ora (join ls)) (join ls) = .run) :
    ∃ k x rest, k < ls.length ∧ (lines ora ⟨[], false⟩ ls).2 = List.replicate k .more ++ x :: rest ∧
      (x = .run ∨ Exceptional (join (ls.take (k + 1))) x) := by
  obtain ⟨k, x, rest, h1, h2, h3⟩ := lines_buffer (ora := ora) ls ⟨[], false⟩ (Or.inl rfl) hne (fun _ => hf) h
  rcases h3 with h3 | h3 | ⟨h3, h4⟩
  · exact ⟨k, x, rest, h1, h2, Or.inl h3⟩
  · exact ⟨k, x, rest, h1, h2, Or.inr h3⟩
  · -- all lines were answered `more`, but the last is answered `run`
    exfalso
    subst h3
    have hall := all_more (ora := ora) ls ⟨[], false⟩ (fun _ => hf) (k + 1) (by omega) (by
      rw [h2, List.replicate_succ']; exact ⟨rest, by simp⟩)
    have := hall k (by omega)
    have ht : join (ls.take (k + 1)) = join ls := by rw [h4, List.take_length]
    simp only [List.nil_append] at this
    rw [ht, h] at this
    cases this
where
  all_more {ora : List Char → Nat → Ans} : ∀ (ls : List (List Char)) (s : Repl), (s.continuation = false → ls.head? ≠ some []) → ∀ m, m ≤ ls.length →
      List.replicate m Answer.more <+: (lines ora s ls).2 →
      ∀ i, i < m → answer (ora (s.buffer ++ join (ls.take (i + 1)))) (s.buffer ++ join (ls.take (i + 1))) = .more := by
    intro ls
    induction ls with
    | nil => intro s _ m hm _ i hi; simp at hm; omega
    | cons l ls ih =>
      intro s hc m hm hp i hi
      rcases m with _ | m
      · omega
      have h0 : (l.isEmpty && !s.continuation) = false := by
        cases hl : l with
        | nil =>
          cases hx : s.continuation with
          | true => rfl
          | false => exact absurd (by rw [hl]; rfl) (hc hx)
        | cons x xs => rfl
      have hm1 : answer (ora (s.buffer ++ l ++ ['\n'])) (s.buffer ++ l ++ ['\n']) = .more := by
        cases ha : answer (ora (s.buffer ++ l ++ ['\n'])) (s.buffer ++ l ++ ['\n']) with
        | more => rfl
        | _ =>
          exfalso
          rw [lines] at hp
          unfold line at hp
          rw [h0] at hp
          simp only [Bool.false_eq_true, if_false] at hp
          rw [ha] at hp
          obtain ⟨u, hu⟩ := hp
          simp [List.replicate_succ] at hu
      have hline : line ora s l = (⟨s.buffer ++ l ++ ['\n'], true⟩, some .more) := by
        unfold line
        rw [h0]
        simp only [Bool.false_eq_true, if_false]
        rw [hm1]
      rcases i with _ | i
      · have : s.buffer ++ join ((l :: ls).take (0 + 1)) = s.buffer ++ l ++ ['\n'] := by simp [join]
        rw [this]
        exact hm1
      · have : s.buffer ++ join ((l :: ls).take (i + 1 + 1)) = (s.buffer ++ l ++ ['\n']) ++ join (ls.take (i + 1)) := by
          rw [List.take_succ_cons, join]; simp
        rw [this]
        refine ih ⟨s.buffer ++ l ++ ['\n'], true⟩ (by intro hx; cases hx) m (by simpa using hm) ?_ i (by omega)
        rw [lines, hline] at hp
        simp only [Option.toList_some] at hp
        obtain ⟨u, hu⟩ := hp
        rw [List.replicate_succ] at hu
        exact ⟨u, (List.cons.inj hu).2⟩

/-! ## The exceptions are real -/

/-- All names are known. -/
def known : Nat → Ans := fun _ => .ok

/-- These lines are reported at once, though with the line after them they are programs: `f(` and `1)`; `(a not` and `in b)`; `*` and `a, b = c`; `(x`, `max` and `= 3)`; `(a fn` and `(x) -> x)`. -/
theorem C72_violation :
    (answer known "f(\n".toList = .parseErrors [⟨.expectedCommaOrEndOfArguments, some .openParen, 2⟩] ∧ answer known "f(\n1)\n".toList = .run) ∧
    (answer known "(a not\n".toList = .parseErrors [⟨.expectedCommaOrEndOfComma, some .kNot, 2⟩] ∧ answer known "(a not\nin b)\n".toList = .run) ∧
    (answer known "*\n".toList = .parseErrors [⟨.expectedExpressionTerminal, some .mul, 2⟩] ∧ answer known "*\na, b = c\n".toList = .run) ∧
    (answer known "(x\nmax\n".toList = .parseErrors [⟨.expectedCommaOrEndOfComma, some (.identifier "max".toList), 3⟩] ∧ answer known "(x\nmax\n= 3)\n".toList = .run) ∧
    (answer known "(a fn\n".toList = .parseErrors [⟨.expectedCommaOrEndOfComma, some .kFn, 2⟩] ∧ answer known "(a fn\n(x) -> x)\n".toList = .run) := by
  refine ⟨⟨?_, ?_⟩, ⟨?_, ?_⟩, ⟨?_, ?_⟩, ⟨?_, ?_⟩, ?_, ?_⟩ <;> decide +kernel

/-! ## Examples -/

-- three lines; the first two are continued
example : (lines (fun _ => known) ⟨[], false⟩ ["if x {".toList, "  y = [1,".toList, "2] } else { /* a".toList, "b */ z }".toList, "3".toList]) =
    (⟨[], false⟩, [.more, .more, .more, .run, .run]) := by decide +kernel
-- the hypothesis of `C72_beginning_partial`
example : answer known ("let s = 'a\n".toList ++ "b'\n".toList) = .run ∧ Lines "let s = 'a\n".toList ∧ answer known "let s = 'a\n".toList = .more := by unfold Lines; decide +kernel
-- the hypotheses of `C72_syntax_error_final` and `C72_scan_error_final`
example : answer known "foo )\n".toList = .parseErrors [⟨.expectedExpressionTerminal, some .closeParen, 2⟩] := by decide +kernel
example : answer known "x = 3 $ (\n".toList = .scanErrors [(⟨6, 1⟩, .invalidCharacter '$')] := by decide +kernel

end Cordy.Continuation
