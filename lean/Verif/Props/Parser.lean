import Verif.Lemmas.ParserTermRules
import Verif.Lemmas.ParserSoundRules
import Verif.Lemmas.Balanced

/-!
# C71: the parser always ends, does not panic on any tokens, and accepts only sentences of the grammar

`run n r (start ts ora)` runs the parser on the tokens `ts`: `r` is `.root` for a program (and a line of the REPL), `.evalRoot` for `eval`. `ora` stands for the errors that depend on names and scopes, it is arbitrary.
The grammar is `Spec/Language`.
-/
namespace Cordy.Parser
open Cordy.Scan (Token)
open Cordy.Language (Der NT Balanced brackets)

/-! ## More fuel does not matter -/

theorem runP_mono {f g : Rule → St → Res Bool} (hfg : ∀ r s, f r s ≠ .more → g r s = f r s) (p : Prog α) :
    ∀ s, runP f p s ≠ .more → runP g p s = runP f p s := by
  induction p with
  | ret a => intro s _; rfl
  | peek k q ih => intro s h; exact ih _ s h
  | peekNN q ih => intro s h; exact ih _ s h
  | adv q ih => intro s h; exact ih _ _ h
  | call r q ih =>
    intro s h
    rw [runP] at h ⊢
    rw [runP]
    have hm : f r s ≠ .more := by
      intro hm
      rw [hm] at h
      exact h rfl
    rw [hfg r s hm]
    cases hx : f r s with
    | done b s' => rw [hx] at h; exact ih _ _ h
    | more => rfl
    | panic => rfl
  | err ty q ih => intro s h; exact ih _ h
  | resync t q ih => intro s h; exact ih _ h
  | sem q ih => intro s h; exact ih _ h
  | panic => intro s _; rfl

theorem run_succ : ∀ n r s, run n r s ≠ .more → run (n + 1) r s = run n r s := by
  intro n
  induction n with
  | zero => intro r s h; exact absurd rfl h
  | succ n ih =>
    intro r s h
    rw [run, run]
    exact runP_mono ih _ _ h

theorem run_mono {n m : Nat} (hnm : n ≤ m) (r : Rule) (s : St) (h : run n r s ≠ .more) : run m r s = run n r s := by
  induction hnm with
  | refl => rfl
  | step _ ih =>
    rw [run_succ _ _ _ (by rw [ih]; exact h), ih]

theorem bound_start (r : Rule) (ts : List Token) (ora : Nat → Ans) : bound r (start ts ora) < 80 * ts.length + 80 := by
  have h1 := (rank_lt r).1
  have h2 := (rank_lt r).2
  have h3 : (toks (start ts ora)).length ≤ ts.length := List.length_filter_le _ _
  unfold bound mu
  split <;> omega

/-! ## C71 -/

/-- The parser ends on every sequence of tokens, at a depth of calls that is linear in the number of tokens, whatever the names and scopes are; and what it returns is the same for every greater depth. -/
theorem C71_ends (r : Rule) (ts : List Token) (ora : Nat → Ans) :
    ∃ b s', ∀ n, 80 * ts.length + 80 ≤ n → run n r (start ts ora) = .done b s' := by
  obtain ⟨b, s', h, _⟩ := (T_run T_all _ r (start ts ora) (bound_start r ts ora)).ends
  refine ⟨b, s', fun n hn => ?_⟩
  rw [run_mono hn r _ (by rw [h]; intro hx; cases hx), h]

/-- It never panics. -/
theorem C71_no_panic (r : Rule) (ts : List Token) (ora : Nat → Ans) (n : Nat) : run n r (start ts ora) ≠ .panic := by
  intro hp
  obtain ⟨b, s', h⟩ := C71_ends r ts ora
  have h1 := run_mono (Nat.le_max_left n (80 * ts.length + 80)) r (start ts ora) (by rw [hp]; intro hx; cases hx)
  rw [h _ (Nat.le_max_right _ _), hp] at h1
  cases h1

/-- `Parsed r ts ora errs`: parsing ends with these errors. -/
def Parsed (r : Rule) (ts : List Token) (ora : Nat → Ans) (errs : List PErr) : Prop :=
  ∃ n b s', run n r (start ts ora) = .done b s' ∧ s'.errs = errs

/-- There is exactly one list of errors. -/
theorem C71_deterministic (r : Rule) (ts : List Token) (ora : Nat → Ans) : ∃ errs, Parsed r ts ora errs ∧ ∀ errs', Parsed r ts ora errs' → errs' = errs := by
  obtain ⟨b, s', h⟩ := C71_ends r ts ora
  refine ⟨s'.errs, ⟨_, b, s', h _ (Nat.le_refl _), rfl⟩, ?_⟩
  rintro _ ⟨n, b1, s1, h1, rfl⟩
  have h2 := run_mono (Nat.le_max_left n (80 * ts.length + 80)) r (start ts ora) (by rw [h1]; intro hx; cases hx)
  rw [h _ (Nat.le_max_right _ _), h1] at h2
  cases h2
  rfl

theorem lines_left {ts : List Token} (h : (ts.filter (fun t => t != .newLine))[0]? = none) : ∃ k, ts = List.replicate k .newLine := by
  have hn : ts.filter (fun t => t != .newLine) = [] := by simpa using h
  refine ⟨ts.length, List.eq_replicate_of_mem fun t ht => ?_⟩
  have := List.filter_eq_nil_iff.mp hn t ht
  simpa using this

/-- A program without errors is a sentence of the grammar, up to line breaks at its end. -/
theorem C71_accepted {ts : List Token} {ora : Nat → Ans} (h : Parsed .root ts ora []) :
    ∃ w lines, ts = w ++ List.replicate lines .newLine ∧ Der .program w (List.replicate lines .newLine) := by
  obtain ⟨n, b, s', hr, he⟩ := h
  obtain ⟨hc, ha, m, hm, w, hw, hd⟩ := S_run Sd_all n .root (start ts ora) b s' hr rfl trivial he
  have hm' : m = .program := by cases b <;> simp_all [Nt]
  have hv : (vis s')[0]? = none := by simpa [after, Kn.has] using ha
  rw [vis_clean hc] at hv
  obtain ⟨k, hk⟩ := lines_left hv
  subst hm'
  rw [hk] at hw hd
  exact ⟨w, k, hw, hd⟩

/-- The same for the argument of `eval`: it is one expression. -/
theorem C71_eval_accepted {ts : List Token} {ora : Nat → Ans} (h : Parsed .evalRoot ts ora []) :
    ∃ w lines, ts = w ++ List.replicate lines .newLine ∧ Der (.expr false) w (List.replicate lines .newLine) := by
  obtain ⟨n, b, s', hr, he⟩ := h
  obtain ⟨hc, ha, m, hm, w, hw, hd⟩ := S_run Sd_all n .evalRoot (start ts ora) b s' hr rfl trivial he
  have hm' : m = .evalText := by cases b <;> simp_all [Nt]
  have hv : (vis s')[0]? = none := by simpa [after, Kn.has] using ha
  rw [vis_clean hc] at hv
  obtain ⟨k, hk⟩ := lines_left hv
  subst hm'
  rw [hk] at hw hd
  cases hd with
  | prod hp hg =>
    cases List.mem_singleton.mp hp
    cases hg with
    | nt hd hg =>
      cases hg
      rw [List.append_nil] at hw
      exact ⟨_, k, hw, by simpa using hd⟩

/-- In a program without errors, and in the argument of `eval`, the brackets are balanced. -/
theorem C71_balanced {r : Rule} (hr : r = .root ∨ r = .evalRoot) {ts : List Token} {ora : Nat → Ans} (h : Parsed r ts ora []) : Balanced ts := by
  have key : ∀ (x : NT) (w : List Token) (k : Nat), Cordy.Language.pops x = [] → Der x w (List.replicate k .newLine) →
      Balanced (w ++ List.replicate k .newLine) := by
    intro x w k hx hd
    have h1 := Cordy.Language.Der_brackets hd
    have h2 := Cordy.Language.brackets_lines k [] []
    rw [List.append_nil] at h2
    rw [hx] at h1
    rw [Balanced, Cordy.Language.brackets_append, h1]
    exact h2
  rcases hr with rfl | rfl
  · obtain ⟨w, k, rfl, hd⟩ := C71_accepted h
    exact key _ w k rfl hd
  · obtain ⟨w, k, rfl, hd⟩ := C71_eval_accepted h
    exact key _ w k rfl hd

/-- For source text: tokens come from the scanner. A compilation without errors is that of a sentence with balanced brackets. -/
theorem C71_text (text : List Char) (ora : Nat → Ans) (h : Parsed .root ((Scan.tokens (Scan.scan text)).map Prod.snd) ora []) :
    Balanced ((Scan.tokens (Scan.scan text)).map Prod.snd) ∧
    ∃ w lines, (Scan.tokens (Scan.scan text)).map Prod.snd = w ++ List.replicate lines .newLine ∧ Der .program w (List.replicate lines .newLine) :=
  ⟨C71_balanced (Or.inl rfl) h, C71_accepted h⟩

/-- Errors are not taken back: if a rule is run when an error was reported, that error is still the first. -/
theorem C71_first_error_stays (n : Nat) (r : Rule) (s s' : St) (b : Bool) (h : run n r s = .done b s') : s.errs <+: s'.errs :=
  run_errs n r s b s' h

/-! ## Examples -/

/-- The errors found with this much fuel. -/
def errsOf (n : Nat) (r : Rule) (ts : List Token) : Option (List PErr) :=
  match run n r (start ts fun _ => .ok) with
  | .done _ s => some s.errs
  | _ => none

def toksOf (text : List Char) : List Token := (Scan.tokens (Scan.scan text)).map Prod.snd

theorem parsed_of {n : Nat} {r : Rule} {ts : List Token} {es : List PErr} (h : errsOf n r ts = some es) : Parsed r ts (fun _ => .ok) es := by
  unfold errsOf at h
  split at h
  · rename_i b s hs
    cases h
    exact ⟨n, b, s, hs, rfl⟩
  · cases h

-- programs that are accepted
example : Parsed .root (toksOf "let x = 3, y\nfn f(a, *b) -> a + x\nif x < 3 { print(f(x)[1:]) } else { y = [x, 2] }".toList) (fun _ => .ok) [] :=
  parsed_of (n := 60) (by decide +kernel)
example : Parsed .root (toksOf "struct P(x, y) { fn len(self) { return (x ** 2) } }\nfor i in {1, 2, ...z} { do { break } while i is int }".toList) (fun _ => .ok) [] :=
  parsed_of (n := 60) (by decide +kernel)
example : Parsed .evalRoot (toksOf "(a -> b) . map(fn(x) -> x[:-1]) == {1: 2}".toList) (fun _ => .ok) [] :=
  parsed_of (n := 60) (by decide +kernel)

-- `f ( x` and `) x` are not; nor are they sentences, as the brackets are not balanced
example : Parsed .root [.identifier ['f'], .openParen, .identifier ['x']] (fun _ => .ok) [⟨.expectedCommaOrEndOfComma, none, 0⟩] :=
  parsed_of (n := 60) (by decide +kernel)
example : ¬ Balanced [.identifier ['f'], .openParen, .identifier ['x']] := by
  unfold Balanced; decide +kernel
example : Parsed .root [.closeParen, .identifier ['x']] (fun _ => .ok) [⟨.expectedExpressionTerminal, some .closeParen, 2⟩] :=
  parsed_of (n := 60) (by decide +kernel)
-- brackets that are balanced are not enough
example : Parsed .root (toksOf "while { }".toList) (fun _ => .ok) [⟨.expectedToken .openBrace, none, 0⟩] :=
  parsed_of (n := 60) (by decide +kernel)
-- two errors are reported: the parser starts again after the `}`
example : Parsed .root (toksOf "fn f() { ] } let 3".toList) (fun _ => .ok)
    [⟨.expectedExpressionTerminal, some .closeSquare, 4⟩, ⟨.expectedUnderscoreOrVariableNameOrPattern, some (.int 3), 1⟩] :=
  parsed_of (n := 60) (by decide +kernel)

end Cordy.Parser
