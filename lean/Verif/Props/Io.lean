import Verif.Model.Io
/-!
# C78: Input and output

What is printed appears as it is printed, in order; what is read is what is there, in order, once; files hold what was written last.
-/
namespace Cordy.Io

/-! ## Specification -/

/-- What a call of `print` writes: the arguments, with spaces between them, and a line feed. -/
def printed : Call → List Char
  | .print args => (args.intersperse [' ']).flatten ++ ['\n']
  | _ => []

/-- A line as it is in the input, with its end. -/
inductive IsLine : List Char → List Char → Prop
  | lf (l : List Char) (h : '\n' ∉ l) (h' : l.getLast? ≠ some '\r') : IsLine l (l ++ ['\n'])
  | crlf (l : List Char) (h : '\n' ∉ l) : IsLine l (l ++ ['\r', '\n'])

/-- Lines, and the input that they make up. -/
inductive AreLines : List (List Char) → List Char → Prop
  | nil : AreLines [] []
  | cons {l raw ls raws} : IsLine l raw → AreLines ls raws → AreLines (l :: ls) (raw ++ raws)

/-- What is in a file after some calls, of which `last` is the last write to it (`none`: there was no write to it): the text of this write. -/
def lastWrite (path : String) : List Call → Option Call
  | [] => none
  | c :: cs =>
    match lastWrite path cs with
    | some d => some d
    | none =>
      match c with
      | .writeText p _ _ => if p = path then some c else none
      | _ => none

/-! ## Lemmas -/

theorem decode_some (s : List Char) : decode (s.map some) = some s := by
  induction s with
  | nil => rfl
  | cons c r ih => simp [decode, ih]

theorem decode_inj {b : Bytes} {s : List Char} (h : decode b = some s) : b = s.map some := by
  induction b generalizing s with
  | nil => injection h with h; subst h; rfl
  | cons c r ih =>
    cases c with
    | none => cases h
    | some c =>
      simp only [decode, Option.map_eq_some_iff] at h
      obtain ⟨t, ht, rfl⟩ := h
      rw [ih ht]; rfl

theorem takeLine_append (b : Bytes) : (takeLine b).1 ++ (takeLine b).2 = b := by
  induction b with
  | nil => rfl
  | cons c r ih =>
    simp only [takeLine]
    split
    · rfl
    · simp [ih]

theorem takeLine_line (l : List Char) (h : '\n' ∉ l) (r : Bytes) : takeLine ((l ++ ['\n']).map some ++ r) = ((l ++ ['\n']).map some, r) := by
  induction l with
  | nil => rfl
  | cons c l ih =>
    simp only [List.mem_cons, not_or] at h
    have ih := ih h.2
    simp only [List.cons_append, List.map_cons, takeLine]
    rw [if_neg (fun e => h.1 (by injection e with e; exact e.symm)), ih]

theorem takeLine_last (l : List Char) (h : '\n' ∉ l) : takeLine (l.map some) = (l.map some, []) := by
  induction l with
  | nil => rfl
  | cons c l ih =>
    simp only [List.mem_cons, not_or] at h
    simp only [List.map_cons, takeLine]
    rw [if_neg (fun e => h.1 (by injection e with e; exact e.symm)), ih h.2]

theorem printRest_eq (as : List (List Char)) (out : List Char) : printRest as out = out ++ (as.map (fun a => ' ' :: a)).flatten := by
  induction as generalizing out with
  | nil => simp [printRest]
  | cons a as ih => simp [printRest, ih]

theorem intersperse_eq (a : List Char) (as : List (List Char)) : ((a :: as).intersperse [' ']).flatten = a ++ (as.map (fun a => ' ' :: a)).flatten := by
  induction as generalizing a with
  | nil => simp
  | cons b as ih =>
    rw [List.intersperse_cons₂]
    simp only [List.flatten_cons]
    rw [ih]; simp

theorem print_eq (args : List (List Char)) (out : List Char) : print args out = out ++ ((args.intersperse [' ']).flatten ++ ['\n']) := by
  cases args with
  | nil => simp [print]
  | cons a as =>
    cases as with
    | nil => simp [print]
    | cons b as => rw [intersperse_eq]; simp [print, printRest_eq]

theorem run_append (cs ds : List Call) (w : World) : run (cs ++ ds) w = ((run cs w).1 ++ (run ds (run cs w).2).1, (run ds (run cs w).2).2) := by
  induction cs generalizing w with
  | nil => simp [run]
  | cons c cs ih => simp [run, ih]

theorem run_length (cs : List Call) (w : World) : (run cs w).1.length = cs.length := by
  induction cs generalizing w with
  | nil => rfl
  | cons c cs ih => simp [run, ih]

theorem step_output (c : Call) (w : World) : (step c w).2.output = w.output ++ printed c := by
  cases c with
  | print args => exact print_eq args w.output
  | read => simp only [step, printed]; split <;> simp
  | readLine => simp only [step, printed]; split <;> simp
  | readText path os => cases os <;> simp only [step, printed, List.append_nil]; split <;> try split
                        all_goals rfl
  | writeText path t os => cases os <;> simp [step, printed]

/-! ## Output -/

/-- **C78**: after any calls, the output is what was there, then what each `print` writes, in order: the arguments separated by one space, then a line feed. -/
theorem C78_output (cs : List Call) (w : World) : (run cs w).2.output = w.output ++ (cs.map printed).flatten := by
  induction cs generalizing w with
  | nil => simp [run]
  | cons c cs ih => simp [run, ih, step_output]

example (w : World) (h : w.output = []) : String.ofList (run [.print ["a".toList, "1".toList], .readLine, .print [], .print ["[2]".toList]] w).2.output = "a 1\n\n[2]\n" := by
  rw [C78_output, h]; decide

/-! ## Input -/

/-- **C78**: the lines of the input, whether they end in `\n` or `\r\n`, are read one after the other by `read_line`, without their ends, and what follows is left. -/
theorem C78_lines (ls : List (List Char)) (raw : List Char) (h : AreLines ls raw) (rest : Bytes) (w : World) (hw : w.input = raw.map some ++ rest) :
    run (ls.map fun _ => .readLine) w = (ls.map .str, { w with input := rest }) := by
  induction h generalizing w with
  | nil => simp only [List.map_nil, run]; simp at hw; simp [← hw]
  | @cons l raw ls raws hl hls ih =>
    have key : ∀ r : Bytes, step .readLine { w with input := raw.map some ++ r } = (.str l, { w with input := r }) := by
      intro r
      cases hl with
      | lf h h' =>
        simp only [step]
        rw [takeLine_line l h]
        simp only [decode_some, stripLineEnding]
        simp [h']
      | crlf h =>
        simp only [step]
        have e : l ++ ['\r', '\n'] = (l ++ ['\r']) ++ ['\n'] := by simp
        rw [e, takeLine_line (l ++ ['\r']) (by simp [h])]
        simp only [decode_some, stripLineEnding]
        simp
    have key := key (raws.map some ++ rest)
    have e : w = { w with input := raw.map some ++ (raws.map some ++ rest) } := by
      rw [← List.append_assoc, ← List.map_append, ← hw]
    simp only [List.map_cons, run]
    rw [e, key, ih _ rfl]

/-- **C78**: the text after the last line feed is a line too, all of it. -/
theorem C78_last_line (l : List Char) (h : '\n' ∉ l) (w : World) (hw : w.input = l.map some) : step .readLine w = (.str l, { w with input := [] }) := by
  simp only [step, hw, takeLine_last l h, decode_some, stripLineEnding]
  rw [if_neg]
  intro e
  exact h (List.mem_of_getLast? e)

/-- **C78**: `read` gives all that is left of the input. -/
theorem C78_read (s : List Char) (w : World) (hw : w.input = s.map some) : step .read w = (.str s, { w with input := [] }) := by
  simp only [step, hw, decode_some]

/-- **C78**: any calls, in any order, read the input from the beginning on, each call a piece that begins where that of the call before it ends: nothing is skipped or read twice. Only `read` and `read_line` read any of it, and what they give is the piece (`read_line`: without the line feed at its end, and without a `\r` before that). -/
theorem C78_input_once (cs : List Call) (w : World) : ∃ pieces : List Bytes, pieces.length = cs.length ∧ pieces.flatten ++ (run cs w).2.input = w.input ∧
    ∀ (i : Nat) c p r, cs[i]? = some c → pieces[i]? = some p → (run cs w).1[i]? = some r →
      match c with
      | .read => (∃ s, r = .str s ∧ p = s.map some) ∨ (r = .panic ∧ none ∈ p)
      | .readLine => (∃ s, r = .str s ∧ (p = s.map some ∨ p = (s ++ ['\n']).map some ∨ p = (s ++ ['\r', '\n']).map some)) ∨ (r = .panic ∧ none ∈ p)
      | _ => p = [] := by
  have hnone : ∀ b : Bytes, decode b = none → none ∈ b := by
    intro b h
    induction b with
    | nil => cases h
    | cons c r ih =>
      cases c with
      | none => simp
      | some c =>
        simp only [decode, Option.map_eq_none_iff] at h
        simp [ih h]
  induction cs generalizing w with
  | nil => exact ⟨[], rfl, by simp [run], fun i c p r h => by simp at h⟩
  | cons c cs ih =>
    have one : ∃ p : Bytes, p ++ (step c w).2.input = w.input ∧
      match c with
      | .read => (∃ s, (step c w).1 = .str s ∧ p = s.map some) ∨ ((step c w).1 = .panic ∧ none ∈ p)
      | .readLine => (∃ s, (step c w).1 = .str s ∧ (p = s.map some ∨ p = (s ++ ['\n']).map some ∨ p = (s ++ ['\r', '\n']).map some)) ∨ ((step c w).1 = .panic ∧ none ∈ p)
      | _ => p = [] := by
      cases c with
      | print args => exact ⟨[], rfl, rfl⟩
      | writeText path t os => cases os <;> exact ⟨[], rfl, rfl⟩
      | readText path os =>
        refine ⟨[], ?_, rfl⟩
        cases os with
        | fails left => rfl
        | works => simp only [step]; split <;> try split
                   all_goals rfl
      | read =>
        refine ⟨w.input, ?_, ?_⟩
        · simp only [step]; split <;> simp
        · cases hd : decode w.input with
          | some s => exact .inl ⟨s, by simp [step, hd], decode_inj hd⟩
          | none => exact .inr ⟨by simp [step, hd], hnone _ hd⟩
      | readLine =>
        refine ⟨(takeLine w.input).1, ?_, ?_⟩
        · simp only [step]; split <;> exact takeLine_append w.input
        · cases hd : decode (takeLine w.input).1 with
          | none => exact .inr ⟨by simp [step, hd], hnone _ hd⟩
          | some s =>
            refine .inl ⟨stripLineEnding s, by simp [step, hd], ?_⟩
            rw [decode_inj hd]
            have hl : ∀ (t : List Char) (c : Char), t.getLast? = some c → t = t.dropLast ++ [c] := by
              intro t c h
              obtain ⟨ys, rfl⟩ := List.getLast?_eq_some_iff.1 h
              simp
            simp only [stripLineEnding]
            split
            · rename_i h1
              split
              · rename_i h2
                refine .inr (.inr ?_)
                have e1 := hl _ _ h1
                have e2 := hl _ _ h2
                have e3 : s = s.dropLast.dropLast ++ ['\r', '\n'] := by
                  rw [e2] at e1
                  simpa using e1
                rw [← e3]
              · exact .inr (.inl (by rw [← hl _ _ h1]))
            · exact .inl rfl
    obtain ⟨p, hp, hc⟩ := one
    obtain ⟨ps, h1, h2, h3⟩ := ih (step c w).2
    refine ⟨p :: ps, by simp [h1], ?_, ?_⟩
    · simp only [List.flatten_cons, List.append_assoc, run]
      rw [h2, hp]
    · intro i d q r hd hq hr
      cases i with
      | zero =>
        simp only [List.getElem?_cons_zero, Option.some.injEq, run] at hd hq hr
        subst hd hq hr
        exact hc
      | succ i =>
        simp only [List.getElem?_cons_succ, run] at hd hq hr
        exact h3 i d q r hd hq hr

/-- A program that reads two lines, prints and reads the rest. -/
example (w : World) (h : w.input = "one\r\n\ntwo\nx\r".toList.map some) : (run [.readLine, .readLine, .print [], .read] w).1 = [.str "one".toList, .str [], .nil, .str "two\nx\r".toList] := by
  have hl : AreLines ["one".toList, []] "one\r\n\n".toList :=
    .cons (raw := "one\r\n".toList) (.crlf _ (by decide)) (.cons (raw := "\n".toList) (.lf [] (by decide) (by decide)) .nil)
  have := C78_lines _ _ hl ("two\nx\r".toList.map some) w (by rw [h, ← List.map_append]; rfl)
  have e : [Call.readLine, .readLine, .print [], .read] = (["one".toList, []].map fun _ => Call.readLine) ++ [.print [], .read] := rfl
  rw [e, run_append, this]
  rfl

/-- **C78, violation**: at the end of the input `read_line` gives an empty string, as it does for an empty line: a program cannot tell where the input ends. -/
theorem C78_violation_end_of_input : (step .readLine ⟨[], [], fun _ => none⟩).1 = (step .readLine ⟨[some '\n'], [], fun _ => none⟩).1 := by decide

/-- **C78, violation**: the documentation says that `read` replaces `\r\n` by `\n`; it does not. -/
theorem C78_violation_read_crlf : (step .read ⟨"a\r\nb".toList.map some, [], fun _ => none⟩).1 = .str "a\r\nb".toList := by decide

/-- **C78, violation**: input that is not UTF-8 ends the interpreter with a panic, while a file that is not UTF-8 is an error of the language. -/
theorem C78_violation_utf8 : (step .read ⟨[none], [], fun _ => none⟩).1 = .panic ∧ (step .readLine ⟨[none], [], fun _ => none⟩).1 = .panic ∧ (step (.readText "f" .works) ⟨[], [], fun _ => some [none]⟩).1 = .error := by decide

/-! ## Files -/

/-- The write to the file that is last among the calls, and the file after them. -/
theorem run_files (path : String) (cs : List Call) (w : World) :
    match lastWrite path cs with
    | none => (run cs w).2.files path = w.files path
    | some (.writeText _ t .works) => (run cs w).2.files path = some (t.map some)
    | some (.writeText _ _ (.fails left)) => (run cs w).2.files path = left
    | some _ => False := by
  have one : ∀ c w, (∀ t os, c ≠ .writeText path t os) → (step c w).2.files path = w.files path := by
    intro c w h
    cases c with
    | print args => rfl
    | read => simp only [step]; split <;> rfl
    | readLine => simp only [step]; split <;> rfl
    | readText p os =>
      cases os with
      | fails left => rfl
      | works => simp only [step]; split <;> try split
                 all_goals rfl
    | writeText p t os =>
      have : path ≠ p := fun e => h t os (by rw [e])
      cases os <;> simp [step, setFile, this]
  induction cs generalizing w with
  | nil => rfl
  | cons c cs ih =>
    have ih := ih (step c w).2
    simp only [lastWrite, run]
    cases hl : lastWrite path cs with
    | some d =>
      rw [hl] at ih
      cases d with
      | writeText p t os => cases os <;> exact ih
      | print args => exact ih
      | read => exact ih
      | readLine => exact ih
      | readText p os => exact ih
    | none =>
      rw [hl] at ih
      simp only at ih ⊢
      rw [ih]
      cases c with
      | writeText p t os =>
        by_cases e : p = path
        · subst e
          simp only [if_pos]
          cases os <;> simp [step, setFile]
        · simp only [if_neg e]
          exact one _ _ (fun t' os' h => by injection h with h; exact e h)
      | print args => exact one _ _ (fun _ _ h => by cases h)
      | read => exact one _ _ (fun _ _ h => by cases h)
      | readLine => exact one _ _ (fun _ _ h => by cases h)
      | readText p os => exact one _ _ (fun _ _ h => by cases h)

/-- **C78**: after any calls, `read_text` gives the text of the last `write_text` to this file, without `\r`; so exactly this text if there is none in it. Writes to other files, reads, and what was in the file before make no difference. -/
theorem C78_files_partial (path : String) (cs : List Call) (w : World) (p : String) (t : List Char) (h : lastWrite path cs = some (.writeText p t .works)) :
    step (.readText path .works) (run cs w).2 = (.str (t.filter (· ≠ '\r')), (run cs w).2) ∧
    ((step (.readText path .works) (run cs w).2).1 = .str t ↔ '\r' ∉ t) := by
  have hf := run_files path cs w
  rw [h] at hf
  simp only at hf
  have e : step (.readText path .works) (run cs w).2 = (.str (dropCr t), (run cs w).2) := by simp [step, hf, decode_some]
  refine ⟨e, ?_⟩
  rw [e]
  simp only [dropCr, Result.str.injEq, List.filter_eq_self]
  constructor
  · intro h hm
    simpa using h _ hm
  · intro h a ha
    simp only [ne_eq, decide_not, Bool.not_eq_true', decide_eq_false_iff_not]
    intro e
    exact h (e ▸ ha)

/-- **C78**: a file to which nothing was written is as it was; a `write_text` that the operating system refuses, or a `read_text` it refuses, is an error of the program, and never a panic. -/
theorem C78_errors (path : String) (cs : List Call) (w : World) :
    (lastWrite path cs = none → (run cs w).2.files path = w.files path) ∧
    (∀ t left, (step (.writeText path t (.fails left)) w).1 = .error ∧ (step (.readText path (.fails left)) w) = (.error, w)) ∧
    (∀ os, (step (.readText path os) w).1 ≠ .panic ∧ (step (.readText path os) w).2 = w) ∧ (∀ t os, (step (.writeText path t os) w).1 ≠ .panic) := by
  refine ⟨fun h => ?_, fun t left => ⟨rfl, rfl⟩, fun os => ?_, fun t os => ?_⟩
  · have := run_files path cs w
    rw [h] at this
    exact this
  · cases os with
    | fails left => exact ⟨by simp [step], rfl⟩
    | works => simp only [step]; split <;> try split
               all_goals exact ⟨by simp, rfl⟩
  · cases os <;> simp [step]

/-- **C78, violation**: a `\r` that is not before a `\n` is lost as well, though the documentation speaks of `\r\n` only. -/
theorem C78_violation_lone_cr (w : World) : (run [.writeText "f" "a\rb".toList .works, .readText "f" .works] w).1 = [.nil, .str "ab".toList] := by
  simp [run, step, setFile, decode, dropCr]

/-- Two files. -/
example (w : World) : (run [.writeText "a" "1\n".toList .works, .writeText "b" "2".toList .works, .readText "a" .works, .print [], .writeText "a" "3".toList .works, .readText "b" .works, .readText "a" .works] w).1 =
    [.nil, .nil, .str "1\n".toList, .nil, .nil, .str "2".toList, .str "3".toList] := by
  have h := (C78_files_partial "a" [.writeText "a" "1\n".toList .works, .writeText "b" "2".toList .works] w "a" "1\n".toList (by simp [lastWrite])).1
  simp [run, step, setFile, decode, dropCr]

end Cordy.Io
