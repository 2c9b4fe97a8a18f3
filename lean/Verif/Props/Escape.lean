import Verif.Model.Escape
/-!
# C85: Tabs, carriage returns and line feeds in patterns
-/
namespace Cordy.Escape

/-- The elements of a pattern: a character that stands for itself or has a meaning, or a backslash with the character it escapes. -/
inductive Elem where
  | plain (c : Char)
  | esc (c : Char)
  /-- a backslash at the end -/
  | open
  deriving DecidableEq

def elems : List Char → List Elem
  | [] => []
  | ['\\'] => [.open]
  | '\\' :: c :: cs => .esc c :: elems cs
  | c :: cs => .plain c :: elems cs

/-- What an element of a regular expression means, as far as it matters here: `\t`, `\r` and `\n` are the control characters. -/
def Elem.meaning : Elem → Elem
  | .esc 't' => .plain '\t'
  | .esc 'r' => .plain '\r'
  | .esc 'n' => .plain '\n'
  | e => e

def control (c : Char) : Prop := c = '\t' ∨ c = '\r' ∨ c = '\n'

/-- No control character is itself escaped. -/
def Unescaped (s : List Char) : Prop := ∀ c, control c → Elem.esc c ∉ elems s

theorem escape_other {c : Char} (h : ¬ control c) : escapeChar c = [c] := by
  unfold control at h
  simp only [not_or] at h
  simp [escapeChar, h]

/-- **C85** the pattern that is compiled has no control characters of these three kinds. -/
theorem C85_no_controls (s : List Char) (c : Char) (h : control c) : c ∉ escape s := by
  induction s with
  | nil => simp [escape]
  | cons d s ih =>
    simp only [escape, List.mem_append, not_or]
    refine ⟨?_, ih⟩
    by_cases hd : control d
    · rcases hd with rfl | rfl | rfl <;> rcases h with rfl | rfl | rfl <;> decide
    · rw [escape_other hd]
      simp only [List.mem_singleton]
      rintro rfl
      exact hd h

/-- **C85** and it means the same as the text that was given. Missing: control characters that are escaped themselves (`C85_violation_escaped`). -/
theorem C85_meaning_partial (s : List Char) (h : Unescaped s) : (elems (escape s)).map Elem.meaning = (elems s).map Elem.meaning := by
  fun_induction elems s with
  | case1 => rfl
  | case2 => rfl
  | case3 c cs ih =>
    have hc : ¬ control c := fun hc => h c hc (by simp [elems])
    have h' : Unescaped cs := fun d hd hm => h d hd (by simp [elems, hm])
    have e : escape ('\\' :: c :: cs) = '\\' :: c :: escape cs := by
      simp only [escape, escape_other hc]; rfl
    rw [e, elems, List.map_cons, ih h']
    rfl
  | case4 c cs h1 h2 ih =>
    have hb : c ≠ '\\' := by
      rintro rfl
      cases cs with
      | nil => exact h1 rfl rfl
      | cons d cs => exact h2 d cs rfl rfl
    have pl : ∀ (d : Char) (t : List Char), d ≠ '\\' → elems (d :: t) = .plain d :: elems t := fun d t hd => by
      rw [elems]
      · intro hd'; exact absurd hd' hd
      · intro _ _ hd'; exact absurd hd' hd
    have h' : Unescaped cs := fun d hd hm => h d hd (by rw [pl c cs hb]; simp [hm])
    by_cases hc : control c
    · rcases hc with rfl | rfl | rfl
      all_goals
        simp only [escape, List.map_cons, ← ih h']
        rfl
    · have e : escape (c :: cs) = c :: escape cs := by simp only [escape, escape_other hc]; rfl
      rw [e, pl c _ hb, List.map_cons, List.map_cons, ih h']

/-- **C85, violated**: a line feed after a backslash (in a regular expression an escaped line feed) becomes an escaped backslash and the letter `n`. -/
theorem C85_violation_escaped : elems (escape ['\\', '\n']) = [.esc '\\', .plain 'n'] ∧ elems ['\\', '\n'] = [.esc '\n'] := by decide

/-- **C85** texts without these characters are compiled as they are. -/
theorem C85_same (s : List Char) (h : ∀ c ∈ s, ¬ control c) : escape s = s := by
  induction s with
  | nil => rfl
  | cons c s ih =>
    simp only [escape, escape_other (h c (by simp)), ih fun c hc => h c (by simp [hc])]
    rfl

example : escape "a\n[\t\\s]".toList = "a\\n[\\t\\s]".toList := by decide
example : Unescaped "a\n[\t\\s]".toList := by unfold Unescaped control; rintro c (rfl | rfl | rfl) <;> decide

end Cordy.Escape
