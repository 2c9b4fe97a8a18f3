import Verif.Props.Syntax
import Verif.Props.ScannerWords
/-!
# C60: the classes of the tokens

The specification lists the words of each class itself.
-/
namespace Cordy.Syntax
open Cordy.Scan

/-! ## Specification -/

/-- The words that are shown as constants: the literals and the operators that are words. -/
def constantWords : List (List Char) :=
  [['t', 'r', 'u', 'e'], ['f', 'a', 'l', 's', 'e'], ['n', 'i', 'l'], ['a', 'n', 'd'], ['o', 'r'], ['n', 'o', 't'], ['i', 's'], ['i', 'n'],
   ['s', 'e', 'l', 'f']]

/-- The words that are shown as keywords. -/
def keywordWords : List (List Char) :=
  [['l', 'e', 't'], ['f', 'n'], ['r', 'e', 't', 'u', 'r', 'n'], ['i', 'f'], ['e', 'l', 'i', 'f'], ['e', 'l', 's', 'e'], ['t', 'h', 'e', 'n'],
   ['l', 'o', 'o', 'p'], ['w', 'h', 'i', 'l', 'e'], ['f', 'o', 'r'], ['b', 'r', 'e', 'a', 'k'], ['c', 'o', 'n', 't', 'i', 'n', 'u', 'e'], ['d', 'o'],
   ['s', 't', 'r', 'u', 'c', 't'], ['e', 'x', 'i', 't'], ['a', 's', 's', 'e', 'r', 't'], ['m', 'o', 'd', 'u', 'l', 'e'], ['n', 'a', 't', 'i', 'v', 'e']]

/-- The class of a word: `find w` says whether `w` names a library function, and whether that function is a type. -/
def wordClass (find : List Char → Option Bool) (w : List Char) : Ty :=
  if w ∈ constantWords then .constant
  else if w ∈ keywordWords then .keyword
  else match find w with
    | some true => .type
    | some false => .native
    | none => .syntax

/-! ## Theorems -/

theorem reserved_class (find : List Char → Option Bool) {w : List Char} {t : Token} (h : Reserved w t) : tyOf find t = wordClass find w := by
  cases h <;> simp [tyOf, wordClass, constantWords, keywordWords]

theorem word_reserved {w : List Char} (h : w ∈ constantWords ∨ w ∈ keywordWords) : ∃ t, Reserved w t := by
  simp only [constantWords, keywordWords, List.mem_cons, List.not_mem_nil, or_false] at h
  rcases h with h | h
  · rcases h with h | h | h | h | h | h | h | h | h <;> subst h <;> exact ⟨_, by constructor⟩
  · rcases h with h | h | h | h | h | h | h | h | h | h | h | h | h | h | h | h | h | h <;> subst h <;> exact ⟨_, by constructor⟩

/-- **C60** the class of a word is the one of the tables above, wherever the word stands: the token scanned there has that class. -/
theorem C60_words (find : List Char → Option Bool) (c : Char) (cs rest : List Char) (hc : Letter c) (hcs : ∀ d ∈ cs, WordChar d)
    (hr : ∀ d, rest.head? = some d → ¬ WordChar d) (cur : Nat) :
    ∃ t, scanFrom (c :: cs ++ rest) cur = .tok ⟨cur, cs.length + 1⟩ t :: scanFrom rest (cur + cs.length + 1) ∧
      tyOf find t = wordClass find (c :: cs) := by
  obtain ⟨t, h1, h2⟩ := C29_word c cs rest hc hcs hr cur
  refine ⟨t, h1, ?_⟩
  rcases h2 with h2 | ⟨rfl, h2⟩
  · exact reserved_class find h2
  · have k1 : c :: cs ∉ constantWords := fun h => by obtain ⟨t, ht⟩ := word_reserved (.inl h); exact h2 t ht
    have k2 : c :: cs ∉ keywordWords := fun h => by obtain ⟨t, ht⟩ := word_reserved (.inr h); exact h2 t ht
    rw [wordClass, if_neg k1, if_neg k2]
    rfl

/-- **C60** numbers, imaginary ones too, are numbers, strings are strings, operators and punctuation other than words are plain. -/
theorem C60_others (find : List Char → Option Bool) :
    (∀ i, tyOf find (.int i) = .number) ∧ (∀ i, tyOf find (.complex i) = .number) ∧ (∀ s, tyOf find (.string s) = .string) ∧
    ∀ s t, Op s t → tyOf find t = .syntax := by
  refine ⟨fun _ => rfl, fun _ => rfl, fun _ => rfl, fun s t h => ?_⟩
  cases h <;> rfl

/-- A case: `int`, a type, then a bracket. -/
example : ∃ t, scanFrom ['i', 'n', 't', '('] 5 = .tok ⟨5, 3⟩ t :: scanFrom ['('] 8 ∧ tyOf (fun _ => some true) t = .type := by
  have h := C60_words (fun _ => some true) 'i' ['n', 't'] ['('] (by simp [Letter]) (by simp [WordChar, Letter]) (by simp [WordChar, Letter]) 5
  simpa [wordClass, constantWords, keywordWords] using h

end Cordy.Syntax
