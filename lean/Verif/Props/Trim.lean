import Verif.Model.Trim
/-!
# C84: `trim`, `to_lower` and `to_upper`
-/
namespace Cordy.Trim
open Cordy.Op

/-- The white space characters of Unicode (PropList.txt, White_Space). -/
def spaces : List Nat := [0x9, 0xA, 0xB, 0xC, 0xD, 0x20, 0x85, 0xA0, 0x1680, 0x2000, 0x2001, 0x2002, 0x2003, 0x2004, 0x2005, 0x2006, 0x2007, 0x2008, 0x2009, 0x200A, 0x2028, 0x2029, 0x202F, 0x205F, 0x3000]

def Space (c : Char) : Prop := c.toNat ∈ spaces

theorem white_iff (c : Char) : white c = true ↔ Space c := by
  simp only [white, Space, spaces, List.mem_cons, List.not_mem_nil, or_false, Bool.or_eq_true, Bool.and_eq_true, decide_eq_true_eq]
  omega

/-- `r` is `s` without the white space at both ends. -/
def Trimmed (s r : List Char) : Prop := ∃ a b, s = a ++ r ++ b ∧ (∀ c ∈ a, Space c) ∧ (∀ c ∈ b, Space c) ∧ (∀ c, r.head? = some c → ¬ Space c) ∧ (∀ c, r.getLast? = some c → ¬ Space c)

theorem dropWhile_split {α : Type} (p : α → Bool) (s : List α) : ∃ a, s = a ++ s.dropWhile p ∧ (∀ c ∈ a, p c = true) ∧ ∀ c, (s.dropWhile p).head? = some c → p c = false := by
  induction s with
  | nil => exact ⟨[], rfl, by simp, by simp⟩
  | cons c s ih =>
    by_cases h : p c = true
    · obtain ⟨a, e, h1, h2⟩ := ih
      refine ⟨c :: a, ?_, ?_, ?_⟩
      · rw [List.dropWhile_cons, if_pos h, List.cons_append, ← e]
      · intro d hd
        rcases List.mem_cons.1 hd with rfl | hd
        · exact h
        · exact h1 d hd
      · rw [List.dropWhile_cons, if_pos h]; exact h2
    · refine ⟨[], by rw [List.dropWhile_cons, if_neg h]; rfl, by simp, ?_⟩
      rw [List.dropWhile_cons, if_neg h]
      intro d hd
      simp at hd
      subst hd
      simpa using h

/-- **C84** `trim(s)` is `s` without white space at both ends; other values are errors. -/
theorem C84_trim (s : List Char) : ∃ r, trim (.str s) = .ok (.str r) ∧ Trimmed s r := by
  refine ⟨_, rfl, ?_⟩
  obtain ⟨a, e1, h1, h2⟩ := dropWhile_split white s
  obtain ⟨b, e2, h3, h4⟩ := dropWhile_split white (s.dropWhile white).reverse
  have e3 : s.dropWhile white = trimChars s ++ b.reverse := by
    have := congrArg List.reverse e2
    simpa [trimChars] using this
  refine ⟨a, b.reverse, ?_, fun c hc => (white_iff c).1 (h1 c hc), fun c hc => (white_iff c).1 (h3 c (by simpa using hc)), ?_, ?_⟩
  · rw [List.append_assoc, ← e3]; exact e1
  · intro c hc hw
    have : (s.dropWhile white).head? = some c := by
      rw [e3]
      cases ht : trimChars s with
      | nil => rw [ht] at hc; simp at hc
      | cons d t => rw [ht] at hc; simpa using hc
    have := h2 c this
    rw [(white_iff c).2 hw] at this
    simp at this
  · intro c hc hw
    have := h4 c (by simpa [trimChars] using hc)
    rw [(white_iff c).2 hw] at this
    simp at this

/-- **C84** there is only one such text (if `s` is not all white space it determines the middle; else it is empty). -/
theorem C84_trim_unique (s r r' : List Char) (h : Trimmed s r) (h' : Trimmed s r') : r = r' := by
  have key : ∀ r, Trimmed s r → r = trimChars s := by
    rintro r ⟨a, b, rfl, ha, hb, hf, hl⟩
    have dw : ∀ (a t : List Char), (∀ c ∈ a, Space c) → (a ++ t).dropWhile white = t.dropWhile white := by
      intro a t h
      induction a with
      | nil => rfl
      | cons c a ih =>
        rw [List.cons_append, List.dropWhile_cons, if_pos ((white_iff c).2 (h c (by simp)))]
        exact ih fun c hc => h c (by simp [hc])
    have keep : ∀ t : List Char, (∀ c, t.head? = some c → ¬ Space c) → t.dropWhile white = t := by
      intro t h
      cases t with
      | nil => rfl
      | cons c t =>
        rw [List.dropWhile_cons, if_neg]
        intro hw
        exact h c rfl ((white_iff c).1 hw)
    unfold trimChars
    rw [List.append_assoc, dw a _ ha]
    cases r with
    | nil =>
      have := dw b [] hb
      simp only [List.append_nil, List.dropWhile_nil] at this
      simp [this]
    | cons c r =>
      rw [keep (c :: r ++ b) (by intro d hd; exact hf d (by simpa using hd)), List.reverse_append, dw _ _ (fun c hc => hb c (by simpa using hc)),
        keep _ (by intro d hd; exact hl d (by rwa [List.head?_reverse] at hd)), List.reverse_reverse]
  rw [key r h, key r' h']

/-- **C84** trimming twice is trimming once. -/
theorem C84_trim_twice (s r : List Char) (h : trim (.str s) = .ok (.str r)) : trim (.str r) = .ok (.str r) := by
  obtain ⟨r1, e1, a, b, _, _, _, h1, h2⟩ := C84_trim s
  rw [h] at e1
  simp only [Except.ok.injEq, Val.str.injEq] at e1
  subst e1
  obtain ⟨r2, e2, h3⟩ := C84_trim r
  rw [e2, C84_trim_unique r r r2 ⟨[], [], by simp, by simp, by simp, h1, h2⟩ h3]

def upperLetters : List Char := "ABCDEFGHIJKLMNOPQRSTUVWXYZ".toList
def lowerLetters : List Char := "abcdefghijklmnopqrstuvwxyz".toList

/-- The letter at the same place of another alphabet; other characters are themselves. -/
def swapIn (xs ys : List Char) (c : Char) : Char := ((xs.zip ys).lookup c).getD c

theorem ascii_all (P : Char → Prop) [DecidablePred P] (h : ∀ n : Fin 128, P (Char.ofNat n)) (c : Char) (hc : c.toNat < 128) : P c := by
  have := h ⟨c.toNat, hc⟩
  simpa using this

/-- **C84** `to_lower` and `to_upper` of a text of ASCII characters replace the letters by those of the other case, and leave the other characters; other values are errors.
Missing: texts with other characters. -/
theorem C84_case_partial (rest : List Char → List Char) (s : List Char) (h : ∀ c ∈ s, c.toNat < 128) :
    toLower rest (.str s) = .ok (.str (s.map (swapIn upperLetters lowerLetters))) ∧ toUpper rest (.str s) = .ok (.str (s.map (swapIn lowerLetters upperLetters))) := by
  have ha : s.all (fun c => decide (c.toNat < 128)) = true := by simpa using h
  have h1 : s.map lowerChar = s.map (swapIn upperLetters lowerLetters) := List.map_congr_left fun c hc =>
    ascii_all (fun c => lowerChar c = swapIn upperLetters lowerLetters c) (by decide +kernel) c (h c hc)
  have h2 : s.map upperChar = s.map (swapIn lowerLetters upperLetters) := List.map_congr_left fun c hc =>
    ascii_all (fun c => upperChar c = swapIn lowerLetters upperLetters c) (by decide +kernel) c (h c hc)
  simp only [toLower, toUpper, ha, if_true, h1, h2, and_self]

/-- **C84** other values than strings are errors. -/
theorem C84_error (rest : List Char → List Char) (v : Val) (h : ∀ s, v ≠ .str s) : trim v = .error .argStr ∧ toLower rest v = .error .argStr ∧ toUpper rest v = .error .argStr := by
  cases v <;> first | exact ⟨rfl, rfl, rfl⟩ | exact absurd rfl (h _)

example : trim (.str " \t a b\n".toList) = .ok (.str "a b".toList) := by rfl
example : Trimmed " a ".toList "a".toList := ⟨[' '], [' '], rfl, by unfold Space; decide, by unfold Space; decide, by unfold Space; decide, by unfold Space; decide⟩
example : toUpper id (.str "aZ é".toList) = .ok (.str "aZ é".toList) ∧ toUpper id (.str "aZ 1".toList) = .ok (.str "AZ 1".toList) := ⟨rfl, rfl⟩

end Cordy.Trim
