import Verif.Model.StrRepr
import Verif.Props.Scanner
/-!
# C89: `repr` of a string as a literal
-/
namespace Cordy.StrRepr
open Cordy.Scan

/-- Characters that are read back as they were: those of the escapes of the language, and those shown as they are. -/
def Faithful (plain : Char → Bool) (c : Char) : Prop := c ∈ ['\t', '\r', '\n', '\\', '"'] ∨ (c ≠ '\x00' ∧ plain c = true)

instance (plain : Char → Bool) (c : Char) : Decidable (Faithful plain c) := by unfold Faithful; infer_instance

/-- What a character is read back as: itself, or the escape which the language does not have. -/
def readBack (plain : Char → Bool) (c : Char) : List Char := if Faithful plain c then [c] else debugChar plain c

theorem repr_eq (plain : Char → Bool) (s : List Char) : repr plain s = '\'' :: (s.flatMap (debugChar plain) ++ ['\'']) := by
  unfold repr debug
  simp

theorem hex_chars (n : Nat) : ∀ c ∈ hex n, c ∉ ['\'', '"', '\\', '\r'] := by
  have digit : ∀ m < 16, Nat.digitChar m ∉ ['\'', '"', '\\', '\r'] := by decide
  induction n using Nat.strongRecOn with
  | ind n ih =>
    rw [hex]
    split
    · rename_i h
      intro c hc
      rw [List.mem_singleton] at hc
      subst hc
      exact digit n h
    · intro c hc
      rw [List.mem_append, List.mem_singleton] at hc
      rcases hc with hc | rfl
      · exact ih (n / 16) (by omega) c hc
      · exact digit _ (by omega)

/-- Characters without a meaning of their own are taken as they are. -/
theorem loop_plain : ∀ (w : List Char) (_ : ∀ c ∈ w, c ∉ ['\'', '"', '\\', '\r', '\n']) (buf rest : List Char) (cur : Nat),
    strLoop '\'' false buf [] (w ++ rest) cur = strLoop '\'' false (buf ++ w) [] rest (cur + w.length) := by
  intro w
  induction w with
  | nil => intro _ buf rest cur; simp
  | cons c cs ih =>
    intro h buf rest cur
    have hc := h c List.mem_cons_self
    simp only [List.mem_cons, List.not_mem_nil, or_false, not_or] at hc
    obtain ⟨h1, h2, h3, h4, h5⟩ := hc
    rw [List.cons_append, strLoop]
    simp only [nl, if_neg h5, List.append_nil]
    rw [if_neg (by simp [h1, h2]), if_neg h3, if_neg h4, if_neg (by simp), if_neg (by simp), if_neg (by simp)]
    simp only [Bool.false_eq_true, if_false, List.nil_append]
    rw [ih (fun x hx => h x (List.mem_cons_of_mem _ hx))]
    have e : cur + 1 + cs.length = cur + (c :: cs).length := by simp; omega
    rw [e, List.append_assoc]; rfl

theorem hex_nl (n : Nat) : ∀ c ∈ hex n, c ≠ '\n' := by
  have digit : ∀ m < 16, Nat.digitChar m ≠ '\n' := by decide
  induction n using Nat.strongRecOn with
  | ind n ih =>
    rw [hex]
    split
    · rename_i h
      intro c hc
      rw [List.mem_singleton] at hc
      subst hc
      exact digit n h
    · intro c hc
      rw [List.mem_append, List.mem_singleton] at hc
      rcases hc with hc | rfl
      · exact ih (n / 16) (by omega) c hc
      · exact digit _ (by omega)

theorem loop_char (plain : Char → Bool) (c : Char) (hq : c ≠ '\'') (buf rest : List Char) (cur : Nat) :
    ∃ k, strLoop '\'' false buf [] (debugChar plain c ++ rest) cur = strLoop '\'' false (buf ++ readBack plain c) [] rest k := by
  unfold debugChar readBack
  by_cases h0 : c = '\x00'
  · subst h0
    exact ⟨cur + 1 + 1, by simp [Faithful, debugChar, strLoop, nl]⟩
  by_cases h1 : c = '\t'
  · subst h1
    exact ⟨cur + 1 + 1, by simp [Faithful, strLoop, nl]⟩
  by_cases h2 : c = '\r'
  · subst h2
    exact ⟨cur + 1 + 1, by simp [Faithful, strLoop, nl]⟩
  by_cases h3 : c = '\n'
  · subst h3
    exact ⟨cur + 1 + 1, by simp [Faithful, strLoop, nl]⟩
  by_cases h4 : c = '\\'
  · subst h4
    exact ⟨cur + 1 + 1, by simp [Faithful, strLoop, nl]⟩
  by_cases h5 : c = '"'
  · subst h5
    exact ⟨cur + 1 + 1, by simp [Faithful, strLoop, nl]⟩
  rw [if_neg h0, if_neg h1, if_neg h2, if_neg h3, if_neg h4, if_neg h5]
  by_cases hp : plain c = true
  · have hf : Faithful plain c := Or.inr ⟨h0, hp⟩
    rw [if_pos hp, if_pos hf]
    exact ⟨_, loop_plain [c] (by simp [*]) buf rest cur⟩
  · have hf : ¬ Faithful plain c := by
      unfold Faithful
      simp [*]
    rw [if_neg hp, if_neg hf]
    unfold debugChar
    rw [if_neg h0, if_neg h1, if_neg h2, if_neg h3, if_neg h4, if_neg h5, if_neg hp]
    have e : strLoop '\'' false buf [] (('\\' :: 'u' :: '{' :: hex c.toNat ++ ['}']) ++ rest) cur =
        strLoop '\'' false (buf ++ ['\\', 'u']) [] (('{' :: hex c.toNat ++ ['}']) ++ rest) (cur + 1 + 1) := by
      simp [strLoop, nl]
    rw [e, loop_plain]
    · exact ⟨_, by rw [List.append_assoc]; rfl⟩
    · intro d hd
      simp only [List.cons_append, List.mem_cons, List.mem_append, List.not_mem_nil, or_false] at hd
      rcases hd with rfl | hd | rfl
      · decide
      · have a := hex_chars _ d hd
        have b := hex_nl _ d hd
        simp only [List.mem_cons, List.not_mem_nil, or_false, not_or] at a ⊢
        exact ⟨a.1, a.2.1, a.2.2.1, a.2.2.2, b⟩
      · decide

theorem loop_all (plain : Char → Bool) (rest : List Char) : ∀ (s : List Char) (_ : '\'' ∉ s) (buf : List Char) (cur : Nat),
    ∃ k, strLoop '\'' false buf [] (s.flatMap (debugChar plain) ++ '\'' :: rest) cur = ⟨buf ++ s.flatMap (readBack plain), true, [], rest, k⟩ := by
  intro s
  induction s with
  | nil => intro _ buf cur; exact ⟨cur + 1, by simp [strLoop, nl]⟩
  | cons c cs ih =>
    intro h buf cur
    obtain ⟨k, hk⟩ := loop_char plain c (fun e => h (e ▸ List.mem_cons_self)) buf (cs.flatMap (debugChar plain) ++ '\'' :: rest) cur
    obtain ⟨k2, hk2⟩ := ih (fun hx => h (List.mem_cons_of_mem _ hx)) (buf ++ readBack plain c) k
    exact ⟨k2, by rw [List.flatMap_cons, List.append_assoc, hk, hk2, List.flatMap_cons, List.append_assoc]⟩

/-- `repr` of a string without single quotes is a literal: one token, no error; every character is read back as itself, but for those
that are shown with an escape which the language does not have. -/
theorem C89_reads (plain : Char → Bool) (s : List Char) (h : '\'' ∉ s) :
    (tokens (scan (repr plain s))).map Prod.snd = [.string (s.flatMap (readBack plain))] ∧ errors (scan (repr plain s)) = [] := by
  obtain ⟨k, hk⟩ := loop_all plain [] s h [] 1
  have e0 : step '\'' (s.flatMap (debugChar plain) ++ ['\'']) 1 = scanString '\'' (s.flatMap (debugChar plain) ++ ['\'']) 1 := rfl
  have e1 : step '\'' (s.flatMap (debugChar plain) ++ ['\'']) 1 = ([push k (k - 1 + 1) (.string (s.flatMap (readBack plain)))], [], k) := by
    rw [e0]
    simp [scanString, hk]
  have : scan (repr plain s) = [push k (k - 1 + 1) (.string (s.flatMap (readBack plain)))] := by
    rw [repr_eq]
    unfold scan
    rw [scanFrom]
    have e : (0 + 1) = 1 := rfl
    rw [e, e1]
    simp only []
    rw [scanFrom]; rfl
  rw [this]
  simp [push, tokens, errors]

theorem readBack_length (plain : Char → Bool) (c : Char) : 1 ≤ (readBack plain c).length ∧ (¬ Faithful plain c → 2 ≤ (readBack plain c).length) := by
  unfold readBack
  by_cases h : Faithful plain c
  · simp [h]
  · rw [if_neg h]
    have : 2 ≤ (debugChar plain c).length := by
      unfold Faithful at h
      simp only [List.mem_cons, List.not_mem_nil, or_false, not_or, not_and, Bool.not_eq_true] at h
      unfold debugChar
      split
      · simp
      · rename_i h0
        have hp := h.2 h0
        simp [h.1, hp]
    exact ⟨by omega, fun _ => this⟩

theorem flatMap_length (plain : Char → Bool) (s : List Char) : s.length ≤ (s.flatMap (readBack plain)).length := by
  induction s with
  | nil => simp
  | cons c cs ih =>
    have := (readBack_length plain c).1
    rw [List.flatMap_cons, List.length_append, List.length_cons]
    omega

/-- Exactly the strings of faithful characters are read back as they were, if they have no single quote. -/
theorem C89_round_trip_partial (plain : Char → Bool) (s : List Char) (h : '\'' ∉ s) :
    (tokens (scan (repr plain s))).map Prod.snd = [.string s] ↔ ∀ c ∈ s, Faithful plain c := by
  rw [(C89_reads plain s h).1]
  have e : ([Token.string (s.flatMap (readBack plain))] = [.string s]) ↔ s.flatMap (readBack plain) = s := by simp
  rw [e]
  clear e h
  induction s with
  | nil => simp
  | cons c cs ih =>
    rw [List.flatMap_cons]
    constructor
    · intro he
      have hl := congrArg List.length he
      rw [List.length_append, List.length_cons] at hl
      have h1 := readBack_length plain c
      have h2 := flatMap_length plain cs
      have hf : Faithful plain c := by
        by_cases hf : Faithful plain c
        · exact hf
        · have := h1.2 hf; omega
      have e1 : readBack plain c = [c] := if_pos hf
      rw [e1] at he
      have := (ih.mp (List.cons.inj he).2)
      intro d hd
      rcases List.mem_cons.mp hd with rfl | hd
      · exact hf
      · exact this d hd
    · intro hf
      have e1 : readBack plain c = [c] := if_pos (hf c List.mem_cons_self)
      rw [e1, ih.mpr (fun d hd => hf d (List.mem_cons_of_mem _ hd))]
      rfl

/-- A single quote is not escaped: `repr` of `it's` is no literal. -/
theorem C89_violation_quote : errors (scan (repr (fun _ => true) "it's".toList)) ≠ [] := by
  simp [repr, debug, debugChar, scan, scanFrom, step, isBlank, isLetter, isDigit, isIdent, spanIdent, screenIdentifier, keywords, scanString, strLoop, nl, push, pushErrAt, errors]

/-- The character 0 is read back as a backslash and a digit. -/
theorem C89_violation_nul (plain : Char → Bool) : (tokens (scan (repr plain ['\x00']))).map Prod.snd = [.string ['\\', '0']] := by
  rw [(C89_reads plain _ (by decide)).1]
  simp [readBack, Faithful, debugChar]

/-- A tab, a backslash, double quotes and letters. -/
example : repr (fun c => c.isAlpha) "a\t\\\"é".toList = "'a\\t\\\\\\\"\\u{e9}'".toList := by decide +kernel
example : (tokens (scan (repr (fun c => c.isAlpha) "a\t\\\"b\n".toList))).map Prod.snd = [.string "a\t\\\"b\n".toList] :=
  (C89_round_trip_partial _ _ (by decide)).2 (by decide)

end Cordy.StrRepr
