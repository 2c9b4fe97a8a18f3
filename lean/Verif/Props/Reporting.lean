import Verif.Model.Reporting
import Verif.Props.Syntax
import Mathlib.Data.List.Induction
/-!
# C56 error locations point at the failing source line
-/
namespace Cordy.Report
open Cordy.Scan (Loc)

/-! ## Specification -/

/-- `a` consists of whole lines: it is empty or ends with a line feed. -/
def WholeLines (a : List Char) : Prop := a = [] ∨ ∃ a', a = a' ++ ['\n']

/-- Position `pos` of `text` lies in line number `line` (from 0) at column `col` (from 0): before it there are the whole lines `a`,
`line` of them, and then `col` characters of its own line. -/
def At (text a : List Char) (pos line col : Nat) : Prop :=
  ∃ b r, text = a ++ b ++ r ∧ WholeLines a ∧ '\n' ∉ b ∧ pos = a.length + b.length ∧ line = a.count '\n' ∧ col = b.length

/-- All characters are one byte long. -/
def Ascii (a : List Char) : Prop := ∀ c ∈ a, c.utf8Size = 1

/-- The calls a trace stands for: a repetition repeats the line above. -/
def expand : Option (Nat × Nat) → List Frame → List (Nat × Nat)
  | _, [] => []
  | _, .simple s c :: fs => (s, c) :: expand (some (s, c)) fs
  | some f, .again n :: fs => List.replicate n f ++ expand (some f) fs
  | none, .again _ :: fs => expand none fs

/-- The active calls, innermost first: each call site with an instruction of the function that was called there (the failing
instruction, then the previous call site).  The bottom frame has return address 0. -/
def activeCalls (ip : Nat) : List Nat → List (Nat × Nat)
  | [] => []
  | r :: rs => if r = 0 then activeCalls ip rs else (r - 1, ip) :: activeCalls (r - 1) rs

/-! ## Lemmas -/

theorem splitNl_ne (t : List Char) : splitNl t ≠ [] := by
  cases t with
  | nil => simp [splitNl]
  | cons c t => rw [splitNl]; split <;> [simp; (split <;> simp)]

theorem splitNl_nl (a x : List Char) : splitNl (a ++ '\n' :: x) = splitNl a ++ splitNl x := by
  induction a with
  | nil => simp [splitNl]
  | cons c a ih =>
    simp only [List.cons_append, splitNl]
    split
    · simp [ih]
    · rw [ih]
      cases h : splitNl a with
      | nil => exact absurd h (splitNl_ne a)
      | cons l ls => simp

theorem splitNl_length (t : List Char) : (splitNl t).length = t.count '\n' + 1 := by
  induction t with
  | nil => simp [splitNl]
  | cons c t ih =>
    rw [splitNl]
    split
    · rename_i h; subst h; simp [ih]
    · rename_i h
      rw [List.count_cons_of_ne h]
      cases hs : splitNl t with
      | nil => exact absurd hs (splitNl_ne t)
      | cons l ls => rw [hs] at ih; simpa using ih

theorem byteLen_append (a b : List Char) : byteLen (a ++ b) = byteLen a + byteLen b := by simp [byteLen]

theorem splitNl_bytes (t : List Char) : ((splitNl t).map (fun l => byteLen l + 1)).sum = byteLen t + 1 := by
  induction t with
  | nil => simp [splitNl, byteLen]
  | cons c t ih =>
    rw [splitNl]
    split
    · rename_i h; subst h
      simp only [List.map_cons, List.sum_cons, ih]
      have : ('\n' : Char).utf8Size = 1 := by decide
      simp only [byteLen, List.map_cons, List.sum_cons, this, List.map_nil, List.sum_nil]; omega
    · cases hs : splitNl t with
      | nil => exact absurd hs (splitNl_ne t)
      | cons l ls =>
        rw [hs] at ih
        simp [byteLen] at ih ⊢
        omega

/-- The first line of a text that begins with `b`. -/
theorem splitNl_head (b r : List Char) (hb : '\n' ∉ b) : ∃ l ls, splitNl (b ++ r) = (b ++ l) :: ls ∧
    (∀ c r', r = c :: r' → c ≠ '\n' → ∃ l', l = c :: l') := by
  induction b with
  | nil =>
    cases r with
    | nil => exact ⟨[], [], rfl, by simp⟩
    | cons c r =>
      simp only [List.nil_append, splitNl]
      split
      · rename_i h; exact ⟨[], _, rfl, fun d r' hd hn => by simp at hd; exact absurd (hd.1 ▸ h) hn⟩
      · cases hs : splitNl r with
        | nil => exact absurd hs (splitNl_ne r)
        | cons l ls => exact ⟨c :: l, ls, rfl, fun d r' hd _ => by simp at hd; exact ⟨l, by rw [hd.1]⟩⟩
  | cons c b ih =>
    obtain ⟨l, ls, h1, h2⟩ := ih (fun h => hb (by simp [h]))
    have hc : c ≠ '\n' := fun h => hb (by simp [h])
    refine ⟨l, ls, ?_, h2⟩
    simp [splitNl, hc, h1]

theorem startsFrom_length (s : Nat) (ls : List (List Char)) : (startsFrom s ls).length = ls.length + 1 := by
  induction ls generalizing s with
  | nil => rfl
  | cons l ls ih => simp [startsFrom, ih]

/-- The part of `starts` for the first lines. -/
def startsOf (s : Nat) : List (List Char) → List Nat
  | [] => []
  | l :: ls => s :: startsOf (s + byteLen l + 1) ls

theorem startsFrom_append (s : Nat) (a b : List (List Char)) :
    startsFrom s (a ++ b) = startsOf s a ++ startsFrom (s + (a.map (fun l => byteLen l + 1)).sum) b := by
  induction a generalizing s with
  | nil => simp [startsOf]
  | cons l a ih => simp only [List.cons_append, startsFrom, startsOf, ih, List.map_cons, List.sum_cons]; rw [show s + byteLen l + 1 + (a.map (fun l => byteLen l + 1)).sum = s + (byteLen l + 1 + (a.map (fun l => byteLen l + 1)).sum) by omega]

theorem startsOf_length (s : Nat) (a : List (List Char)) : (startsOf s a).length = a.length := by
  induction a generalizing s with
  | nil => rfl
  | cons l a ih => simp [startsOf, ih]

theorem startsOf_lt (s : Nat) (a : List (List Char)) : ∀ u ∈ startsOf s a, u < s + (a.map (fun l => byteLen l + 1)).sum := by
  induction a generalizing s with
  | nil => simp [startsOf]
  | cons l a ih =>
    intro u hu
    simp only [startsOf, List.mem_cons] at hu
    rcases hu with rfl | hu
    · simp only [List.map_cons, List.sum_cons]; omega
    · have := ih _ u hu; simp only [List.map_cons, List.sum_cons]; omega

/-- The lines and starts around a position. -/
theorem starts_at (a b r : List Char) (ha : WholeLines a) (hb : '\n' ∉ b) :
    ∃ l ls p, (∀ c r', r = c :: r' → c ≠ '\n' → ∃ l', l = c :: l') ∧
      splitNl (a ++ b ++ r) = p ++ (b ++ l) :: ls ∧ p.length = a.count '\n' ∧
      starts (a ++ b ++ r) = startsOf 0 p ++ byteLen a :: startsFrom (byteLen a + byteLen (b ++ l) + 1) ls ∧
      (∀ u ∈ startsOf 0 p, u < byteLen a) := by
  obtain ⟨l, ls, h1, h2⟩ := splitNl_head b r hb
  rcases ha with rfl | ⟨a', rfl⟩
  · refine ⟨l, ls, [], h2, by simpa using h1, by simp, ?_, by simp [startsOf]⟩
    simp only [List.nil_append, starts, h1, startsFrom, startsOf, byteLen]
    simp
  · refine ⟨l, ls, splitNl a', h2, ?_, ?_, ?_, ?_⟩
    · simp [splitNl_nl, h1]
    · rw [splitNl_length]; simp
    · have hb' : byteLen (a' ++ ['\n']) = byteLen a' + 1 := by
        rw [byteLen_append]; congr 1
      have : a' ++ ['\n'] ++ b ++ r = a' ++ '\n' :: (b ++ r) := by simp
      rw [starts, this, splitNl_nl, h1, startsFrom_append, splitNl_bytes, startsFrom, hb']; simp
    · intro u hu
      have hb' : byteLen (a' ++ ['\n']) = byteLen a' + 1 := by
        rw [byteLen_append]; congr 1
      have := startsOf_lt 0 _ u hu
      rw [splitNl_bytes] at this
      rw [hb']; omega

theorem byteLen_ascii (a : List Char) (h : Ascii a) : byteLen a = a.length := by
  induction a with
  | nil => rfl
  | cons c a ih =>
    have h1 := h c (by simp)
    have h2 := ih (fun d hd => h d (by simp [hd]))
    simp [byteLen] at h2 ⊢; omega

theorem startsFrom_cons (s : Nat) (ls : List (List Char)) : ∃ us, startsFrom s ls = s :: us := by
  cases ls <;> exact ⟨_, rfl⟩

/-- **C56** when the lines before it are ASCII, a location is resolved to the number of the line it begins in, in any text. -/
theorem C56_line_partial (text a : List Char) (loc : Loc) (line col : Nat) (h : At text a loc.start line col) (ha : Ascii a) (hw : loc.width ≠ 0) :
    lineno text loc = some line := by
  obtain ⟨b, r, rfl, h1, h2, h3, h4, h5⟩ := h
  obtain ⟨l, ls, p, _, e1, e2, e3, e4⟩ := starts_at a b r h1 h2
  have hba := byteLen_ascii a ha
  have hbl := Syntax.byteLen_le b
  obtain ⟨us, hus⟩ := startsFrom_cons (byteLen a + byteLen (b ++ l) + 1) ls
  rw [lineno, if_neg hw, e3, hus, List.takeWhile_append_of_pos (fun u hu => by have := e4 u hu; simp; omega), List.takeWhile_cons,
    if_pos (by simp; omega), List.takeWhile_cons, if_neg (by rw [byteLen_append]; simp; omega)]
  simp [startsOf_length, e2, h4]

/-- A position is in a line at most as far down as the true one, whatever the text: byte offsets never fall behind character offsets. -/
theorem C56_line_never_below (text a : List Char) (loc : Loc) (line col : Nat) (h : At text a loc.start line col) (hw : loc.width ≠ 0) :
    ∃ k, lineno text loc = some k ∧ k ≤ line := by
  obtain ⟨b, r, rfl, h1, h2, h3, h4, h5⟩ := h
  obtain ⟨l, ls, p, _, e1, e2, e3, e4⟩ := starts_at a b r h1 h2
  refine ⟨_, by rw [lineno, if_neg hw], ?_⟩
  have hba := Syntax.byteLen_le a
  have hbl := Syntax.byteLen_le b
  obtain ⟨us, hus⟩ := startsFrom_cons (byteLen a + byteLen (b ++ l) + 1) ls
  have : ∀ (xs : List Nat) (y : Nat) (zs : List Nat) (n : Nat), ¬ y ≤ n → ((xs ++ y :: zs).takeWhile (fun u => decide (u ≤ n))).length ≤ xs.length := by
    intro xs y zs n hy
    induction xs with
    | nil => simp [hy]
    | cons x xs ih => simp only [List.cons_append, List.takeWhile_cons]; split <;> simp; simpa using ih
  have k := this (startsOf 0 p ++ [byteLen a]) (byteLen a + byteLen (b ++ l) + 1) us loc.start (by rw [byteLen_append]; omega)
  rw [e3, hus]
  simp only [List.append_assoc, List.cons_append, List.nil_append, List.length_append, List.length_cons, List.length_nil, startsOf_length] at k
  omega

theorem endLine_eq (ss : List Nat) (last k j : Nat) (hkj : k ≤ j) (u : Nat) (h1 : ss[j + 1]? = some u) (hu : last ≤ u)
    (h2 : ∀ i : Nat, k ≤ i → i < j → ∀ v, ss[i + 1]? = some v → v < last) : endLine ss last k = some j := by
  induction hn : j - k generalizing k with
  | zero =>
    have : k = j := by omega
    subst this
    rw [endLine]; split
    · rename_i h; rw [h] at h1; simp at h1
    · rename_i v h; rw [h] at h1; simp at h1; subst h1; rw [if_neg (by omega)]
  | succ n ih =>
    rw [endLine]; split
    · rename_i h
      have := (List.getElem?_eq_some_iff.1 h1).1
      have := List.getElem?_eq_none_iff.1 h
      omega
    · rename_i v h
      rw [if_pos (h2 k (Nat.le_refl _) (by omega) v h)]
      exact ih (k + 1) (by omega) (fun i hi hij => h2 i (by omega) hij) (by omega)

theorem stripCr_prefix (x y : List Char) (c : Char) (hc : c ≠ '\r') : x ++ [c] <+: stripCr (x ++ c :: y) := by
  unfold stripCr
  split
  · rename_i h
    rcases List.eq_nil_or_concat y with rfl | ⟨y', d, rfl⟩
    · simp at h; exact absurd h hc
    · refine ⟨y', ?_⟩
      have : x ++ c :: (y' ++ [d]) = (x ++ c :: y') ++ [d] := by simp
      rw [show y'.concat d = y' ++ [d] by simp, this, List.dropLast_concat]; simp
  · exact ⟨y, by simp⟩

theorem whole_prefix {a b r a2 b2 r2 : List Char} (e : a ++ b ++ r = a2 ++ b2 ++ r2) (h : WholeLines a) (hb2 : '\n' ∉ b2)
    (hle : a.length ≤ a2.length + b2.length) : ∃ y, a2 = a ++ y := by
  have p1 : a <+: a2 ++ b2 ++ r2 := ⟨b ++ r, by rw [← e]; simp⟩
  have p2 : a2 <+: a2 ++ b2 ++ r2 := ⟨b2 ++ r2, by simp⟩
  rcases List.prefix_or_prefix_of_prefix p1 p2 with ⟨y, hy⟩ | ⟨x, hx⟩
  · exact ⟨y, hy.symm⟩
  · cases x using List.reverseRecOn with
    | nil => exact ⟨[], by simpa using hx⟩
    | append_singleton x c _ =>
      exfalso
      have hc : c = '\n' := by
        rcases h with rfl | ⟨a', rfl⟩
        · simp at hx
        · have := congrArg List.getLast? hx
          simpa using this
      subst hc
      have hp : x ++ ['\n'] <+: b2 ++ r2 := by
        obtain ⟨w, hw⟩ := p1
        rw [← hx] at hw
        exact ⟨w, by simpa using hw⟩
      have hb : b2 <+: b2 ++ r2 := ⟨r2, rfl⟩
      have hl := congrArg List.length hx
      simp at hl
      have := List.prefix_of_prefix_length_le hp hb (by simp; omega)
      exact hb2 (this.subset (by simp))

theorem whole_eq {a y : List Char} (h : WholeLines (a ++ y)) (hc : (a ++ y).count '\n' = a.count '\n') : y = [] := by
  cases y using List.reverseRecOn with
  | nil => rfl
  | append_singleton y c _ =>
    exfalso
    have hc' : c = '\n' := by
      rcases h with h | ⟨a', h⟩
      · simp at h
      · have := congrArg List.getLast? h
        simpa using this
    subst hc'
    simp at hc

/-- **C56** the report of a location names the lines it begins and ends in, shows those lines, and points at its first and last
column, when the lines before it are ASCII and it does not end exactly at the first character of a later line than it began in. -/
theorem C56_report_partial (text a a2 : List Char) (loc : Loc) (line col line2 col2 : Nat) (hw : loc.width ≠ 0)
    (h : At text a loc.start line col) (h' : At text a2 loc.last line2 col2) (ha : Ascii a2)
    (hend : col2 ≠ 0 ∨ line2 = line) :
    ∃ s, format text loc = some s ∧ s.first = line ∧ s.last = line2 ∧ s.startCol = col ∧ s.endCol = col2 ∧
      s.lines.length = line2 - line + 1 ∧
      ∀ c, text[loc.start]? = some c → c ≠ '\n' → c ≠ '\r' → ∃ l, s.lines[0]? = some l ∧ l[col]? = some c := by
  have hpos : loc.start ≤ loc.last := by simp [Loc.last]; omega
  obtain ⟨b, r, e, h1, h2, h3, h4, h5⟩ := h
  obtain ⟨b2, r2, e', g1, g2, g3, g4, g5⟩ := h'
  obtain ⟨y, hy⟩ := whole_prefix (e.symm.trans e') h1 g2 (by omega)
  have ha1 : Ascii a := fun c hc => ha c (by rw [hy]; simp [hc])
  have hline : lineno text loc = some line := C56_line_partial text a loc line col ⟨b, r, e, h1, h2, h3, h4, h5⟩ ha1 hw
  obtain ⟨l, ls, p, q0, q1, q2, q3, q4⟩ := starts_at a b r h1 h2
  obtain ⟨l', ls', p', q0', q1', q2', q3', q4'⟩ := starts_at a2 b2 r2 g1 g2
  rw [← e] at q1 q3
  rw [← e'] at q1' q3'
  have hle : line ≤ line2 := by rw [h4, g4, hy]; simp
  have hba := byteLen_ascii a ha1
  have hba2 := byteLen_ascii a2 ha
  have hbl2 := Syntax.byteLen_le b2
  obtain ⟨us, hus⟩ := startsFrom_cons (byteLen a2 + byteLen (b2 ++ l') + 1) ls'
  have s0 : (starts text)[line]? = some a.length := by
    rw [q3, h4, ← q2, ← startsOf_length 0 p]; simp [hba]
  have s1 : (starts text)[line2]? = some a2.length := by
    rw [q3', g4, ← q2', ← startsOf_length 0 p']; simp [hba2]
  have s2 : (starts text)[line2 + 1]? = some (byteLen a2 + byteLen (b2 ++ l') + 1) := by
    rw [q3', g4, ← q2', ← startsOf_length 0 p', List.getElem?_append_right (by omega)]; simp [hus]
  have hln : (lines text)[line2]? = some (stripCr (b2 ++ l')) := by
    rw [lines, q1', List.getElem?_map, g4, ← q2']; simp
  have hll : (lines text).length = p'.length + 1 + ls'.length := by rw [lines, q1']; simp; omega
  have hend : endLine (starts text) loc.last line = some line2 := by
    refine endLine_eq _ _ _ _ hle _ s2 (by rw [byteLen_append]; omega) ?_
    intro i hi hij v hv
    by_cases hi2 : i + 1 = line2
    · rw [hi2, s1] at hv
      simp at hv
      rcases hend with hend | hend <;> omega
    · rw [q3', List.getElem?_append_left (by rw [startsOf_length]; omega)] at hv
      have := q4' v (List.mem_of_getElem? hv)
      omega
  rw [format]
  simp only [hline, Option.getD_some, if_neg hw, hend, s0, s1, hln, Option.bind_some]
  refine ⟨_, rfl, rfl, rfl, by simp only; omega, by simp only; omega, ?_, ?_⟩
  · simp [hll]; omega
  · intro c hc hcn hcr
    have hr : ∃ r', r = c :: r' := by
      rw [e, h3, ← List.length_append] at hc
      cases r with
      | nil => simp at hc
      | cons d r' => simp at hc; exact ⟨r', by rw [hc]⟩
    obtain ⟨r', rfl⟩ := hr
    obtain ⟨l'', rfl⟩ := q0 c r' rfl hcn
    have hln1 : (lines text)[line]? = some (stripCr (b ++ c :: l'')) := by
      rw [lines, q1, List.getElem?_map, h4, ← q2]; simp
    refine ⟨stripCr (b ++ c :: l''), ?_, ?_⟩
    · simp only [List.getElem?_drop, List.getElem?_take]
      rw [Nat.add_zero, if_pos (by omega), hln1]
    · obtain ⟨z, hz⟩ := stripCr_prefix b l'' c hcr
      rw [← hz, h5]; simp

/-- Two lines, an error in the second: `let x = 1` / `x + nil`, location of `x + nil`. -/
example : format "let x = 1\nx + nil\n".toList ⟨10, 7⟩ = some ⟨1, 1, ["x + nil".toList], 0, 6⟩ := by
  rw [format]
  have h : endLine (starts "let x = 1\nx + nil\n".toList) 16 1 = some 1 := by
    refine endLine_eq _ _ _ _ (Nat.le_refl _) 18 (by decide) (by decide) (by omega)
  have h2 : lineno "let x = 1\nx + nil\n".toList ⟨10, 7⟩ = some 1 := by decide
  simp only [h2, Option.getD_some, Loc.last]
  rw [show 10 + 7 - 1 = 16 from rfl, h]
  decide

/-- The hypotheses of `C56_report_partial` for that location. -/
example : At "let x = 1\nx + nil\n".toList "let x = 1\n".toList 10 1 0 ∧ At "let x = 1\nx + nil\n".toList "let x = 1\n".toList 16 1 6 ∧
    Ascii "let x = 1\n".toList := by
  refine ⟨⟨[], "x + nil\n".toList, by decide, .inr ⟨"let x = 1".toList, by decide⟩, by decide, by decide, by decide, by decide⟩,
    ⟨"x + ni".toList, "l\n".toList, by decide, .inr ⟨"let x = 1".toList, by decide⟩, by decide, by decide, by decide, by decide⟩, ?_⟩
  unfold Ascii; decide

/-- **C56 (violation)** after a line with characters of more than one byte the reported line is too early: position 4 is the `x` of
the second line, the report says line 1 (index 0). -/
theorem C56_violation_bytes : At "'é'\nx".toList "'é'\n".toList 4 1 0 ∧ lineno "'é'\nx".toList ⟨4, 1⟩ = some 0 := by
  refine ⟨⟨[], ['x'], by decide, .inr ⟨"'é'".toList, by decide⟩, by decide, by decide, by decide, by decide⟩, by decide⟩

/-- **C56 (violation)** a location that ends at the first character of a line is reported to end in the line before. -/
theorem C56_violation_end : At "(\n)".toList "(\n".toList 2 1 0 ∧ (format "(\n)".toList ⟨0, 3⟩).map (fun s => (s.first, s.last)) = some (0, 0) := by
  refine ⟨⟨[], [')'], by decide, .inr ⟨['('], by decide⟩, by decide, by decide, by decide, by decide⟩, ?_⟩
  have h : endLine (starts "(\n)".toList) 2 0 = some 0 := endLine_eq _ _ _ _ (Nat.le_refl _) 2 (by decide) (by decide) (by omega)
  have h2 : lineno "(\n)".toList ⟨0, 3⟩ = some 0 := by decide
  rw [format]
  simp only [h2, Option.getD_some, Loc.last]
  rw [show 0 + 3 - 1 = 2 from rfl, h]
  decide

/-- **C56** a location belongs to the source it was created for: sources loaded later change no earlier report, and a location of the
newest source is looked up in it. -/
theorem C56_source (v : View) (name text : List Char) (index : Nat) (loc : Loc) :
    (index < v.length → (v.push name text).format index loc = v.format index loc) ∧
    (v.push name text).format v.length loc = (format text loc).map (fun s => (name, s)) := by
  refine ⟨fun h => ?_, ?_⟩
  · simp [View.format, View.push, List.getElem?_append_left h]
  · simp [View.format, View.push]

theorem trace_expand (rs : List Nat) : ∀ (ip : Nat) (o : Option (Nat × Nat)) (n : Nat), (o = none → n = 0) →
    expand o (trace rs ip o n) = (match o with | some f => List.replicate (n - 3) f | none => []) ++ activeCalls ip rs := by
  induction rs with
  | nil =>
    intro ip o n ho
    rw [trace]
    cases o with
    | none => simp [ho rfl, expand, activeCalls]
    | some f =>
      split
      · simp [expand, activeCalls]
      · rw [show n - 3 = 0 by omega]; simp [expand, activeCalls]
  | cons r rs ih =>
    intro ip o n ho
    rw [trace, activeCalls]
    by_cases hr : r = 0
    · simp only [hr, Nat.lt_irrefl, if_false, if_true]; exact ih ip o n ho
    · rw [if_pos (by omega), if_neg hr]
      simp only
      have ih1 := fun n => ih (r - 1) (some (r - 1, ip)) n (by simp)
      simp only at ih1
      split
      · rename_i he; subst he
        split
        · rename_i hn
          simp only [List.cons_append, List.nil_append, expand, ih1]
          rw [show n + 1 - 3 = 0 by omega, show n - 3 = 0 by omega]; simp
        · rename_i hn
          simp only [List.nil_append, ih1]
          rw [show n + 1 - 3 = (n - 3) + 1 by omega, List.replicate_succ']; simp
      · rename_i he
        cases o with
        | none => simp [ho rfl, expand, ih1]
        | some f =>
          split
          · simp [expand, ih1]
          · rw [show n - 3 = 0 by omega]; simp [expand, ih1]

/-- **C56** the stack trace of an error, with its repetition lines written out, is exactly the active calls from the innermost out. -/
theorem C56_stack_trace (ip : Nat) (rets : List Nat) : expand none (stackTrace ip rets) = activeCalls ip rets := by
  have := trace_expand rets ip none 0 (fun _ => rfl)
  simpa [stackTrace] using this

/-- Runaway recursion: seven frames from the same call site inside the function. -/
example : stackTrace 9 [6, 6, 6, 6, 6, 6, 6, 20, 0] =
    [.simple 5 9, .simple 5 5, .simple 5 5, .simple 5 5, .simple 5 5, .again 2, .simple 19 5] := by decide

end Cordy.Report
