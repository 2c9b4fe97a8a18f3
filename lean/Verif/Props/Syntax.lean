import Verif.Model.Syntax
import Verif.Props.Scanner
/-!
# C60 syntax highlighting only adds markup
-/
namespace Cordy.Syntax
open Cordy.Scan

/-! ## Specification -/

/-- The text with the markup removed. -/
def text : List Ev → List Char
  | [] => []
  | .push c :: es => c :: text es
  | _ :: es => text es

/-- Sections are properly opened and closed, with the same class, and never nested; only blanks stand outside of sections. -/
def WellFormed : Option Ty → List Ev → Prop
  | o, [] => o = none
  | o, .begin t :: es => o = none ∧ WellFormed (some t) es
  | o, .fin t :: es => o = some t ∧ WellFormed none es
  | o, .push c :: es => (o = none → c ∈ [' ', '\t', '\r', '\n']) ∧ WellFormed o es

/-- No section contains a line feed. -/
def NoBreakInside : Option Ty → List Ev → Prop
  | _, [] => True
  | _, .begin t :: es => NoBreakInside (some t) es
  | _, .fin _ :: es => NoBreakInside none es
  | o, .push c :: es => (o ≠ none → c ≠ '\n') ∧ NoBreakInside o es

/-- The sections, with their text. -/
def sections : Option (Ty × List Char) → List Ev → List (Ty × List Char)
  | _, [] => []
  | _, .begin t :: es => sections (some (t, [])) es
  | o, .fin _ :: es => o.toList ++ sections none es
  | some (t, s), .push c :: es => sections (some (t, s ++ [c])) es
  | none, .push _ :: es => sections none es

/-! ## Lemmas -/

theorem text_append (a b : List Ev) : text (a ++ b) = text a ++ text b := by
  induction a with
  | nil => rfl
  | cons e a ih => cases e <;> simp [text, ih]

theorem text_push (s : List Char) : text (s.map Ev.push) = s := by
  induction s with
  | nil => rfl
  | cons c s ih => simp [text, ih]

theorem blanks_split : ∀ cs, (blanks cs).1 ++ (blanks cs).2 = cs
  | [] => rfl
  | c :: cs => by
    rw [blanks]; split
    · simp [blanks_split cs]
    · rfl

theorem isBlank_iff (c : Char) : isBlank c = true ↔ c ∈ [' ', '\t', '\r', '\n'] := by
  simp [isBlank, or_assoc]

theorem blanks_blank : ∀ cs, ∀ c ∈ (blanks cs).1, isBlank c = true
  | [] => by simp [blanks]
  | c :: cs => by
    rw [blanks]; split
    · intro d hd
      rcases List.mem_cons.1 hd with rfl | hd
      · assumption
      · exact blanks_blank cs d hd
    · simp

theorem pushN_some (n : Nat) (cs : List Char) (h : n ≤ cs.length) : pushN n cs = some (cs.take n, cs.drop n) := by
  induction n generalizing cs with
  | zero => simp [pushN]
  | succ n ih =>
    cases cs with
    | nil => simp at h
    | cons c cs => simp [pushN, ih cs (by simpa using h)]

theorem wf_pushes (t : Ty) (s : List Char) (es : List Ev) (h : WellFormed none es) :
    WellFormed none ([Ev.begin t] ++ s.map Ev.push ++ [Ev.fin t] ++ es) := by
  refine ⟨rfl, ?_⟩
  induction s with
  | nil => exact ⟨rfl, h⟩
  | cons c s ih => exact ⟨by simp, ih⟩

theorem wf_blanks (s : List Char) (hs : ∀ c ∈ s, isBlank c = true) (es : List Ev) (h : WellFormed none es) :
    WellFormed none (s.map Ev.push ++ es) := by
  induction s with
  | nil => exact h
  | cons c s ih => exact ⟨fun _ => (isBlank_iff c).1 (hs c (by simp)), ih (fun d hd => hs d (by simp [hd]))⟩

theorem consumeAll_text (cs : List Char) : text (consumeAll cs) = cs := by
  unfold consumeAll
  have h := blanks_split cs
  simp only
  split
  · rename_i h2; rw [h2] at h; simpa [text_push] using h
  · simp [text_append, text, text_push, h]

theorem consumeAll_wf (cs : List Char) : WellFormed none (consumeAll cs) := by
  unfold consumeAll
  simp only
  split
  · have := wf_blanks (blanks cs).1 (blanks_blank cs) [] rfl; simpa using this
  · have := wf_blanks (blanks cs).1 (blanks_blank cs) _ (wf_pushes .comment (blanks cs).2 [] rfl)
    simpa using this

/-- What `consumeTo` does, when there is enough text. -/
theorem consumeTo_spec (goal : Nat) (cs : List Char) (index : Nat) (h : goal ≤ index + cs.length) :
    ∃ es r i, consumeTo goal cs index = some (es, r, i) ∧ text es ++ r = cs ∧ i + r.length = index + cs.length ∧ goal ≤ i ∧
      (∀ fs, WellFormed none fs → WellFormed none (es ++ fs)) ∧ index ≤ i := by
  have hb := blanks_split cs
  have hl : (blanks cs).1.length + (blanks cs).2.length = cs.length := by rw [← List.length_append, hb]
  unfold consumeTo
  simp only
  split
  · rename_i hi
    rw [pushN_some _ _ (by omega)]
    refine ⟨_, _, _, rfl, ?_, ?_, Nat.le_refl _, ?_, by omega⟩
    · simp [text_append, text, text_push, hb, -List.map_take]
    · simp; omega
    · intro fs hf
      have := wf_blanks (blanks cs).1 (blanks_blank cs) _ (wf_pushes .comment ((blanks cs).2.take (goal - (index + (blanks cs).1.length))) fs hf)
      simpa using this
  · refine ⟨_, _, _, rfl, ?_, ?_, by omega, ?_, by omega⟩
    · simpa [text_push] using hb
    · omega
    · intro fs hf; exact wf_blanks _ (blanks_blank cs) _ hf

theorem loop_spec (total : Nat) : ∀ (ts : List (Loc × Ty)) (cs : List Char) (index : Nat),
    (∀ p ∈ ts, p.1.start + p.1.width ≤ total ∧ 1 ≤ p.1.width) → total ≤ index + cs.length →
    ∃ es, loop ts cs index = some es ∧ text es = cs ∧ WellFormed none es
  | [], cs, _, _, _ => ⟨_, rfl, consumeAll_text cs, consumeAll_wf cs⟩
  | (l, t) :: ts, cs, index, hw, ht => by
    have hrec := fun cs i => loop_spec total ts cs i (fun p hp => hw p (by simp [hp]))
    have hl := hw (l, t) (by simp)
    simp only at hl
    rw [loop]
    split
    · exact hrec _ _ ht
    · split
      · exact hrec _ _ ht
      · rename_i hlast _
        have hlast' : l.last + 1 = l.start + l.width := by simp [Loc.last]; omega
        obtain ⟨es, r, i, h1, h2, h3, h4, h5, h6⟩ := consumeTo_spec l.start cs index (by omega)
        rw [h1]
        simp only [Option.bind_some]
        rw [pushN_some _ _ (by omega)]
        simp only [Option.bind_some]
        obtain ⟨fs, g1, g2, g3⟩ := hrec (r.drop (l.last + 1 - i)) (i + (l.last + 1 - i)) (by simp; omega)
        rw [g1]
        refine ⟨_, rfl, ?_, ?_⟩
        · simp [text_append, text, text_push, g2, h2, -List.map_take]
        · have := h5 _ (wf_pushes t (r.take (l.last + 1 - i)) fs g3)
          simpa using this

theorem byteLen_le (s : List Char) : s.length ≤ byteLen s := by
  induction s with
  | nil => simp [byteLen]
  | cons c s ih =>
    have : 0 < c.utf8Size := Char.utf8Size_pos c
    simp [byteLen] at ih ⊢; omega

theorem spells_head {s : List Char} {t : Token} (h : Spells s t) : ∃ c r, s = c :: r ∧ isBlank c = false := by
  induction h with
  | keyword h =>
    revert h
    simp only [keywords, List.mem_cons, Prod.mk.injEq, List.not_mem_nil, or_false]
    rintro h
    repeat' (rcases h with ⟨rfl, _⟩ | h)
    all_goals first | exact ⟨_, _, rfl, by decide⟩ | (obtain ⟨rfl, _⟩ := h; exact ⟨_, _, rfl, by decide⟩)
  | op h =>
    revert h
    simp only [operators, List.mem_cons, Prod.mk.injEq, List.not_mem_nil, or_false]
    rintro h
    repeat' (rcases h with ⟨rfl, _⟩ | h)
    all_goals first | exact ⟨_, _, rfl, by decide⟩ | (obtain ⟨rfl, _⟩ := h; exact ⟨_, _, rfl, by decide⟩)
  | @ident c cs h _ _ =>
    refine ⟨c, cs, rfl, ?_⟩
    cases hb : isBlank c with
    | false => rfl
    | true => exfalso; rcases (by simpa [isBlank_iff] using hb : c = ' ' ∨ c = '\t' ∨ c = '\r' ∨ c = '\n') with rfl | rfl | rfl | rfl <;> revert h <;> decide
  | zero => exact ⟨_, _, rfl, by decide⟩
  | zeroI => exact ⟨_, _, rfl, by decide⟩
  | zeroJ => exact ⟨_, _, rfl, by decide⟩
  | @dec b v h =>
    obtain ⟨ds, h1, h2, _⟩ := h
    cases b with
    | nil => simp at h1; exact absurd h1.symm (by simpa using h2)
    | cons c r =>
      refine ⟨c, r, rfl, ?_⟩
      cases hb : isBlank c with
      | false => rfl
      | true =>
        exfalso
        rcases (by simpa [isBlank_iff] using hb : c = ' ' ∨ c = '\t' ∨ c = '\r' ∨ c = '\n') with rfl | rfl | rfl | rfl <;>
        · cases ds with
          | nil => exact h2 rfl
          | cons d ds =>
            simp only [List.filter_cons] at h1
            simp at h1
            exact absurd h1.1 (by rw [show Str.toDigit 10 _ = none by decide]; simp)
  | hex _ => exact ⟨_, _, rfl, by decide⟩
  | bin _ => exact ⟨_, _, rfl, by decide⟩
  | cplx _ _ ih =>
    obtain ⟨c, r, rfl, hc⟩ := ih
    exact ⟨c, _, rfl, hc⟩
  | str h _ => rcases h with rfl | rfl <;> exact ⟨_, _, rfl, by decide⟩

theorem token_head {s : Seg} {t : Token} (hv : s.Valid) (ht : s.token = some t) : ∃ c r, s.text = c :: r ∧ isBlank c = false := by
  cases s with
  | tok s t' => exact spells_head hv
  | openString s v =>
    obtain ⟨b, rfl | rfl⟩ := hv
    · exact ⟨_, _, rfl, by decide⟩
    · exact ⟨_, _, rfl, by decide⟩
  | _ => simp [Seg.token] at ht

theorem segTokens_pos (segs : List Seg) (hv : ∀ s ∈ segs, s.Valid) (pos : Nat) : ∀ p ∈ segTokens pos segs, 1 ≤ p.1.width := by
  induction segs generalizing pos with
  | nil => simp [segTokens]
  | cons s ss ih =>
    intro p hp
    rcases List.mem_append.1 hp with hp | hp
    · cases ht : s.token with
      | none => rw [ht] at hp; simp at hp
      | some t =>
        rw [ht] at hp; simp at hp; subst hp
        obtain ⟨c, r, h, _⟩ := token_head (hv s (by simp)) ht
        simp [h]
    · exact ih (fun s hs => hv s (by simp [hs])) _ p hp

theorem newlines_within (cs : List Char) (pos : Nat) : ∀ p ∈ newlines pos cs, p.1.start + p.1.width ≤ pos + cs.length ∧ 1 ≤ p.1.width := by
  induction cs generalizing pos with
  | nil => simp [newlines]
  | cons c cs ih =>
    intro p hp
    rcases List.mem_append.1 hp with hp | hp
    · split at hp
      · simp at hp; subst hp; simp
      · simp at hp
    · have := ih _ p hp
      simp; omega

theorem tokens_within (txt : List Char) : ∀ p ∈ tokens (scan txt), p.1.start + p.1.width ≤ txt.length ∧ 1 ≤ p.1.width := by
  obtain ⟨segs, h1, h2, h3, h4, _⟩ := C29_accounts txt
  intro p hp
  by_cases hn : p.2 = .newLine
  · have : p ∈ lineEnds (scan txt) := by simp [lineEnds, hp, hn]
    rw [h4] at this
    simpa using newlines_within txt 0 p this
  · have : p ∈ proper (scan txt) := by simp [proper, hp, hn]
    refine ⟨(C29_intervals txt).1 p this, ?_⟩
    rw [h3] at this
    exact segTokens_pos segs h2 0 p this

/-- **C60** for every line of text and every text already entered before it, valid code or not, highlighting does not abort, removing
the markup gives the line back, and the markup is well formed. -/
theorem C60_only_markup (find : List Char → Option Bool) (input pre : List Char) :
    ∃ es, highlight find input pre = some es ∧ text es = input ∧ WellFormed none es := by
  refine loop_spec (pre ++ input).length _ _ _ ?_ ?_
  · intro p hp
    obtain ⟨q, hq, rfl⟩ := List.mem_map.1 hp
    exact tokens_within _ q hq
  · have := byteLen_le pre
    simp; omega

theorem blocking_text (o : Option Ty) (es : List Ev) : text (blocking o es) = text es := by
  induction es generalizing o with
  | nil => rfl
  | cons e es ih =>
    cases e with
    | begin t => simp [blocking, text, ih]
    | fin t => cases o <;> simp [blocking, text, ih]
    | push c =>
      by_cases h : c = '\n'
      · subst h; cases o <;> simp [blocking, text, ih]
      · simp [blocking, h, text, ih]

/-- **C60** the formatter that breaks sections at line ends keeps the text, stays well formed, and no section spans a line end. -/
theorem C60_blocking (o : Option Ty) (es : List Ev) (h : WellFormed o es) :
    text (blocking o es) = text es ∧ WellFormed o (blocking o es) ∧ NoBreakInside o (blocking o es) := by
  refine ⟨blocking_text o es, ?_, ?_⟩
  · induction es generalizing o with
    | nil => exact h
    | cons e es ih =>
      cases e with
      | begin t => obtain ⟨rfl, h⟩ := h; exact ⟨rfl, ih _ h⟩
      | fin t => obtain ⟨rfl, h⟩ := h; exact ⟨rfl, ih _ h⟩
      | push c =>
        obtain ⟨h1, h2⟩ := h
        by_cases hc : c = '\n'
        · subst hc
          cases o with
          | none => simp only [blocking]; exact ⟨by simp, ih _ h2⟩
          | some t => simp only [blocking]; exact ⟨rfl, by simp, rfl, ih _ h2⟩
        · simp only [blocking, if_neg hc]; exact ⟨h1, ih _ h2⟩
  · induction es generalizing o with
    | nil => trivial
    | cons e es ih =>
      cases e with
      | begin t => exact ih _ h.2
      | fin t => obtain ⟨rfl, h⟩ := h; exact ih _ h
      | push c =>
        obtain ⟨h1, h2⟩ := h
        by_cases hc : c = '\n'
        · subst hc
          cases o with
          | none => simp only [blocking]; exact ⟨by simp, ih _ h2⟩
          | some t => simp only [blocking]; exact ⟨by simp, ih _ h2⟩
        · simp only [blocking, if_neg hc]; exact ⟨fun _ => hc, ih _ h2⟩

/-! ## The sections are the tokens -/

theorem sections_pushes (t : Ty) (s : List Char) (acc : List Char) (es : List Ev) :
    sections (some (t, acc)) (s.map Ev.push ++ es) = sections (some (t, acc ++ s)) es := by
  induction s generalizing acc with
  | nil => simp
  | cons c s ih => simp [sections, ih]

theorem sections_out (s : List Char) (es : List Ev) : sections none (s.map Ev.push ++ es) = sections none es := by
  induction s with
  | nil => simp
  | cons c s ih => simp [sections, ih]

theorem sections_one (t : Ty) (s : List Char) (es : List Ev) :
    sections none ([Ev.begin t] ++ s.map Ev.push ++ [Ev.fin t] ++ es) = (t, s) :: sections none es := by
  have := sections_pushes t s [] (Ev.fin t :: es)
  simp only [List.cons_append, List.nil_append, List.append_assoc, sections]
  rw [this]; simp [sections]

theorem sections_consumeAll (cs : List Char) : (sections none (consumeAll cs)).filter (fun p => p.1 ≠ .comment) = [] := by
  unfold consumeAll
  simp only
  split
  · have := sections_out (blanks cs).1 []; simp at this; simp [this, sections]
  · have h1 := sections_out (blanks cs).1 ([Ev.begin .comment] ++ (blanks cs).2.map Ev.push ++ [Ev.fin .comment] ++ [])
    rw [sections_one] at h1
    simp only [List.append_assoc, List.append_nil] at h1 ⊢
    rw [h1]; simp [sections]

/-- The blanks before a position holding a non-blank end at the latest there. -/
theorem blanks_le (cs : List Char) (k : Nat) (c : Char) (h : cs[k]? = some c) (hc : isBlank c = false) : (blanks cs).1.length ≤ k := by
  induction cs generalizing k with
  | nil => simp at h
  | cons d cs ih =>
    rw [blanks]
    split
    · cases k with
      | zero => simp at h; subst h; simp_all
      | succ k => simp at h; simpa using ih k h
    · simp

theorem consumeTo_exact (txt : List Char) (goal index : Nat) (h : index ≤ goal) (c : Char) (hc : txt[goal]? = some c) (hb : isBlank c = false) :
    ∃ es, consumeTo goal (txt.drop index) index = some (es, txt.drop goal, goal) ∧
      ∀ fs, (sections none (es ++ fs)).filter (fun p => p.1 ≠ .comment) = (sections none fs).filter (fun p => p.1 ≠ .comment) := by
  have hle : (blanks (txt.drop index)).1.length ≤ goal - index := by
    refine blanks_le _ _ c ?_ hb
    rw [List.getElem?_drop]; rw [show index + (goal - index) = goal by omega]; exact hc
  have hsp := blanks_split (txt.drop index)
  have hgl : goal < txt.length := by
    rw [List.getElem?_eq_some_iff] at hc; exact hc.1
  have hl : (blanks (txt.drop index)).1.length + (blanks (txt.drop index)).2.length = txt.length - index := by
    rw [← List.length_append, hsp]; simp
  have h2 : (blanks (txt.drop index)).2 = txt.drop (index + (blanks (txt.drop index)).1.length) := by
    have : ((blanks (txt.drop index)).1 ++ (blanks (txt.drop index)).2).drop (blanks (txt.drop index)).1.length = (blanks (txt.drop index)).2 := by
      simp
    rw [hsp, List.drop_drop] at this
    exact this.symm
  unfold consumeTo
  simp only
  split
  · rename_i hi
    rw [pushN_some _ _ (by omega)]
    have e : (blanks (txt.drop index)).2.drop (goal - (index + (blanks (txt.drop index)).1.length)) = txt.drop goal := by
      rw [h2, List.drop_drop]; congr 1; omega
    rw [Option.map_some]
    simp only [e]
    refine ⟨_, rfl, fun fs => ?_⟩
    simp only [List.append_assoc]
    rw [sections_out]
    have := sections_one .comment ((blanks (txt.drop index)).2.take (goal - (index + (blanks (txt.drop index)).1.length))) fs
    simp only [List.append_assoc] at this
    rw [this]; simp
  · have he : goal = index + (blanks (txt.drop index)).1.length := by omega
    rw [h2, ← he]
    exact ⟨_, rfl, fun fs => by rw [sections_out]⟩

theorem loop_sections (txt : List Char) : ∀ (ts : List (Loc × Ty)) (index : Nat),
    (∀ p ∈ ts, p.2 ≠ .blank → (index ≤ p.1.start ∧ p.1.start + p.1.width ≤ txt.length ∧ 1 ≤ p.1.width ∧
      ∃ c, txt[p.1.start]? = some c ∧ isBlank c = false)) →
    (∀ p ∈ ts, p.2 ≠ .comment) →
    (ts.filter (fun p => p.2 ≠ .blank)).Pairwise (fun a b => a.1.start + a.1.width ≤ b.1.start) →
    ∀ es, loop ts (txt.drop index) index = some es →
    (sections none es).filter (fun p => p.1 ≠ .comment) =
      (ts.filter (fun p => p.2 ≠ .blank)).map (fun p => (p.2, (txt.drop p.1.start).take p.1.width))
  | [], index, _, _, _, es, he => by
    simp only [loop, Option.some.injEq] at he
    subst he
    rw [sections_consumeAll]; rfl
  | (l, t) :: ts, index, hw, hnc, hp, es, he => by
    by_cases hb : t = .blank
    · subst hb
      have hrec := loop_sections txt ts index (fun p hp => hw p (by simp [hp])) (fun p hp => hnc p (by simp [hp])) (by simpa using hp) es
      have : loop ts (txt.drop index) index = some es := by
        rw [loop] at he; simpa using he
      simpa using hrec this
    · obtain ⟨h1, h2, h3, c, h4, h5⟩ := hw (l, t) (by simp) hb
      simp only at h1 h2 h3 h4
      have hlast' : l.last + 1 = l.start + l.width := by simp [Loc.last]; omega
      rw [List.filter_cons, if_pos (by simpa using hb), List.pairwise_cons] at hp
      obtain ⟨fs, g1, g2⟩ := consumeTo_exact txt l.start index h1 c h4 h5
      rw [loop, if_neg (by omega), if_neg hb, g1] at he
      simp only [Option.bind_some] at he
      rw [pushN_some _ _ (by simp; omega)] at he
      simp only [Option.bind_some, List.drop_drop] at he
      obtain ⟨gs, k1, k2⟩ := Option.map_eq_some_iff.1 he
      subst k2
      rw [show l.start + (l.last + 1 - l.start) = l.start + l.width by omega] at k1
      have hrec := loop_sections txt ts (l.start + l.width)
        (fun p hp' hpb => by
          obtain ⟨_, q2, q3, q4⟩ := hw p (by simp [hp']) hpb
          exact ⟨hp.1 p (by simp [hp', hpb]), q2, q3, q4⟩)
        (fun p hp => hnc p (by simp [hp])) hp.2 gs k1
      have e1 := g2 ([Ev.begin t] ++ ((txt.drop l.start).take (l.last + 1 - l.start)).map Ev.push ++ [Ev.fin t] ++ gs)
      rw [sections_one] at e1
      simp only [List.append_assoc] at e1 ⊢
      rw [e1, List.filter_cons, if_pos (by simpa using hnc (l, t) (by simp)), hrec, List.filter_cons, if_pos (by simpa using hb)]
      simp only [List.map_cons]
      rw [show l.last + 1 - l.start = l.width by omega]

theorem tyOf_ne_comment (find : List Char → Option Bool) (t : Token) : tyOf find t ≠ .comment := by
  cases t <;> simp [tyOf]
  split <;> simp

theorem tyOf_blank (find : List Char → Option Bool) (t : Token) : tyOf find t = .blank ↔ t = .newLine := by
  cases t <;> simp [tyOf]
  split <;> simp

theorem segTokens_head (segs : List Seg) (hv : ∀ s ∈ segs, s.Valid) (pre : List Char) :
    ∀ p ∈ segTokens pre.length segs, ∃ c, (pre ++ texts segs)[p.1.start]? = some c ∧ isBlank c = false := by
  induction segs generalizing pre with
  | nil => simp [segTokens]
  | cons s ss ih =>
    intro p hp
    rcases List.mem_append.1 hp with hp | hp
    · cases ht : s.token with
      | none => rw [ht] at hp; simp at hp
      | some t =>
        rw [ht] at hp; simp at hp; subst hp
        obtain ⟨c, r, h, hc⟩ := token_head (hv s (by simp)) ht
        exact ⟨c, by simp [texts, h], hc⟩
    · have := ih (fun s hs => hv s (by simp [hs])) (pre ++ s.text) p (by simpa using hp)
      simpa [texts] using this

/-- **C60** the sections other than comments are exactly the tokens of the text, each with its class and its characters, in order. -/
theorem C60_sections (find : List Char → Option Bool) (input : List Char) (es : List Ev) (he : highlight find input [] = some es) :
    (sections none es).filter (fun p => p.1 ≠ .comment) =
      (proper (scan input)).map (fun p => (tyOf find p.2, (input.drop p.1.start).take p.1.width)) := by
  have hf : ((tokens (scan input)).map (fun p => (p.1, tyOf find p.2))).filter (fun p => p.2 ≠ .blank) =
      (proper (scan input)).map (fun p => (p.1, tyOf find p.2)) := by
    rw [List.filter_map, proper]
    congr 1
    refine List.filter_congr (fun p _ => ?_)
    simp [tyOf_blank]
  have := loop_sections input ((tokens (scan input)).map (fun p => (p.1, tyOf find p.2))) 0 ?_ ?_ ?_ es (by simpa [highlight, byteLen] using he)
  · rw [this, hf, List.map_map]; rfl
  · intro p hp hb
    obtain ⟨q, hq, rfl⟩ := List.mem_map.1 hp
    have hq' : q ∈ proper (scan input) := by
      simp only [proper, List.mem_filter]
      exact ⟨hq, by simpa using fun h => hb ((tyOf_blank find q.2).2 h)⟩
    obtain ⟨segs, h1, h2, h3, _⟩ := C29_accounts input
    rw [h3] at hq'
    have k := segTokens_head segs h2 [] q hq'
    rw [List.nil_append, ← h1] at k
    exact ⟨Nat.zero_le _, (tokens_within input q hq).1, (tokens_within input q hq).2, k⟩
  · intro p hp
    obtain ⟨q, hq, rfl⟩ := List.mem_map.1 hp
    exact tyOf_ne_comment _ _
  · rw [hf, List.pairwise_map]
    exact (C29_intervals input).2

/-- A case: a keyword, a name, an operator, a number and a comment. -/
example : highlight (fun _ => none) "if x // c".toList [] =
    some [.begin .keyword, .push 'i', .push 'f', .fin .keyword, .push ' ', .begin .syntax, .push 'x', .fin .syntax, .push ' ',
      .begin .comment, .push '/', .push '/', .push ' ', .push 'c', .fin .comment] := by
  simp [highlight, scan, scanFrom, step, isBlank, isLetter, isDigit, isIdent, spanIdent, screenIdentifier, keywords, lineComment, scanOp,
    place, nl, Scan.push, tokens, tyOf, loop, Loc.last, byteLen, consumeTo, blanks, pushN, consumeAll]

/-- **C60 (finding)** the start of the line is found by counting bytes, the tokens by counting characters: after a line with a
two-byte character the next line's one-letter name is taken for a comment.  (The text is still unchanged, as `C60_only_markup` says.) -/
theorem C60_violation_classes :
    highlight (fun _ => none) ['x'] ['\'', 'é', '\''] = some [.begin .comment, .push 'x', .fin .comment] := by
  have h : byteLen ['\'', 'é', '\''] = 4 := by decide
  simp [highlight, h, scan, scanFrom, step, isBlank, isLetter, isDigit, isIdent, spanIdent, screenIdentifier, keywords, scanString, strLoop,
    nl, Scan.push, tokens, tyOf, loop, Loc.last, consumeAll, blanks]

end Cordy.Syntax
