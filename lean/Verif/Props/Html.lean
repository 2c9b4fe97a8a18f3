import Verif.Model.Html
import Verif.Props.Syntax
/-! # C67, C68: the page and the terminal show the source -/
namespace Cordy.Html
open Cordy.Syntax

/-! ## Specification: what a reader of the page sees -/

/-- Elements and text of a page. -/
inductive Item where
  | enter (cls : List Char)
  | leave
  | char (c : Char)
  deriving DecidableEq, Repr

inductive Mode where
  | text
  | tag (acc : List Char)
  | entity (acc : List Char)

/-- A tag: `span class="…"` or `/span`. -/
def tagOf (acc : List Char) : Option Item :=
  if acc = "/span".toList then some .leave
  else if "span class=\"".toList.isPrefixOf acc ∧ acc.getLast? = some '"' then some (.enter ((acc.drop 12).dropLast))
  else none

/-- The entities of HTML that matter here. -/
def entityOf (acc : List Char) : Option Item :=
  if acc = "lt".toList then some (.char '<')
  else if acc = "gt".toList then some (.char '>')
  else if acc = "quot".toList then some (.char '"')
  else if acc = "#39".toList then some (.char '\'')
  else if acc = "amp".toList then some (.char '&')
  else none

/-- Reading HTML: tags between `<` and `>`, entities between `&` and `;`, the rest is text. -/
def read : Mode → List Char → Option (List Item)
  | .text, [] => some []
  | .text, c :: cs =>
    if c = '<' then read (.tag []) cs
    else if c = '&' then read (.entity []) cs
    else (read .text cs).map (.char c :: ·)
  | .tag acc, c :: cs => if c = '>' then (tagOf acc).bind fun i => (read .text cs).map (i :: ·) else read (.tag (acc ++ [c])) cs
  | .entity acc, c :: cs => if c = ';' then (entityOf acc).bind fun i => (read .text cs).map (i :: ·) else read (.entity (acc ++ [c])) cs
  | _, [] => none

/-- The text of what was read. -/
def shown : List Item → List Char
  | [] => []
  | .char c :: is => c :: shown is
  | _ :: is => shown is

/-- Elements are properly nested (there is at most one level), and each contains no line end. -/
def Nested : Option (List Char) → List Item → Prop
  | o, [] => o = none
  | o, .enter c :: is => o = none ∧ Nested (some c) is
  | o, .leave :: is => o ≠ none ∧ Nested none is
  | o, .char c :: is => (o ≠ none → c ≠ '\n') ∧ Nested o is

/-- Each character with the element it is in. -/
def marks : Option (List Char) → List Item → List (Char × Option (List Char))
  | _, [] => []
  | _, .enter c :: is => marks (some c) is
  | _, .leave :: is => marks none is
  | o, .char c :: is => (c, o) :: marks o is

/-- Tabs are shown as four spaces, carriage returns not at all. -/
def expandChar (c : Char) : List Char := if c = '\r' then [] else if c = '\t' then [' ', ' ', ' ', ' '] else [c]

/-- The element of a class of the highlighter (blanks are in none). -/
def cssClass : Ty → List Char
  | .keyword => "cordy-keyword".toList
  | .constant => "cordy-constant".toList
  | .native => "cordy-native".toList
  | .type => "cordy-type".toList
  | .number => "cordy-number".toList
  | .string => "cordy-string".toList
  | .syntax => "cordy-syntax".toList
  | .comment => "cordy-comment".toList
  | .blank => []

/-- Each character of the highlighted code with its class, as the highlighter gives it. -/
def classes : Option Ty → List Ev → List (Char × Option Ty)
  | _, [] => []
  | _, .begin t :: es => classes (some t) es
  | _, .fin _ :: es => classes none es
  | o, .push c :: es => (c, o) :: classes o es

/-! ## Reading what was rendered -/

def itemsOf (skip : List Ty) : Ev → List Item
  | .begin t => if t ≠ .blank ∧ t ∉ skip then [.enter (cssClass t)] else []
  | .fin t => if t ∉ skip then [.leave] else []
  | .push c => (expandChar c).map .char

theorem read_char (c : Char) (cs : List Char) : read .text (pushChar c ++ cs) = (read .text cs).map ((expandChar c).map .char ++ ·) := by
  unfold pushChar expandChar
  split
  · simp
  split
  · simp [read, Function.comp_def]
  split
  · rename_i h; subst h; simp [read, entityOf]
  split
  · rename_i h; subst h; simp [read, entityOf]
  split
  · rename_i h; subst h; simp [read, entityOf]
  split
  · rename_i h; subst h; simp [read, entityOf]
  split
  · rename_i h; subst h; simp [read, entityOf]
  · rename_i h1 h2 h3 h4 h5 h6 h7
    simp [read, h3, h7]

theorem read_tag (w : List Char) (hw : '>' ∉ w) (acc cs : List Char) :
    read (.tag acc) (w ++ '>' :: cs) = (tagOf (acc ++ w)).bind fun i => (read .text cs).map (i :: ·) := by
  induction w generalizing acc with
  | nil => rw [List.nil_append, read, if_pos rfl, List.append_nil]
  | cons c w ih =>
    have hc : c ≠ '>' := fun e => hw (by simp [e])
    rw [List.cons_append, read, if_neg hc, ih (fun h => hw (by simp [h]))]
    simp

theorem read_open (t : Ty) (ht : t ≠ .blank) (cs : List Char) :
    read .text (spanOpen ++ className t ++ spanEnd ++ cs) = (read .text cs).map (.enter (cssClass t) :: ·) := by
  have h1 : spanOpen ++ className t ++ spanEnd ++ cs = '<' :: (("span class=\"cordy-".toList ++ className t ++ ['"']) ++ '>' :: cs) := by
    rw [show spanOpen = '<' :: "span class=\"cordy-".toList by decide, show spanEnd = ['"', '>'] by decide]
    simp
  have h2 : '>' ∉ "span class=\"cordy-".toList ++ className t ++ ['"'] := by cases t <;> decide
  have h3 : tagOf ([] ++ ("span class=\"cordy-".toList ++ className t ++ ['"'])) = some (.enter (cssClass t)) := by revert ht; cases t <;> decide
  rw [h1, read, if_pos rfl, read_tag _ h2, h3]
  rfl

theorem read_close (cs : List Char) : read .text (spanClose ++ cs) = (read .text cs).map (.leave :: ·) := by
  simp [spanClose, read, tagOf]

theorem read_render (skip : List Ty) (es : List Ev) (tail : List Char) :
    read .text (render skip es ++ tail) = (read .text tail).map (es.flatMap (itemsOf skip) ++ ·) := by
  induction es with
  | nil => simp [render]
  | cons e es ih =>
    unfold render at ih ⊢
    rw [List.flatMap_cons, List.append_assoc]
    have key : ∀ x, read .text (renderEv skip e ++ x) = (read .text x).map (itemsOf skip e ++ ·) := by
      intro x
      cases e with
      | begin t =>
        simp only [renderEv, itemsOf]
        split
        · rename_i h; rw [read_open t h.1]; rfl
        · simp
      | fin t =>
        simp only [renderEv, itemsOf]
        split
        · rw [read_close]; rfl
        · simp
      | push c => exact read_char c x
    rw [key, ih, Option.map_map]
    congr 1
    funext l
    simp [List.flatMap_cons]

theorem shown_append (a b : List Item) : shown (a ++ b) = shown a ++ shown b := by
  induction a with
  | nil => rfl
  | cons i a ih => cases i <;> simp [shown, ih]
theorem shown_chars (l : List Char) : shown (l.map .char) = l := by
  induction l with
  | nil => rfl
  | cons c l ih => simp [shown, ih]

theorem shown_items (skip : List Ty) (es : List Ev) : shown (es.flatMap (itemsOf skip)) = (text es).flatMap expandChar := by
  induction es with
  | nil => rfl
  | cons e es ih =>
    rw [List.flatMap_cons, shown_append, ih]
    cases e with
    | begin t => simp only [itemsOf, text]; split <;> simp [shown]
    | fin t => simp only [itemsOf, text]; split <;> simp [shown]
    | push c => simp only [itemsOf, text, shown_chars, List.flatMap_cons]

def clsOf (skip : List Ty) (o : Option Ty) : Option (List Char) := o.bind fun t => if t ∈ skip then none else some (cssClass t)

theorem nested_chars (o : Option (List Char)) (l : List Char) (is : List Item) (h : o ≠ none → '\n' ∉ l) (hn : Nested o is) : Nested o (l.map .char ++ is) := by
  induction l with
  | nil => exact hn
  | cons c l ih => exact ⟨fun ho e => h ho (by simp [e]), ih (fun ho hm => h ho (by simp [hm]))⟩

theorem marks_chars (o : Option (List Char)) (l : List Char) (is : List Item) : marks o (l.map .char ++ is) = l.map (·, o) ++ marks o is := by
  induction l with
  | nil => rfl
  | cons c l ih => simp [marks, ih]

/-- The highlighter begins no section of class `blank`. -/
def NoBlank (es : List Ev) : Prop := ∀ t, Ev.begin t ∈ es → t ≠ .blank

theorem nested_items (skip : List Ty) (es : List Ev) : ∀ o, WellFormed o es → NoBreakInside o es → NoBlank es →
    Nested (clsOf skip o) (es.flatMap (itemsOf skip)) ∧
    marks (clsOf skip o) (es.flatMap (itemsOf skip)) = (classes o es).flatMap fun p => (expandChar p.1).map (·, clsOf skip p.2) := by
  induction es with
  | nil => intro o h _ _; cases h; exact ⟨rfl, rfl⟩
  | cons e es ih =>
    intro o hw hb hn
    have hn' : NoBlank es := fun t ht => hn t (List.mem_cons_of_mem _ ht)
    cases e with
    | begin t =>
      obtain ⟨rfl, hw⟩ := hw
      obtain ⟨i1, i2⟩ := ih _ hw hb hn'
      have ht := hn t (by simp)
      rw [List.flatMap_cons]
      by_cases hs : t ∈ skip
      · simp only [itemsOf, hs, not_true_eq_false, and_false, if_false, List.nil_append, classes]
        simp only [clsOf, Option.bind_some, hs, if_true] at i1 i2
        exact ⟨i1, i2⟩
      · simp only [itemsOf, ht, hs, not_false_eq_true, ne_eq, and_self, if_true, List.cons_append, List.nil_append, classes]
        simp only [clsOf, Option.bind_some, hs, if_false] at i1 i2
        exact ⟨⟨rfl, i1⟩, i2⟩
    | fin t =>
      obtain ⟨rfl, hw⟩ := hw
      obtain ⟨i1, i2⟩ := ih _ hw hb hn'
      rw [List.flatMap_cons]
      by_cases hs : t ∈ skip
      · simp only [itemsOf, hs, not_true_eq_false, if_false, List.nil_append, classes]
        simp only [clsOf, Option.bind_some, hs, if_true]
        exact ⟨i1, i2⟩
      · simp only [itemsOf, hs, not_false_eq_true, if_true, List.cons_append, List.nil_append, classes]
        simp only [clsOf, Option.bind_some, hs, if_false]
        exact ⟨⟨by simp, i1⟩, i2⟩
    | push c =>
      obtain ⟨_, hw⟩ := hw
      obtain ⟨hc, hb⟩ := hb
      obtain ⟨i1, i2⟩ := ih _ hw hb hn'
      rw [List.flatMap_cons]
      simp only [itemsOf, classes, List.flatMap_cons]
      refine ⟨nested_chars _ _ _ (fun ho => ?_) i1, by rw [marks_chars, i2]⟩
      have : o ≠ none := by rintro rfl; exact ho rfl
      have := hc this
      unfold expandChar
      split
      · simp
      split
      · simp
      · simp; exact fun e => this e.symm

theorem loop_noBlank : ∀ (ts : List (Scan.Loc × Ty)) (cs : List Char) (i : Nat) (es : List Ev), loop ts cs i = some es → NoBlank es
  | [], cs, i, es, h => by
    simp only [loop, Option.some.injEq] at h
    subst h
    intro t ht
    unfold consumeAll at ht
    simp only [] at ht
    split at ht
    · simp at ht
    · simp at ht; subst ht; simp
  | (l, ty) :: ts, cs, i, es, h => by
    rw [loop] at h
    split at h
    · exact loop_noBlank ts cs i es h
    split at h
    · exact loop_noBlank ts cs i es h
    · rename_i hty
      simp only [Option.bind_eq_some_iff, Option.map_eq_some_iff] at h
      obtain ⟨r, h1, q, h2, es', h3, h4⟩ := h
      have ih := loop_noBlank ts _ _ _ h3
      intro t ht
      rw [← h4] at ht
      simp only [List.mem_append, List.mem_singleton, List.mem_map, reduceCtorEq, and_false, exists_false, or_false, Ev.begin.injEq] at ht
      rcases ht with (h | h) | h
      · unfold consumeTo at h1
        simp only [] at h1
        split at h1
        · simp only [Option.map_eq_some_iff] at h1
          obtain ⟨x, _, rfl⟩ := h1
          simp at h; subst h; simp
        · cases h1; simp at h
      · exact h ▸ hty
      · exact ih t h

theorem highlight_noBlank (find : List Char → Option Bool) (input pre : List Char) (es : List Ev) (h : highlight find input pre = some es) : NoBlank es :=
  loop_noBlank _ _ _ _ h

theorem blocking_noBlank : ∀ (es : List Ev) (o : Option Ty), o ≠ some .blank → NoBlank es → NoBlank (blocking o es)
  | [], _, _, _ => fun t ht => by simp [blocking] at ht
  | .begin t :: es, o, ho, h => by
    intro u hu
    simp only [blocking, List.mem_cons, Ev.begin.injEq] at hu
    have ht := h t (by simp)
    rcases hu with rfl | hu
    · exact ht
    · exact blocking_noBlank es (some t) (by simpa using ht) (fun u hu => h u (by simp [hu])) u hu
  | .fin t :: es, o, ho, h => by
    intro u hu
    have ih := blocking_noBlank es none (by simp) (fun u hu => h u (by simp [hu])) u
    cases o <;> simp [blocking] at hu <;> exact ih hu
  | .push c :: es, o, ho, h => by
    intro u hu
    have ih := blocking_noBlank es o ho (fun u hu => h u (by simp [hu])) u
    simp only [blocking] at hu
    split at hu
    · cases o with
      | none => simp at hu; exact ih hu
      | some t =>
        simp at hu
        rcases hu with rfl | hu
        · simpa using ho
        · exact ih hu
    · simp at hu; exact ih hu

theorem blocking_classes : ∀ (es : List Ev) (o : Option Ty), WellFormed o es →
    (classes o (blocking o es)).filter (fun p => p.1 ≠ '\n') = (classes o es).filter (fun p => p.1 ≠ '\n')
  | [], _, _ => rfl
  | .begin t :: es, o, h => by simp only [blocking, classes]; exact blocking_classes es _ h.2
  | .fin t :: es, o, h => by
    obtain ⟨rfl, h⟩ := h
    simp only [blocking, classes, List.cons_append, List.nil_append]; exact blocking_classes es _ h
  | .push c :: es, o, h => by
    obtain ⟨_, h⟩ := h
    have ih := blocking_classes es o h
    by_cases hc : c = '\n'
    · subst hc
      cases o <;> simp only [blocking, if_true, classes, List.cons_append, List.nil_append, List.filter_cons] <;> simpa using ih
    · simp only [blocking, if_neg hc, classes, List.filter_cons]
      rw [ih]

/-- **C67** `cordy --format` never aborts, whatever the text is. A reader of the code it prints sees the text itself (tabs as four spaces, carriage returns left
out); its elements are properly nested and none spans a line end; and each character other than a line end is in the element of the class that the highlighter gave
it, or in none if the class is one of those left out. -/
theorem C67_page (find : List Char → Option Bool) (skip : List Ty) (input : List Char) :
    ∃ es out is, highlight find input [] = some es ∧ page find skip input = some (pageOpen ++ out ++ pageClose) ∧
      read .text out = some is ∧ shown is = input.flatMap expandChar ∧ Nested none is ∧
      (marks none is).filter (fun p => p.1 ≠ '\n') =
        ((classes none es).filter (fun p => p.1 ≠ '\n')).flatMap fun p => (expandChar p.1).map (·, clsOf skip p.2) := by
  obtain ⟨es, h1, h2, h3⟩ := C60_only_markup find input []
  obtain ⟨b1, b2, b3⟩ := C60_blocking none es h3
  have hn := blocking_noBlank es none (by simp) (highlight_noBlank find input [] es h1)
  obtain ⟨n1, n2⟩ := nested_items skip (blocking none es) none b2 b3 hn
  refine ⟨es, render skip (blocking none es), (blocking none es).flatMap (itemsOf skip), h1, by simp [page, h1], ?_, ?_, n1, ?_⟩
  · have := read_render skip (blocking none es) []
    simpa [read] using this
  · rw [shown_items, b1, h2]
  · have hm : marks none ((blocking none es).flatMap (itemsOf skip)) =
        (classes none (blocking none es)).flatMap fun p => (expandChar p.1).map (·, clsOf skip p.2) := n2
    rw [hm]
    have key : ∀ l : List (Char × Option Ty), (l.flatMap fun p => (expandChar p.1).map (·, clsOf skip p.2)).filter (fun p => p.1 ≠ '\n') =
        (l.filter (fun p => p.1 ≠ '\n')).flatMap fun p => (expandChar p.1).map (·, clsOf skip p.2) := by
      intro l
      induction l with
      | nil => rfl
      | cons p l ih =>
        rw [List.flatMap_cons, List.filter_append, ih, List.filter_cons]
        by_cases hp : p.1 = '\n'
        · simp [hp, expandChar]
        · have : (List.map (·, clsOf skip p.2) (expandChar p.1)).filter (fun p => p.1 ≠ '\n') = (expandChar p.1).map (·, clsOf skip p.2) := by
            rw [List.filter_eq_self]
            intro x hx
            obtain ⟨c, hc, rfl⟩ := List.mem_map.1 hx
            unfold expandChar at hc
            split at hc
            · simp at hc
            split at hc
            · simp at hc; subst hc; exact decide_eq_true (by decide : ' ' ≠ '\n')
            · simp at hc; subst hc; simpa using hp
          simp only [hp, ne_eq, not_false_eq_true, decide_true, if_true, List.flatMap_cons] at this ⊢
          rw [this]
    rw [key, blocking_classes es none h3]

example : render [.number] [.begin .keyword, .push 'i', .push 'f', .fin .keyword, .push '\t', .begin .syntax, .push '<', .fin .syntax, .begin .number, .push '3', .fin .number] =
    "<span class=\"cordy-keyword\">if</span>    <span class=\"cordy-syntax\">&lt;</span>3".toList := by decide

/-! ## The terminal -/

inductive TItem where
  | enter (style : List Char)
  | leave
  | char (c : Char)
  deriving DecidableEq, Repr

/-- Reading the terminal's markup: `[[` style `]` begins, `]` ends, `&#91;` and so on are characters. `none`: not well formed. -/
inductive TMode where
  | text
  | open1
  | style (acc : List Char)
  | entity (acc : List Char)

def tEntity (acc : List Char) : Option TItem :=
  if acc = "#91".toList then some (.char '[')
  else if acc = "#92".toList then some (.char '\\')
  else if acc = "#93".toList then some (.char ']')
  else none

def tread : TMode → List Char → Option (List TItem)
  | .text, [] => some []
  | .text, c :: cs =>
    if c = '[' then tread .open1 cs
    else if c = ']' then (tread .text cs).map (.leave :: ·)
    else if c = '&' then tread (.entity []) cs
    else (tread .text cs).map (.char c :: ·)
  | .open1, c :: cs => if c = '[' then tread (.style []) cs else none
  | .style acc, c :: cs => if c = ']' then (tread .text cs).map (.enter acc :: ·) else tread (.style (acc ++ [c])) cs
  | .entity acc, c :: cs => if c = ';' then (tEntity acc).bind fun i => (tread .text cs).map (i :: ·) else tread (.entity (acc ++ [c])) cs
  | _, [] => none

def tshown : List TItem → List Char
  | [] => []
  | .char c :: is => c :: tshown is
  | _ :: is => tshown is

/-- The style of a class in the terminal: bold or not, and the colour. -/
def styleOf : Ty → Option (List Char)
  | .keyword => some "b;#b5f;".toList
  | .constant => some "b;#27f;".toList
  | .native => some ";#b80;".toList
  | .type => some ";#2aa;".toList
  | .number => some ";#385;".toList
  | .string => some ";#b10;".toList
  | .comment => some ";#aaa;".toList
  | .syntax => none
  | .blank => none

/-- Each character with the style it is shown in. -/
def tmarks : Option (List Char) → List TItem → List (Char × Option (List Char))
  | _, [] => []
  | _, .enter s :: is => tmarks (some s) is
  | _, .leave :: is => tmarks none is
  | o, .char c :: is => (c, o) :: tmarks o is

def TNested : Bool → List TItem → Prop
  | o, [] => o = false
  | o, .enter _ :: is => o = false ∧ TNested true is
  | o, .leave :: is => o = true ∧ TNested false is
  | o, .char _ :: is => TNested o is

def titems : Ev → List TItem
  | .begin t => match styleOf t with
    | none => []
    | some s => [.enter s]
  | .fin t => match t with
    | .syntax | .blank => []
    | _ => [.leave]
  | .push c => [.char c]

theorem tread_style (w : List Char) (hw : ']' ∉ w) (acc cs : List Char) :
    tread (.style acc) (w ++ ']' :: cs) = (tread .text cs).map (.enter (acc ++ w) :: ·) := by
  induction w generalizing acc with
  | nil => rw [List.nil_append, tread, if_pos rfl, List.append_nil]
  | cons c w ih =>
    have hc : c ≠ ']' := fun e => hw (by simp [e])
    rw [List.cons_append, tread, if_neg hc, ih (fun h => hw (by simp [h]))]
    simp

theorem tread_open (o w x : List Char) (ho : o = '[' :: '[' :: (w ++ [']'])) (hw : ']' ∉ w) :
    tread .text (o ++ x) = (tread .text x).map ([.enter w] ++ ·) := by
  subst ho
  rw [show '[' :: '[' :: (w ++ [']']) ++ x = '[' :: '[' :: (w ++ ']' :: x) by simp, tread, if_pos rfl, tread, if_pos rfl, tread_style w hw]
  simp

theorem tread_ev (e : Ev) (h : e ≠ .push '&') (x : List Char) : tread .text (termEv e ++ x) = (tread .text x).map (titems e ++ ·) := by
  cases e with
  | begin t =>
    cases t with
    | keyword => exact tread_open _ "b;#b5f;".toList x (by decide) (by decide)
    | constant => exact tread_open _ "b;#27f;".toList x (by decide) (by decide)
    | native => exact tread_open _ ";#b80;".toList x (by decide) (by decide)
    | type => exact tread_open _ ";#2aa;".toList x (by decide) (by decide)
    | number => exact tread_open _ ";#385;".toList x (by decide) (by decide)
    | string => exact tread_open _ ";#b10;".toList x (by decide) (by decide)
    | comment => exact tread_open _ ";#aaa;".toList x (by decide) (by decide)
    | «syntax» => exact (Option.map_id' (x := tread .text x)).symm
    | blank => exact (Option.map_id' (x := tread .text x)).symm
  | fin t => cases t <;> simp [termEv, termClose, titems, tread]
  | push c =>
    simp only [termEv, termChar, titems]
    split
    · rename_i h; subst h; simp [tread, tEntity]
    split
    · rename_i h; subst h; simp [tread, tEntity]
    split
    · rename_i h; subst h; simp [tread, tEntity]
    · rename_i h1 h2 h3
      have h4 : c ≠ '&' := fun e => h (by rw [e])
      simp [tread, h1, h3, h4]

theorem tread_render (es : List Ev) (h : Ev.push '&' ∉ es) : tread .text (termRender es) = some (es.flatMap titems) := by
  induction es with
  | nil => rfl
  | cons e es ih =>
    unfold termRender at ih ⊢
    rw [List.flatMap_cons, tread_ev e (fun he => h (by simp [he])), ih (fun hm => h (by simp [hm]))]
    rfl

theorem text_mem (c : Char) (es : List Ev) : Ev.push c ∈ es ↔ c ∈ text es := by
  induction es with
  | nil => simp [text]
  | cons e es ih => cases e <;> simp [text, ih]

theorem titems_shown (es : List Ev) : tshown (es.flatMap titems) = text es := by
  induction es with
  | nil => rfl
  | cons e es ih =>
    rw [List.flatMap_cons]
    cases e with
    | begin t => cases t <;> exact ih
    | fin t => cases t <;> simp [titems, text, tshown, ih]
    | push c => simp [titems, text, tshown, ih]

/-- The class has a colour in the terminal. -/
def Coloured (o : Option Ty) : Bool := match o with
  | none => false
  | some .syntax => false
  | some .blank => false
  | _ => true

theorem titems_nested (es : List Ev) : ∀ o, WellFormed o es → TNested (Coloured o) (es.flatMap titems) := by
  induction es with
  | nil => intro o h; cases h; rfl
  | cons e es ih =>
    intro o h
    rw [List.flatMap_cons]
    cases e with
    | begin t =>
      obtain ⟨rfl, h⟩ := h
      have := ih _ h
      cases t <;> first | exact this | exact ⟨rfl, this⟩
    | fin t =>
      obtain ⟨rfl, h⟩ := h
      have := ih _ h
      cases t <;> first | exact this | exact ⟨rfl, this⟩
    | push c => exact ih _ h.2

theorem titems_marks (es : List Ev) : ∀ o, WellFormed o es →
    tmarks (o.bind styleOf) (es.flatMap titems) = (classes o es).map fun p => (p.1, p.2.bind styleOf) := by
  induction es with
  | nil => intro o h; rfl
  | cons e es ih =>
    intro o h
    rw [List.flatMap_cons]
    cases e with
    | begin t =>
      obtain ⟨rfl, h⟩ := h
      have := ih _ h
      cases t <;> exact this
    | fin t =>
      obtain ⟨rfl, h⟩ := h
      have := ih _ h
      cases t <;> exact this
    | push c => exact congrArg (_ :: ·) (ih _ h.2)

/-- **C68** in the terminal of the web page a line without an ampersand is shown as it is, with properly nested colours, each
character in the style of the class the highlighter gives it, whatever was entered before it. Missing:
ampersands are not escaped (`C68_violation`). -/
theorem C68_terminal_partial (find : List Char → Option Bool) (input pre : List Char) (h : '&' ∉ input) :
    ∃ es out is, highlight find input pre = some es ∧ terminal find input pre = some out ∧ tread .text out = some is ∧ tshown is = input ∧
      TNested false is ∧
      (tmarks none is).filter (fun p => p.1 ≠ '\n') = ((classes none es).filter fun p => p.1 ≠ '\n').map fun p => (p.1, p.2.bind styleOf) := by
  obtain ⟨es, h1, h2, h3⟩ := C60_only_markup find input pre
  obtain ⟨b1, b2, b3⟩ := C60_blocking none es h3
  refine ⟨es, termRender (blocking none es), (blocking none es).flatMap titems, h1, by simp [terminal, h1], ?_, ?_, titems_nested _ _ b2, ?_⟩
  · exact tread_render _ (by rw [text_mem, b1, h2]; exact h)
  · rw [titems_shown, b1, h2]
  · have hm : tmarks none ((blocking none es).flatMap titems) = (classes none (blocking none es)).map fun p => (p.1, p.2.bind styleOf) :=
      titems_marks _ none b2
    rw [hm, List.filter_map, ← blocking_classes es none h3]
    rfl

/-- **C68 (violation)** an ampersand is not escaped: the line `[` and the line `&#91;` are given to the terminal with the same text. -/
theorem C68_violation : termRender [.begin .comment, .push '[', .fin .comment] = termRender [.begin .comment, .push '&', .push '#', .push '9', .push '1', .push ';', .fin .comment] := by
  decide

/-- Two comments, `//[` and `//&#91;`, that look the same. -/
theorem C68_violation_lines : terminal (fun _ => none) "//[".toList [] = terminal (fun _ => none) "//&#91;".toList [] := by
  decide +kernel

end Cordy.Html
