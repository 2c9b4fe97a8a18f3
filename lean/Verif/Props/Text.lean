import Verif.Props.Strings
import Mathlib.Data.List.Infix
/-!
# C52 join and split, C50 string formatting
-/
namespace Cordy.Str
open Cordy.Repr Cordy.Arith Cordy.Op

/-! ## C52 -/

theorem join_cons (sep x : List Char) (y : List Char) (xs : List (List Char)) :
    join sep (x :: y :: xs) = x ++ sep ++ join sep (y :: xs) := by
  simp only [join, List.foldl_cons]
  suffices ∀ (xs : List (List Char)) (a b : List Char),
      xs.foldl (fun acc y => acc ++ sep ++ y) (a ++ b) = a ++ xs.foldl (fun acc y => acc ++ sep ++ y) b by
    rw [this]
  intro xs
  induction xs with
  | nil => intros; rfl
  | cons z zs ih => intro a b; simp only [List.foldl_cons]; rw [← ih]; simp

theorem join_single (sep x : List Char) : join sep [x] = x := rfl

/-- **C52** `join` puts the separator between consecutive parts, and nowhere else. -/
theorem C52_join_spec (sep : List Char) (parts : List (List Char)) : join sep parts = List.intercalate sep parts := by
  induction parts with
  | nil => rfl
  | cons x xs ih =>
    cases xs with
    | nil => simp [join, List.intercalate]
    | cons y ys => rw [join_cons, ih]; simp [List.intercalate]

/-- The pieces around the separators when reading left to right; `cur` is the piece being read. -/
def pieces (sep : List Char) (cur : List Char) (text : List Char) : List (List Char) :=
  match text with
  | [] => [cur]
  | c :: cs =>
    if sep.isPrefixOf (c :: cs) ∧ sep ≠ [] then cur :: pieces sep [] ((c :: cs).drop sep.length)
    else pieces sep (cur ++ [c]) cs
termination_by text.length
decreasing_by
  · rename_i h; have := List.length_pos_iff.2 h.2; simp; omega
  · simp

theorem pieces_ne_nil (sep cur text) : pieces sep cur text ≠ [] := by
  induction hn : text.length using Nat.strongRecOn generalizing text cur with
  | ind n ih =>
    rw [pieces.eq_def]
    split
    · simp
    · rename_i c cs
      split
      · simp
      · exact ih cs.length (by rw [← hn]; simp) _ _ rfl

theorem splitAt_eq (sep text : List Char) : ∀ (n : Nat) (rest pre mid : List Char), rest.length = n →
    text = pre ++ mid ++ rest →
    splitAt text pre.length (literalMatches sep (pre.length + mid.length) rest) = pieces sep mid rest := by
  intro n
  induction n using Nat.strongRecOn with
  | ind n ih =>
    intro rest pre mid hn ht
    rw [literalMatches.eq_def, pieces.eq_def]
    cases rest with
    | nil =>
      simp only [splitAt]
      rw [if_neg (by rw [ht]; simp), ht]; simp
    | cons c cs =>
      simp only []
      split
      · rename_i h
        have hl := List.length_pos_iff.2 h.2
        obtain ⟨t, htt⟩ := List.isPrefixOf_iff_prefix.1 h.1
        simp only [splitAt]
        congr 1
        · rw [ht]; simp
        · have hd : (c :: cs).drop sep.length = t := by rw [← htt]; simp
          rw [hd]
          have := ih t.length (by rw [← hn, ← htt]; simp; omega) t (pre ++ mid ++ sep) [] rfl (by rw [ht, ← htt]; simp)
          simp only [List.length_append, List.length_nil, Nat.add_zero] at this
          exact this
      · have := ih cs.length (by rw [← hn]; simp) cs pre (mid ++ [c]) rfl (by rw [ht]; simp)
        simp only [List.length_append, List.length_cons, List.length_nil, ← Nat.add_assoc] at this
        exact this

theorem split_eq_pieces (sep text : List Char) (h : sep ≠ []) : split sep text = pieces sep [] text := by
  rw [split, if_neg (by simp [h])]
  exact splitAt_eq sep text text.length text [] [] rfl (by simp)

theorem join_pieces (sep cur text : List Char) : join sep (pieces sep cur text) = cur ++ text := by
  induction hn : text.length using Nat.strongRecOn generalizing text cur with
  | ind n ih =>
    rw [pieces.eq_def]
    cases text with
    | nil => simp [join]
    | cons c cs =>
      simp only []
      split
      · rename_i h
        have hl := List.length_pos_iff.2 h.2
        obtain ⟨t, htt⟩ := List.isPrefixOf_iff_prefix.1 h.1
        have hd : (c :: cs).drop sep.length = t := by rw [← htt]; simp
        rw [hd]
        have hi := ih t.length (by rw [← hn, ← htt]; simp; omega) [] t rfl
        rcases hp : pieces sep [] t with _ | ⟨y, ys⟩
        · exact absurd hp (pieces_ne_nil _ _ _)
        · rw [join_cons, ← hp, hi, ← htt]; simp
      · rw [ih cs.length (by rw [← hn]; simp) _ _ rfl]; simp

/-- **C52** joining the pieces of a split gives the text back, for every text and every literal separator (the empty one, which
splits into characters, included). -/
theorem C52_join_split (sep text : List Char) : join sep (split sep text) = text := by
  by_cases h : sep = []
  · subst h
    have : split [] text = text.map (fun c => [c]) := rfl
    rw [this, C52_join_spec]
    induction text with
    | nil => rfl
    | cons c cs ih =>
      cases cs with
      | nil => simp [List.intercalate]
      | cons d ds => simp [List.intercalate] at ih ⊢; exact ih rfl
  · rw [split_eq_pieces sep text h, join_pieces]; rfl

theorem not_prefix_of (sep p rest : List Char) (h : ¬ sep <:+: p ++ sep.dropLast) (hp : p ≠ []) (hs : sep ≠ []) :
    ¬ sep <+: p ++ (sep ++ rest) := by
  intro hpre
  apply h
  have h1 : p ++ sep.dropLast <+: p ++ (sep ++ rest) := by
    rw [List.prefix_append_right_inj]
    exact (List.dropLast_prefix sep).trans (List.prefix_append _ _)
  have hl : sep.length ≤ (p ++ sep.dropLast).length := by
    have := List.length_pos_iff.2 hp
    have := List.length_pos_iff.2 hs
    simp; omega
  exact (List.prefix_of_prefix_length_le hpre h1 hl).isInfix

theorem pieces_part (sep : List Char) (hs : sep ≠ []) (rest : List Char) : ∀ (p cur : List Char),
    ¬ sep <:+: p ++ sep.dropLast → pieces sep cur (p ++ (sep ++ rest)) = (cur ++ p) :: pieces sep [] rest := by
  intro p
  induction p with
  | nil =>
    intro cur _
    rcases sep with _ | ⟨s, ss⟩
    · exact absurd rfl hs
    · rw [pieces.eq_def]
      simp only [List.nil_append, List.cons_append]
      rw [if_pos ⟨List.isPrefixOf_iff_prefix.2 (by rw [← List.cons_append]; exact List.prefix_append _ _), by simp⟩]
      simp
  | cons c cs ih =>
    intro cur h
    rw [pieces.eq_def]
    simp only [List.cons_append]
    rw [if_neg]
    · rw [ih _ (fun hc => h (hc.trans ⟨[c], [], by simp⟩))]; simp
    · rintro ⟨hp, _⟩
      exact not_prefix_of sep (c :: cs) rest h (by simp) hs (List.isPrefixOf_iff_prefix.1 hp)

theorem pieces_last (sep : List Char) : ∀ (p cur : List Char), ¬ sep <:+: p → pieces sep cur p = [cur ++ p] := by
  intro p
  induction p with
  | nil => intro cur _; rw [pieces.eq_def]; simp
  | cons c cs ih =>
    intro cur h
    rw [pieces.eq_def]
    simp only []
    rw [if_neg]
    · rw [ih _ (fun hc => h (hc.trans ⟨[c], [], by simp⟩))]; simp
    · rintro ⟨hp, _⟩
      exact h (List.isPrefixOf_iff_prefix.1 hp).isInfix

/-- **C52** splitting a join gives the parts back, if the separator occurs neither inside a part nor across the end of a part and the
beginning of the separator that follows it. -/
theorem C52_split_join (sep : List Char) (hs : sep ≠ []) (parts : List (List Char)) (hp : parts ≠ [])
    (h : ∀ p ∈ parts, ¬ sep <:+: p ++ sep.dropLast) : split sep (join sep parts) = parts := by
  rw [split_eq_pieces _ _ hs]
  induction parts with
  | nil => exact absurd rfl hp
  | cons x xs ih =>
    cases xs with
    | nil =>
      rw [join_single, pieces_last]; · simp
      intro hc; exact h x (by simp) (hc.trans (List.prefix_append _ _).isInfix)
    | cons y ys =>
      rw [join_cons, List.append_assoc, pieces_part sep hs _ _ _ (h x (by simp))]
      rw [ih (by simp) (fun p hp => h p (by simp at hp ⊢; tauto))]; simp

/-- **C52** in particular for a one-character separator that occurs in no part. -/
theorem C52_split_join_char (c : Char) (parts : List (List Char)) (hp : parts ≠ []) (h : ∀ p ∈ parts, c ∉ p) :
    split [c] (join [c] parts) = parts := by
  apply C52_split_join _ (by simp) _ hp
  intro p hp hc
  simp only [List.dropLast_singleton, List.append_nil] at hc
  exact h p hp (hc.subset (by simp))

example : split [','] (join [','] ["a".toList, [], "bc".toList]) = ["a".toList, [], "bc".toList] :=
  C52_split_join_char _ _ (by decide) (by decide)

/-- The condition on overlaps is needed: with separator `aa` the parts `a` and the empty string are not recovered although neither
contains the separator. -/
theorem C52_overlap_witness : split ['a', 'a'] (join ['a', 'a'] [['a'], []]) = [[], ['a']] := by
  rw [split_eq_pieces _ _ (by simp)]
  simp [join, pieces, List.isPrefixOf]

/-- Consecutive non-overlapping matches inside the text from `last` on, as a regex iterator yields them. -/
def Ordered (len : Nat) : Nat → List (Nat × Nat) → Prop
  | last, [] => last ≤ len
  | last, (s, e) :: ms => last ≤ s ∧ s ≤ e ∧ e ≤ len ∧ Ordered len e ms

/-- The pieces with the matched separators put back between them. -/
def weave (text : List Char) : List (List Char) → List (Nat × Nat) → List Char
  | p :: ps, (s, e) :: ms => p ++ ((text.drop s).take (e - s) ++ weave text ps ms)
  | p :: _, [] => p
  | [], _ => []

theorem splitAt_weave (text : List Char) : ∀ (ms : List (Nat × Nat)) (last : Nat), Ordered text.length last ms →
    (splitAt text last ms).length = ms.length + 1 ∧ weave text (splitAt text last ms) ms = text.drop last
  | [], last, h => by
    have : ¬ last > text.length := by simp only [Ordered] at h; omega
    simp [splitAt, this, weave]
  | (s, e) :: ms, last, ⟨h1, h2, h3, h4⟩ => by
    obtain ⟨hl, hw⟩ := splitAt_weave text ms e h4
    refine ⟨by simp [splitAt, hl], ?_⟩
    simp only [splitAt, weave, hw]
    have e1 : text.drop last = (text.drop last).take (s - last) ++ text.drop s := by
      conv_lhs => rw [← List.take_append_drop (s - last) (text.drop last)]
      rw [List.drop_drop]; congr 2; omega
    have e2 : text.drop s = (text.drop s).take (e - s) ++ text.drop e := by
      conv_lhs => rw [← List.take_append_drop (e - s) (text.drop s)]
      rw [List.drop_drop]; congr 2; omega
    rw [← e2, ← e1]

/-- **C52 (any pattern)** whatever ordered matches the regular expression finds, there is one piece more than matches, and putting
the matched texts back between the pieces gives the text: nothing is lost, duplicated or reordered. -/
theorem C52_split_regex (text : List Char) (ms : List (Nat × Nat)) (h : Ordered text.length 0 ms) :
    (splitAt text 0 ms).length = ms.length + 1 ∧ weave text (splitAt text 0 ms) ms = text := by
  simpa using splitAt_weave text ms 0 h

example : Ordered 5 0 [(1, 2), (2, 4)] := by simp [Ordered]

end Cordy.Str
