import Verif.Model.Scanner

/-! # Scanning lines, and then more lines -/
namespace Cordy.Scan

/-- The text ends with a line break. -/
def Lines (a : List Char) : Prop := a.getLast? = some '\n'

theorem Lines.ne {a : List Char} (h : Lines a) : a ≠ [] := by rintro rfl; cases h

theorem Lines.suffix {a b : List Char} (h : Lines b) (hs : a <:+ b) (hn : a ≠ []) : Lines a := by
  obtain ⟨u, rfl⟩ := hs
  rw [Lines, List.getLast?_append] at h
  cases hx : a.getLast? with
  | none => exact absurd (List.getLast?_eq_none_iff.mp hx) hn
  | some x => rw [hx] at h; exact hx.trans h

theorem Lines.tail {c : Char} {a : List Char} (h : Lines (c :: a)) (hc : c ≠ '\n') : Lines a := by
  cases a with
  | nil => cases h; exact absurd rfl hc
  | cons x a => exact h.suffix (List.suffix_cons _ _) (by simp)

theorem spanIdent_append (b : List Char) : ∀ a : List Char, Lines a →
    spanIdent (a ++ b) = ((spanIdent a).1, (spanIdent a).2 ++ b) ∧ (spanIdent a).2 <:+ a := by
  intro a
  induction a with
  | nil => intro h; exact absurd rfl h.ne
  | cons c a ih =>
    intro h
    rw [List.cons_append, spanIdent, spanIdent]
    by_cases hc : isIdent c = true
    · rw [if_pos hc, if_pos hc]
      have hn : c ≠ '\n' := by rintro rfl; cases hc
      obtain ⟨h1, h2⟩ := ih (h.tail hn)
      rw [h1]
      exact ⟨rfl, h2.trans (List.suffix_cons _ _)⟩
    · rw [if_neg hc, if_neg hc]
      exact ⟨rfl, List.suffix_refl _⟩

theorem spanDigits_append (p : Char → Bool) (hp : p '\n' = false) (b : List Char) : ∀ a : List Char, Lines a →
    spanDigits p (a ++ b) = ((spanDigits p a).1, (spanDigits p a).2.1, (spanDigits p a).2.2 ++ b) ∧ (spanDigits p a).2.2 <:+ a ∧ (spanDigits p a).2.2 ≠ [] := by
  intro a
  induction a with
  | nil => intro h; exact absurd rfl h.ne
  | cons c a ih =>
    intro h
    rw [List.cons_append, spanDigits, spanDigits]
    by_cases hc : p c = true
    · have hn : c ≠ '\n' := by rintro rfl; rw [hp] at hc; cases hc
      obtain ⟨h1, h2, h3⟩ := ih (h.tail hn)
      simp only [hc, if_true, h1]
      exact ⟨trivial, h2.trans (List.suffix_cons _ _), h3⟩
    · have hc' : p c = false := by simpa using hc
      by_cases hu : c = '_'
      · have hn : c ≠ '\n' := by rw [hu]; decide
        obtain ⟨h1, h2, h3⟩ := ih (h.tail hn)
        simp only [hc', Bool.false_eq_true, if_false, if_pos hu, h1]
        exact ⟨trivial, h2.trans (List.suffix_cons _ _), h3⟩
      · simp only [hc', Bool.false_eq_true, if_false, if_neg hu]
        exact ⟨rfl, List.suffix_refl _, by simp⟩

/-- The form of the results below: more text is left, nothing else changes. -/
def Same (b : List Char) (a : List Char) (r r' : List Out × List Char × Nat) : Prop :=
  r' = (r.1, r.2.1 ++ b, r.2.2) ∧ r.2.1 <:+ a

/-- All was taken, and it is unterminated. -/
def Unterminated (r : List Out × List Char × Nat) : Prop :=
  r.2.1 = [] ∧ ∃ l e, errors r.1 = [(l, e)] ∧ (e = .unterminatedString ∨ e = .unterminatedComment)

theorem screenInt_append (ds : List Char) (radix extra cur : Nat) (b rest a : List Char) (hr : rest ≠ []) (hs : rest <:+ a) :
    Same b a (screenInt ds radix extra rest cur) (screenInt ds radix extra (rest ++ b) cur) := by
  cases rest with
  | nil => exact absurd rfl hr
  | cons c rest =>
    unfold screenInt
    have : isCplx (c :: rest ++ b) = isCplx (c :: rest) := rfl
    rw [this]
    refine ⟨?_, ?_⟩
    · dsimp only
      cases isCplx (c :: rest) <;> cases Str.parseI64 radix ds <;> rfl
    · dsimp only
      exact (List.drop_suffix _ _).trans hs

theorem nl_errors (c : Char) (cur : Nat) : errors (nl c cur) = [] := by
  unfold nl
  split <;> rfl

theorem errors_append (a b : List Out) : errors (a ++ b) = errors a ++ errors b := List.filterMap_append ..

theorem strLoop_append (q : Char) (b : List Char) : ∀ (a : List Char) (esc : Bool) (buf : List Char) (outs : List Out) (cur : Nat), errors outs = [] →
    errors (strLoop q esc buf outs a cur).outs = [] ∧ ((strLoop q esc buf outs a cur).closed = false → (strLoop q esc buf outs a cur).rest = []) ∧
    ((strLoop q esc buf outs a cur).closed = true → (strLoop q esc buf outs a cur).rest <:+ a ∧
      strLoop q esc buf outs (a ++ b) cur = { strLoop q esc buf outs a cur with rest := (strLoop q esc buf outs a cur).rest ++ b }) := by
  intro a
  induction a with
  | nil => intro esc buf outs cur h; rw [strLoop]; exact ⟨h, fun _ => rfl, fun h => (nomatch h)⟩
  | cons c a ih =>
    intro esc buf outs cur h
    have h' : errors (outs ++ nl c cur) = [] := by rw [errors_append, h, nl_errors]; rfl
    have key : ∀ esc buf, _ := fun esc buf => ih esc buf (outs ++ nl c cur) (cur + 1) h'
    have lift : ∀ (r r' : StrRes), (errors r.outs = [] ∧ (r.closed = false → r.rest = []) ∧ (r.closed = true → r.rest <:+ a ∧ r' = { r with rest := r.rest ++ b })) →
        (errors r.outs = [] ∧ (r.closed = false → r.rest = []) ∧ (r.closed = true → r.rest <:+ c :: a ∧ r' = { r with rest := r.rest ++ b })) :=
      fun r r' h => ⟨h.1, h.2.1, fun hc => ⟨(h.2.2 hc).1.trans (List.suffix_cons _ _), (h.2.2 hc).2⟩⟩
    rw [List.cons_append, strLoop, strLoop]
    dsimp only
    split
    · split
      · exact lift _ _ (key _ _)
      · split
        · exact lift _ _ (key _ _)
        · exact ⟨h', fun h => (nomatch h), fun _ => ⟨List.suffix_cons _ _, rfl⟩⟩
    · repeat' split
      all_goals exact lift _ _ (key _ _)

theorem scanString_append (q : Char) (a b : List Char) (cur : Nat) :
    Same b a (scanString q a cur) (scanString q (a ++ b) cur) ∨ Unterminated (scanString q a cur) := by
  obtain ⟨h1, h2, h3⟩ := strLoop_append q b a false [] [] cur rfl
  unfold scanString
  cases hc : (strLoop q false [] [] a cur).closed with
  | true =>
    obtain ⟨h4, h5⟩ := h3 hc
    left
    rw [h5]
    dsimp only
    rw [hc]
    exact ⟨rfl, h4⟩
  | false =>
    right
    refine ⟨h2 hc, ⟨cur, (strLoop q false [] [] a cur).cur - cur + 1⟩, .unterminatedString, ?_, Or.inl rfl⟩
    dsimp only
    rw [hc, errors_append, errors_append, h1]
    rfl

theorem lineComment_append (b : List Char) : ∀ (a : List Char) (cur : Nat), Lines a → Same b a (lineComment a cur) (lineComment (a ++ b) cur) := by
  intro a
  induction a with
  | nil => intro cur h; exact absurd rfl h.ne
  | cons c a ih =>
    intro cur h
    rw [List.cons_append, lineComment, lineComment]
    by_cases hc : c = '\n'
    · rw [if_pos hc, if_pos hc]
      exact ⟨rfl, List.suffix_cons _ _⟩
    · rw [if_neg hc, if_neg hc]
      obtain ⟨h1, h2⟩ := ih (cur + 1) (h.tail hc)
      exact ⟨h1, h2.trans (List.suffix_cons _ _)⟩

theorem blockComment_append (start : Nat) (b : List Char) (a : List Char) (cur : Nat) :
    Same b a (blockComment start a cur) (blockComment start (a ++ b) cur) ∨ Unterminated (blockComment start a cur) := by
  fun_induction blockComment start a cur with
  | case1 cur => exact Or.inr ⟨rfl, _, _, rfl, Or.inr rfl⟩
  | case2 cur => exact Or.inr ⟨rfl, _, _, rfl, Or.inr rfl⟩
  | case3 cs cur => exact Or.inl ⟨rfl, (List.suffix_cons _ _).trans (List.suffix_cons _ _)⟩
  | case4 c cs cur hc ih =>
    have he : ∀ ds, blockComment start ('*' :: c :: ds) cur = (nl c (cur + 1) ++ (blockComment start ds (cur + 2)).1, (blockComment start ds (cur + 2)).2) := by
      intro ds
      rw [blockComment]
      exact hc
    rcases ih with ⟨h1, h2⟩ | ⟨h1, l, e, h2, h3⟩
    · left
      refine ⟨?_, h2.trans ((List.suffix_cons _ _).trans (List.suffix_cons _ _))⟩
      rw [List.cons_append, List.cons_append, he, h1]
    · right
      exact ⟨h1, l, e, by rw [errors_append, nl_errors, h2]; rfl, h3⟩
  | case5 c cs cur h1 h2 h3 ih =>
    have hc : ∀ d ds, c = '*' → (cs = d :: ds) → False := by
      intro d ds hc hcs
      subst hcs
      by_cases hd : d = '/'
      · exact h2 ds hc (by rw [hd])
      · exact h3 d ds hc rfl
    have hc' : c ≠ '*' := by
      intro h
      rcases cs with _ | ⟨d, ds⟩
      · exact h1 h rfl
      · exact hc d ds h rfl
    have he : ∀ ds, blockComment start (c :: ds) cur = (nl c cur ++ (blockComment start ds (cur + 1)).1, (blockComment start ds (cur + 1)).2) := by
      intro ds
      rw [blockComment]
      · intro h _; exact hc' h
      · intro _ h _; exact hc' h
      · intro _ _ h _; exact hc' h
    rcases ih with ⟨g1, g2⟩ | ⟨g1, l, e, g2, g3⟩
    · left
      refine ⟨?_, g2.trans (List.suffix_cons _ _)⟩
      rw [List.cons_append, he, g1]
    · right
      exact ⟨g1, l, e, by rw [errors_append, nl_errors, g2]; rfl, g3⟩

theorem scanZero_append (a b : List Char) (cur : Nat) (h : Lines a) : Same b a (scanZero a cur) (scanZero (a ++ b) cur) := by
  unfold scanZero
  split
  · rename_i cs
    have hl : Lines cs := h.tail (by decide)
    obtain ⟨h1, h2, h3⟩ := spanDigits_append isHex rfl b cs hl
    have hr : ∀ ds, (let r := spanDigits isHex ds; screenInt r.1 16 r.2.1 r.2.2 (cur + 1 + (r.1.length + r.2.1))) = scanZero ('x' :: ds) cur := fun _ => rfl
    change Same b ('x' :: cs) _ (scanZero ('x' :: (cs ++ b)) cur)
    rw [← hr]
    dsimp only
    rw [h1]
    exact screenInt_append _ _ _ _ _ _ _ h3 (h2.trans (List.suffix_cons _ _))
  · rename_i cs
    have hl : Lines cs := h.tail (by decide)
    obtain ⟨h1, h2, h3⟩ := spanDigits_append isBin rfl b cs hl
    have hr : ∀ ds, (let r := spanDigits isBin ds; screenInt r.1 2 r.2.1 r.2.2 (cur + 1 + (r.1.length + r.2.1))) = scanZero ('b' :: ds) cur := fun _ => rfl
    change Same b ('b' :: cs) _ (scanZero ('b' :: (cs ++ b)) cur)
    rw [← hr]
    dsimp only
    rw [h1]
    exact screenInt_append _ _ _ _ _ _ _ h3 (h2.trans (List.suffix_cons _ _))
  · exact ⟨rfl, List.suffix_cons _ _⟩
  · exact ⟨rfl, List.suffix_cons _ _⟩
  · rename_i c cs h1 h2 h3 h4
    have hr : ∀ ds, scanZero (c :: ds) cur = if isIdent c then ([pushErr cur 1 2 (.invalidNumericPrefix c)], c :: ds, cur) else ([push cur 1 (.int 0)], c :: ds, cur) := by
      intro ds
      rw [scanZero]
      · exact h1
      · exact h2
      · exact h3
      · exact h4
    change Same b (c :: cs) _ (scanZero (c :: (cs ++ b)) cur)
    rw [hr]
    split
    · exact ⟨rfl, List.suffix_refl _⟩
    · exact ⟨rfl, List.suffix_refl _⟩
  · exact absurd rfl h.ne

/-- How the operators look ahead. -/
def AppOp (c : Char) : Prop := ∀ (x y : Char) (a b : List Char), scanOp c (x :: y :: a ++ b) = (scanOp c (x :: y :: a)).map (fun r => (r.1, r.2 ++ b)) ∧
  (x = '\n' → scanOp c (x :: b) = (scanOp c [x]).map (fun r => (r.1, r.2 ++ b)))

macro "opside" : tactic => `(tactic| (intros; rename_i h; simp_all))

theorem app_op0 : AppOp '!' := by
  intro x y a b
  refine ⟨?_, by rintro rfl; rfl⟩
  by_cases h61 : x = '='
  · subst h61; rfl
  have hr : ∀ l, scanOp '!' (x :: l) = some ([(1, .not)], x :: l) := by
    intro l; rw [scanOp] <;> (intros; simp_all)
  rw [List.cons_append, hr, hr]; rfl

theorem app_op1 : AppOp '=' := by
  intro x y a b
  refine ⟨?_, by rintro rfl; rfl⟩
  by_cases h61 : x = '='
  · subst h61; rfl
  have hr : ∀ l, scanOp '=' (x :: l) = some ([(1, .equals)], x :: l) := by
    intro l; rw [scanOp] <;> (intros; simp_all)
  rw [List.cons_append, hr, hr]; rfl

theorem app_op2 : AppOp '+' := by
  intro x y a b
  refine ⟨?_, by rintro rfl; rfl⟩
  by_cases h61 : x = '='
  · subst h61; rfl
  have hr : ∀ l, scanOp '+' (x :: l) = some ([(1, .plus)], x :: l) := by
    intro l; rw [scanOp] <;> (intros; simp_all)
  rw [List.cons_append, hr, hr]; rfl

theorem app_op3 : AppOp '-' := by
  intro x y a b
  refine ⟨?_, by rintro rfl; rfl⟩
  by_cases h61 : x = '='
  · subst h61; rfl
  by_cases h62 : x = '>'
  · subst h62; rfl
  have hr : ∀ l, scanOp '-' (x :: l) = some ([(1, .minus)], x :: l) := by
    intro l; rw [scanOp] <;> (intros; simp_all)
  rw [List.cons_append, hr, hr]; rfl

theorem app_op4 : AppOp '*' := by
  intro x y a b
  refine ⟨?_, by rintro rfl; rfl⟩
  by_cases h61 : x = '='
  · subst h61; rfl
  by_cases h42 : x = '*'
  · subst h42
    by_cases hy : y = '='
    · subst hy; rfl
    · have hr : ∀ l, scanOp '*' ('*' :: y :: l) = some ([(2, .pow)], y :: l) := by
        intro l; rw [scanOp]; intro r h; injection h with h _; exact hy h
      rw [List.cons_append, List.cons_append, hr, hr]; rfl
  have hr : ∀ l, scanOp '*' (x :: l) = some ([(1, .mul)], x :: l) := by
    intro l; rw [scanOp] <;> (intros; simp_all)
  rw [List.cons_append, hr, hr]; rfl

theorem app_op5 : AppOp '/' := by
  intro x y a b
  refine ⟨?_, by rintro rfl; rfl⟩
  by_cases h61 : x = '='
  · subst h61; rfl
  have hr : ∀ l, scanOp '/' (x :: l) = some ([(1, .div)], x :: l) := by
    intro l; rw [scanOp] <;> (intros; simp_all)
  rw [List.cons_append, hr, hr]; rfl

theorem app_op6 : AppOp '|' := by
  intro x y a b
  refine ⟨?_, by rintro rfl; rfl⟩
  by_cases h61 : x = '='
  · subst h61; rfl
  have hr : ∀ l, scanOp '|' (x :: l) = some ([(1, .bitwiseOr)], x :: l) := by
    intro l; rw [scanOp] <;> (intros; simp_all)
  rw [List.cons_append, hr, hr]; rfl

theorem app_op7 : AppOp '&' := by
  intro x y a b
  refine ⟨?_, by rintro rfl; rfl⟩
  by_cases h61 : x = '='
  · subst h61; rfl
  have hr : ∀ l, scanOp '&' (x :: l) = some ([(1, .bitwiseAnd)], x :: l) := by
    intro l; rw [scanOp] <;> (intros; simp_all)
  rw [List.cons_append, hr, hr]; rfl

theorem app_op8 : AppOp '^' := by
  intro x y a b
  refine ⟨?_, by rintro rfl; rfl⟩
  by_cases h61 : x = '='
  · subst h61; rfl
  have hr : ∀ l, scanOp '^' (x :: l) = some ([(1, .bitwiseXor)], x :: l) := by
    intro l; rw [scanOp] <;> (intros; simp_all)
  rw [List.cons_append, hr, hr]; rfl

theorem app_op9 : AppOp '%' := by
  intro x y a b
  refine ⟨?_, by rintro rfl; rfl⟩
  by_cases h61 : x = '='
  · subst h61; rfl
  have hr : ∀ l, scanOp '%' (x :: l) = some ([(1, .mod)], x :: l) := by
    intro l; rw [scanOp] <;> (intros; simp_all)
  rw [List.cons_append, hr, hr]; rfl

theorem app_op10 : AppOp '.' := by
  intro x y a b
  refine ⟨?_, by rintro rfl; rfl⟩
  by_cases h61 : x = '='
  · subst h61; rfl
  by_cases h46 : x = '.'
  · subst h46
    by_cases hy : y = '.'
    · subst hy; rfl
    · have hr : ∀ l, scanOp '.' ('.' :: y :: l) = some ([(1, .dot), (1, .dot)], y :: l) := by
        intro l; rw [scanOp]; intro r h; injection h with h _; exact hy h
      rw [List.cons_append, List.cons_append, hr, hr]; rfl
  have hr : ∀ l, scanOp '.' (x :: l) = some ([(1, .dot)], x :: l) := by
    intro l; rw [scanOp] <;> (intros; simp_all)
  rw [List.cons_append, hr, hr]; rfl

theorem app_op11 : AppOp '>' := by
  intro x y a b
  refine ⟨?_, by rintro rfl; rfl⟩
  by_cases h62 : x = '>'
  · subst h62
    by_cases hy : y = '='
    · subst hy; rfl
    · have hr : ∀ l, scanOp '>' ('>' :: y :: l) = some ([(2, .rightShift)], y :: l) := by
        intro l; rw [scanOp]; intro r h; injection h with h _; exact hy h
      rw [List.cons_append, List.cons_append, hr, hr]; rfl
  by_cases h61 : x = '='
  · subst h61; rfl
  have hr : ∀ l, scanOp '>' (x :: l) = some ([(1, .greaterThan)], x :: l) := by
    intro l; rw [scanOp] <;> (intros; simp_all)
  rw [List.cons_append, hr, hr]; rfl

theorem app_op12 : AppOp '<' := by
  intro x y a b
  refine ⟨?_, by rintro rfl; rfl⟩
  by_cases h60 : x = '<'
  · subst h60
    by_cases hy : y = '='
    · subst hy; rfl
    · have hr : ∀ l, scanOp '<' ('<' :: y :: l) = some ([(2, .leftShift)], y :: l) := by
        intro l; rw [scanOp]; intro r h; injection h with h _; exact hy h
      rw [List.cons_append, List.cons_append, hr, hr]; rfl
  by_cases h61 : x = '='
  · subst h61; rfl
  have hr : ∀ l, scanOp '<' (x :: l) = some ([(1, .lessThan)], x :: l) := by
    intro l; rw [scanOp] <;> (intros; simp_all)
  rw [List.cons_append, hr, hr]; rfl

theorem scanOp_append (c : Char) (a b : List Char) (h : Lines a) :
    scanOp c (a ++ b) = (scanOp c a).map (fun r => (r.1, r.2 ++ b)) ∧ ∀ r, scanOp c a = some r → r.2 <:+ a := by
  refine ⟨?_, ?_⟩
  · have use : AppOp c → scanOp c (a ++ b) = (scanOp c a).map (fun r => (r.1, r.2 ++ b)) := by
      intro ho
      rcases a with _ | ⟨x, _ | ⟨y, a⟩⟩
      · exact absurd rfl h.ne
      · cases h; exact (ho '\n' '\n' [] b).2 rfl
      · exact (ho x y a b).1
    by_cases h33 : c = '!'
    · exact use (h33 ▸ app_op0)
    by_cases h61 : c = '='
    · exact use (h61 ▸ app_op1)
    by_cases h43 : c = '+'
    · exact use (h43 ▸ app_op2)
    by_cases h45 : c = '-'
    · exact use (h45 ▸ app_op3)
    by_cases h42 : c = '*'
    · exact use (h42 ▸ app_op4)
    by_cases h47 : c = '/'
    · exact use (h47 ▸ app_op5)
    by_cases h124 : c = '|'
    · exact use (h124 ▸ app_op6)
    by_cases h38 : c = '&'
    · exact use (h38 ▸ app_op7)
    by_cases h94 : c = '^'
    · exact use (h94 ▸ app_op8)
    by_cases h37 : c = '%'
    · exact use (h37 ▸ app_op9)
    by_cases h46 : c = '.'
    · exact use (h46 ▸ app_op10)
    by_cases h62 : c = '>'
    · exact use (h62 ▸ app_op11)
    by_cases h60 : c = '<'
    · exact use (h60 ▸ app_op12)
    by_cases h40 : c = '('
    · subst h40; rfl
    by_cases h41 : c = ')'
    · subst h41; rfl
    by_cases h91 : c = '['
    · subst h91; rfl
    by_cases h93 : c = ']'
    · subst h93; rfl
    by_cases h123 : c = '{'
    · subst h123; rfl
    by_cases h125 : c = '}'
    · subst h125; rfl
    by_cases h44 : c = ','
    · subst h44; rfl
    by_cases h58 : c = ':'
    · subst h58; rfl
    by_cases h95 : c = '_'
    · subst h95; rfl
    by_cases h59 : c = ';'
    · subst h59; rfl
    by_cases h64 : c = '@'
    · subst h64; rfl
    by_cases h63 : c = '?'
    · subst h63; rfl
    have hr : ∀ l, scanOp c l = none := by
      intro l; unfold scanOp; split <;> first | rfl | contradiction
    rw [hr, hr]; rfl
  · intro r hr
    unfold scanOp at hr
    split at hr <;> cases hr <;> first
      | exact List.suffix_refl _
      | exact List.suffix_cons _ _
      | exact (List.suffix_cons _ _).trans (List.suffix_cons _ _)

theorem step_append (c : Char) (a b : List Char) (cur : Nat) (h : Lines (c :: a)) :
    Same b a (step c a cur) (step c (a ++ b) cur) ∨ Unterminated (step c a cur) := by
  unfold step
  by_cases h0 : isBlank c = true
  · rw [if_pos h0, if_pos h0]
    exact Or.inl ⟨rfl, List.suffix_refl _⟩
  rw [if_neg h0, if_neg h0]
  have hl : Lines a := h.tail (by rintro rfl; exact h0 rfl)
  have hhd : (a ++ b).head? = a.head? := by
    cases a with
    | nil => exact absurd rfl hl.ne
    | cons x a => rfl
  rw [hhd]
  by_cases h1 : isLetter c = true
  · rw [if_pos h1, if_pos h1]
    obtain ⟨g1, g2⟩ := spanIdent_append b a hl
    rw [g1]
    exact Or.inl ⟨rfl, g2⟩
  rw [if_neg h1, if_neg h1]
  by_cases h2 : c = '0'
  · rw [if_pos h2, if_pos h2]
    exact Or.inl (scanZero_append a b cur hl)
  rw [if_neg h2, if_neg h2]
  by_cases h3 : isDigit c = true
  · rw [if_pos h3, if_pos h3]
    obtain ⟨g1, g2, g3⟩ := spanDigits_append isDigit rfl b a hl
    rw [g1]
    exact Or.inl (screenInt_append _ _ _ _ _ _ _ g3 g2)
  rw [if_neg h3, if_neg h3]
  by_cases h4 : c = '\'' ∨ c = '"'
  · rw [if_pos h4, if_pos h4]
    exact scanString_append c a b cur
  rw [if_neg h4, if_neg h4]
  by_cases h5 : c = '/' ∧ a.head? = some '/'
  · rw [if_pos h5, if_pos h5]
    exact Or.inl (lineComment_append b a cur hl)
  rw [if_neg h5, if_neg h5]
  by_cases h6 : c = '/' ∧ a.head? = some '*'
  · rw [if_pos h6, if_pos h6]
    exact blockComment_append cur b a cur
  rw [if_neg h6, if_neg h6]
  obtain ⟨g1, g2⟩ := scanOp_append c a b hl
  rw [g1]
  left
  cases hs : scanOp c a with
  | none => exact ⟨rfl, List.suffix_refl _⟩
  | some r =>
    obtain ⟨ts, r⟩ := r
    have := (g2 _ hs).length_le
    refine ⟨?_, g2 _ hs⟩
    have e : (a ++ b).length - (r ++ b).length = a.length - r.length := by
      rw [List.length_append, List.length_append]; omega
    change (place (cur - 1) ts, r ++ b, cur + ((a ++ b).length - (r ++ b).length)) = _
    rw [e]

/-- More text after a line break: the scan goes on where it was, or the text had an unterminated string or comment at its end and
all that came before it is scanned as it was. -/
theorem scanFrom_append (b : List Char) : ∀ (n : Nat) (a : List Char) (cur : Nat), a.length ≤ n → (a = [] ∨ Lines a) →
    scanFrom (a ++ b) cur = scanFrom a cur ++ scanFrom b (cur + a.length) ∨
    ∃ o u, scanFrom a cur = o ++ u ∧ o <+: scanFrom (a ++ b) cur ∧
      ∃ l e, errors u = [(l, e)] ∧ (e = .unterminatedString ∨ e = .unterminatedComment) := by
  intro n
  induction n with
  | zero =>
    intro a cur hn _
    have : a = [] := List.length_eq_zero_iff.mp (Nat.le_zero.mp hn)
    subst this
    left
    rw [scanFrom.eq_def []]
    rfl
  | succ n ih =>
    intro a cur hn ha
    cases a with
    | nil => left; rw [scanFrom.eq_def []]; rfl
    | cons c a =>
      have ha : Lines (c :: a) := ha.resolve_left (by simp)
      rw [List.cons_append, scanFrom.eq_def (c :: a), scanFrom.eq_def (c :: (a ++ b))]
      dsimp only
      have hlen := step_length c a (cur + 1)
      rcases step_append c a b (cur + 1) ha with ⟨h1, h2⟩ | ⟨h1, h2⟩
      · rw [h1]
        dsimp only
        have hle := h2.length_le
        have := ih (step c a (cur + 1)).2.1 (step c a (cur + 1)).2.2 (by simp at hn; omega) (by
          by_cases hx : (step c a (cur + 1)).2.1 = []
          · exact Or.inl hx
          · exact Or.inr (ha.suffix (h2.trans (List.suffix_cons _ _)) hx))
        rcases this with h3 | ⟨o, u, h3, h4, h5⟩
        · left
          rw [h3, List.append_assoc]
          have : (step c a (cur + 1)).2.2 + (step c a (cur + 1)).2.1.length = cur + (c :: a).length := by
            rw [hlen, List.length_cons]; omega
          rw [this]
        · right
          refine ⟨(step c a (cur + 1)).1 ++ o, u, ?_, ?_, h5⟩
          · rw [h3, List.append_assoc]
          · exact (List.prefix_append_right_inj _).mpr h4
      · right
        refine ⟨[], (step c a (cur + 1)).1, ?_, List.nil_prefix, h2⟩
        rw [h1, scanFrom.eq_def []]
        simp

end Cordy.Scan
