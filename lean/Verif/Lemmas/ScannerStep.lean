import Verif.Lemmas.Scanner
/-! Every step of the scanner follows the lexical grammar. -/
namespace Cordy.Scan
open Cordy.Str

/-! ## Strings -/

/-- What the string loop consumes and produces. -/
theorem strLoop_spec (q : Char) (hq : q = '\'' ∨ q = '"') : ∀ (cs : List Char) (esc : Bool) (buf : List Char) (outs : List Out) (cur : Nat),
    ∃ used v, cs = used ++ ((if (strLoop q esc buf outs cs cur).closed then [q] else []) ++ (strLoop q esc buf outs cs cur).rest) ∧
      (strLoop q esc buf outs cs cur).buf = buf ++ v ∧
      proper (strLoop q esc buf outs cs cur).outs = proper outs ∧
      lineEnds (strLoop q esc buf outs cs cur).outs = lineEnds outs ++ newlines cur used ∧
      errors (strLoop q esc buf outs cs cur).outs = errors outs ∧
      (strLoop q esc buf outs cs cur).cur = cur + used.length + (if (strLoop q esc buf outs cs cur).closed then 1 else 0) ∧
      ((strLoop q esc buf outs cs cur).closed = true → Body q (if esc then '\\' :: used else used) v) ∧
      ((strLoop q esc buf outs cs cur).closed = false → (strLoop q esc buf outs cs cur).rest = [])
  | [], esc, buf, outs, cur => ⟨[], [], by simp [strLoop], by simp [strLoop], by simp [strLoop], by simp [strLoop, newlines],
      by simp [strLoop], by simp [strLoop], by simp [strLoop], by simp [strLoop]⟩
  | c :: cs, esc, buf, outs, cur => by
    obtain ⟨n1, n2, n3⟩ := nl_tokens c cur
    -- the common case: `c` is consumed and `w` is appended to the buffer
    have go : ∀ (esc' : Bool) (w : List Char),
        (∀ used v, Body q (if esc' then '\\' :: used else used) v → Body q (if esc then '\\' :: c :: used else c :: used) (w ++ v)) →
        strLoop q esc buf outs (c :: cs) cur = strLoop q esc' (buf ++ w) (outs ++ nl c cur) cs (cur + 1) →
        ∃ used v, c :: cs = used ++ ((if (strLoop q esc buf outs (c :: cs) cur).closed then [q] else []) ++ (strLoop q esc buf outs (c :: cs) cur).rest) ∧
          (strLoop q esc buf outs (c :: cs) cur).buf = buf ++ v ∧
          proper (strLoop q esc buf outs (c :: cs) cur).outs = proper outs ∧
          lineEnds (strLoop q esc buf outs (c :: cs) cur).outs = lineEnds outs ++ newlines cur used ∧
          errors (strLoop q esc buf outs (c :: cs) cur).outs = errors outs ∧
          (strLoop q esc buf outs (c :: cs) cur).cur = cur + used.length + (if (strLoop q esc buf outs (c :: cs) cur).closed then 1 else 0) ∧
          ((strLoop q esc buf outs (c :: cs) cur).closed = true → Body q (if esc then '\\' :: used else used) v) ∧
          ((strLoop q esc buf outs (c :: cs) cur).closed = false → (strLoop q esc buf outs (c :: cs) cur).rest = []) := by
      intro esc' w hb he
      rw [he]
      obtain ⟨used, v, h1, h2, h3, h4, h5, h6, h7, h8⟩ := strLoop_spec q hq cs esc' (buf ++ w) (outs ++ nl c cur) (cur + 1)
      refine ⟨c :: used, w ++ v, ?_, ?_, ?_, ?_, ?_, ?_, ?_, h8⟩
      · conv_lhs => rw [h1]
        simp
      · rw [h2]; simp
      · rw [h3, proper_append, n1]; simp
      · rw [h4, lineEnds_append, n2]
        rw [show c :: used = [c] ++ used from rfl, newlines_append]; simp
      · rw [h5, errors_append, n3]; simp
      · rw [h6]; simp; omega
      · intro hcl
        have := hb used v (h7 hcl)
        exact this
    by_cases hquote : c = '\'' ∨ c = '"'
    · have hcn : c ≠ '\n' ∧ c ≠ '\\' ∧ c ≠ '\r' := by rcases hquote with rfl | rfl <;> decide
      cases esc with
      | true =>
        refine go false [c] ?_ (by rw [strLoop]; simp only [hquote, if_true])
        intro used v h
        exact .escSelf (.inr hquote) h
      | false =>
        by_cases hqc : q = c
        · have he : strLoop q false buf outs (c :: cs) cur = ⟨buf, true, outs ++ nl c cur, cs, cur + 1⟩ := by
            rw [strLoop]; simp only [hquote, if_true, Bool.false_eq_true, if_false, hqc, ne_eq, not_true]
          rw [he]
          have hnl : nl c cur = [] := by rw [nl, if_neg hcn.1]
          refine ⟨[], [], ?_, by simp, by simp [hnl], by simp [hnl, newlines], by simp [hnl], by simp, ?_, by simp⟩
          · simp [hqc]
          · intro _; exact .nil
        · refine go false [c] ?_ (by rw [strLoop]; simp only [hquote, if_true, Bool.false_eq_true, if_false, if_pos hqc, ne_eq, hqc, not_false_iff])
          intro used v h
          exact .plain (Ne.symm hqc) hcn.2.1 hcn.2.2 h
    · have hcq : c ≠ q := by rintro rfl; exact hquote hq
      by_cases hbs : c = '\\'
      · subst hbs
        cases esc with
        | true =>
          refine go false ['\\'] ?_ (by rw [strLoop]; simp only [hquote, if_false, if_true])
          intro used v h
          exact .escSelf (.inl rfl) h
        | false =>
          refine go true [] ?_ (by rw [strLoop]; simp only [hquote, if_false, if_true, Bool.false_eq_true, List.append_nil])
          intro used v h
          exact h
      · by_cases hcr : c = '\r'
        · subst hcr
          refine go esc [] ?_ (by rw [strLoop]; simp only [hquote, if_false, hbs, if_true, List.append_nil])
          intro used v h
          cases esc with
          | true => exact .escCr h
          | false => exact .cr h
        · cases esc with
          | true =>
            by_cases h1 : c = 'n'
            · subst h1
              refine go false ['\n'] ?_ (by rw [strLoop]; simp)
              intro used v h; exact .escN h
            by_cases h2 : c = 'r'
            · subst h2
              refine go false ['\r'] ?_ (by rw [strLoop]; simp)
              intro used v h; exact .escR h
            by_cases h3 : c = 't'
            · subst h3
              refine go false ['\t'] ?_ (by rw [strLoop]; simp)
              intro used v h; exact .escT h
            refine go false ['\\', c] ?_ (by
              rw [strLoop]
              simp only [hquote, hbs, hcr, h1, h2, h3, if_false, false_and, if_true]; rfl)
            intro used v h
            refine .escOther ?_ h
            simp only [List.mem_cons, List.not_mem_nil, or_false, not_or]
            exact ⟨h1, h2, h3, hbs, fun h => hquote (.inl h), fun h => hquote (.inr h), hcr⟩
          | false =>
            refine go false [c] ?_ (by
              rw [strLoop]
              simp only [hquote, hbs, hcr, if_false, and_false, Bool.false_eq_true]; rfl)
            intro used v h
            exact .plain hcq hbs hcr h

theorem scanString_step (q : Char) (hq : q = '\'' ∨ q = '"') (cs : List Char) (cur : Nat) :
    ∃ segs, Step q cs cur (scanString q cs (cur + 1)).1 (scanString q cs (cur + 1)).2.1 segs := by
  obtain ⟨used, v, h1, h2, h3, h4, h5, h6, h7, h8⟩ := strLoop_spec q hq cs false [] [] (cur + 1)
  have hqn : q ≠ '\n' := by rcases hq with rfl | rfl <;> decide
  have hnq : newlines cur [q] = [] := newlines_none _ _ (by simp; exact fun h => hqn h.symm)
  unfold scanString
  generalize hr : strLoop q false [] [] cs (cur + 1) = R at *
  simp only [List.nil_append] at h2
  simp only [lineEnds_nil, List.nil_append] at h4
  simp only [] at *
  cases hcl : R.closed with
  | true =>
    rw [hcl] at h1 h6 h7
    simp only [if_true] at h1 h6
    refine ⟨[.tok (q :: (used ++ [q])) (.string v)], ?_, ?_, ?_, ?_, ?_⟩
    · simp only [texts, List.flatMap_cons, List.flatMap_nil, Seg.text, List.append_nil]
      conv_lhs => rw [h1]
      simp
    · intro s hs; simp at hs; subst hs; exact .str hq (h7 rfl)
    · simp only [if_true, List.append_nil, proper_append, h3, h2]
      simp only [proper_nil, List.nil_append]
      simp only [Scan.proper, tokens, push, segTokens, Seg.token, Seg.text]
      simp; omega
    · simp only [if_true, List.append_nil, lineEnds_append, h4]
      simp only [texts, List.flatMap_cons, List.flatMap_nil, Seg.text, List.append_nil]
      rw [show q :: (used ++ [q]) = [q] ++ (used ++ [q]) from rfl, newlines_append, hnq, newlines_append]
      rw [newlines_none _ [q] (by simp; exact fun h => hqn h.symm)]
      simp [Scan.lineEnds, tokens, push]
    · simp only [if_true, List.append_nil, errors_append, h5]
      simp [Scan.errors, push, Seg.isBad]
  | false =>
    rw [hcl] at h1 h6
    have hrest := h8 hcl
    simp only [Bool.false_eq_true, if_false, List.nil_append, Nat.add_zero] at h1 h6
    rw [hrest] at h1 ⊢
    simp only [List.append_nil] at h1
    refine ⟨[.openString (q :: used) v], ?_, ?_, ?_, ?_, ?_⟩
    · simp only [texts, List.flatMap_cons, List.flatMap_nil, Seg.text, List.append_nil]
      conv_lhs => rw [h1]
    · intro s hs; simp at hs; subst hs
      rcases hq with rfl | rfl
      · exact ⟨used, .inl rfl⟩
      · exact ⟨used, .inr rfl⟩
    · simp only [Bool.false_eq_true, if_false, proper_append, h3, h2]
      simp only [Scan.proper, tokens, push, pushErrAt, segTokens, Seg.token, Seg.text]
      simp; omega
    · simp only [Bool.false_eq_true, if_false, lineEnds_append, h4]
      simp only [texts, List.flatMap_cons, List.flatMap_nil, Seg.text, List.append_nil]
      rw [show q :: used = [q] ++ used from rfl, newlines_append, hnq]
      simp [Scan.lineEnds, tokens, push, pushErrAt]
    · simp only [Bool.false_eq_true, if_false, errors_append, h5]
      simp [Scan.errors, push, pushErrAt, Seg.isBad]

/-! ## Comments -/

theorem lineComment_spec : ∀ (cs : List Char) (cur : Nat),
    ∃ used, cs = used ++ (lineComment cs cur).2.1 ∧ '\n' ∉ used.dropLast ∧ proper (lineComment cs cur).1 = [] ∧
      lineEnds (lineComment cs cur).1 = newlines cur used ∧ errors (lineComment cs cur).1 = [] ∧
      (used.getLast? = some '\n' ∨ '\n' ∉ used ∧ (lineComment cs cur).2.1 = [])
  | [], cur => ⟨[], by simp [lineComment, newlines]⟩
  | c :: cs, cur => by
    obtain ⟨n1, n2, n3⟩ := nl_tokens c cur
    by_cases h : c = '\n'
    · rw [lineComment, if_pos h]
      exact ⟨[c], by simp, by simp, n1, n2, n3, .inl (by simp [h])⟩
    · rw [lineComment, if_neg h]
      obtain ⟨used, h1, h2, h3, h4, h5, h6⟩ := lineComment_spec cs (cur + 1)
      refine ⟨c :: used, ?_, ?_, h3, ?_, h5, ?_⟩
      · conv_lhs => rw [h1]
        rfl
      · cases used with
        | nil => simp
        | cons x xs => simp only [List.dropLast_cons_cons, List.mem_cons, not_or]; exact ⟨fun e => h e.symm, h2⟩
      · rw [h4, newlines, if_neg h]; simp
      · rcases h6 with h6 | h6
        · left; cases used with
          | nil => simp at h6
          | cons x xs => simpa [List.getLast?_cons] using h6
        · right; refine ⟨?_, h6.2⟩
          simp only [List.mem_cons, not_or]; exact ⟨fun e => h e.symm, h6.1⟩

theorem blockComment_spec (start : Nat) : ∀ (cs : List Char) (cur : Nat),
    ∃ used, cs = used ++ (blockComment start cs cur).2.1 ∧ proper (blockComment start cs cur).1 = [] ∧
      lineEnds (blockComment start cs cur).1 = newlines cur used ∧
      (errors (blockComment start cs cur).1 = [] → ∃ b, used = b ++ ['*', '/']) := by
  intro cs cur
  fun_induction blockComment start cs cur with
  | case1 cur => exact ⟨[], by simp, by simp [proper, tokens, pushErrAt], by simp [lineEnds, tokens, pushErrAt, newlines], by simp [errors, pushErrAt]⟩
  | case2 cur => exact ⟨['*'], by simp, by simp [proper, tokens, pushErrAt], by simp [lineEnds, tokens, pushErrAt, newlines], by simp [errors, pushErrAt]⟩
  | case3 cs cur => exact ⟨['*', '/'], by simp, by simp, by simp [newlines], fun _ => ⟨[], rfl⟩⟩
  | case4 c cs cur hc ih =>
    obtain ⟨n1, n2, n3⟩ := nl_tokens c (cur + 1)
    obtain ⟨used, h1, h2, h3, h4⟩ := ih
    refine ⟨'*' :: c :: used, ?_, ?_, ?_, ?_⟩
    · conv_lhs => rw [h1]
      rfl
    · rw [proper_append, n1, h2]; rfl
    · rw [lineEnds_append, n2, h3]
      rw [show '*' :: c :: used = ['*'] ++ ([c] ++ used) from rfl, newlines_append, newlines_append]
      simp [newlines]
    · intro he
      rw [errors_append, n3, List.nil_append] at he
      obtain ⟨b, hb⟩ := h4 he
      exact ⟨'*' :: c :: b, by rw [hb]; rfl⟩
  | case5 c cs cur _ _ _ ih =>
    obtain ⟨n1, n2, n3⟩ := nl_tokens c cur
    obtain ⟨used, h1, h2, h3, h4⟩ := ih
    refine ⟨c :: used, ?_, ?_, ?_, ?_⟩
    · conv_lhs => rw [h1]
      rfl
    · rw [proper_append, n1, h2]; rfl
    · rw [lineEnds_append, n2, h3]
      rw [show c :: used = [c] ++ used from rfl, newlines_append]
      simp
    · intro he
      rw [errors_append, n3, List.nil_append] at he
      obtain ⟨b, hb⟩ := h4 he
      exact ⟨c :: b, by rw [hb]; rfl⟩

/-! ## Operators -/

theorem scanOp_spec (c : Char) (rest : List Char) (ts : List (Nat × Token)) (r : List Char) (h : scanOp c rest = some (ts, r)) :
    (∃ s t, ts = [(s.length, t)] ∧ c :: rest = s ++ r ∧ (s, t) ∈ operators) ∨
    (ts = [(1, .dot), (1, .dot)] ∧ c :: rest = ['.', '.'] ++ r) := by
  unfold scanOp at h
  split at h <;> cases h <;>
    first
      | (right; exact ⟨rfl, rfl⟩)
      | (left; refine ⟨[_], _, rfl, rfl, ?_⟩; decide)
      | (left; refine ⟨[_, _], _, rfl, rfl, ?_⟩; decide)
      | (left; refine ⟨[_, _, _], _, rfl, rfl, ?_⟩; decide)

theorem operators_facts : ∀ p ∈ operators, p.2 ≠ Token.newLine ∧ '\n' ∉ p.1 := by decide

/-! ## One step -/

theorem step_spec (c : Char) (cs : List Char) (cur : Nat) :
    ∃ segs, Step c cs cur (step c cs (cur + 1)).1 (step c cs (cur + 1)).2.1 segs := by
  unfold step
  by_cases hb : isBlank c = true
  · rw [if_pos hb]
    obtain ⟨n1, n2, n3⟩ := nl_tokens c cur
    refine ⟨[.blank c], by simp [texts, Seg.text], ?_, ?_, ?_, ?_⟩
    · intro s hs; simp at hs; subst hs
      simp [isBlank] at hb; simp [Seg.Valid]; tauto
    · simpa [segTokens, Seg.token] using n1
    · simpa [texts, Seg.text] using n2
    · simpa [Seg.isBad] using n3
  rw [if_neg hb]
  by_cases hl : isLetter c = true
  · rw [if_pos hl]
    obtain ⟨h1, h2⟩ := screenIdentifier_spells c (spanIdent cs).1 hl (spanIdent_mem cs)
    refine step_tok (c :: (spanIdent cs).1) _ ?_ h1 h2 ?_ ?_
    · conv_lhs => rw [← spanIdent_split cs]
      rfl
    · simp only [List.mem_cons, not_or]
      exact ⟨fun e => not_nl_ident c (isIdent_of_letter c hl) e.symm, fun hm => not_nl_ident _ (spanIdent_mem cs _ hm) rfl⟩
    · simp only [push, List.length_cons]; congr 2; congr 1; omega
  rw [if_neg hl]
  by_cases h0 : c = '0'
  · rw [if_pos h0]; subst h0
    unfold scanZero
    split
    · rename_i r
      obtain ⟨body, h1, h2, h3, h4, _⟩ := spanDigits_spec isHex (by decide) r
      simp only []
      rw [h3] at h4 ⊢
      refine screenInt_step ['0', 'x'] body _ 16 _ _ (.inr (.inl ⟨rfl, rfl⟩)) ?_ (by simp) ?_ ?_ h4 ?_
      · conv_lhs => rw [h1]
        rfl
      · intro d hd
        obtain ⟨hd1, hd2⟩ := List.mem_filter.1 hd
        rcases h2 d hd1 with h | h
        · exact toDigit_of 16 d (.inr (.inl ⟨rfl, h⟩))
        · simp [h] at hd2
      · intro hm; rcases h2 _ hm with h | h <;> revert h <;> decide
      · simp only [List.length_cons, List.length_nil]; omega
    · rename_i r
      obtain ⟨body, h1, h2, h3, h4, _⟩ := spanDigits_spec isBin (by decide) r
      simp only []
      rw [h3] at h4 ⊢
      refine screenInt_step ['0', 'b'] body _ 2 _ _ (.inr (.inr ⟨rfl, rfl⟩)) ?_ (by simp) ?_ ?_ h4 ?_
      · conv_lhs => rw [h1]
        rfl
      · intro d hd
        obtain ⟨hd1, hd2⟩ := List.mem_filter.1 hd
        rcases h2 d hd1 with h | h
        · exact toDigit_of 2 d (.inr (.inr ⟨rfl, h⟩))
        · simp [h] at hd2
      · intro hm; rcases h2 _ hm with h | h <;> revert h <;> decide
      · simp only [List.length_cons, List.length_nil]; omega
    · rename_i r
      exact step_tok ['0', 'i'] _ rfl .zeroI (by simp) (by decide) (by simp [push])
    · rename_i r
      exact step_tok ['0', 'j'] _ rfl .zeroJ (by simp) (by decide) (by simp [push])
    · split
      · exact step_bad ['0'] _ _ rfl (by simp) (by decide) rfl
      · exact step_tok ['0'] _ rfl .zero (by simp) (by decide) (by simp [push])
    · exact step_tok ['0'] _ rfl .zero (by simp) (by decide) (by simp [push])
  rw [if_neg h0]
  by_cases hd : isDigit c = true
  · rw [if_pos hd]
    obtain ⟨body, h1, h2, h3, h4, _⟩ := spanDigits_spec isDigit (by decide) cs
    have hcu : c ≠ '_' := by rintro rfl; revert hd; decide
    have hcn : c ≠ '\n' := by rintro rfl; revert hd; decide
    have hf : c :: (spanDigits isDigit cs).1 = (c :: body).filter (· ≠ '_') := by rw [h3]; simp [hcu]
    simp only []
    rw [hf]
    refine screenInt_step [] (c :: body) _ 10 _ _ (.inl ⟨rfl, rfl⟩) ?_ (by simp) ?_ ?_ ?_ ?_
    · conv_lhs => rw [h1]
      rfl
    · intro d hd'
      obtain ⟨hd1, hd2⟩ := List.mem_filter.1 hd'
      rcases List.mem_cons.1 hd1 with rfl | hd1
      · exact toDigit_of 10 d (.inl ⟨rfl, hd⟩)
      · rcases h2 d hd1 with h | h
        · exact toDigit_of 10 d (.inl ⟨rfl, h⟩)
        · simp [h] at hd2
    · intro hm
      rcases List.mem_cons.1 hm with h | hm
      · exact hcn h.symm
      · rcases h2 _ hm with h | h <;> revert h <;> decide
    · rw [← hf]; simp; omega
    · simp only [List.length_nil, List.length_cons]; omega
  rw [if_neg hd]
  by_cases hq : c = '\'' ∨ c = '"'
  · rw [if_pos hq]; exact scanString_step c hq cs cur
  rw [if_neg hq]
  by_cases hlc : c = '/' ∧ cs.head? = some '/'
  · rw [if_pos hlc]
    obtain ⟨rfl, hh⟩ := hlc
    obtain ⟨used, h1, h2, h3, h4, h5, h6⟩ := lineComment_spec cs (cur + 1)
    have hu : ∃ b, used = '/' :: b := by
      rcases used with _ | ⟨x, xs⟩
      · rcases h6 with h6 | h6
        · simp at h6
        · rw [h6.2] at h1; subst h1; simp at hh
      · rw [h1] at hh; simp at hh; exact ⟨xs, by rw [hh]⟩
    obtain ⟨b, rfl⟩ := hu
    refine ⟨[.comment ('/' :: '/' :: b)], ?_, ?_, ?_, ?_, ?_⟩
    · simp only [texts, List.flatMap_cons, List.flatMap_nil, Seg.text, List.append_nil]
      conv_lhs => rw [h1]
      rfl
    · intro s hs; simp at hs; subst hs
      left; refine ⟨b, rfl, ?_⟩
      cases b with
      | nil => simp
      | cons x xs => simp only [List.dropLast_cons_cons, List.mem_cons, not_or] at h2; exact h2.2
    · simpa [segTokens, Seg.token] using h3
    · simp only [texts, List.flatMap_cons, List.flatMap_nil, Seg.text, List.append_nil, h4]
      rw [show ('/' :: '/' :: b) = ['/'] ++ ('/' :: b) from rfl, newlines_append]; simp [newlines]
    · simpa [Seg.isBad] using h5
  rw [if_neg hlc]
  by_cases hbc : c = '/' ∧ cs.head? = some '*'
  · rw [if_pos hbc]
    obtain ⟨rfl, hh⟩ := hbc
    obtain ⟨used, h1, h2, h3, h4⟩ := blockComment_spec (cur + 1) cs (cur + 1)
    rcases hu : used with _ | ⟨x, xs⟩
    · -- nothing consumed is impossible
      exfalso
      rw [hu] at h1
      have hl := blockComment_length (cur + 1) cs (cur + 1)
      have hlt : (blockComment (cur + 1) cs (cur + 1)).2.1.length < cs.length := by
        rcases cs with _ | ⟨y, ys⟩
        · simp at hh
        · simp at hh; subst hh
          rcases ys with _ | ⟨z, zs⟩
          · simp [blockComment]
          · by_cases hz : z = '/'
            · subst hz; simp [blockComment]
            · rw [blockComment.eq_4 _ _ _ _ hz]
              have := blockComment_length (cur + 1) zs (cur + 1 + 2)
              have := blockComment_cur (cur + 1) zs (cur + 1 + 2)
              simp; omega
      have := congrArg List.length h1
      simp at this; omega
    · have hx : x = '*' := by rw [h1, hu] at hh; simpa using hh
      subst hx
      subst hu
      have hsplit : '/' :: cs = ('/' :: '*' :: xs) ++ (blockComment (cur + 1) cs (cur + 1)).2.1 := by
        conv_lhs => rw [h1]
        rfl
      have hle : lineEnds (blockComment (cur + 1) cs (cur + 1)).1 = newlines cur ('/' :: '*' :: xs) := by
        rw [h3, show ('/' :: '*' :: xs) = ['/'] ++ ('*' :: xs) from rfl, newlines_append]; simp [newlines]
      by_cases he : errors (blockComment (cur + 1) cs (cur + 1)).1 = []
      · refine ⟨[.comment ('/' :: '*' :: xs)], by simpa [texts, Seg.text] using hsplit, ?_, by simpa [segTokens, Seg.token] using h2,
          by simpa [texts, Seg.text] using hle, by simpa [Seg.isBad] using he⟩
        intro s hs; simp at hs; subst hs
        right
        obtain ⟨b, hb⟩ := h4 he
        cases b with
        | nil =>
          simp at hb; exact ⟨[], by rw [hb]; rfl⟩
        | cons y ys =>
          simp at hb; exact ⟨ys ++ ['*'], by rw [hb.2]; simp⟩
      · refine ⟨[.openComment ('/' :: '*' :: xs)], by simpa [texts, Seg.text] using hsplit, ?_, by simpa [segTokens, Seg.token] using h2,
          by simpa [texts, Seg.text] using hle, by simpa [Seg.isBad] using he⟩
        intro s hs; simp at hs; subst hs
        exact ⟨xs, rfl⟩
  rw [if_neg hbc]
  cases hop : scanOp c cs with
  | none =>
    simp only []
    refine step_bad [c] _ _ rfl (by simp) ?_ rfl
    simp only [List.mem_singleton]
    intro he; subst he; exact hb (by decide)
  | some p =>
    obtain ⟨ts, r⟩ := p
    simp only []
    rcases scanOp_spec c cs ts r hop with ⟨s, t, rfl, hs, hm⟩ | ⟨rfl, hs⟩
    · obtain ⟨f1, f2⟩ := operators_facts _ hm
      exact step_tok s t hs (.op hm) f1 f2 (by simp [place, push])
    · refine ⟨[.tok ['.'] .dot, .tok ['.'] .dot], ?_, ?_, ?_, ?_, ?_⟩
      · rw [hs]; rfl
      · intro s hs; simp at hs; subst hs; exact .op (by decide)
      · simp [place, Scan.proper, tokens, push, segTokens, Seg.token, Seg.text]
      · simp [place, Scan.lineEnds, tokens, push, texts, Seg.text, newlines]
      · simp [place, Scan.errors, push, Seg.isBad]

end Cordy.Scan
