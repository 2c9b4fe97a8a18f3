import Verif.Lemmas.Grammar2
/-! Lemmas: the parser accepts each phrase of the grammar, with the tree the grammar gives. -/
namespace Cordy.Grammar

theorem G.isRes {nt : Nt} {o : Bool} {r : Res} {ts : List T} (h : G nt o r ts) (hn : nt.isE = true) : ∃ x, r = .e x := by
  induction h with
  | ite _ _ ih => exact ih rfl
  | ofTerm _ ih => exact ih rfl
  | ofSuf _ ih => exact ih rfl
  | lift _ _ _ ih => exact ih rfl
  | ofLvl _ ih => exact ih rfl
  | cmp1 | cmpMore | args1 | argsTrail | argsMore | entUnroll | entPair | ent1 | entTrail | entMore => simp [Nt.isE] at hn
  | _ => exact ⟨_, rfl⟩

theorem G.notBound {o : Bool} {x : E} {ts rest : List T} (h : G .expr o (.e x) ts) {stops : List Tok} (hs : ∀ u ∈ stops, u = .rsq ∨ u = .word .colon) (e : Option (E × List T)) :
    orNil stops (ts ++ rest) e = e := by
  obtain ⟨b, t, r, rfl, h1, _⟩ := h.starts rfl
  have : t ∉ stops := fun hm => by rcases hs t hm with rfl | rfl <;> simp [startTok] at h1
  simp [orNil, peek, this]

theorem G.noColon {o : Bool} {x : E} {ts : List T} (h : G .expr o (.e x) ts) (rest : List T) (e : Option (E × List T)) : orNil [.word .colon] (ts ++ rest) e = e :=
  h.notBound (by simp) e

/-- An element of a set. -/
theorem entry_plain (d : Option Bool) (hd : d ≠ some true) (x : E) {b : Bool} {t : Tok} {rest : List T} (ht : t ≠ .word .colon) :
    ∃ d', d' ≠ some true ∧ ∀ w, entry d x ((b, t) :: rest) w = some ([x], d', (b, t) :: rest) := by
  by_cases hx : isUnroll x = true
  · exact ⟨d, hd, fun w => by simp [entry, hx]⟩
  · exact ⟨some false, by simp, fun w => by simp [entry, hx, peek, ht, hd]⟩

theorem pTerm_if (n : Nat) (b : Bool) (r : List T) : pTerm (n + 1) ((b, .kIf) :: r) = (pExpr n r).bind fun p => pThen n p.1 p.2 := by
  simp only [pTerm]; cases pExpr n r <;> rfl

theorem pUnary_succ (n : Nat) (ts : List T) (h : prefixes ts = ([], ts)) : pUnary (n + 1) ts = (pTerm n ts).bind fun p => pSuffix n p.1 p.2 := by
  simp only [pUnary, h]
  cases pTerm n ts with
  | none => rfl
  | some p =>
    simp only [Option.bind_some, List.foldr_nil]
    cases pSuffix n p.1 p.2 <;> rfl

theorem claim {nt : Nt} {o : Bool} {r : Res} {ts : List T} (h : G nt o r ts) : Claim nt o r ts := by
  induction h with
  | lit b n => exact fun rest _ => .mk ⟨0, fun n _ => rfl⟩
  | var b s => exact fun rest _ => .mk ⟨0, fun n _ => rfl⟩
  | paren b b' h ih =>
    intro rest _
    obtain ⟨N, hN⟩ := (ih b' rest rfl (by simp)).1
    refine .mk ⟨N, fun n hn => ?_⟩
    simp only [List.cons_append, List.append_assoc, List.nil_append, pTerm, hN n hn]
  | list0 b b' => exact fun rest _ => .mk ⟨0, fun n _ => rfl⟩
  | list b b' h ih =>
    intro rest _
    obtain ⟨N, hN⟩ := (ih b' rest rfl (by simp)).1
    refine .mk ⟨N, fun n hn => ?_⟩
    have := (peek_ok (head1_append (r := (b', .rsq) :: rest) h.head1)).2.1
    simp only [List.cons_append, List.append_assoc, List.nil_append, pTerm, if_neg this, hN n hn]
  | set0 b b' => exact fun rest _ => .mk ⟨0, fun n _ => rfl⟩
  | set b b' h ih =>
    intro rest _
    obtain ⟨d', hd', N, hN⟩ := (ih b' rest rfl (by simp)).2 rfl none (by simp)
    refine .mk ⟨N, fun n hn => ?_⟩
    have := (peek_ok (head1_append (r := (b', .word .rbrace) :: rest) h.head1)).2.2.2
    simp only [List.cons_append, List.append_assoc, List.nil_append, pTerm, if_neg this, hN n hn, if_neg hd']
  | dict b b' h ih =>
    intro rest _
    obtain ⟨N, hN⟩ := ih b' rest none (by simp)
    refine .mk ⟨N, fun n hn => ?_⟩
    have := (peek_ok (head1_append (r := (b', .word .rbrace) :: rest) h.head1)).2.2.2
    simp only [List.cons_append, List.append_assoc, List.nil_append, pTerm, if_neg this, hN n hn, if_true]
  | @ite b o r ts h ih =>
    obtain ⟨x, rfl⟩ := h.isRes rfl
    · -- e
      intro rest hs
      obtain ⟨N, hN⟩ := ih rest (hs rfl)
      exact .mk ⟨N, fun n hn => by simp only [List.cons_append, pTerm_if]; exact hN n hn⟩
  | @condElse b b' oc ot oe c t f tc tt tf _ _ _ ih1 ih2 ih3 =>
    intro rest hs
    obtain ⟨N1, h1⟩ := ih1 ((b, .kThen) :: (tt ++ (b', .kElse) :: (tf ++ rest))) (stopE_neutral rfl)
    obtain ⟨N2, h2⟩ := ih2 ((b', .kElse) :: (tf ++ rest)) (stopE_neutral rfl)
    obtain ⟨N3, h3⟩ := ih3 rest hs
    refine .mk ⟨N1 + N2 + N3, fun n hn => ?_⟩
    have e : tc ++ (b, Tok.kThen) :: tt ++ (b', Tok.kElse) :: tf ++ rest = tc ++ (b, .kThen) :: (tt ++ (b', .kElse) :: (tf ++ rest)) := by simp
    rw [e]
    have h1' := h1 (n + 1) (by omega)
    simp only at h1'
    rw [h1']
    simp only [Option.bind_some, pThen, h2 n (by omega), h3 n (by omega)]
  | @condElif b b' oc ot oe c t f tc tt tf _ _ _ ih1 ih2 ih3 =>
    intro rest hs
    obtain ⟨N1, h1⟩ := ih1 ((b, .kThen) :: (tt ++ (b', .kElif) :: (tf ++ rest))) (stopE_neutral rfl)
    obtain ⟨N2, h2⟩ := ih2 ((b', .kElif) :: (tf ++ rest)) (stopE_neutral rfl)
    obtain ⟨N3, h3⟩ := ih3 rest hs
    refine .mk ⟨N1 + N2 + N3, fun n hn => ?_⟩
    have e : tc ++ (b, Tok.kThen) :: tt ++ (b', Tok.kElif) :: tf ++ rest = tc ++ (b, .kThen) :: (tt ++ (b', .kElif) :: (tf ++ rest)) := by simp
    rw [e]
    have h1' := h1 (n + 1) (by omega)
    simp only at h1'
    rw [h1']
    simp only [Option.bind_some, pThen, h2 n (by omega)]
    have h3' := h3 n (by omega)
    cases hx : pExpr n (tf ++ rest) with
    | none => simp [hx] at h3'
    | some q => simp only [hx, Option.bind_some] at h3'; simp only [h3']
  | @ofTerm o r ts h ih =>
    obtain ⟨x, rfl⟩ := h.isRes rfl
    · -- e
      intro rest res ho _ hres
      exact (ih rest ho).bind hres
  | @call0 b f ts _ ih =>
    intro rest res _ _ hres
    have := ih ((false, .lparen) :: (b, .rparen) :: rest) res (by simp) (by simp [peek]) ?_
    · simpa using this
    · obtain ⟨N, hN⟩ := hres
      exact .mk ⟨N, fun n hn => by simp only [pSuffix, peek, List.head?_cons, Option.map_some, if_true, List.tail_cons, hN n hn]⟩
  | @call b o f ts as tr ta _ h2 ih1 ih2 =>
    intro rest res _ _ hres
    have := ih1 ((false, .lparen) :: (ta ++ (b, .rparen) :: rest)) res (by simp) (by simp [peek]) ?_
    · simpa using this
    · obtain ⟨N, hN⟩ := hres
      obtain ⟨N', hN'⟩ := (ih2 b rest rfl (by simp)).1
      have hp := (peek_ok (head1_append (r := (b, .rparen) :: rest) h2.head1)).1
      exact .mk ⟨N + N', fun n hn => by simp only [pSuffix, if_neg hp, hN' n (by omega), hN n (by omega)]⟩
  | @index b o a ts i ti _ h2 ih1 ih2 =>
    intro rest res _ _ hres
    have := ih1 ((false, .lsq) :: (ti ++ (b, .rsq) :: rest)) res (by simp) (by simp [peek]) ?_
    · simpa using this
    · obtain ⟨N, hN⟩ := hres
      obtain ⟨N', hN'⟩ := ih2 ((b, .rsq) :: rest) (stopE_neutral rfl)
      have hp := h2.noColon ((b, .rsq) :: rest)
      exact .mk ⟨N + N', fun n hn => by simp only [pSuffix, hp, hN' n (by omega), hN n (by omega)]⟩
  | @slice b b' o o' a ts i ti j tj _ _ _ ih1 ih2 ih3 =>
    intro rest res _ _ hres
    have := ih1 ((false, .lsq) :: (ti ++ (b, .word .colon) :: (tj ++ (b', .rsq) :: rest))) res (by simp) (by simp [peek]) ?_
    · simpa using this
    · obtain ⟨N, hN⟩ := hres
      obtain ⟨N1, h1⟩ := ih2 [.word .colon] b (.word .colon) (tj ++ (b', .rsq) :: rest) (by simp) (by simp) (by simp)
      obtain ⟨N2, h2⟩ := ih3 [.word .colon, .rsq] b' .rsq rest (by simp) (by simp) (by simp)
      exact .mk ⟨N + N1 + N2, fun n hn => by simp only [pSuffix, h1 n (by omega), h2 n (by omega), hN n (by omega)]⟩
  | @sliceStep b b' b'' o o' o'' a ts i ti j tj k tk _ _ _ _ ih1 ih2 ih3 ih4 =>
    intro rest res _ _ hres
    have := ih1 ((false, .lsq) :: (ti ++ (b, .word .colon) :: (tj ++ (b', .word .colon) :: (tk ++ (b'', .rsq) :: rest)))) res (by simp) (by simp [peek]) ?_
    · simpa using this
    · obtain ⟨N, hN⟩ := hres
      obtain ⟨N1, h1⟩ := ih2 [.word .colon] b (.word .colon) (tj ++ (b', .word .colon) :: (tk ++ (b'', .rsq) :: rest)) (by simp) (by simp) (by simp)
      obtain ⟨N2, h2⟩ := ih3 [.word .colon, .rsq] b' (.word .colon) (tk ++ (b'', .rsq) :: rest) (by simp) (by simp) (by simp)
      obtain ⟨N3, h3⟩ := ih4 [.rsq] b'' .rsq rest (by simp) (by simp) (by simp)
      exact .mk ⟨N + N1 + N2 + N3, fun n hn => by simp only [pSuffix, h1 n (by omega), h2 n (by omega), h3 n (by omega), hN n (by omega)]⟩
  | noBound =>
    intro stops b t rest _ _ ht
    refine .mk ⟨0, fun n _ => ?_⟩
    have ht : t ∈ stops := by simpa using ht
    simp [orNil, peek, ht]
  | @bound o x ts h ih =>
    intro stops b t rest hs ht _
    obtain ⟨N, hN⟩ := ih ((b, t) :: rest) (by rcases ht with rfl | rfl <;> exact stopE_neutral rfl)
    exact ⟨N, fun n hn => by simp only []; rw [h.notBound hs]; exact hN n hn⟩
  | @bareLit v f ts _ ih =>
    intro rest res _ _ hres
    have := ih ((false, .lit v) :: rest) res (by simp) (by simp [peek]) ?_
    · simpa using this
    · obtain ⟨N, hN⟩ := hres
      exact .mk ⟨N, fun n hn => by simp only [pSuffix, hN n hn]⟩
  | @bareVar s f ts _ ih =>
    intro rest res _ ha hres
    have := ih ((false, .ident s) :: rest) res (by simp) (by simp [peek]) ?_
    · simpa using this
    · obtain ⟨N, hN⟩ := hres
      have hne : ¬ peek rest = some .eq := fun hp => by simpa [assignable] using ha hp
      exact .mk ⟨N, fun n hn => by simp only [pSuffix, if_neg hne, hN n hn]⟩
  | @bareIf o f ts x tx _ _ ih1 ih2 =>
    intro rest res ho ha hres
    have := ih1 ((false, .kIf) :: (tx ++ rest)) res (by simp) (by simp [peek]) ?_
    · simpa using this
    · obtain ⟨N, hN⟩ := hres
      obtain ⟨N', hN'⟩ := ih2 rest (ho rfl)
      refine .mk ⟨N + N' + 1, fun n hn => ?_⟩
      obtain ⟨m, rfl⟩ : ∃ m, n = m + 1 := ⟨n - 1, by omega⟩
      have e : pTerm (m + 1) ((false, .kIf) :: (tx ++ rest)) = some (x, rest) := by rw [pTerm_if]; exact hN' m (by omega)
      have e2 : pSuffix (m + 1) (.call f [x]) rest = some res := hN (m + 1) (by omega)
      generalize m + 1 = q at e e2 ⊢
      simp only [pSuffix, e, e2]
  | @field b b' s a ts _ ih =>
    intro rest res _ _ hres
    have := ih ((b, .arrow) :: (b', .ident s) :: rest) res (by simp) (by simp [peek]) ?_
    · simpa using this
    · obtain ⟨N, hN⟩ := hres
      exact .mk ⟨N, fun n hn => by cases b <;> simp only [pSuffix, hN n hn]⟩
  | @ofSuf o r ts h ih =>
    obtain ⟨x, rfl⟩ := h.isRes rfl
    · -- e
      intro rest res ho ha haf
      simp only [After, true_or, if_true] at haf
      obtain ⟨hs, rfl⟩ := haf
      have hsuf : Gives (fun n => pSuffix n x rest) (x, rest) := .mk ⟨0, fun n _ => pSuffix_stop hs.1⟩
      obtain ⟨N, hN⟩ := ih rest _ ho ha hsuf
      obtain ⟨b, t, r', rfl, ht⟩ := h.sufHead (.inr rfl)
      refine .mk ⟨N + 1, fun n hn => ?_⟩
      obtain ⟨m, rfl⟩ : ∃ m, n = m + 1 := ⟨n - 1, by omega⟩
      rw [pLvl, if_pos (Nat.le_refl _), List.cons_append, pUnary_succ _ _ (prefixes_head ht)]
      exact hN m (by omega)
  | @unary b p o x ts _ ih =>
    intro rest res ho ha haf
    simp only [After, true_or, if_true] at haf
    obtain ⟨hs, rfl⟩ := haf
    have hne : peek rest ≠ some .eq := fun hp => by simpa [assignable] using ha hp
    obtain ⟨N, hN⟩ := ih rest (x, rest) ho (fun hp => absurd hp hne) (.stop (Nat.le_refl _) hs)
    refine .mk ⟨N, fun n hn => ?_⟩
    have h1 := hN (n + 1) (by omega)
    simp only [pLvl, if_pos (Nat.le_refl 2)] at h1
    simp only [pLvl, if_pos (Nat.le_refl 2), List.cons_append, pUnary_prefix, h1, Option.map_some]
  | @lift k o r ts h2 h9 h ih =>
    obtain ⟨x, rfl⟩ := h.isRes rfl
    · -- e
      intro rest res ho ha haf
      by_cases h8 : k + 1 = 8
      · simp only [After, h8, or_true, if_true] at haf
        obtain ⟨hs, rfl⟩ := haf
        obtain ⟨N, hN⟩ := ih rest (x, rest) ho ha (.stop h2 (hs.mono (by omega)))
        refine .mk ⟨N + 1, fun n hn => ?_⟩
        obtain ⟨m, rfl⟩ : ∃ m, n = m + 1 := ⟨n - 1, by omega⟩
        have e1 : pLvl (m + 1) k (ts ++ rest) = _ := hN (m + 1) (by omega)
        have e2 : pChain (m + 1) rest = some ([], rest) := pChain_stop (hs.2 8 (by omega) (by omega))
        generalize m + 1 = q at e1 e2 ⊢
        obtain rfl : k = 7 := by omega
        simp [pLvl, e1, e2]
      · simp only [After, if_neg (show ¬ (k + 1 = 2 ∨ k + 1 = 8) by omega), Nat.add_sub_cancel] at haf
        obtain ⟨hs, N', hN'⟩ := haf
        obtain ⟨N, hN⟩ := ih rest (x, rest) ho ha (.stop h2 hs)
        refine .mk ⟨N + N', fun n hn => ?_⟩
        simp only [pLvl, if_neg (show ¬ k + 1 ≤ 2 by omega), Nat.add_sub_cancel, hN n (by omega), if_neg h8]
        exact hN' n (by omega)
  | @bin op o l r tl top tr hl hr htop his ihl ihr =>
    intro rest res ho ha haf
    have hlv := level_range op
    simp only [After, if_neg (show ¬ (level op = 2 ∨ level op = 8) by omega)] at haf
    obtain ⟨hs, N, hN⟩ := haf
    have hne : peek rest ≠ some .eq := fun hp => by simpa [assignable] using ha hp
    obtain ⟨N', hN'⟩ := ihr rest (r, rest) ho (fun hp => absurd hp hne) (.stop (by omega) hs)
    have hst := hr.starts rfl
    have his' : op = .is → peek (tr ++ rest) ≠ some .kNot := by
      intro e
      obtain ⟨t, ht, _⟩ := hst.peek
      rw [peek_append ht, ← ht]; exact his e
    have := ihl (top ++ (tr ++ rest)) res (by simp) (fun hp => absurd hp (peek_spell op top _ htop)) ?_
    · simpa using this
    · simp only [After, if_neg (show ¬ (level op = 2 ∨ level op = 8) by omega)]
      refine ⟨stopL_op op top _ htop, .mk ⟨N + N', fun n hn => ?_⟩⟩
      have hb : blocked op (tr ++ rest) = false := by
        have := (peek_ok (hst.append (r := rest)).head1).1
        simp [blocked, this]
      simp only [pLoop, opAt_spell op top _ htop his', hb, Bool.false_eq_true, if_false, hN' n (by omega)]
      exact hN n (by omega)
  | @compare o l ops tl tc hl hc ihl ihc =>
    intro rest res ho ha haf
    simp only [After, or_true, if_true] at haf
    obtain ⟨hs, rfl⟩ := haf
    have hne : peek rest ≠ some .eq := fun hp => by simpa [assignable] using ha hp
    obtain ⟨N', hN'⟩ := ihc rest ho hne hs
    obtain ⟨hops, b, c, tc', rfl⟩ := hc.chainHead
    obtain ⟨N, hN⟩ := ihl ((b, .cmp c) :: (tc' ++ rest)) (l, _) (by simp) (by simp [peek]) (.stop (by omega) (stopL_cmp b c _))
    refine .mk ⟨N + N', fun n hn => ?_⟩
    have e : tl ++ (b, Tok.cmp c) :: tc' ++ rest = tl ++ (b, .cmp c) :: (tc' ++ rest) := by simp
    have h1 := hN' n (by omega)
    simp only [List.cons_append] at h1
    simp only [e, pLvl, if_neg (show ¬ 8 ≤ 2 by omega), hN n (by omega), if_true, h1]
    cases ops with
    | nil => exact absurd rfl hops
    | cons a l => rfl
  | @cmp1 b c o x ts h ih =>
    intro rest ho hne hs
    obtain ⟨N, hN⟩ := ih rest (x, rest) ho (fun hp => absurd hp hne) (.stop (by omega) (hs.mono (by omega)))
    have hp := (peek_ok ((h.starts rfl).append (r := rest)).head1).1
    refine .mk ⟨N + 1, fun n hn => ?_⟩
    obtain ⟨m, rfl⟩ : ∃ m, n = m + 1 := ⟨n - 1, by omega⟩
    have hst : pChain (m + 1) rest = some ([], rest) := pChain_stop (hs.2 8 (by omega) (by omega))
    have h1 := hN (m + 1) (by omega)
    generalize hm : m + 1 = q at *
    simp only [pChain, List.cons_append, cmpAt, if_neg hp, h1, hst]
  | @cmpMore b c o x ops ts tc h hc ih ihc =>
    intro rest ho hne hs
    obtain ⟨hops, b', c', tc', rfl⟩ := hc.chainHead
    obtain ⟨N, hN⟩ := ih ((b', .cmp c') :: (tc' ++ rest)) (x, _) (by simp) (by simp [peek]) (.stop (by omega) (stopL_cmp b' c' _))
    obtain ⟨N', hN'⟩ := ihc rest ho hne hs
    have hp := (peek_ok ((h.starts rfl).append (r := (b', .cmp c') :: (tc' ++ rest))).head1).1
    refine .mk ⟨N + N', fun n hn => ?_⟩
    have h2 := hN' n (by omega)
    simp only [List.cons_append] at h2
    have e : (b, Tok.cmp c) :: ts ++ (b', Tok.cmp c') :: tc' ++ rest = (b, Tok.cmp c) :: (ts ++ (b', .cmp c') :: (tc' ++ rest)) := by simp
    simp only [e, pChain, cmpAt, if_neg hp, hN n (by omega), h2]
  | @ofLvl o r ts h ih =>
    obtain ⟨x, rfl⟩ := h.isRes rfl
    · -- e
      intro rest hs
      obtain ⟨N, hN⟩ := ih rest (x, rest) (fun _ => hs) (fun hp => absurd hp hs.peek_ne) (.stop (by omega) hs.1)
      exact .mk ⟨N, fun n hn => by simp only [pExpr, hN n hn, hs.2]⟩
  | @assign a o l r tl ta tr hl hass hta hr ihl ihr =>
    intro rest hs
    obtain ⟨N', hN'⟩ := ihr rest hs
    obtain ⟨N, hN⟩ := ihl (ta ++ (tr ++ rest)) (l, _) (by simp) (fun _ => hass) (.stop (by omega) (stopL_asg a ta _ hta))
    refine .mk ⟨N + N', fun n hn => ?_⟩
    have e : tl ++ ta ++ tr ++ rest = tl ++ (ta ++ (tr ++ rest)) := by simp
    simp only [e, pExpr, hN n (by omega), asgAt_spell a ta _ hta, hass, if_true, hN' n (by omega)]
  | @argExpr t o x ts h ih =>
    intro b rest ht
    have hst := (h.starts rfl).append (r := (b, t) :: rest)
    obtain ⟨N, hN⟩ := ih ((b, t) :: rest) (stopE_neutral (argEnd_neutral ht))
    refine .mk ⟨N + 1, fun n hn => ?_⟩
    obtain ⟨m, rfl⟩ : ∃ m, n = m + 1 := ⟨n - 1, by omega⟩
    rw [pArg_starts hst, pArgE_starts hst, show pExpr m _ = _ from hN m (by omega)]
    simp [secOp_end ht]
  | argUnary t b p hc =>
    intro b' rest ht
    have ht := argEnd_end ht hc
    have hk : ¬ peek ((b', t) :: rest) = some .kIn := by cases t <;> simp [endTok] at ht <;> simp [peek]
    refine .mk ⟨0, fun n hn => ?_⟩
    cases p <;> simp [pArg, unaryRef, spellPrefix, endTok_ends ht, hk]
  | argField t b b' s =>
    intro b'' rest ht
    refine .mk ⟨1, fun n hn => ?_⟩
    obtain ⟨m, rfl⟩ : ∃ m, n = m + 1 := ⟨n - 1, by omega⟩
    simp [pArg, pArgE, unaryRef]
  | @argUnroll t b o x ts h ih =>
    intro b' rest ht
    obtain ⟨N, hN⟩ := ih ((b', t) :: rest) (stopE_neutral (argEnd_neutral ht))
    refine .mk ⟨N + 1, fun n hn => ?_⟩
    obtain ⟨m, rfl⟩ : ∃ m, n = m + 1 := ⟨n - 1, by omega⟩
    simp [pArg, pArgE, unaryRef, hN m (by omega)]
  | @argOp t op top hc hsec htop =>
    intro b rest ht
    have ht := argEnd_end ht hc
    refine .mk ⟨1, fun n hn => ?_⟩
    obtain ⟨m, rfl⟩ : ∃ m, n = m + 1 := ⟨n - 1, by omega⟩
    have hk : peek ((b, t) :: rest) ≠ some .kNot := by cases t <;> simp [endTok] at ht <;> simp [peek]
    have hu := unaryRef_spell hsec ((b, t) :: rest) htop
    rw [pArg]
    simp only [hu, pArgE_sec hsec _ htop (fun _ => hk), endTok_ends ht, if_true]
  | @argLeft t op o x top ts hsec htop his h ih =>
    intro b rest ht
    obtain ⟨N, hN⟩ := ih ((b, t) :: rest) (stopE_neutral (argEnd_neutral ht))
    refine .mk ⟨N + 1, fun n hn => ?_⟩
    obtain ⟨m, rfl⟩ : ∃ m, n = m + 1 := ⟨n - 1, by omega⟩
    have hst := h.starts rfl
    have his' : op = .inf .is → peek (ts ++ (b, t) :: rest) ≠ some .kNot := by
      intro e
      obtain ⟨t, ht, _⟩ := hst.peek
      rw [peek_append ht, ← ht]; exact his e
    have hu := unaryRef_spell hsec (ts ++ (b, t) :: rest) htop
    have e : top ++ ts ++ (b, t) :: rest = top ++ (ts ++ (b, t) :: rest) := by simp
    have hne := (hst.append (r := (b, t) :: rest)).notEnds
    rw [e, pArg]
    simp only [hu, pArgE_sec hsec _ htop his', hne, Bool.false_eq_true, if_false, hN m (by omega), Option.bind_some]
  | @argRight op o x ts top hsec h htop ih =>
    intro b rest ht
    have hst := (h.starts rfl).append (r := top ++ (b, Tok.rparen) :: rest)
    obtain ⟨N, hN⟩ := ih (top ++ (b, .rparen) :: rest) (stopE_sec hsec b rest htop)
    refine .mk ⟨N + 1, fun n hn => ?_⟩
    obtain ⟨m, rfl⟩ : ∃ m, n = m + 1 := ⟨n - 1, by omega⟩
    have e : ts ++ top ++ (b, Tok.rparen) :: rest = ts ++ (top ++ (b, .rparen) :: rest) := by simp
    rw [e, pArg_starts hst, pArgE_starts hst, show pExpr m _ = _ from hN m (by omega)]
    simp [secOp_spell hsec ((b, .rparen) :: rest) htop (fun _ => by simp [peek]), endsArg, peek]
  | @args1 close o x ts h ih =>
    intro b rest hc hcm
    obtain ⟨N, hN⟩ := ih b rest (endTok_arg hc)
    have h1 : ¬ peek ((b, close) :: rest) = some .comma := by simpa [peek] using hcm
    refine ⟨.mk ⟨N, fun n hn => ?_⟩, ?_⟩
    · simp only [pArgs, hN n hn, if_neg h1]
      simp [peek]
    · rintro rfl d hd
      obtain ⟨d', hd', he⟩ := entry_plain d hd x (b := b) (t := .word .rbrace) (rest := rest) (by simp)
      refine ⟨d', hd', .mk ⟨N, fun n hn => ?_⟩⟩
      simp only [pEntries, hN n hn, he]
      simp [peek]
  | @argsTrail b close o x ts h ih =>
    intro b' rest hc hcm
    obtain ⟨N, hN⟩ := ih b ((b', close) :: rest) rfl
    have e : ts ++ [(b, Tok.comma)] ++ (b', close) :: rest = ts ++ (b, .comma) :: (b', close) :: rest := by simp
    refine ⟨.mk ⟨N, fun n hn => ?_⟩, ?_⟩
    · simp only [e, pArgs, hN n hn]
      simp [peek]
    · rintro rfl d hd
      obtain ⟨d', hd', he⟩ := entry_plain d hd x (b := b) (t := .comma) (rest := (b', .word .rbrace) :: rest) (by simp)
      refine ⟨d', hd', .mk ⟨N, fun n hn => ?_⟩⟩
      simp only [e, pEntries, hN n hn, he]
      simp [peek]
  | @argsMore b close o o' x ts as tr tas h h2 ih ih2 =>
    intro b' rest hc hcm
    obtain ⟨N, hN⟩ := ih b (tas ++ (b', close) :: rest) rfl
    obtain ⟨⟨N', hN'⟩, hE⟩ := ih2 b' rest hc hcm
    have e : ts ++ (b, Tok.comma) :: tas ++ (b', close) :: rest = ts ++ (b, .comma) :: (tas ++ (b', close) :: rest) := by simp
    have hp := peek_ok (head1_append (r := (b', close) :: rest) h2.head1)
    have hne : ¬ peek (tas ++ (b', close) :: rest) = some close := by
      cases close <;> (try (rename_i w; cases (w : Word))) <;> simp [endTok] at hc
      · exact hp.1
      · exact hp.2.1
      · exact hp.2.2.1
      · exact hp.2.2.2
    have hp1 : peek ((b, Tok.comma) :: (tas ++ (b', close) :: rest)) = some .comma := rfl
    refine ⟨.mk ⟨N + N', fun n hn => ?_⟩, ?_⟩
    · simp only [e, pArgs, hN n (by omega)]
      simp only [if_pos hp1, List.tail_cons, if_neg hne, hN' n (by omega)]
    · rintro rfl d hd
      obtain ⟨d', hd', he⟩ := entry_plain d hd x (b := b) (t := .comma) (rest := tas ++ (b', .word .rbrace) :: rest) (by simp)
      obtain ⟨d'', hd'', N2, hN2⟩ := hE rfl d' hd'
      refine ⟨d'', hd'', .mk ⟨N + N2, fun n hn => ?_⟩⟩
      simp only [e, pEntries, hN n (by omega), he, if_pos hp1, List.tail_cons, if_neg hne, hN2 n (by omega), List.cons_append, List.nil_append]
  | @entUnroll t o x ts h ih =>
    intro b rest d ht _ _
    refine ⟨_, _, (.unroll x, []), ih b rest ht, by simp, fun w _ => ?_⟩
    simp [entry, isUnroll]
  | @entPair b t o o' x v ts tv _ hx _ ih1 ih2 =>
    intro b' rest d ht _ hd
    have h1 := ih1 b (tv ++ (b', t) :: rest) rfl
    refine ⟨x, (b, .word .colon) :: (tv ++ (b', t) :: rest), (v, (b', t) :: rest), by simpa using h1, fun _ => by simpa using ih2 b' rest ht, fun w hw => ?_⟩
    rw [hw rfl]
    simp [entry, hx, peek, hd]
  | @ent1 o es p ts h ih =>
    intro b rest d hd
    obtain ⟨a, r, v, ⟨N1, h1⟩, h2, h3⟩ := ih b rest d rfl (by simp) hd
    obtain ⟨N2, h2⟩ : ∃ N, ∀ n, N ≤ n → p = true → pArg n r.tail = some v := by
      cases p with
      | true => obtain ⟨N, hN⟩ := h2 rfl; exact ⟨N, fun n hn _ => hN n hn⟩
      | false => exact ⟨0, by simp⟩
    refine .mk ⟨N1 + N2, fun n hn => ?_⟩
    simp only [pEntries, h1 n (by omega), h3 _ (h2 n (by omega))]
    simp [peek]
  | @entTrail b o es p ts h ih =>
    intro b' rest d hd
    obtain ⟨a, r, v, ⟨N1, h1⟩, h2, h3⟩ := ih b ((b', .word .rbrace) :: rest) d rfl (by simp) hd
    obtain ⟨N2, h2⟩ : ∃ N, ∀ n, N ≤ n → p = true → pArg n r.tail = some v := by
      cases p with
      | true => obtain ⟨N, hN⟩ := h2 rfl; exact ⟨N, fun n hn _ => hN n hn⟩
      | false => exact ⟨0, by simp⟩
    refine .mk ⟨N1 + N2, fun n hn => ?_⟩
    have e : ts ++ [(b, Tok.comma)] ++ (b', .word .rbrace) :: rest = ts ++ (b, .comma) :: (b', .word .rbrace) :: rest := by simp
    simp only [e, pEntries, h1 n (by omega), h3 _ (h2 n (by omega))]
    simp [peek]
  | @entMore b o o' es p ts es' p' ts' h h' ih ih' =>
    intro b' rest d hd
    obtain ⟨a, r, v, ⟨N1, h1⟩, h2, h3⟩ := ih b (ts' ++ (b', .word .rbrace) :: rest) d rfl (by simp) hd
    obtain ⟨N2, h2⟩ : ∃ N, ∀ n, N ≤ n → p = true → pArg n r.tail = some v := by
      cases p with
      | true => obtain ⟨N, hN⟩ := h2 rfl; exact ⟨N, fun n hn _ => hN n hn⟩
      | false => exact ⟨0, by simp⟩
    obtain ⟨N3, hN3⟩ := ih' b' rest (if p then some true else d) (by cases p <;> simp [hd])
    refine .mk ⟨N1 + N2 + N3, fun n hn => ?_⟩
    have e : ts ++ (b, Tok.comma) :: ts' ++ (b', .word .rbrace) :: rest = ts ++ (b, .comma) :: (ts' ++ (b', .word .rbrace) :: rest) := by simp
    have hne := (peek_ok (head1_append (r := (b', .word .rbrace) :: rest) h'.head1)).2.2.2
    have hp1 : peek ((b, Tok.comma) :: (ts' ++ (b', .word .rbrace) :: rest)) = some .comma := rfl
    simp only [e, pEntries, h1 n (by omega), h3 _ (h2 n (by omega)), if_pos hp1, List.tail_cons, if_neg hne, hN3 n (by omega)]
    cases p <;> cases p' <;> rfl

end Cordy.Grammar
