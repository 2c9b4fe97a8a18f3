import Verif.Lemmas.ParserPrefix

/-! # Every rule keeps in step -/
namespace Cordy.Parser
open Cordy.Scan (Token)

theorem L_bind' (p : Prog α) (g : α → Prog β) (vs : List Token) (Q Z) :
    L (p >>= g) vs Q Z = L p vs (fun a vs => L (g a) vs Q Z) (fun a vs => D (g a) vs Z) := L_bind ..
theorem L_pure (a : α) (vs : List Token) (Q Z) : L (pure a) vs Q Z = Q a vs := rfl
theorem L_discard (p : Prog α) (vs : List Token) (Q Z) :
    L (discard p) vs Q Z = L p vs (fun _ vs => Q () vs) (fun _ vs => Z () vs) := L_bind p (fun _ => .ret ()) ..
theorem D_bind' (p : Prog α) (g : α → Prog β) (vs : List Token) (Q) : D (p >>= g) vs Q = D p vs fun a vs => D (g a) vs Q := D_bind ..
theorem D_pure (a : α) (vs : List Token) (Q) : D (pure a) vs Q = Q a vs := rfl
theorem D_discard (p : Prog α) (vs : List Token) (Q) : D (discard p) vs Q = D p vs (fun _ vs => Q () vs) := D_bind p (fun _ => .ret ()) ..

theorem lpost_true {r : Rule} {vs : List Token} (h1 : long3 r = false) (h2 : ∀ t, opsOf r t = false) : lpost r vs :=
  ⟨fun t _ => h2 t, fun h => by rw [h1] at h; cases h⟩

theorem listEq {a b : List Token} (h : a = b) : a = b := h

macro "lstep" : tactic => `(tactic| simp only [L_bind', L_pure, L_discard, D_bind', D_pure, D_discard, L, D, peek, peek2, peek3, peekNN, adv, call, err, resync, sem,
  lpre, lpost_true, opsOf, long3, Takes, never, implies_true, true_and, and_true, forall_const, true_imp_iff, false_imp_iff, List.getElem?_cons_zero, List.getElem?_cons_succ, List.getElem?_nil,
  reduceCtorEq, if_true, if_false, Bool.false_eq_true, ne_eq, not_false_eq_true,
  expect, trailingComma, advanceIdentifier, expectIdentifier, beginModule, fieldAccess, expression, expressionRestricted, expr, unaryOperator, binaryLeft, binaryRight, op3, binLoop, indexSuffix, suffix, suffix.arrow, paramDefault, commaArg, terminal])
macro "lgo" : tactic => `(tactic| (simp only [Steps, body]; repeat' first
  | done
  | with_reducible exact True.intro
  | with_reducible contradiction
  | (rename_i h; have h' := listEq h; clear h'; cases h)
  | with_reducible intro _
  | with_reducible assumption
  | exact lpost_true rfl (fun _ => rfl)
  | lstep
  | (rename_i h; exact absurd h (by decide))
  | with_reducible refine And.intro ?_ ?_
  | (rename_i h; with_reducible subst h)
  | (rename_i h; simp only [beq_iff_eq] at h; with_reducible subst h)
  | (split <;> (try (rename_i h; with_reducible subst h)) <;> (try (rename_i h; simp only [beq_iff_eq, Bool.true_and, Bool.false_and, Option.some.injEq, reduceCtorEq] at h; try with_reducible subst h)))
  ))

theorem St_root : Steps .root := by lgo
theorem St_evalRoot : Steps .evalRoot := by lgo
theorem St_statements : Steps .statements := by lgo
theorem St_block : Steps .block := by lgo
theorem St_structOrModule (m : Bool) : Steps (.structOrModule m) := by cases m <;> lgo
theorem St_structLoop : Steps .structLoop := by lgo
theorem St_methodLoop (m : Bool) : Steps (.methodLoop m) := by cases m <;> lgo
theorem St_nativeModule : Steps .nativeModule := by lgo
theorem St_nativeLoop : Steps .nativeLoop := by lgo
theorem St_nativeFunction : Steps .nativeFunction := by lgo
theorem St_annotated : Steps .annotated := by lgo
theorem St_namedFunction : Steps .namedFunction := by lgo
theorem St_exprFunction : Steps .exprFunction := by lgo
theorem St_params (self : Bool) (restrict : Bool) : Steps (.params self restrict) := by cases self <;> cases restrict <;> lgo
theorem St_paramLoop (restrict : Bool) : Steps (.paramLoop restrict) := by cases restrict <;> lgo
theorem St_functionBody : Steps .functionBody := by lgo
theorem St_returnS : Steps .returnS := by lgo
theorem St_ifS : Steps .ifS := by lgo
theorem St_whileS : Steps .whileS := by lgo
theorem St_doS : Steps .doS := by lgo
theorem St_loopS : Steps .loopS := by lgo
theorem St_forS : Steps .forS := by lgo
theorem St_breakS : Steps .breakS := by lgo
theorem St_continueS : Steps .continueS := by lgo
theorem St_assertS : Steps .assertS := by lgo
theorem St_letS : Steps .letS := by lgo
theorem St_letLoop : Steps .letLoop := by lgo
theorem St_exprStatement : Steps .exprStatement := by lgo
theorem St_lvalue : Steps .lvalue := by lgo
theorem St_lvalueTerms : Steps .lvalueTerms := by lgo
theorem St_terminal : Steps .terminal := by lgo
theorem St_commaExpr : Steps .commaExpr := by lgo
theorem St_commaLoop : Steps .commaLoop := by lgo
theorem St_listOrSlice : Steps .listOrSlice := by lgo
theorem St_listLoop : Steps .listLoop := by lgo
theorem St_sliceLit : Steps .sliceLit := by lgo
theorem St_dictOrSet : Steps .dictOrSet := by lgo
theorem St_dictLoop (d : Option Bool) : Steps (.dictLoop d) := by rcases d with _ | _ | _ <;> lgo
theorem St_ifThenElse : Steps .ifThenElse := by lgo
theorem St_thenElse : Steps .thenElse := by lgo
theorem St_unary : Steps .unary := by lgo
theorem St_prefixLoop : Steps .prefixLoop := by lgo

/-! ## The levels of expressions -/

theorem lpost_close (r : Rule) (t : Token) (us : List Token) : lpost r (t :: .closeParen :: us) :=
  ⟨fun _ h => (nomatch h), fun _ => ⟨fun h => (nomatch h), fun h => (nomatch h)⟩⟩

theorem lpost_three (r : Rule) (t u x : Token) (us : List Token) : lpost r (t :: u :: x :: us) :=
  ⟨fun _ h => (nomatch h), fun _ => ⟨fun h => (nomatch h), fun h => (nomatch h)⟩⟩

theorem lpost_cons {r : Rule} {t : Token} {ts : List Token} (h1 : opsOf r t = false) (h2 : t ≠ .kIs) (h3 : t ≠ .kNot) : lpost r (t :: ts) :=
  ⟨fun _ h => by cases h; exact h1, fun _ => ⟨fun h => by cases h; exact h2 rfl, fun h => by cases h; exact h3 rfl⟩⟩

theorem St_e3 : Steps .e3 := by lgo; exact ‹lpost .l3 _›
theorem St_e4 : Steps .e4 := by lgo; exact ‹lpost .l4 _›
theorem St_e5 : Steps .e5 := by lgo; exact ‹lpost .l5 _›
theorem St_e6 : Steps .e6 := by lgo; exact ‹lpost .l6 _›
theorem St_e7 : Steps .e7 := by lgo; exact ‹lpost .l7 _›
theorem St_e8 : Steps .e8 := by lgo; exact ‹lpost .l8 _›
theorem St_e9 : Steps .e9 := by lgo; exact ‹lpost .l9 _›
theorem St_e10 : Steps .e10 := by lgo
theorem St_e11 (comma : Bool) : Steps (.e11 comma) := by
  cases comma <;> lgo
  all_goals first
    | (rename_i h; rename_i h'; exfalso; have := h; simp_all [Ex]; done)
    | exact ‹lpost .e9 _›

theorem St_l3 : Steps .l3 := by
  lgo
  all_goals first
    | exact lpost_close _ _ _
    | exact lpost_three _ _ _ _ _
    | skip
  · rename_i h
    exact ⟨fun _ h => (nomatch h), fun _ => ⟨fun h => (nomatch h), fun hx => by cases hx; exact h rfl⟩⟩
  · rename_i t ts _ _ h1 h2 h3 h4 h5 h6 h7
    refine lpost_cons ?_ (fun hx => h6 (by rw [hx])) h7
    cases t <;> first | rfl | exact (h1 rfl).elim | exact (h2 rfl).elim | exact (h3 rfl).elim | exact (h4 rfl).elim | exact (h5 rfl).elim | exact (h6 rfl).elim

theorem lpost_up {r r' : Rule} {isOp : Option Token → Bool} (hops : ∀ t, opsOf r t = false → isOp (some t) = false → opsOf r' t = false) (hl : long3 r = true)
    {t : Token} {ts : List Token} (h : lpost r (t :: ts)) (hn : isOp (some t) = false) : lpost r' (t :: ts) := by
  refine ⟨fun u hu => ?_, fun _ => h.2 hl⟩
  cases hu
  exact hops _ (h.1 t rfl) hn

theorem St_binLoop {isOp : Option Token → Bool} {operand self : Rule} (hb : body self = binLoop isOp operand self)
    (hpre : ∀ vs, lpre self vs = lpost operand vs) (hpre' : ∀ vs, lpre operand vs) (hops : ∀ t, opsOf operand t = false → isOp (some t) = false → opsOf self t = false)
    (hl : long3 operand = true) : Steps self := by
  intro vs hp
  rw [hpre] at hp
  rw [hb]
  unfold binLoop
  simp only [L_bind', peek, L]
  rintro t ts rfl
  cases hop : isOp (some t) with
  | false => exact lpost_up hops hl hp hop
  | true =>
    simp only [if_true, L_bind', peek2, L]
    rintro t' ts' h
    cases h
    refine ⟨?_, fun _ _ => ?_⟩
    · rintro u us rfl
      by_cases hu : u = .closeParen
      · subst hu
        rw [if_pos rfl]
        exact lpost_close _ _ _
      · rw [if_neg (by simpa using hu)]
        simp only [L_bind', L_discard, adv, call, L]
        rintro _ _ h
        cases h
        refine fun _ => ⟨hpre' _, fun _ vs' h1 => fun _ => ⟨by rw [hpre]; exact h1, fun _ vs'' h2 => h2⟩⟩
    · exact True.intro

theorem St_l4 : Steps .l4 := St_binLoop rfl (fun _ => rfl) (fun _ => trivial) (fun _ h1 h2 => by simp_all [opsOf]) rfl
theorem St_l5 : Steps .l5 := St_binLoop rfl (fun _ => rfl) (fun _ => trivial) (fun _ h1 h2 => by simp_all [opsOf]) rfl
theorem St_l6 : Steps .l6 := St_binLoop rfl (fun _ => rfl) (fun _ => trivial) (fun _ h1 h2 => by simp_all [opsOf]) rfl
theorem St_l7 : Steps .l7 := by
  lgo
  exact ‹lpre .l7 _›
theorem St_l8 : Steps .l8 := St_binLoop rfl (fun _ => rfl) (fun _ => trivial) (fun _ h1 h2 => by simp_all [opsOf]) rfl
theorem St_l9 : Steps .l9 := St_binLoop rfl (fun _ => rfl) (fun _ => trivial) (fun _ h1 h2 => by simp_all [opsOf]) rfl
theorem St_l10 : Steps .l10 := by lgo
theorem St_suffixLoop : Steps .suffixLoop := by lgo

/-- The end of `parse_comma_expr_arg`: an operator after an expression. -/
def argEnd : Prog Bool := do
  match ← binaryRight with
  | some long => do
    let o ← (if long then peek3 else peek2)
    if closes o then do
      discard adv
      if long then discard adv else pure ()
      return false
    else return false
  | none => return false

/-- `parse_comma_expr_arg` but for a unary operator. -/
def argMid : Prog Bool := do
  match ← peek with
  | some .arrow => do fieldAccess; return false
  | some .ellipsis => do discard adv; expr; return true
  | _ => do
    match ← binaryLeft with
    | some long => do
      discard adv
      if long then discard adv else pure ()
      let o ← peek
      if closes o then return false else do expr; return false
    | none => do expr; argEnd

def argAll : Prog Bool := do
  let u ← unaryOperator
  let c ← (if u then do return closes (← peek2) else return false : Prog Bool)
  if c then do discard adv; return false
  else argMid

theorem commaArg_all : commaArg = argAll := rfl

macro "lgo'" : tactic => `(tactic| (repeat' first
  | done
  | with_reducible exact True.intro
  | with_reducible contradiction
  | (rename_i h; have h' := listEq h; clear h'; cases h)
  | with_reducible intro _
  | with_reducible assumption
  | exact lpost_true rfl (fun _ => rfl)
  | lstep
  | (rename_i h; exact absurd h (by decide))
  | with_reducible refine And.intro ?_ ?_
  | (rename_i h; with_reducible subst h)
  | (rename_i h; simp only [beq_iff_eq] at h; with_reducible subst h)
  | (split <;> (try (rename_i h; with_reducible subst h)) <;> (try (rename_i h; simp only [beq_iff_eq, Bool.true_and, Bool.false_and, Option.some.injEq, reduceCtorEq] at h; try with_reducible subst h)))
  ))

theorem L_argEnd (vs : List Token) (h : lpost (.e11 true) vs) : L argEnd vs (fun _ vs' => lpost .commaArg vs') never := by
  unfold argEnd
  lgo'
  all_goals first
    | exact absurd (h.1 _ rfl) (by decide)
    | exact absurd rfl (h.2 rfl).1
    | exact absurd rfl (h.2 rfl).2

theorem L_argMid (vs : List Token) : L argMid vs (fun _ vs' => lpost .commaArg vs') never := by
  unfold argMid
  repeat' first
  | done
  | with_reducible exact True.intro
  | with_reducible contradiction
  | (rename_i h; have h' := listEq h; clear h'; cases h)
  | with_reducible intro _
  | with_reducible assumption
  | exact L_argEnd _ ‹_›
  | exact lpost_true rfl (fun _ => rfl)
  | lstep
  | (rename_i h; exact absurd h (by decide))
  | with_reducible refine And.intro ?_ ?_
  | (rename_i h; with_reducible subst h)
  | (split <;> (try (rename_i h; with_reducible subst h)) <;> (try (rename_i h; simp only [beq_iff_eq, Bool.true_and, Bool.false_and, Option.some.injEq, reduceCtorEq] at h; try with_reducible subst h)))

theorem D_argMid (t : Token) (h : t = .minus ∨ t = .not) : D argMid [t] never := by
  rcases h with rfl | rfl <;> exact True.intro

theorem St_commaArg : Steps .commaArg := by
  unfold Steps body
  rw [commaArg_all]
  unfold argAll
  repeat' first
  | done
  | with_reducible exact True.intro
  | with_reducible contradiction
  | (rename_i h; have h' := listEq h; clear h'; cases h)
  | with_reducible intro _
  | with_reducible assumption
  | exact L_argMid _
  | exact D_argMid _ (Or.inl rfl)
  | exact D_argMid _ (Or.inr rfl)
  | exact lpost_true rfl (fun _ => rfl)
  | lstep
  | (rename_i h; exact absurd h (by decide))
  | with_reducible refine And.intro ?_ ?_
  | (rename_i h; with_reducible subst h)
  | (split <;> (try (rename_i h; with_reducible subst h)) <;> (try (rename_i h; simp only [beq_iff_eq, Bool.true_and, Bool.false_and, Option.some.injEq, reduceCtorEq] at h; try with_reducible subst h)))

/-- Every rule keeps in step. -/
theorem Steps_all (r : Rule) : Steps r := by
  cases r with
  | root => exact St_root
  | evalRoot => exact St_evalRoot
  | statements => exact St_statements
  | block => exact St_block
  | structOrModule m => exact St_structOrModule m
  | structLoop => exact St_structLoop
  | methodLoop m => exact St_methodLoop m
  | nativeModule => exact St_nativeModule
  | nativeLoop => exact St_nativeLoop
  | nativeFunction => exact St_nativeFunction
  | annotated => exact St_annotated
  | namedFunction => exact St_namedFunction
  | exprFunction => exact St_exprFunction
  | params self restrict => exact St_params self restrict
  | paramLoop restrict => exact St_paramLoop restrict
  | functionBody => exact St_functionBody
  | returnS => exact St_returnS
  | ifS => exact St_ifS
  | whileS => exact St_whileS
  | doS => exact St_doS
  | loopS => exact St_loopS
  | forS => exact St_forS
  | breakS => exact St_breakS
  | continueS => exact St_continueS
  | assertS => exact St_assertS
  | letS => exact St_letS
  | letLoop => exact St_letLoop
  | exprStatement => exact St_exprStatement
  | lvalue => exact St_lvalue
  | lvalueTerms => exact St_lvalueTerms
  | terminal => exact St_terminal
  | commaExpr => exact St_commaExpr
  | commaLoop => exact St_commaLoop
  | commaArg => exact St_commaArg
  | listOrSlice => exact St_listOrSlice
  | listLoop => exact St_listLoop
  | sliceLit => exact St_sliceLit
  | dictOrSet => exact St_dictOrSet
  | dictLoop d => exact St_dictLoop d
  | ifThenElse => exact St_ifThenElse
  | thenElse => exact St_thenElse
  | unary => exact St_unary
  | prefixLoop => exact St_prefixLoop
  | suffixLoop => exact St_suffixLoop
  | e3 => exact St_e3
  | e4 => exact St_e4
  | e5 => exact St_e5
  | e6 => exact St_e6
  | e7 => exact St_e7
  | e8 => exact St_e8
  | e9 => exact St_e9
  | e10 => exact St_e10
  | e11 comma => exact St_e11 comma
  | l3 => exact St_l3
  | l4 => exact St_l4
  | l5 => exact St_l5
  | l6 => exact St_l6
  | l7 => exact St_l7
  | l8 => exact St_l8
  | l9 => exact St_l9
  | l10 => exact St_l10

/-- The rules take the tokens they should. -/
theorem Takes_all (r : Rule) (vs : List Token) (h : Takes r vs) : vs ≠ [] ∧ D (body r) vs never := by
  unfold Takes at h
  split at h <;> first | exact h.elim | exact ⟨List.cons_ne_nil _ _, True.intro⟩

end Cordy.Parser
