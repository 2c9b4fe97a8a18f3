import Lean
import Verif.Lemmas.ParserSound

/-! # Every rule satisfies the calculus of `ParserSound` -/
namespace Cordy.Parser
open Cordy.Scan (Token)
open Cordy.Language (NT Sym Cls Gen Der prods nextTok)

theorem S_bind' (p : Prog α) (g : α → Prog β) (R : Rs) (k0 k1 k2 : Kn) (Q) :
    S (p >>= g) R k0 k1 k2 Q = S p R k0 k1 k2 (fun a R k0 k1 k2 => S (g a) R k0 k1 k2 Q) := S_bind ..

theorem S_pure (a : α) (R : Rs) (k0 k1 k2 : Kn) (Q) : S (pure a) R k0 k1 k2 Q = Q a R k0 k1 k2 := rfl

theorem S_discard (p : Prog α) (R : Rs) (k0 k1 k2 : Kn) (Q) :
    S (discard p) R k0 k1 k2 Q = S p R k0 k1 k2 (fun _ R k0 k1 k2 => Q () R k0 k1 k2) := by
  show S (p.bind _) R k0 k1 k2 Q = _
  rw [S_bind]
  rfl

open Lean Elab Tactic Meta in
/-- Closes an equation of terms the kernel computes to the same value. -/
elab "krfl" : tactic => withMainContext do
  let g ← getMainGoal
  let t ← instantiateMVars (← g.getType)
  let some (_, lhs, rhs) := t.eq? | throwError "krfl: not an equation"
  if t.hasExprMVar then throwError "krfl: metavariables"
  match Kernel.isDefEq (← getEnv) (← getLCtx) lhs rhs with
  | .ok true => g.assign (← mkEqRefl rhs)
  | _ => throwError "krfl: not equal"

macro "sstep" : tactic => `(tactic| simp only [S_bind', S_bind, S_pure, S_discard, peek, peek2, peek3, peekNN, adv, call, err, resync, sem, S, pre, after, allK, allL, sub,
  Bool.forall_bool, Bool.false_eq_true, if_true, if_false, Nt, QS, exists_eq_left', exists_eq_left, exists_false, false_and, reduceCtorEq, false_imp_iff, implies_true, true_and, and_true, Option.some.injEq, forall_eq', ne_eq, not_false_eq_true,
  expect, trailingComma, advanceIdentifier, expectIdentifier, beginModule, fieldAccess, expression, expressionRestricted, expr, unaryOperator, binaryLeft, binaryRight, op3, binLoop, indexSuffix, suffix, suffix.arrow, paramDefault, commaArg, terminal])
macro "sgo" : tactic => `(tactic| (simp only [Sound, body]; repeat' first
  | done
  | with_reducible contradiction
  | with_reducible intro _
  | sstep
  | with_reducible refine And.intro ?_ ?_
  | krfl
  | (rename_i h; with_reducible subst h)
  | (rename_i h; simp only [beq_iff_eq] at h; with_reducible subst h)
  | (split <;> (try (rename_i h; with_reducible subst h)) <;> (try (rename_i h; simp only [beq_iff_eq, Bool.true_and, Bool.false_and, Option.some.injEq, reduceCtorEq] at h; try with_reducible subst h)))
  ))


theorem op4_cases {t : Token} (h : op4 (some t) = true) : t = .plus ∨ t = .minus := by cases t <;> simp_all [op4]
theorem op5_cases {t : Token} (h : op5 (some t) = true) : t = .leftShift ∨ t = .rightShift := by cases t <;> simp_all [op5]
theorem op6_cases {t : Token} (h : op6 (some t) = true) : t = .bitwiseAnd ∨ t = .bitwiseOr ∨ t = .bitwiseXor := by
  cases t <;> simp_all [op6]
theorem op8_cases {t : Token} (h : op8 (some t) = true) :
    t = .lessThan ∨ t = .lessThanEquals ∨ t = .greaterThan ∨ t = .greaterThanEquals ∨ t = .doubleEquals ∨ t = .notEquals := by
  cases t <;> simp_all [op8]
theorem op9_cases {t : Token} (h : op9 (some t) = true) : t = .logicalAnd ∨ t = .logicalOr := by cases t <;> simp_all [op9]
theorem asgOp_cases {t : Token} (h : asgOp (some t) = true) :
    t = .equals ∨ t = .plusEquals ∨ t = .minusEquals ∨ t = .mulEquals ∨ t = .divEquals ∨ t = .andEquals ∨ t = .orEquals ∨
    t = .xorEquals ∨ t = .leftShiftEquals ∨ t = .rightShiftEquals ∨ t = .modEquals ∨ t = .powEquals ∨ t = .dotEquals := by
  cases t <;> simp_all [asgOp]
theorem isMinMax_cases {s : List Char} (h : isMinMax s = true) : s = ['m', 'a', 'x'] ∨ s = ['m', 'i', 'n'] := by
  simpa [isMinMax] using h
theorem closes_cases {o : Option Token} (h : closes o = true) :
    o = some .comma ∨ o = some .closeParen ∨ o = some .closeBrace ∨ o = some .closeSquare := by
  rcases o with _ | t
  · cases h
  · cases t <;> simp_all [closes]
theorem bareStart_cases {t : Token} (h : bareStart t = true) :
    t = .kNil ∨ t = .kTrue ∨ t = .kFalse ∨ t = .kExit ∨ (∃ n, t = .int n) ∨ (∃ n, t = .complex n) ∨ (∃ s, t = .string s) ∨ t = .at ∨ t = .kIf := by
  cases t <;> simp_all [bareStart]

theorem Sd_root : Sound .root := by sgo
theorem Sd_evalRoot : Sound .evalRoot := by sgo
theorem Sd_statements : Sound .statements := by sgo
theorem Sd_block : Sound .block := by sgo
theorem Sd_structOrModule (m : Bool) : Sound (.structOrModule m) := by cases m <;> sgo
theorem Sd_structLoop : Sound .structLoop := by sgo
theorem Sd_methodLoop (m : Bool) : Sound (.methodLoop m) := by cases m <;> sgo
theorem Sd_nativeModule : Sound .nativeModule := by sgo
theorem Sd_nativeLoop : Sound .nativeLoop := by sgo
theorem Sd_nativeFunction : Sound .nativeFunction := by sgo
theorem Sd_annotated : Sound .annotated := by sgo
theorem Sd_namedFunction : Sound .namedFunction := by sgo
theorem Sd_exprFunction : Sound .exprFunction := by sgo
theorem Sd_params (self : Bool) (restrict : Bool) : Sound (.params self restrict) := by cases self <;> cases restrict <;> sgo
theorem Sd_paramLoop (restrict : Bool) : Sound (.paramLoop restrict) := by cases restrict <;> sgo
theorem Sd_functionBody : Sound .functionBody := by sgo
theorem Sd_returnS : Sound .returnS := by sgo
theorem Sd_ifS : Sound .ifS := by sgo
theorem Sd_whileS : Sound .whileS := by sgo
theorem Sd_doS : Sound .doS := by sgo
theorem Sd_loopS : Sound .loopS := by sgo
theorem Sd_forS : Sound .forS := by sgo
theorem Sd_breakS : Sound .breakS := by sgo
theorem Sd_continueS : Sound .continueS := by sgo
theorem Sd_assertS : Sound .assertS := by sgo
theorem Sd_letS : Sound .letS := by sgo
theorem Sd_letLoop : Sound .letLoop := by sgo
theorem Sd_exprStatement : Sound .exprStatement := by sgo
theorem Sd_lvalue : Sound .lvalue := by sgo
theorem Sd_lvalueTerms : Sound .lvalueTerms := by sgo
theorem Sd_terminal : Sound .terminal := by sgo
theorem Sd_commaExpr : Sound .commaExpr := by sgo
theorem Sd_commaLoop : Sound .commaLoop := by sgo
theorem Sd_listOrSlice : Sound .listOrSlice := by sgo
theorem Sd_listLoop : Sound .listLoop := by sgo
theorem Sd_sliceLit : Sound .sliceLit := by sgo
theorem Sd_dictOrSet : Sound .dictOrSet := by sgo
theorem Sd_dictLoop (d : Option Bool) : Sound (.dictLoop d) := by rcases d with _ | _ | _ <;> sgo
theorem Sd_ifThenElse : Sound .ifThenElse := by sgo
theorem Sd_thenElse : Sound .thenElse := by sgo
theorem Sd_unary : Sound .unary := by sgo
theorem Sd_prefixLoop : Sound .prefixLoop := by sgo
theorem Sd_e3 : Sound .e3 := by sgo
theorem Sd_e4 : Sound .e4 := by sgo
theorem Sd_e5 : Sound .e5 := by sgo
theorem Sd_e6 : Sound .e6 := by sgo
theorem Sd_e7 : Sound .e7 := by sgo
theorem Sd_e8 : Sound .e8 := by sgo
theorem Sd_e9 : Sound .e9 := by sgo
theorem Sd_e10 : Sound .e10 := by sgo
theorem Sd_e11 (comma : Bool) : Sound (.e11 comma) := by
  cases comma <;> sgo
  all_goals
    rename_i h
    first
    | (rcases isMinMax_cases h with rfl | rfl <;> krfl)
    | (rcases asgOp_cases h with rfl | rfl | rfl | rfl | rfl | rfl | rfl | rfl | rfl | rfl | rfl | rfl | rfl <;> krfl)
theorem Sd_l3 : Sound .l3 := by sgo
theorem Sd_l4 : Sound .l4 := by
  sgo
  all_goals (rename_i h; rcases op4_cases h with rfl | rfl <;> krfl)
theorem Sd_l5 : Sound .l5 := by
  sgo
  all_goals (rename_i h; rcases op5_cases h with rfl | rfl <;> krfl)
theorem Sd_l6 : Sound .l6 := by
  sgo
  all_goals (rename_i h; rcases op6_cases h with rfl | rfl | rfl <;> krfl)
theorem Sd_l7 : Sound .l7 := by sgo
theorem Sd_l8 : Sound .l8 := by
  sgo
  all_goals (rename_i h; rcases op8_cases h with rfl | rfl | rfl | rfl | rfl | rfl <;> krfl)
theorem Sd_l9 : Sound .l9 := by
  sgo
  all_goals (rename_i h; rcases op9_cases h with rfl | rfl <;> krfl)
theorem Sd_l10 : Sound .l10 := by sgo


/-- The end of `parse_comma_expr_arg`: an expression, maybe an operator after it. -/
def argTail : Prog Bool := do
  expr
  match ← binaryRight with
  | some long => do
    let o ← (if long then peek3 else peek2)
    if closes o then do
      discard adv
      if long then discard adv else pure ()
      return false
    else return false
  | none => return false

theorem Sd_argTail : S argTail (R0 .commaArg) none none none (QS .commaArg) := by
  unfold argTail
  repeat' first
    | done
    | with_reducible contradiction
    | with_reducible intro _
    | sstep
    | with_reducible refine And.intro ?_ ?_
    | krfl
    | (rename_i h; rcases closes_cases h with rfl | rfl | rfl | rfl)
    | (split <;> (try (rename_i h; with_reducible subst h)) <;> (try (rename_i h; simp only [beq_iff_eq, Bool.true_and, Bool.false_and, Option.some.injEq, reduceCtorEq] at h; try with_reducible subst h)))

/-- `parse_comma_expr_arg` -/
def argHead : Prog Bool := do
  let u ← unaryOperator
  let c ← (if u then do return closes (← peek2) else return false : Prog Bool)
  if c then do discard adv; return false
  else match ← peek with
  | some .arrow => do fieldAccess; return false
  | some .ellipsis => do discard adv; expr; return true
  | _ => do
    match ← binaryLeft with
    | some long => do
      discard adv
      if long then discard adv else pure ()
      let o ← peek
      if closes o then return false else do expr; return false
    | none => argTail

theorem commaArg_eq : commaArg = argHead := rfl

set_option maxHeartbeats 2000000 in
theorem Sd_commaArg : Sound .commaArg := by
  unfold Sound body
  rw [commaArg_eq]
  unfold argHead
  repeat' first
    | done
    | with_reducible contradiction
    | with_reducible intro _
    | sstep
    | with_reducible refine And.intro ?_ ?_
    | krfl
    | (rename_i h; rcases closes_cases h with rfl | rfl | rfl | rfl)
    | (split <;> (try (rename_i h; with_reducible subst h)) <;> (try (rename_i h; simp only [beq_iff_eq, Bool.true_and, Bool.false_and, Option.some.injEq, reduceCtorEq] at h; try with_reducible subst h)))
  all_goals
    refine S_mono argTail (QS_mono _) (R := R0 .commaArg) ?_ (.inl rfl) (.inl rfl) (.inl rfl) Sd_argTail
    intro p hp
    exact knowO_self _ _ (knowO_self _ _ (knowO_self _ _ hp))

theorem Sd_suffixLoop : Sound .suffixLoop := by
  sgo
  rename_i h
  rcases bareStart_cases h with rfl | rfl | rfl | rfl | ⟨_, rfl⟩ | ⟨_, rfl⟩ | ⟨_, rfl⟩ | rfl | rfl <;> krfl

/-- Every rule satisfies the calculus. -/
theorem Sd_all (r : Rule) : Sound r := by
  cases r with
  | root => exact Sd_root
  | evalRoot => exact Sd_evalRoot
  | statements => exact Sd_statements
  | block => exact Sd_block
  | structOrModule m => exact Sd_structOrModule m
  | structLoop => exact Sd_structLoop
  | methodLoop m => exact Sd_methodLoop m
  | nativeModule => exact Sd_nativeModule
  | nativeLoop => exact Sd_nativeLoop
  | nativeFunction => exact Sd_nativeFunction
  | annotated => exact Sd_annotated
  | namedFunction => exact Sd_namedFunction
  | exprFunction => exact Sd_exprFunction
  | params self restrict => exact Sd_params self restrict
  | paramLoop restrict => exact Sd_paramLoop restrict
  | functionBody => exact Sd_functionBody
  | returnS => exact Sd_returnS
  | ifS => exact Sd_ifS
  | whileS => exact Sd_whileS
  | doS => exact Sd_doS
  | loopS => exact Sd_loopS
  | forS => exact Sd_forS
  | breakS => exact Sd_breakS
  | continueS => exact Sd_continueS
  | assertS => exact Sd_assertS
  | letS => exact Sd_letS
  | letLoop => exact Sd_letLoop
  | exprStatement => exact Sd_exprStatement
  | lvalue => exact Sd_lvalue
  | lvalueTerms => exact Sd_lvalueTerms
  | terminal => exact Sd_terminal
  | commaExpr => exact Sd_commaExpr
  | commaLoop => exact Sd_commaLoop
  | commaArg => exact Sd_commaArg
  | listOrSlice => exact Sd_listOrSlice
  | listLoop => exact Sd_listLoop
  | sliceLit => exact Sd_sliceLit
  | dictOrSet => exact Sd_dictOrSet
  | dictLoop d => exact Sd_dictLoop d
  | ifThenElse => exact Sd_ifThenElse
  | thenElse => exact Sd_thenElse
  | unary => exact Sd_unary
  | prefixLoop => exact Sd_prefixLoop
  | suffixLoop => exact Sd_suffixLoop
  | e3 => exact Sd_e3
  | e4 => exact Sd_e4
  | e5 => exact Sd_e5
  | e6 => exact Sd_e6
  | e7 => exact Sd_e7
  | e8 => exact Sd_e8
  | e9 => exact Sd_e9
  | e10 => exact Sd_e10
  | e11 comma => exact Sd_e11 comma
  | l3 => exact Sd_l3
  | l4 => exact Sd_l4
  | l5 => exact Sd_l5
  | l6 => exact Sd_l6
  | l7 => exact Sd_l7
  | l8 => exact Sd_l8
  | l9 => exact Sd_l9
  | l10 => exact Sd_l10

end Cordy.Parser
