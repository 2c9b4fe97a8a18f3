import Verif.Lemmas.ParserTerm

/-! # Every rule satisfies the calculus of `ParserTerm` -/
namespace Cordy.Parser
open Cordy.Scan (Token)

theorem T_bind' (r0 : Rule) (p : Prog α) (g : α → Prog β) (d i : Bool) (v : V) (k0 k1 : K) (Q) :
    T r0 (p >>= g) d i v k0 k1 Q = T r0 p d i v k0 k1 (fun a d i v k0 k1 => T r0 (g a) d i v k0 k1 Q) := T_bind ..

theorem T_pure (r0 : Rule) (a : α) (d i : Bool) (v : V) (k0 k1 : K) (Q) :
    T r0 (pure a) d i v k0 k1 Q = Q a d i v k0 k1 := rfl

theorem T_discard (r0 : Rule) (p : Prog α) (d i : Bool) (v : V) (k0 k1 : K) (Q) :
    T r0 (discard p) d i v k0 k1 Q = T r0 p d i v k0 k1 (fun _ d i v k0 k1 => Q () d i v k0 k1) := by
  show T r0 (p.bind _) d i v k0 k1 Q = _
  rw [T_bind]
  rfl


macro "tstep" : tactic => `(tactic| simp only [T_bind', T_bind, T_pure, T_discard, peek, peek2, peek3, peekNN, adv, call, err, resync, sem, T, prog, rankA, rankB, QT,
  expect, trailingComma, advanceIdentifier, expectIdentifier, beginModule, fieldAccess, expression, expressionRestricted, expr, unaryOperator, binaryLeft, binaryRight, op3, binLoop, indexSuffix, suffix, suffix.arrow, paramDefault, commaArg, terminal])
macro "tstep'" : tactic => `(tactic| simp only [T_bind', T_bind, T_pure, T_discard, peek, peek2, peek3, peekNN, adv, call, err, resync, sem, T, prog, rankA, rankB, QT,
  advanceIdentifier, expectIdentifier, fieldAccess, expr, binaryRight])
macro "tgo" : tactic => `(tactic| (simp only [body]; repeat' first
  | done
  | with_reducible contradiction
  | with_reducible intro _
  | tstep
  | with_reducible refine And.intro ?_ ?_
  | split
  | (simp_all [K.is, K.top]; done)
  | (simp only [K.is, K.top, Option.some.injEq, if_true] at *; subst_vars; simp_all; done)
  ))

theorem T_root : T .root (body .root) false false .unk K.top K.top (QT .root) := by tgo
theorem T_evalRoot : T .evalRoot (body .evalRoot) false false .unk K.top K.top (QT .evalRoot) := by tgo
theorem T_statements : T .statements (body .statements) false false .unk K.top K.top (QT .statements) := by tgo
theorem T_block : T .block (body .block) false false .unk K.top K.top (QT .block) := by tgo
theorem T_structOrModule (m : Bool) : T (.structOrModule m) (body (.structOrModule m)) false false .unk K.top K.top (QT (.structOrModule m)) := by tgo
theorem T_structLoop : T .structLoop (body .structLoop) false false .unk K.top K.top (QT .structLoop) := by tgo
theorem T_methodLoop (m : Bool) : T (.methodLoop m) (body (.methodLoop m)) false false .unk K.top K.top (QT (.methodLoop m)) := by tgo
theorem T_nativeModule : T .nativeModule (body .nativeModule) false false .unk K.top K.top (QT .nativeModule) := by tgo
theorem T_nativeLoop : T .nativeLoop (body .nativeLoop) false false .unk K.top K.top (QT .nativeLoop) := by tgo
theorem T_nativeFunction : T .nativeFunction (body .nativeFunction) false false .unk K.top K.top (QT .nativeFunction) := by tgo
theorem T_annotated : T .annotated (body .annotated) false false .unk K.top K.top (QT .annotated) := by tgo
theorem T_namedFunction : T .namedFunction (body .namedFunction) false false .unk K.top K.top (QT .namedFunction) := by tgo
theorem T_exprFunction : T .exprFunction (body .exprFunction) false false .unk K.top K.top (QT .exprFunction) := by tgo
theorem T_params (self : Bool) (restrict : Bool) : T (.params self restrict) (body (.params self restrict)) false false .unk K.top K.top (QT (.params self restrict)) := by tgo
theorem T_paramLoop (restrict : Bool) : T (.paramLoop restrict) (body (.paramLoop restrict)) false false .unk K.top K.top (QT (.paramLoop restrict)) := by tgo
theorem T_functionBody : T .functionBody (body .functionBody) false false .unk K.top K.top (QT .functionBody) := by tgo
theorem T_returnS : T .returnS (body .returnS) false false .unk K.top K.top (QT .returnS) := by tgo
theorem T_ifS : T .ifS (body .ifS) false false .unk K.top K.top (QT .ifS) := by tgo
theorem T_whileS : T .whileS (body .whileS) false false .unk K.top K.top (QT .whileS) := by tgo
theorem T_doS : T .doS (body .doS) false false .unk K.top K.top (QT .doS) := by tgo
theorem T_loopS : T .loopS (body .loopS) false false .unk K.top K.top (QT .loopS) := by tgo
theorem T_forS : T .forS (body .forS) false false .unk K.top K.top (QT .forS) := by tgo
theorem T_breakS : T .breakS (body .breakS) false false .unk K.top K.top (QT .breakS) := by tgo
theorem T_continueS : T .continueS (body .continueS) false false .unk K.top K.top (QT .continueS) := by tgo
theorem T_assertS : T .assertS (body .assertS) false false .unk K.top K.top (QT .assertS) := by tgo
theorem T_letS : T .letS (body .letS) false false .unk K.top K.top (QT .letS) := by tgo
theorem T_letLoop : T .letLoop (body .letLoop) false false .unk K.top K.top (QT .letLoop) := by tgo
theorem T_exprStatement : T .exprStatement (body .exprStatement) false false .unk K.top K.top (QT .exprStatement) := by tgo
theorem T_lvalue : T .lvalue (body .lvalue) false false .unk K.top K.top (QT .lvalue) := by tgo
theorem T_lvalueTerms : T .lvalueTerms (body .lvalueTerms) false false .unk K.top K.top (QT .lvalueTerms) := by tgo
theorem T_terminal : T .terminal (body .terminal) false false .unk K.top K.top (QT .terminal) := by tgo
theorem T_commaExpr : T .commaExpr (body .commaExpr) false false .unk K.top K.top (QT .commaExpr) := by tgo
theorem T_commaLoop : T .commaLoop (body .commaLoop) false false .unk K.top K.top (QT .commaLoop) := by tgo
theorem T_unaryOperator (r0 : Rule) (d i : Bool) (v : V) (k0 k1 : K) (Q)
    (h : ∀ b d' i' v' k0' k1', (d = true → d' = true) → (i = true → i' = true) → (b = true → v' = .act) → Q b d' i' v' k0' k1') :
    T r0 unaryOperator d i v k0 k1 Q := by
  unfold unaryOperator
  repeat' first
    | done
    | with_reducible contradiction
    | with_reducible intro _
    | tstep
    | with_reducible refine And.intro ?_ ?_
    | split
    | (apply h <;> simp_all)

set_option maxHeartbeats 1000000 in
theorem T_binaryLeft (r0 : Rule) (d i : Bool) (v : V) (k0 k1 : K) (Q)
    (h : ∀ b d' i' v' k0' k1', (d = true → d' = true) → (i = true → i' = true) → (b ≠ none → v' = .act) → Q b d' i' v' k0' k1') :
    T r0 binaryLeft d i v k0 k1 Q := by
  unfold binaryLeft
  repeat' first
    | done
    | with_reducible contradiction
    | with_reducible intro _
    | tstep
    | with_reducible refine And.intro ?_ ?_
    | split
    | (apply h <;> simp_all)

theorem T_commaArg : T .commaArg (body .commaArg) false false .unk K.top K.top (QT .commaArg) := by
  simp only [body, commaArg, T_bind']
  refine T_unaryOperator _ _ _ _ _ _ _ ?_
  intro b d1 i1 v1 k01 k11 _ _ hv1
  cases b
  all_goals
    repeat' first
      | done
      | with_reducible contradiction
      | with_reducible intro _
      | tstep'
      | with_reducible refine And.intro ?_ ?_
      | with_reducible refine T_binaryLeft _ _ _ _ _ _ _ ?_
      | split
      | (simp_all [K.is, K.top]; done)
      | (simp only [K.is, K.top, Option.some.injEq, if_true] at *; subst_vars; simp_all; done)

theorem T_listOrSlice : T .listOrSlice (body .listOrSlice) false false .unk K.top K.top (QT .listOrSlice) := by tgo
theorem T_listLoop : T .listLoop (body .listLoop) false false .unk K.top K.top (QT .listLoop) := by tgo
theorem T_sliceLit : T .sliceLit (body .sliceLit) false false .unk K.top K.top (QT .sliceLit) := by tgo
theorem T_dictOrSet : T .dictOrSet (body .dictOrSet) false false .unk K.top K.top (QT .dictOrSet) := by tgo
theorem T_dictLoop (d : Option Bool) : T (.dictLoop d) (body (.dictLoop d)) false false .unk K.top K.top (QT (.dictLoop d)) := by tgo
theorem T_ifThenElse : T .ifThenElse (body .ifThenElse) false false .unk K.top K.top (QT .ifThenElse) := by tgo
theorem T_thenElse : T .thenElse (body .thenElse) false false .unk K.top K.top (QT .thenElse) := by tgo
theorem T_unary : T .unary (body .unary) false false .unk K.top K.top (QT .unary) := by tgo
theorem T_prefixLoop : T .prefixLoop (body .prefixLoop) false false .unk K.top K.top (QT .prefixLoop) := by tgo
set_option maxHeartbeats 4000000 in
theorem T_suffixLoop : T .suffixLoop (body .suffixLoop) false false .unk K.top K.top (QT .suffixLoop) := by tgo
theorem T_e3 : T .e3 (body .e3) false false .unk K.top K.top (QT .e3) := by tgo
theorem T_e4 : T .e4 (body .e4) false false .unk K.top K.top (QT .e4) := by tgo
theorem T_e5 : T .e5 (body .e5) false false .unk K.top K.top (QT .e5) := by tgo
theorem T_e6 : T .e6 (body .e6) false false .unk K.top K.top (QT .e6) := by tgo
theorem T_e7 : T .e7 (body .e7) false false .unk K.top K.top (QT .e7) := by tgo
theorem T_e8 : T .e8 (body .e8) false false .unk K.top K.top (QT .e8) := by tgo
theorem T_e9 : T .e9 (body .e9) false false .unk K.top K.top (QT .e9) := by tgo
theorem T_e10 : T .e10 (body .e10) false false .unk K.top K.top (QT .e10) := by tgo
theorem T_e11 (comma : Bool) : T (.e11 comma) (body (.e11 comma)) false false .unk K.top K.top (QT (.e11 comma)) := by cases comma <;> tgo
theorem T_l3 : T .l3 (body .l3) false false .unk K.top K.top (QT .l3) := by tgo
theorem T_l4 : T .l4 (body .l4) false false .unk K.top K.top (QT .l4) := by tgo
theorem T_l5 : T .l5 (body .l5) false false .unk K.top K.top (QT .l5) := by tgo
theorem T_l6 : T .l6 (body .l6) false false .unk K.top K.top (QT .l6) := by tgo
theorem T_l7 : T .l7 (body .l7) false false .unk K.top K.top (QT .l7) := by tgo
theorem T_l8 : T .l8 (body .l8) false false .unk K.top K.top (QT .l8) := by tgo
theorem T_l9 : T .l9 (body .l9) false false .unk K.top K.top (QT .l9) := by tgo
theorem T_l10 : T .l10 (body .l10) false false .unk K.top K.top (QT .l10) := by tgo

/-- Every rule satisfies the calculus. -/
theorem T_all (r : Rule) : T r (body r) false false .unk K.top K.top (QT r) := by
  cases r with
  | root => exact T_root
  | evalRoot => exact T_evalRoot
  | statements => exact T_statements
  | block => exact T_block
  | structOrModule m => exact T_structOrModule m
  | structLoop => exact T_structLoop
  | methodLoop m => exact T_methodLoop m
  | nativeModule => exact T_nativeModule
  | nativeLoop => exact T_nativeLoop
  | nativeFunction => exact T_nativeFunction
  | annotated => exact T_annotated
  | namedFunction => exact T_namedFunction
  | exprFunction => exact T_exprFunction
  | params self restrict => exact T_params self restrict
  | paramLoop restrict => exact T_paramLoop restrict
  | functionBody => exact T_functionBody
  | returnS => exact T_returnS
  | ifS => exact T_ifS
  | whileS => exact T_whileS
  | doS => exact T_doS
  | loopS => exact T_loopS
  | forS => exact T_forS
  | breakS => exact T_breakS
  | continueS => exact T_continueS
  | assertS => exact T_assertS
  | letS => exact T_letS
  | letLoop => exact T_letLoop
  | exprStatement => exact T_exprStatement
  | lvalue => exact T_lvalue
  | lvalueTerms => exact T_lvalueTerms
  | terminal => exact T_terminal
  | commaExpr => exact T_commaExpr
  | commaLoop => exact T_commaLoop
  | commaArg => exact T_commaArg
  | listOrSlice => exact T_listOrSlice
  | listLoop => exact T_listLoop
  | sliceLit => exact T_sliceLit
  | dictOrSet => exact T_dictOrSet
  | dictLoop d => exact T_dictLoop d
  | ifThenElse => exact T_ifThenElse
  | thenElse => exact T_thenElse
  | unary => exact T_unary
  | prefixLoop => exact T_prefixLoop
  | suffixLoop => exact T_suffixLoop
  | e3 => exact T_e3
  | e4 => exact T_e4
  | e5 => exact T_e5
  | e6 => exact T_e6
  | e7 => exact T_e7
  | e8 => exact T_e8
  | e9 => exact T_e9
  | e10 => exact T_e10
  | e11 comma => exact T_e11 comma
  | l3 => exact T_l3
  | l4 => exact T_l4
  | l5 => exact T_l5
  | l6 => exact T_l6
  | l7 => exact T_l7
  | l8 => exact T_l8
  | l9 => exact T_l9
  | l10 => exact T_l10

end Cordy.Parser
