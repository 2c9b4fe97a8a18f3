import Verif.Spec.Source
import Verif.Props.Grammar
import Verif.Props.Codegen
import Verif.Props.Scanner
import Verif.Props.Operator
/-!
# C80: the text of an expression runs as the documentation says
-/
namespace Cordy.Source
open Cordy.Scan (Token scan tokens errors)
open Cordy.Grammar
open Cordy.Codegen (Sig Out Prims Expr Args evalW evalArgsW evalChainW fcDoc)
variable {Γ : Sig} {Er S : Type}

theorem bind_assoc {α β γ : Type} (o : Out Er S α) (f : α → S → Out Er S β) (g : β → S → Out Er S γ) : (o.bind f).bind g = o.bind fun a s => (f a s).bind g := by
  cases o <;> rfl

theorem bind_ok {α β : Type} (a : α) (s : S) (f : α → S → Out Er S β) : (Out.ok a s : Out Er S α).bind f = f a s := rfl

theorem bind_congr {α β : Type} (o : Out Er S α) {f g : α → S → Out Er S β} (h : ∀ a s, f a s = g a s) : o.bind f = o.bind g := by
  cases o <;> simp [Out.bind, h]

theorem bind_id {α : Type} (o : Out Er S α) : (o.bind fun a s => .ok a s) = o := by cases o <;> rfl

theorem buildArgs_cons_ne {I : Scope Γ} (e : E) (es : List E) : buildArgs I (e :: es) ≠ some .nil := by
  intro h
  cases e <;> rw [buildArgs] at h
  all_goals try (split at h <;> simp at h)
  all_goals (intro y hy; cases hy)

/-- arguments whose form is a single plain one -/
theorem buildArgs_one {I : Scope Γ} {as : List E} {x : Expr Γ} (h : buildArgs I as = some (.plain x .nil)) : ∃ e, as = [e] ∧ (∀ y, e ≠ .unroll y) ∧ build I e = some x := by
  cases as with
  | nil => simp [buildArgs] at h
  | cons e es =>
    have key : ∀ (hu : ∀ y, e ≠ .unroll y), buildArgs I (e :: es) = match build I e, buildArgs I es with
        | some e, some es => some (.plain e es)
        | _, _ => none := by
      intro hu
      cases e <;> first | rfl | exact absurd rfl (hu _)
    by_cases hu : ∃ y, e = .unroll y
    · obtain ⟨y, rfl⟩ := hu
      rw [buildArgs] at h
      split at h <;> simp at h
    · have hu' : ∀ y, e ≠ .unroll y := fun y hy => hu ⟨y, hy⟩
      rw [key hu'] at h
      split at h
      · rename_i e' es' h1 h2
        simp only [Option.some.injEq, Args.plain.injEq] at h
        obtain ⟨rfl, rfl⟩ := h
        refine ⟨e, ?_, hu', h1⟩
        cases es with
        | nil => rfl
        | cons e2 es => 
          exact absurd h2 (buildArgs_cons_ne e2 es)
      · simp at h

theorem buildArgs_cons {I : Scope Γ} {e : E} {es : List E} (hu : ∀ y, e ≠ .unroll y) : buildArgs I (e :: es) = match build I e, buildArgs I es with
        | some e, some es => some (.plain e es)
        | _, _ => none := by
      cases e <;> first | rfl | exact absurd rfl (hu _)

theorem values_cons {P : Prims Γ Er S} {I : Scope Γ} {spread} {e : E} {es : List E} {s : S} (hu : ∀ y, e ≠ .unroll y) :
    values P I spread (e :: es) s = (value P I e s).bind fun v s => (values P I spread es s).bind fun vs s => .ok (v :: vs) s := by
  cases e <;> first | rfl | exact absurd rfl (hu _)

/-- The comparisons, on the built operands. -/
theorem compare_value (P : Prims Γ Er S) (I : Scope Γ) (hI : I.ofCmp = P.ofCmp) (l : Expr Γ) (c : Γ.C) (r : Expr Γ) (ops : List (Γ.C × Expr Γ)) (s : S) :
    evalW P (fcDoc P) (compareExpr I l ((c, r) :: ops)) s = (evalW P (fcDoc P) l s).bind fun v s => evalChainW P (fcDoc P) (compareExpr.chain c r ops) v s := by
  cases ops with
  | nil =>
    simp only [compareExpr, compareExpr.chain, evalW, evalChainW, hI, P.ofCmp_spec, Bool.false_eq_true, if_false]
  | cons o ops => simp only [compareExpr, compareExpr.chain, evalW]

theorem asgVar_value (P : Prims Γ Er S) (I : Scope Γ) (x : Γ.X) (r : Expr Γ) (op : Asg) (hop : op ≠ .eq) (s : S) :
    evalW P (fcDoc P) (asgVar x r (I.asg op)) s = (P.load x s).bind fun old s => (evalW P (fcDoc P) r s).bind fun v s => (assigned P I op old v s).bind fun v s => (P.store x v s).bind fun _ s => .ok v s := by
  cases op with
  | eq => exact absurd rfl hop
  | op a => cases a <;> simp only [Scope.asg, asgVar, evalW, Codegen.evalLVal, assigned, bind_assoc, Bool.false_eq_true, if_false]
  | max => simp only [Scope.asg, asgVar, evalW, Codegen.evalLVal, assigned, bind_assoc, Bool.false_eq_true, if_false]
  | min => simp only [Scope.asg, asgVar, evalW, Codegen.evalLVal, assigned, bind_assoc, Bool.false_eq_true, if_false]

theorem asgIndex_value (P : Prims Γ Er S) (I : Scope Γ) (a i r : Expr Γ) (op : Asg) (hop : op ≠ .eq) (s : S) :
    evalW P (fcDoc P) (asgIndex a i r (I.asg op)) s = (evalW P (fcDoc P) a s).bind fun a s => (evalW P (fcDoc P) i s).bind fun i s => (P.index a i s).bind fun old s =>
      (evalW P (fcDoc P) r s).bind fun v s => (assigned P I op old v s).bind fun v s => (P.setIndex a i v s).bind fun _ s => .ok a s := by
  cases op with
  | eq => exact absurd rfl hop
  | op a => cases a <;> simp only [Scope.asg, asgIndex, evalW, assigned]
  | max => simp only [Scope.asg, asgIndex, evalW, assigned]
  | min => simp only [Scope.asg, asgIndex, evalW, assigned]

theorem asgField_value (P : Prims Γ Er S) (I : Scope Γ) (a r : Expr Γ) (f : Nat) (op : Asg) (hop : op ≠ .eq) (s : S) :
    evalW P (fcDoc P) (asgField a f r (I.asg op)) s = (evalW P (fcDoc P) a s).bind fun a s => (P.getField a f s).bind fun old s =>
      (evalW P (fcDoc P) r s).bind fun v s => (assigned P I op old v s).bind fun v s => P.setField a f v s := by
  cases op with
  | eq => exact absurd rfl hop
  | op a => cases a <;> simp only [Scope.asg, asgField, evalW, assigned, fcDoc]
  | max => simp only [Scope.asg, asgField, evalW, assigned]
  | min => simp only [Scope.asg, asgField, evalW, assigned]

theorem infix_value (P : Prims Γ Er S) (I : Scope Γ) (op : Infix) (h1 : op ≠ .land) (h2 : op ≠ .lor) (l r : Expr Γ) (s : S) :
    evalW P (fcDoc P) (infixExpr I op l r) s = (evalW P (fcDoc P) l s).bind fun x s => (evalW P (fcDoc P) r s).bind fun y s => apply P I op x y s := by
  cases op <;> first | exact absurd rfl h1 | exact absurd rfl h2 | simp only [infixExpr, evalW, apply, Bool.false_eq_true, if_false]

theorem value_infix (P : Prims Γ Er S) (I : Scope Γ) (op : Infix) (h1 : op ≠ .land) (h2 : op ≠ .lor) (l r : E) (s : S) :
    value P I (.bin op l r) s = (value P I l s).bind fun x s => (value P I r s).bind fun y s => apply P I op x y s := by
  cases op <;> first | exact absurd rfl h1 | exact absurd rfl h2 | rfl

theorem value_asgVar (P : Prims Γ Er S) (I : Scope Γ) (op : Asg) (hop : op ≠ .eq) (n : String) (x : Γ.X) (hx : I.name n = some (.variable x)) (r : E) (s : S) :
    value P I (.assign op (.var n) r) s = (P.load x s).bind fun old s => (value P I r s).bind fun v s => (assigned P I op old v s).bind fun v s => (P.store x v s).bind fun _ s => .ok v s := by
  cases op <;> first | exact absurd rfl hop | (rw [value, hx]; simp)

mutual
theorem build_value (P : Prims Γ Er S) (I : Scope Γ) (hI : I.ofCmp = P.ofCmp) : (e : E) → (x : Expr Γ) → build I e = some x → (s : S) → evalW P (fcDoc P) x s = value P I e s
  | .func k, x, h, s => by
    simp only [build, Option.some.injEq] at h; subst h; simp only [evalW, value]
  | .lit l, x, h, s => by
    cases l <;> simp only [build, Option.some.injEq] at h <;> subst h <;> simp only [evalW, value]
  | .var n, x, h, s => by
    rw [build] at h
    rw [value]
    cases hn : I.name n with
    | none => simp [hn] at h
    | some y =>
      simp only [hn, Option.map_some, Option.some.injEq] at h
      subst h
      cases y <;> simp only [Name.expr, evalW, Codegen.evalLVal]
  | .comma as tr, x, h, s => by
    rw [build] at h
    cases ha : buildArgs I as with
    | none => simp [ha] at h
    | some xs =>
      simp only [ha, Option.map_some, Option.some.injEq] at h
      subst h
      have hv := args_value P I hI as xs ha (P.spread .vector) s
      rw [value, ← hv]
      cases xs with
      | nil =>
        simp only [commaExpr, evalW]
        refine bind_congr _ fun vs s => ?_
        cases as with
        | nil => rfl
        | cons e es => exact absurd ha (buildArgs_cons_ne e es)
      | unroll y ys =>
        simp only [commaExpr, evalW]
        refine bind_congr _ fun vs s => ?_
        cases as with
        | nil => rfl
        | cons e es =>
          by_cases hu : ∃ z, e = .unroll z
          · obtain ⟨z, rfl⟩ := hu
            cases es <;> rfl
          · rw [buildArgs_cons (fun z hz => hu ⟨z, hz⟩)] at ha
            split at ha <;> simp at ha
      | plain y ys =>
        cases ys with
        | nil =>
          obtain ⟨e, rfl, hu, hb⟩ := buildArgs_one ha
          simp only [commaExpr]
          cases tr
          · simp only [Bool.false_eq_true, if_false, evalArgsW, bind_assoc, bind_ok]
            refine (bind_id _).symm.trans (bind_congr _ fun v s => ?_)
            cases e <;> first | rfl | exact absurd rfl (hu _)
          · simp only [if_true, evalW]
            refine bind_congr _ fun vs s => ?_
            cases e <;> first | rfl | exact absurd rfl (hu _)
        | plain z zs =>
          simp only [commaExpr, evalW]
          refine bind_congr _ fun vs s => ?_
          match as, ha with
          | [], _ => rfl
          | [e], ha =>
            by_cases hu : ∃ z, e = .unroll z
            · obtain ⟨z, rfl⟩ := hu; rfl
            · rw [buildArgs_cons (fun z hz => hu ⟨z, hz⟩), buildArgs] at ha
              split at ha <;> simp_all
          | e :: e' :: es, _ => cases e <;> rfl
        | unroll z zs =>
          simp only [commaExpr, evalW]
          refine bind_congr _ fun vs s => ?_
          match as, ha with
          | [], _ => rfl
          | [e], ha =>
            by_cases hu : ∃ z, e = .unroll z
            · obtain ⟨z, rfl⟩ := hu; rfl
            · rw [buildArgs_cons (fun z hz => hu ⟨z, hz⟩), buildArgs] at ha
              split at ha <;> simp_all
          | e :: e' :: es, _ => cases e <;> rfl
  | .list as, x, h, s => by
    rw [build] at h
    cases ha : buildArgs I as with
    | none => simp [ha] at h
    | some xs =>
      simp only [ha, Option.map_some, Option.some.injEq] at h
      subst h
      simp only [evalW]
      rw [value, args_value P I hI as xs ha]
  | .set as, x, h, s => by
    rw [build] at h
    cases ha : buildArgs I as with
    | none => simp [ha] at h
    | some xs =>
      simp only [ha, Option.map_some, Option.some.injEq] at h
      subst h
      simp only [evalW]
      rw [value, args_value P I hI as xs ha]
  | .dict as, x, h, s => by
    rw [build] at h
    cases ha : buildArgs I as with
    | none => simp [ha] at h
    | some xs =>
      simp only [ha, Option.map_some, Option.some.injEq] at h
      subst h
      simp only [evalW]
      rw [value, args_value P I hI as xs ha]
  | .ite c t f, x, h, s => by
    rw [build] at h
    split at h <;> simp only [Option.some.injEq, reduceCtorEq] at h
    rename_i c' t' f' h1 h2 h3
    subst h
    simp only [evalW]
    rw [value, build_value P I hI c c' h1]
    refine bind_congr _ fun v s => ?_
    rw [build_value P I hI t t' h2, build_value P I hI f f' h3]
  | .call f as, x, h, s => by
    rw [build] at h
    split at h <;> simp only [Option.some.injEq, reduceCtorEq] at h
    rename_i f' xs h1 h2
    subst h
    simp only [evalW]
    rw [value, build_value P I hI f f' h1]
    refine bind_congr _ fun v s => ?_
    rw [args_value P I hI as xs h2]
  | .index a i, x, h, s => by
    rw [build] at h
    split at h <;> simp only [Option.some.injEq, reduceCtorEq] at h
    rename_i a' i' h1 h2
    subst h
    simp only [evalW]
    rw [value, build_value P I hI a a' h1]
    refine bind_congr _ fun v s => ?_
    rw [build_value P I hI i i' h2]
  | .slice a i j, x, h, s => by
    rw [build] at h
    split at h <;> simp only [Option.some.injEq, reduceCtorEq] at h
    rename_i a' i' j' h1 h2 h3
    subst h
    simp only [evalW]
    rw [value, build_value P I hI a a' h1]
    refine bind_congr _ fun v s => ?_
    rw [build_value P I hI i i' h2]
    refine bind_congr _ fun v s => ?_
    rw [build_value P I hI j j' h3]
  | .sliceStep a i j k, x, h, s => by
    rw [build] at h
    split at h <;> simp only [Option.some.injEq, reduceCtorEq] at h
    rename_i a' i' j' k' h1 h2 h3 h4
    subst h
    simp only [evalW]
    rw [value, build_value P I hI a a' h1]
    refine bind_congr _ fun v s => ?_
    rw [build_value P I hI i i' h2]
    refine bind_congr _ fun v s => ?_
    rw [build_value P I hI j j' h3]
    refine bind_congr _ fun v s => ?_
    rw [build_value P I hI k k' h4]
  | .field a f, x, h, s => by
    rw [build] at h
    split at h <;> simp only [Option.some.injEq, reduceCtorEq] at h
    rename_i a' f' h1 h2
    subst h
    simp only [evalW]
    rw [value, build_value P I hI a a' h1, h2]
    rfl
  | .unary p a, x, h, s => by
    rw [build] at h
    cases ha : build I a with
    | none => simp [ha] at h
    | some a' =>
      simp only [ha, Option.map_some, Option.some.injEq] at h
      subst h
      simp only [evalW]
      rw [value, build_value P I hI a a' ha]
  | .bin op l r, x, h, s => by
    rw [build] at h
    split at h <;> simp only [Option.some.injEq, reduceCtorEq] at h
    rename_i l' r' h1 h2
    subst h
    by_cases o1 : op = .land
    · subst o1
      simp only [infixExpr, evalW]
      rw [value, build_value P I hI l l' h1]
      refine bind_congr _ fun v s => ?_
      rw [build_value P I hI r r' h2]
    · by_cases o2 : op = .lor
      · subst o2
        simp only [infixExpr, evalW]
        rw [value, build_value P I hI l l' h1]
        refine bind_congr _ fun v s => ?_
        rw [build_value P I hI r r' h2]
      · rw [infix_value P I op o1 o2, value_infix P I op o1 o2, build_value P I hI l l' h1]
        refine bind_congr _ fun v s => ?_
        rw [build_value P I hI r r' h2]
  | .compare l ops, x, h, s => by
    rw [build] at h
    split at h <;> simp only [Option.some.injEq, reduceCtorEq] at h
    rename_i l' ops' h1 h2
    subst h
    cases ops with
    | nil =>
      simp only [buildOps, Option.some.injEq] at h2
      subst h2
      simp only [compareExpr]
      rw [value, build_value P I hI l l' h1]
    | cons op ops =>
      have hc := ops_value P I hI (op :: ops) ops' h2
      cases ops' with
      | nil => obtain ⟨c, e⟩ := op; rw [buildOps] at h2; split at h2 <;> simp at h2
      | cons op' ops' =>
        rw [compare_value P I hI, value, build_value P I hI l l' h1]
        exact bind_congr _ fun v s => hc _ _ _ rfl v s
  | .assign op (.var n) r, x, h, s => by
    rw [build] at h
    split at h <;> simp only [Option.some.injEq, reduceCtorEq] at h
    rename_i y r' h1 h2
    subst h
    by_cases ho : op = .eq
    · subst ho
      simp only [Scope.asg, asgVar, evalW]
      rw [value, h1, build_value P I hI r r' h2]
    · rw [asgVar_value P I y r' op ho, value_asgVar P I op ho n y h1]
      refine bind_congr _ fun v s => ?_
      rw [build_value P I hI r r' h2]
  | .assign op (.index a i) r, x, h, s => by
    rw [build] at h
    split at h <;> simp only [Option.some.injEq, reduceCtorEq] at h
    rename_i a' i' r' h1 h2 h3
    subst h
    by_cases ho : op = .eq
    · subst ho
      simp only [Scope.asg, asgIndex, evalW]
      rw [value, build_value P I hI a a' h1]
      refine bind_congr _ fun v s => ?_
      rw [build_value P I hI i i' h2]
      refine bind_congr _ fun v s => ?_
      rw [build_value P I hI r r' h3]
    · rw [asgIndex_value P I a' i' r' op ho, value, build_value P I hI a a' h1]
      · refine bind_congr _ fun v s => ?_
        rw [build_value P I hI i i' h2]
        refine bind_congr _ fun v s => ?_
        refine bind_congr _ fun v s => ?_
        rw [build_value P I hI r r' h3]
      · exact ho
  | .assign op (.field a f) r, x, h, s => by
    rw [build] at h
    split at h <;> simp only [Option.some.injEq, reduceCtorEq] at h
    rename_i a' f' r' h1 h2 h3
    subst h
    by_cases ho : op = .eq
    · subst ho
      simp only [Scope.asg, asgField, evalW]
      rw [value, build_value P I hI a a' h1]
      refine bind_congr _ fun v s => ?_
      rw [build_value P I hI r r' h3, h2]
      rfl
    · rw [asgField_value P I a' r' f' op ho, value, build_value P I hI a a' h1, h2]
      · refine bind_congr _ fun v s => ?_
        refine bind_congr _ fun v s => ?_
        rw [build_value P I hI r r' h3]
        rfl
      · exact ho
  | .assign op (.lit _) r, x, h, s => by simp [build] at h
  | .assign op (.comma _ _) r, x, h, s => by simp [build] at h
  | .assign op (.list _) r, x, h, s => by simp [build] at h
  | .assign op (.set _) r, x, h, s => by simp [build] at h
  | .assign op (.dict _) r, x, h, s => by simp [build] at h
  | .assign op (.slice _ _ _) r, x, h, s => by simp [build] at h
  | .assign op (.sliceStep _ _ _ _) r, x, h, s => by simp [build] at h
  | .assign op (.ite _ _ _) r, x, h, s => by simp [build] at h
  | .assign op (.call _ _) r, x, h, s => by simp [build] at h
  | .assign op (.unary _ _) r, x, h, s => by simp [build] at h
  | .assign op (.bin _ _ _) r, x, h, s => by simp [build] at h
  | .assign op (.compare _ _) r, x, h, s => by simp [build] at h
  | .assign op (.assign _ _ _) r, x, h, s => by simp [build] at h
  | .assign op (.fieldRef _) r, x, h, s => by simp [build] at h
  | .assign op (.unroll _) r, x, h, s => by simp [build] at h
  | .assign op (.opRef _) r, x, h, s => by simp [build] at h
  | .assign op (.opRefU _) r, x, h, s => by simp [build] at h
  | .assign op (.secL _ _) r, x, h, s => by simp [build] at h
  | .assign op (.secR _ _) r, x, h, s => by simp [build] at h
  | .assign op (.func _) r, x, h, s => by simp [build] at h
  | .fieldRef f, x, h, s => by
    rw [build] at h
    rw [value]
    cases hn : I.field f with
    | none => simp [hn] at h
    | some y =>
      simp only [hn, Option.map_some, Option.some.injEq] at h
      subst h
      simp only [evalW]
      rfl
  | .unroll _, x, h, s => by simp [build] at h
  | .opRef op, x, h, s => by simp only [build, Option.some.injEq] at h; subst h; simp only [evalW, value]
  | .opRefU op, x, h, s => by simp only [build, Option.some.injEq] at h; subst h; simp only [evalW, value]
  | .secL op e, x, h, s => by
    rw [build] at h
    cases ha : build I e with
    | none => simp [ha] at h
    | some a' =>
      simp only [ha, Option.map_some, Option.some.injEq] at h
      subst h
      simp only [evalW, evalArgsW, bind_ok, bind_assoc]
      rw [value, build_value P I hI e a' ha]
  | .secR op e, x, h, s => by
    rw [build] at h
    cases ha : build I e with
    | none => simp [ha] at h
    | some a' =>
      simp only [ha, Option.map_some, Option.some.injEq] at h
      subst h
      simp only [evalW, evalArgsW, bind_ok, bind_assoc]
      rw [value, build_value P I hI e a' ha]
theorem args_value (P : Prims Γ Er S) (I : Scope Γ) (hI : I.ofCmp = P.ofCmp) : (as : List E) → (xs : Args Γ) → buildArgs I as = some xs → (spread : Γ.V → S → Out Er S (List Γ.V)) → (s : S) →
    evalArgsW P (fcDoc P) spread xs s = values P I spread as s
  | [], xs, h, spread, s => by
    simp only [buildArgs, Option.some.injEq] at h
    subst h
    simp only [evalArgsW, values]
  | e :: es, xs, h, spread, s => by
    by_cases hu : ∃ z, e = .unroll z
    · obtain ⟨z, hz⟩ := hu
      match e, hz with
      | .unroll z, _ =>
      rw [buildArgs] at h
      split at h <;> simp only [Option.some.injEq, reduceCtorEq] at h
      rename_i e' es' h1 h2
      subst h
      simp only [evalArgsW]
      rw [values, build_value P I hI z e' h1]
      refine bind_congr _ fun v s => ?_
      refine bind_congr _ fun v s => ?_
      rw [args_value P I hI es es' h2]
    · have hu' : ∀ y, e ≠ .unroll y := fun y hy => hu ⟨y, hy⟩
      rw [buildArgs_cons hu'] at h
      split at h <;> simp only [Option.some.injEq, reduceCtorEq] at h
      rename_i e' es' h1 h2
      subst h
      simp only [evalArgsW]
      rw [values_cons hu', build_value P I hI e e' h1]
      refine bind_congr _ fun v s => ?_
      rw [args_value P I hI es es' h2]
theorem ops_value (P : Prims Γ Er S) (I : Scope Γ) (hI : I.ofCmp = P.ofCmp) : (ops : List (Cmp × E)) → (ops' : List (Γ.C × Expr Γ)) → buildOps I ops = some ops' →
    ∀ c r rest, ops' = (c, r) :: rest → ∀ (v : Γ.V) (s : S), evalChainW P (fcDoc P) (compareExpr.chain c r rest) v s = compared P I ops v s
  | [], ops', h, c, r, rest, h', v, s => by
    simp only [buildOps, Option.some.injEq] at h
    subst h
    cases h'
  | (k, e) :: ops, ops', h, c, r, rest, h', v, s => by
    rw [buildOps] at h
    split at h <;> simp only [Option.some.injEq, reduceCtorEq] at h
    rename_i e' ops'' h1 h2
    subst h
    simp only [List.cons.injEq, Prod.mk.injEq] at h'
    obtain ⟨⟨rfl, rfl⟩, rfl⟩ := h'
    cases hops : ops'' with
    | nil =>
      have : ops = [] := by
        subst hops
        cases ops with
        | nil => rfl
        | cons o ops => obtain ⟨c, e⟩ := o; rw [buildOps] at h2; split at h2 <;> simp at h2
      subst this
      simp only [compareExpr.chain, evalChainW, compared]
      rw [build_value P I hI e e' h1]
      refine bind_congr _ fun y s => ?_
      split <;> simp_all
    | cons o rest =>
      obtain ⟨c', r'⟩ := o
      simp only [compareExpr.chain, evalChainW, compared]
      rw [build_value P I hI e e' h1]
      refine bind_congr _ fun y s => ?_
      rw [ops_value P I hI ops ops'' h2 c' r' rest hops]
end

theorem known_cons {I : Scope Γ} {e : E} {es : List E} (hu : ∀ y, e ≠ .unroll y) : KnownAll I (e :: es) = (Known I e ∧ KnownAll I es) := by
  cases e <;> first | rfl | exact absurd rfl (hu _)

theorem map_some {α β : Type} (a : Option α) (f : α → β) : (∃ x, a.map f = some x) ↔ ∃ x, a = some x := by
  cases a <;> simp

theorem some_iff {α : Type} (a : Option α) : (∃ x, a = some x) ↔ a ≠ none := by cases a <;> simp

mutual
theorem build_known (I : Scope Γ) : (e : E) → ((∃ x, build I e = some x) ↔ Known I e)
  | .func k => by simp [build, Known]
  | .lit l => by cases l <;> simp [build, Known]
  | .var n => by rw [build, Known, map_some, some_iff]
  | .comma as tr => by rw [build, Known, map_some, args_known I as]
  | .list as => by rw [build, Known, map_some, args_known I as]
  | .set as => by rw [build, Known, map_some, args_known I as]
  | .dict as => by rw [build, Known, map_some, args_known I as]
  | .ite c t f => by rw [build, Known, ← build_known I c, ← build_known I t, ← build_known I f]; cases build I c <;> cases build I t <;> cases build I f <;> simp
  | .call f as => by rw [build, Known, ← build_known I f, ← args_known I as]; cases build I f <;> cases buildArgs I as <;> simp
  | .index a i => by rw [build, Known, ← build_known I a, ← build_known I i]; cases build I a <;> cases build I i <;> simp
  | .slice a i j => by rw [build, Known, ← build_known I a, ← build_known I i, ← build_known I j]; cases build I a <;> cases build I i <;> cases build I j <;> simp
  | .sliceStep a i j k => by
    rw [build, Known, ← build_known I a, ← build_known I i, ← build_known I j, ← build_known I k]; cases build I a <;> cases build I i <;> cases build I j <;> cases build I k <;> simp
  | .field a f => by rw [build, Known, ← build_known I a]; cases build I a <;> cases I.field f <;> simp
  | .unary p a => by rw [build, Known, map_some, build_known I a]
  | .bin op l r => by rw [build, Known, ← build_known I l, ← build_known I r]; cases build I l <;> cases build I r <;> simp
  | .compare l ops => by rw [build, Known, ← build_known I l, ← ops_known I ops]; cases build I l <;> cases buildOps I ops <;> simp
  | .assign op (.var n) r => by
    rw [build, Known, ← build_known I r]
    cases hn : I.name n with
    | none => simp
    | some y => cases y <;> cases hr : build I r <;> simp
  | .assign op (.index a i) r => by rw [build, Known, ← build_known I a, ← build_known I i, ← build_known I r]; cases build I a <;> cases build I i <;> cases build I r <;> simp
  | .assign op (.field a f) r => by rw [build, Known, ← build_known I a, ← build_known I r]; cases build I a <;> cases I.field f <;> cases build I r <;> simp
  | .assign op (.lit _) r => by simp [build, Known]
  | .assign op (.comma _ _) r => by simp [build, Known]
  | .assign op (.list _) r => by simp [build, Known]
  | .assign op (.set _) r => by simp [build, Known]
  | .assign op (.dict _) r => by simp [build, Known]
  | .assign op (.slice _ _ _) r => by simp [build, Known]
  | .assign op (.sliceStep _ _ _ _) r => by simp [build, Known]
  | .assign op (.ite _ _ _) r => by simp [build, Known]
  | .assign op (.call _ _) r => by simp [build, Known]
  | .assign op (.unary _ _) r => by simp [build, Known]
  | .assign op (.bin _ _ _) r => by simp [build, Known]
  | .assign op (.compare _ _) r => by simp [build, Known]
  | .assign op (.assign _ _ _) r => by simp [build, Known]
  | .assign op (.fieldRef _) r => by simp [build, Known]
  | .assign op (.unroll _) r => by simp [build, Known]
  | .assign op (.opRef _) r => by simp [build, Known]
  | .assign op (.opRefU _) r => by simp [build, Known]
  | .assign op (.secL _ _) r => by simp [build, Known]
  | .assign op (.secR _ _) r => by simp [build, Known]
  | .assign op (.func _) r => by simp [build, Known]
  | .fieldRef f => by rw [build, Known, map_some, some_iff]
  | .unroll _ => by simp [build, Known]
  | .opRef _ => by simp [build, Known]
  | .opRefU _ => by simp [build, Known]
  | .secL op e => by rw [build, Known, map_some, build_known I e]
  | .secR op e => by rw [build, Known, map_some, build_known I e]
theorem args_known (I : Scope Γ) : (as : List E) → ((∃ xs, buildArgs I as = some xs) ↔ KnownAll I as)
  | [] => by simp [buildArgs, KnownAll]
  | e :: es => by
    by_cases hu : ∃ z, e = .unroll z
    · obtain ⟨z, hz⟩ := hu
      match e, hz with
      | .unroll z, _ => rw [buildArgs, KnownAll, ← build_known I z, ← args_known I es]; cases build I z <;> cases buildArgs I es <;> simp
    · have hu' : ∀ y, e ≠ .unroll y := fun y hy => hu ⟨y, hy⟩
      rw [buildArgs_cons hu', known_cons hu', ← build_known I e, ← args_known I es]; cases build I e <;> cases buildArgs I es <;> simp
theorem ops_known (I : Scope Γ) : (ops : List (Cmp × E)) → ((∃ xs, buildOps I ops = some xs) ↔ KnownOps I ops)
  | [] => by simp [buildOps, KnownOps]
  | (c, e) :: ops => by rw [buildOps, KnownOps, ← build_known I e, ← ops_known I ops]; cases build I e <;> cases buildOps I ops <;> simp
end


/-! ## No `a->f .= g` -/

theorem dotAll_cons (e : E) (es : List E) : NoFieldDotAll (e :: es) = (NoFieldDot e ∧ NoFieldDotAll es) := rfl

theorem infix_noFC {I : Scope Γ} (op : Infix) {l r : Expr Γ} (hl : l.NoFieldCompose) (hr : r.NoFieldCompose) : (infixExpr I op l r).NoFieldCompose := by
  cases op <;> exact ⟨hl, hr⟩

theorem comma_noFC {tr : Bool} {xs : Args Γ} (h : xs.NoFieldCompose) : (commaExpr tr xs).NoFieldCompose := by
  cases xs with
  | nil => exact h
  | unroll x xs => exact h
  | plain x xs =>
    cases xs with
    | nil => 
      rw [commaExpr]
      split
      · exact h
      · exact h.1
    | unroll _ _ => exact h
    | plain _ _ => exact h

theorem asgVar_noFC {x : Γ.X} {r : Expr Γ} (h : r.NoFieldCompose) (op : Option (Option Γ.B)) : (asgVar x r op).NoFieldCompose := by
  cases op with
  | none => exact h
  | some op => cases op <;> exact ⟨trivial, h⟩

theorem asgIndex_noFC {a i r : Expr Γ} (ha : a.NoFieldCompose) (hi : i.NoFieldCompose) (h : r.NoFieldCompose) (op : Option (Option Γ.B)) : (asgIndex a i r op).NoFieldCompose := by
  cases op <;> exact ⟨ha, hi, h⟩

theorem asgField_noFC {I : Scope Γ} {a r : Expr Γ} {f : Nat} (ha : a.NoFieldCompose) (h : r.NoFieldCompose) {op : Asg} (hop : op ≠ .op .dot) : (asgField a f r (I.asg op)).NoFieldCompose := by
  cases op with
  | eq => exact ⟨ha, h⟩
  | op o => cases o <;> first | exact absurd rfl hop | exact ⟨by simp, ha, h⟩
  | max => exact ⟨by simp, ha, h⟩
  | min => exact ⟨by simp, ha, h⟩

theorem chain_noFC (c : Γ.C) (r : Expr Γ) (ops : List (Γ.C × Expr Γ)) (hr : r.NoFieldCompose) (h : ∀ p ∈ ops, p.2.NoFieldCompose) : (compareExpr.chain c r ops).NoFieldCompose := by
  induction ops generalizing c r with
  | nil => exact hr
  | cons p ops ih => obtain ⟨c', r'⟩ := p; exact ⟨hr, ih c' r' (h (c', r') (by simp)) (fun p hp => h p (by simp [hp]))⟩

theorem compare_noFC {I : Scope Γ} {l : Expr Γ} (hl : l.NoFieldCompose) (ops : List (Γ.C × Expr Γ)) (h : ∀ p ∈ ops, p.2.NoFieldCompose) : (compareExpr I l ops).NoFieldCompose := by
  match ops with
  | [] => exact hl
  | [(c, r)] => exact ⟨hl, h (c, r) (by simp)⟩
  | (c, r) :: (c', r') :: ops => exact ⟨hl, chain_noFC c r ((c', r') :: ops) (h (c, r) (by simp)) (fun p hp => h p (List.mem_cons_of_mem _ hp))⟩

mutual
theorem build_noFC (I : Scope Γ) : (e : E) → (x : Expr Γ) → build I e = some x → NoFieldDot e → x.NoFieldCompose
  | .func k, x, h, _ => by simp only [build, Option.some.injEq] at h; subst h; trivial
  | .lit l, x, h, _ => by cases l <;> simp only [build, Option.some.injEq] at h <;> subst h <;> trivial
  | .var n, x, h, _ => by
    rw [build, Option.map_eq_some_iff] at h
    obtain ⟨y, _, rfl⟩ := h
    cases y <;> trivial
  | .comma as tr, x, h, hn => by
    rw [build, Option.map_eq_some_iff] at h
    obtain ⟨xs, h1, rfl⟩ := h
    exact comma_noFC (args_noFC I as xs h1 hn)
  | .list as, x, h, hn => by
    rw [build, Option.map_eq_some_iff] at h
    obtain ⟨xs, h1, rfl⟩ := h
    exact args_noFC I as xs h1 hn
  | .set as, x, h, hn => by
    rw [build, Option.map_eq_some_iff] at h
    obtain ⟨xs, h1, rfl⟩ := h
    exact args_noFC I as xs h1 hn
  | .dict as, x, h, hn => by
    rw [build, Option.map_eq_some_iff] at h
    obtain ⟨xs, h1, rfl⟩ := h
    exact args_noFC I as xs h1 hn
  | .ite c t f, x, h, hn => by
    rw [build] at h
    split at h <;> simp only [Option.some.injEq, reduceCtorEq] at h
    rename_i h1 h2 h3
    subst h
    exact ⟨build_noFC I c _ h1 hn.1, build_noFC I t _ h2 hn.2.1, build_noFC I f _ h3 hn.2.2⟩
  | .call f as, x, h, hn => by
    rw [build] at h
    split at h <;> simp only [Option.some.injEq, reduceCtorEq] at h
    rename_i h1 h2
    subst h
    exact ⟨build_noFC I f _ h1 hn.1, args_noFC I as _ h2 hn.2⟩
  | .index a i, x, h, hn => by
    rw [build] at h
    split at h <;> simp only [Option.some.injEq, reduceCtorEq] at h
    rename_i h1 h2
    subst h
    exact ⟨build_noFC I a _ h1 hn.1, build_noFC I i _ h2 hn.2⟩
  | .slice a i j, x, h, hn => by
    rw [build] at h
    split at h <;> simp only [Option.some.injEq, reduceCtorEq] at h
    rename_i h1 h2 h3
    subst h
    exact ⟨build_noFC I a _ h1 hn.1, build_noFC I i _ h2 hn.2.1, build_noFC I j _ h3 hn.2.2⟩
  | .sliceStep a i j k, x, h, hn => by
    rw [build] at h
    split at h <;> simp only [Option.some.injEq, reduceCtorEq] at h
    rename_i h1 h2 h3 h4
    subst h
    exact ⟨build_noFC I a _ h1 hn.1, build_noFC I i _ h2 hn.2.1, build_noFC I j _ h3 hn.2.2.1, build_noFC I k _ h4 hn.2.2.2⟩
  | .field a f, x, h, hn => by
    rw [build] at h
    split at h <;> simp only [Option.some.injEq, reduceCtorEq] at h
    rename_i h1 h2
    subst h
    have := build_noFC I a _ h1 hn
    exact this
  | .unary p a, x, h, hn => by
    rw [build, Option.map_eq_some_iff] at h
    obtain ⟨xs, h1, rfl⟩ := h
    exact build_noFC I a xs h1 hn
  | .bin op l r, x, h, hn => by
    rw [build] at h
    split at h <;> simp only [Option.some.injEq, reduceCtorEq] at h
    rename_i h1 h2
    subst h
    exact infix_noFC op (build_noFC I l _ h1 hn.1) (build_noFC I r _ h2 hn.2)
  | .compare l ops, x, h, hn => by
    rw [build] at h
    split at h <;> simp only [Option.some.injEq, reduceCtorEq] at h
    rename_i h1 h2
    subst h
    exact compare_noFC (build_noFC I l _ h1 hn.1) _ (ops_noFC I ops _ h2 hn.2)
  | .assign op (.var n) r, x, h, hn => by
    rw [build] at h
    split at h <;> simp only [Option.some.injEq, reduceCtorEq] at h
    rename_i h1 h2
    subst h
    exact asgVar_noFC (build_noFC I r _ h2 hn.2) _
  | .assign op (.index a i) r, x, h, hn => by
    rw [build] at h
    split at h <;> simp only [Option.some.injEq, reduceCtorEq] at h
    rename_i h1 h2 h3
    subst h
    exact asgIndex_noFC (build_noFC I a _ h1 hn.1.1) (build_noFC I i _ h2 hn.1.2) (build_noFC I r _ h3 hn.2) _
  | .assign op (.field a f) r, x, h, hn => by
    rw [build] at h
    split at h <;> simp only [Option.some.injEq, reduceCtorEq] at h
    rename_i h1 h2 h3
    subst h
    rw [NoFieldDot] at hn
    exact asgField_noFC (build_noFC I a _ h1 hn.2.1) (build_noFC I r _ h3 hn.2.2) hn.1
  | .assign op (.lit _) r, x, h, _ => by simp [build] at h
  | .assign op (.comma _ _) r, x, h, _ => by simp [build] at h
  | .assign op (.list _) r, x, h, _ => by simp [build] at h
  | .assign op (.set _) r, x, h, _ => by simp [build] at h
  | .assign op (.dict _) r, x, h, _ => by simp [build] at h
  | .assign op (.slice _ _ _) r, x, h, _ => by simp [build] at h
  | .assign op (.sliceStep _ _ _ _) r, x, h, _ => by simp [build] at h
  | .assign op (.ite _ _ _) r, x, h, _ => by simp [build] at h
  | .assign op (.call _ _) r, x, h, _ => by simp [build] at h
  | .assign op (.unary _ _) r, x, h, _ => by simp [build] at h
  | .assign op (.bin _ _ _) r, x, h, _ => by simp [build] at h
  | .assign op (.compare _ _) r, x, h, _ => by simp [build] at h
  | .assign op (.assign _ _ _) r, x, h, _ => by simp [build] at h
  | .assign op (.fieldRef _) r, x, h, _ => by simp [build] at h
  | .assign op (.unroll _) r, x, h, _ => by simp [build] at h
  | .assign op (.opRef _) r, x, h, _ => by simp [build] at h
  | .assign op (.opRefU _) r, x, h, _ => by simp [build] at h
  | .assign op (.secL _ _) r, x, h, _ => by simp [build] at h
  | .assign op (.secR _ _) r, x, h, _ => by simp [build] at h
  | .assign op (.func _) r, x, h, _ => by simp [build] at h
  | .fieldRef f, x, h, _ => by
    rw [build, Option.map_eq_some_iff] at h
    obtain ⟨y, _, rfl⟩ := h
    trivial
  | .unroll _, x, h, _ => by simp [build] at h
  | .opRef _, x, h, _ => by simp only [build, Option.some.injEq] at h; subst h; trivial
  | .opRefU _, x, h, _ => by simp only [build, Option.some.injEq] at h; subst h; trivial
  | .secL op e, x, h, hn => by
    rw [build, Option.map_eq_some_iff] at h
    obtain ⟨y, h1, rfl⟩ := h
    exact ⟨trivial, build_noFC I e _ h1 hn, trivial⟩
  | .secR op e, x, h, hn => by
    rw [build, Option.map_eq_some_iff] at h
    obtain ⟨y, h1, rfl⟩ := h
    exact ⟨trivial, build_noFC I e _ h1 hn, trivial⟩
theorem args_noFC (I : Scope Γ) : (as : List E) → (xs : Args Γ) → buildArgs I as = some xs → NoFieldDotAll as → xs.NoFieldCompose
  | [], xs, h, _ => by simp only [buildArgs, Option.some.injEq] at h; subst h; trivial
  | e :: es, xs, h, hn => by
    rw [NoFieldDotAll] at hn
    by_cases hu : ∃ z, e = .unroll z
    · obtain ⟨z, hz⟩ := hu
      match e, hz with
      | .unroll z, _ =>
        rw [buildArgs] at h
        split at h <;> simp only [Option.some.injEq, reduceCtorEq] at h
        rename_i h1 h2
        subst h
        exact ⟨build_noFC I z _ h1 hn.1, args_noFC I es _ h2 hn.2⟩
    · rw [buildArgs_cons fun y hy => hu ⟨y, hy⟩] at h
      split at h <;> simp only [Option.some.injEq, reduceCtorEq] at h
      rename_i h1 h2
      subst h
      exact ⟨build_noFC I e _ h1 hn.1, args_noFC I es _ h2 hn.2⟩
theorem ops_noFC (I : Scope Γ) : (ops : List (Cmp × E)) → (xs : List (Γ.C × Expr Γ)) → buildOps I ops = some xs → NoFieldDotOps ops → ∀ p ∈ xs, p.2.NoFieldCompose
  | [], xs, h, _ => by simp only [buildOps, Option.some.injEq] at h; subst h; simp
  | (c, e) :: ops, xs, h, hn => by
    rw [buildOps] at h
    split at h <;> simp only [Option.some.injEq, reduceCtorEq] at h
    rename_i h1 h2
    subst h
    rw [NoFieldDotOps] at hn
    intro p hp
    rcases List.mem_cons.1 hp with rfl | hp
    · exact build_noFC I e _ h1 hn.1
    · exact ops_noFC I ops _ h2 hn.2 p hp
end

/-! ## Tokens -/

theorem stands_tok {t : Token} {k : Tok} : tok t = some k ↔ Stands t k := by
  constructor
  · intro h
    cases t <;> simp only [tok, Option.some.injEq, reduceCtorEq] at h <;> subst h <;> first | exact .ident _ | exact .str _ | exact .int _ | exact .complex _ | exact .word rfl (by decide)
  · intro h
    cases h with
    | @word _ _ w hw hm =>
      have key : ∀ p ∈ Scan.keywords ++ Scan.operators, (Scan.keywords ++ Scan.operators).lookup p.1 = some p.2 := by decide
      have hl := key _ hm
      clear hm key
      have fin : ∀ w' t', written k = some w' → (Scan.keywords ++ Scan.operators).lookup w'.toList = some t' → tok t' = some k := by
        intro w' t' h1 h2
        cases k with
        | lit l =>
          cases l with
          | bool b => cases b <;> simp only [written, Option.some.injEq] at h1 <;> subst h1 <;> (cases h2; rfl)
          | _ => first | simp [written] at h1; done | (simp only [written, Option.some.injEq] at h1; subst h1; cases h2; rfl)
        | ident s => simp [written] at h1
        | cmp c => cases c <;> simp only [written, Option.some.injEq] at h1 <;> subst h1 <;> (cases h2; rfl)
        | asg a => cases a <;> simp only [written, Option.some.injEq] at h1 <;> subst h1 <;> (cases h2; rfl)
        | word a => cases a <;> simp only [written, Option.some.injEq] at h1 <;> subst h1 <;> (cases h2; rfl)
        | _ => simp only [written, Option.some.injEq] at h1; subst h1; cases h2; rfl
      exact fin w t hw hl
    | ident s => rfl
    | str s => rfl
    | int v => rfl
    | complex v => rfl

/-- `marked`, when the token before is `p`. -/
def markedAfter (p : Option Token) (ts : List Token) : List (Bool × Token) :=
  (((p :: ts.map some).zip ts).filter fun p => p.2 ≠ .newLine).map fun p => (p.1 == some .newLine, p.2)

theorem markedAfter_cons (p : Option Token) (t : Token) (ts : List Token) : markedAfter p (t :: ts) = if t = .newLine then markedAfter (some t) ts else (p == some .newLine, t) :: markedAfter (some t) ts := by
  simp only [markedAfter, List.map_cons, List.zip_cons_cons, List.filter_cons]
  by_cases h : t = .newLine <;> simp [h]

theorem withBreaks_iff (p : Option Token) (ts : List Token) (us : List T) :
    withBreaks (p == some .newLine) ts = some us ↔ List.Forall₂ (fun t k => t.1 = k.1 ∧ Stands t.2 k.2) (markedAfter p ts) us := by
  induction ts generalizing p us with
  | nil => simp only [withBreaks, markedAfter, List.map_nil, List.zip_nil_right, List.filter_nil, Option.some.injEq, List.forall₂_nil_left_iff]; exact eq_comm
  | cons t ts ih =>
    rw [withBreaks, markedAfter_cons]
    by_cases ht : t = .newLine
    · subst ht
      rw [if_pos rfl, if_pos rfl]
      exact ih (some .newLine) us
    · rw [if_neg ht, if_neg ht]
      have hf : (some t == some Token.newLine) = false := by simpa using ht
      have ih' := ih (some t)
      rw [hf] at ih'
      cases us with
      | nil =>
        simp only [List.forall₂_nil_right_iff, reduceCtorEq, iff_false]
        split <;> simp
      | cons u us =>
        obtain ⟨b, k⟩ := u
        rw [List.forall₂_cons, ← ih' us, ← stands_tok]
        cases tok t <;> cases withBreaks false ts <;> simp [and_assoc]

theorem breaks_iff (ts : List Token) (us : List T) : withBreaks false ts = some us ↔ List.Forall₂ (fun t k => t.1 = k.1 ∧ Stands t.2 k.2) (marked ts) us := withBreaks_iff none ts us

/-! ## C80 -/

/-- C80: exactly the texts that follow the grammar, with known names, are compiled. -/
theorem C80_accepts (I : Scope Γ) (text : List Char) : (∃ x, Compiles I text x) ↔ ∃ e, Reads text e ∧ Known I e := by
  constructor
  · rintro ⟨x, he, ts, n, e, ht, hp, hb⟩
    obtain ⟨o, hg⟩ := (C57_parse ts e).mp ⟨n, hp⟩
    exact ⟨e, ⟨he, ts, o, (breaks_iff _ _).mp ht, hg⟩, (build_known I e).mp ⟨x, hb⟩⟩
  · rintro ⟨e, ⟨he, ts, o, ht, hg⟩, hk⟩
    obtain ⟨n, hp⟩ := (C57_parse ts e).mpr ⟨o, hg⟩
    obtain ⟨x, hb⟩ := (build_known I e).mpr hk
    exact ⟨x, he, ts, n, e, (breaks_iff _ _).mpr ht, hp, hb⟩

/-- C80: a text has at most one tree, and at most one thing is made of it. -/
theorem C80_one_tree {text : List Char} {e e' : E} (h : Reads text e) (h' : Reads text e') : e = e' := by
  obtain ⟨_, ts, o, ht, hg⟩ := h
  obtain ⟨_, ts', o', ht', hg'⟩ := h'
  have e1 := (breaks_iff _ _).mpr ht
  rw [(breaks_iff _ _).mpr ht'] at e1
  cases e1
  exact C57_unique hg hg'

theorem compiles_reads {I : Scope Γ} {text : List Char} {x : Expr Γ} (h : Compiles I text x) : ∃ e, Reads text e ∧ build I e = some x := by
  obtain ⟨he, ts, n, e, ht, hp, hb⟩ := h
  obtain ⟨o, hg⟩ := (C57_parse ts e).mp ⟨n, hp⟩
  exact ⟨e, ⟨he, ts, o, (breaks_iff _ _).mp ht, hg⟩, hb⟩

/-- C80: running what the text of an expression was compiled to gives the value of the expression: the value is on the stack, and the effects are those of the evaluation. Left out: `a->f .= g`. -/
theorem C80_value_partial (P : Prims Γ Er S) (I : Scope Γ) (hI : I.ofCmp = P.ofCmp) {text : List Char} {e : E} (hr : Reads text e) (hn : NoFieldDot e) {x : Expr Γ} (hx : Compiles I text x)
    (hsz : (Codegen.code P x).length < 2 ^ 31) (m : Codegen.Mach Γ S) : Codegen.Does P x m (value P I e m.s) := by
  obtain ⟨e', hr', hb⟩ := compiles_reads hx
  cases C80_one_tree hr hr'
  rw [← build_value P I hI e x hb m.s]
  exact Codegen.C36_value_partial P x (build_noFC I e x hb hn) hsz m

/-! ### Texts -/

/-- The token of the scanner. -/
def ofTok : Tok → Token
  | .lit .nil => .kNil
  | .lit .exit => .kExit
  | .lit (.bool true) => .kTrue
  | .lit (.bool false) => .kFalse
  | .lit (.int v) => .int v
  | .lit (.complex v) => .complex v
  | .lit (.str s) => .string s
  | .ident s => .identifier s.toList
  | .lparen => .openParen | .rparen => .closeParen | .lsq => .openSquare | .rsq => .closeSquare | .comma => .comma | .arrow => .arrow | .ellipsis => .ellipsis
  | .kIf => .kIf | .kThen => .kThen | .kElif => .kElif | .kElse => .kElse
  | .star => .mul | .slash => .div | .percent => .mod | .starstar => .pow | .kIs => .kIs | .kIn => .kIn | .kNot => .kNot | .bang => .not
  | .plus => .plus | .minus => .minus | .shl => .leftShift | .shr => .rightShift | .amp => .bitwiseAnd | .bar => .bitwiseOr | .caret => .bitwiseXor | .dot => .dot
  | .cmp .lt => .lessThan | .cmp .le => .lessThanEquals | .cmp .gt => .greaterThan | .cmp .ge => .greaterThanEquals | .cmp .eq => .doubleEquals | .cmp .ne => .notEquals
  | .kAnd => .logicalAnd | .kOr => .logicalOr
  | .eq => .equals
  | .asg .add => .plusEquals | .asg .sub => .minusEquals | .asg .mul => .mulEquals | .asg .div => .divEquals | .asg .and => .andEquals | .asg .or => .orEquals
  | .asg .xor => .xorEquals | .asg .shl => .leftShiftEquals | .asg .shr => .rightShiftEquals | .asg .mod => .modEquals | .asg .pow => .powEquals | .asg .dot => .dotEquals
  | .word .kLet => .kLet | .word .kWhile => .kWhile | .word .kLoop => .kLoop | .word .kFor => .kFor | .word .kDo => .kDo | .word .kBreak => .kBreak | .word .kContinue => .kContinue
  | .word .kAssert => .kAssert | .word .lbrace => .openBrace | .word .rbrace => .closeBrace | .word .semi => .semicolon | .word .colon => .colon
  | .word .kFn => .kFn | .word .kReturn => .kReturn | .word .question => .questionMark | .word .underscore => .underscore

theorem tok_ofTok (t : Tok) : tok (ofTok t) = some t := by
  cases t with
  | lit l =>
    cases l with
    | bool b => cases b <;> rfl
    | _ => rfl
  | ident s => simp [ofTok, tok]
  | cmp c => cases c <;> rfl
  | asg a => cases a <;> rfl
  | word a => cases a <;> rfl
  | _ => rfl

theorem ofTok_ne (t : Tok) : ofTok t ≠ .newLine := by
  intro h
  have := tok_ofTok t
  rw [h] at this
  simp [tok] at this

/-- Text of tokens on one line, a space after each. -/
def textOf (ts : List T) : List Char := (ts.map fun t => ofTok t.2).flatMap fun t => Scan.spell t ++ [' ']

theorem withBreaks_ofTok (ts : List Tok) : withBreaks false (ts.map ofTok) = some (onLine ts) := by
  induction ts with
  | nil => rfl
  | cons t ts ih => simp only [List.map_cons, withBreaks, if_neg (ofTok_ne t), tok_ofTok, ih, onLine]

/-- Tokens on one line that follow the grammar have a text. -/
theorem reads_textOf {ts : List Tok} {o : Bool} {e : E} (hg : G .expr o (.e e) (onLine ts)) (hp : ∀ t ∈ ts, Scan.Printable (ofTok t)) : Reads (textOf (onLine ts)) e := by
  have h := Scan.C29_roundtrip (ts.map ofTok) (by
    intro t ht
    obtain ⟨x, hx, rfl⟩ := List.mem_map.1 ht
    exact hp x hx)
  have e1 : ((onLine ts).map fun t => ofTok t.2) = ts.map ofTok := by
    rw [← onLine_map ts, List.map_map]
    simp [onLine]
  rw [textOf, e1]
  refine ⟨h.2, onLine ts, o, (breaks_iff _ _).mp ?_, hg⟩
  rw [h.1]
  exact withBreaks_ofTok ts

theorem onLine_append (a b : List Tok) : onLine a ++ onLine b = onLine (a ++ b) := by simp [onLine]

mutual
theorem print_onLine : (t : Tree) → ∃ ts, print t = onLine ts
  | .lit n => ⟨_, rfl⟩
  | .var s => ⟨_, rfl⟩
  | .list as => by obtain ⟨a, ha⟩ := printArgs_onLine as; exact ⟨_, by rw [print, ha, onLine_append, onLine_append]⟩
  | .set as => by obtain ⟨a, ha⟩ := printArgs_onLine as; exact ⟨_, by rw [print, ha, onLine_append, onLine_append]⟩
  | .dict ps => by obtain ⟨a, ha⟩ := printPairs_onLine ps; exact ⟨_, by rw [print, ha, onLine_append, onLine_append]⟩
  | .slice a i j => by
    obtain ⟨x, ha⟩ := print_onLine a
    obtain ⟨y, hb⟩ := print_onLine i
    obtain ⟨z, hc⟩ := print_onLine j
    rw [print, ha, hb, hc]; simp only [onLine_append]; exact ⟨_, rfl⟩
  | .sliceStep a i j k => by
    obtain ⟨x, ha⟩ := print_onLine a
    obtain ⟨y, hb⟩ := print_onLine i
    obtain ⟨z, hc⟩ := print_onLine j
    obtain ⟨w, hd⟩ := print_onLine k
    rw [print, ha, hb, hc, hd]; simp only [onLine_append]; exact ⟨_, rfl⟩
  | .ite c t f => by
    obtain ⟨a, ha⟩ := print_onLine c
    obtain ⟨b, hb⟩ := print_onLine t
    obtain ⟨d, hd⟩ := print_onLine f
    rw [print, ha, hb, hd]; simp only [onLine_append]; exact ⟨_, rfl⟩
  | .call f as => by
    obtain ⟨a, ha⟩ := print_onLine f
    obtain ⟨b, hb⟩ := printArgs_onLine as
    rw [print, ha, hb]; simp only [onLine_append]; exact ⟨_, rfl⟩
  | .index a i => by
    obtain ⟨x, ha⟩ := print_onLine a
    obtain ⟨y, hb⟩ := print_onLine i
    rw [print, ha, hb]; simp only [onLine_append]; exact ⟨_, rfl⟩
  | .field a f => by
    obtain ⟨x, ha⟩ := print_onLine a
    rw [print, ha]; simp only [onLine_append]; exact ⟨_, rfl⟩
  | .unary p e => by
    obtain ⟨x, ha⟩ := print_onLine e
    rw [print, ha]; simp only [onLine_append]; exact ⟨_, rfl⟩
  | .bin op l r => by
    obtain ⟨x, ha⟩ := print_onLine l
    obtain ⟨y, hb⟩ := print_onLine r
    rw [print, ha, hb]; simp only [onLine_append]; exact ⟨_, rfl⟩
  | .compare l ops => by
    obtain ⟨x, ha⟩ := print_onLine l
    obtain ⟨y, hb⟩ := printChain_onLine ops
    rw [print, ha, hb]; simp only [onLine_append]; exact ⟨_, rfl⟩
  | .assign a s r => by
    obtain ⟨x, ha⟩ := print_onLine r
    rw [print, ha]; simp only [onLine_append]; exact ⟨_, rfl⟩
  | .assignIndex op a i r => by
    obtain ⟨x, ha⟩ := print_onLine a
    obtain ⟨y, hb⟩ := print_onLine i
    obtain ⟨z, hc⟩ := print_onLine r
    rw [print, ha, hb, hc]; simp only [onLine_append]; exact ⟨_, rfl⟩
theorem printArgs_onLine : (as : Grammar.Args) → ∃ ts, printArgs as = onLine ts
  | .nil => ⟨[], rfl⟩
  | .cons a .nil => by
    obtain ⟨x, ha⟩ := print_onLine a
    rw [printArgs, ha]; simp only [onLine_append]; exact ⟨_, rfl⟩
  | .cons a (.cons b as) => by
    obtain ⟨x, ha⟩ := print_onLine a
    obtain ⟨y, hb⟩ := printArgs_onLine (.cons b as)
    rw [printArgs, ha, hb]
    · simp only [onLine_append]; exact ⟨_, rfl⟩
    · intro h; cases h
theorem printPairs_onLine : (ps : Grammar.Pairs) → ∃ ts, printPairs ps = onLine ts
  | .one k v => by
    obtain ⟨x, ha⟩ := print_onLine k
    obtain ⟨y, hb⟩ := print_onLine v
    rw [printPairs, ha, hb]; simp only [onLine_append]; exact ⟨_, rfl⟩
  | .more k v ps => by
    obtain ⟨x, ha⟩ := print_onLine k
    obtain ⟨y, hb⟩ := print_onLine v
    obtain ⟨z, hc⟩ := printPairs_onLine ps
    rw [printPairs, ha, hb, hc]; simp only [onLine_append]; exact ⟨_, rfl⟩
theorem printChain_onLine : (ops : Grammar.Chain) → ∃ ts, printChain ops = onLine ts
  | .one c r => by
    obtain ⟨x, ha⟩ := print_onLine r
    rw [printChain, ha]; simp only [onLine_append]; exact ⟨_, rfl⟩
  | .more c r ops => by
    obtain ⟨x, ha⟩ := print_onLine r
    obtain ⟨y, hb⟩ := printChain_onLine ops
    rw [printChain, ha, hb]; simp only [onLine_append]; exact ⟨_, rfl⟩
end

/-- C80: every tree of operators can be written: there is a text that has this tree, with parentheses around its parts. (Its numbers and names must be ones that can be written: numbers are not negative, names are identifiers
and not keywords.) -/
theorem C80_every_tree (t : Tree) (h : ∀ x ∈ print t, Scan.Printable (ofTok x.2)) : Reads (textOf (print t)) t.withParens := by
  obtain ⟨o, hg⟩ := G.print t
  obtain ⟨ts, hts⟩ := print_onLine t
  rw [hts] at hg h ⊢
  exact reads_textOf hg fun t ht => h (false, t) (by simp [onLine, ht])

/-! ### Arithmetic -/

open Cordy.Op (BinaryOp UnaryOp)

theorem small_iff {i v : Int} : small i = some v ↔ i = v ∧ -(2 ^ 62) ≤ v ∧ v < 2 ^ 62 := by
  rw [small]
  split
  · rename_i h; simp only [Option.some.injEq]; constructor
    · rintro rfl; exact ⟨rfl, h⟩
    · exact fun h => h.1
  · rename_i h; simp only [reduceCtorEq, false_iff]; rintro ⟨rfl, h'⟩; exact h h'

/-- The operators of `arith`. -/
def arithOp : Infix → Option BinaryOp
  | .add => some .add
  | .sub => some .sub
  | .mul => some .mul
  | .div => some .div
  | .mod => some .mod
  | .pow => some .pow
  | _ => none

theorem rep_small {i v : Int} {w : Val} (h : Op.Represents ⟨i, 0⟩ w) (hs : small i = some v) : w = .int v := by
  obtain ⟨rfl, h1, h2⟩ := small_iff.1 hs
  exact (Op.C08_exact _ _ h ⟨by show -(2 ^ 63) ≤ i; omega, by show i < 2 ^ 63; omega⟩ ⟨by show -(2 ^ 63) ≤ (0 : Int); omega, by show (0 : Int) < 2 ^ 63; omega⟩).1 rfl ⟨h1, h2⟩

theorem boxI_small {i v : Int} (hs : small i = some v) : Op.boxI (Op.i64 i) = .int v := rep_small (Op.rep_boxI i) hs

theorem calcOp_machine (F : Op.Env) (op : Infix) (x y v : Int) (hx : -(2 ^ 62) ≤ x ∧ x < 2 ^ 62) (hy : -(2 ^ 62) ≤ y ∧ y < 2 ^ 62) (h : calcOp op x y = some v) :
    ∃ b, arithOp op = some b ∧ Op.binary F b (.int x) (.int y) = .ok (.int v) := by
  have tx : (Op.i64 x).toInt = x := Op.toInt_i64_exact _ (by omega)
  have ty : (Op.i64 y).toInt = y := Op.toInt_i64_exact _ (by omega)
  have hb0 : Op.i64 y = 0 ↔ y = 0 := by rw [Op.i64_eq_zero_iff]; omega
  cases op <;> simp only [calcOp, reduceCtorEq] at h
  case add =>
    obtain ⟨w, h1, h2⟩ := Op.C08_add F (.int x) (.int y) ⟨x, 0⟩ ⟨y, 0⟩ rfl rfl
    have e : (⟨x, 0⟩ : ℤ√(-1)) + ⟨y, 0⟩ = ⟨x + y, 0⟩ := by ext <;> simp
    rw [e] at h2
    exact ⟨.add, rfl, by rw [h1, rep_small h2 h]⟩
  case sub =>
    obtain ⟨w, h1, h2⟩ := Op.C08_sub F (.int x) (.int y) ⟨x, 0⟩ ⟨y, 0⟩ rfl rfl
    have e : (⟨x, 0⟩ : ℤ√(-1)) - ⟨y, 0⟩ = ⟨x - y, 0⟩ := by ext <;> simp
    rw [e] at h2
    exact ⟨.sub, rfl, by rw [h1, rep_small h2 h]⟩
  case mul =>
    obtain ⟨w, h1, h2⟩ := Op.C08_mul F (.int x) (.int y) ⟨x, 0⟩ ⟨y, 0⟩ rfl rfl
    have e : (⟨x, 0⟩ : ℤ√(-1)) * ⟨y, 0⟩ = ⟨x * y, 0⟩ := by ext <;> simp
    rw [e] at h2
    exact ⟨.mul, rfl, by rw [h1, rep_small h2 h]⟩
  case div =>
    by_cases h0 : y = 0
    · simp [h0] at h
    rw [if_neg h0] at h
    have e := Arith.toInt_divFloor (Op.i64 x) (Op.i64 y) (by omega) (by omega)
    rw [tx, ty] at e
    have e' : Arith.divFloor (Op.i64 x) (Op.i64 y) = Op.i64 (Int.fdiv x y) := by
      rw [← e]; exact (BitVec.ofInt_toInt).symm
    refine ⟨.div, rfl, ?_⟩
    rw [Op.binary]
    show Op.lift Op.divArm _ _ = _
    rw [Op.lift.eq_def]
    simp only [Op.divArm, Op.numArm, Op.intOf, if_neg (fun h => h0 (hb0.1 h)), e', boxI_small h]
  case mod =>
    by_cases h0 : y = 0
    · simp [h0] at h
    rw [if_neg h0] at h
    have e := Arith.toInt_modFloor (Op.i64 x) (Op.i64 y) (by omega)
    rw [tx, ty] at e
    have e' : Arith.modFloor (Op.i64 x) (Op.i64 y) = Op.i64 (Int.fmod x y) := by
      rw [← e]; exact (BitVec.ofInt_toInt).symm
    have hp : Op.remPanics (Op.i64 x) (Op.i64 y) = false := by
      rw [Op.remPanics, Bool.and_eq_false_iff]
      left
      rw [beq_eq_false_iff_ne]
      intro hc
      have : (Op.i64 x).toInt = (BitVec.intMin 64).toInt := by rw [hc]
      rw [tx] at this
      have e2 : (BitVec.intMin 64).toInt = -(2 ^ 63) := by decide
      omega
    refine ⟨.mod, rfl, ?_⟩
    rw [Op.binary]
    show Op.lift (Op.modArm F) _ _ = _
    rw [Op.lift.eq_def]
    simp only [Op.modArm, Op.intOf, if_neg (fun h => h0 (hb0.1 h)), hp, Bool.false_eq_true, if_false, e', boxI_small h]
  case pow =>
    by_cases h0 : 0 ≤ y ∧ y < 2 ^ 32
    · rw [if_pos h0] at h
      obtain ⟨w, h1, h2⟩ := Op.C08_pow_partial F (.int x) ⟨x, 0⟩ y.toNat rfl (by omega)
      have e : ∀ n : Nat, (⟨x, 0⟩ : ℤ√(-1)) ^ n = ⟨x ^ n, 0⟩ := by
        intro n
        induction n with
        | zero => simp only [pow_zero]; rfl
        | succ n ih => rw [pow_succ, ih, pow_succ]; ext <;> simp
      rw [e] at h2
      have hy' : ((y.toNat : Nat) : Int) = y := by omega
      rw [hy'] at h1
      exact ⟨.pow, rfl, by rw [h1, rep_small h2 h]⟩
    · rw [if_neg h0] at h; simp at h

theorem calcOp_small {op : Infix} {x y v : Int} (h : calcOp op x y = some v) : -(2 ^ 62) ≤ v ∧ v < 2 ^ 62 := by
  cases op <;> simp only [calcOp, reduceCtorEq] at h
  case div | mod => split at h; (· simp at h); exact (small_iff.1 h).2
  case pow => split at h; (exact (small_iff.1 h).2); simp at h
  all_goals exact (small_iff.1 h).2

theorem calc_small : (e : E) → (v : Int) → arith e = some v → -(2 ^ 62) ≤ v ∧ v < 2 ^ 62
  | e, v, h => by
    unfold arith at h
    split at h
    · exact (small_iff.1 h).2
    · exact calc_small _ v h
    · obtain ⟨x, _, h⟩ := Option.bind_eq_some_iff.1 h
      exact (small_iff.1 h).2
    · obtain ⟨x, _, h⟩ := Option.bind_eq_some_iff.1 h
      obtain ⟨y, _, h⟩ := Option.bind_eq_some_iff.1 h
      exact calcOp_small h
    · simp at h

/-- The machine has the integers and their operators of `Model/Operator`, as `val`. -/
structure HasInts (F : Op.Env) (P : Prims Γ Er S) (I : Scope Γ) (val : Val → Γ.V) : Prop where
  lit : ∀ v : Int, I.lit (.int v) = val (Op.boxI (Op.i64 v))
  neg : ∀ x z s, Op.unary .neg x = .ok z → P.unary (I.prefixOp .neg) (val x) s = .ok (val z) s
  bin : ∀ op b, arithOp op = some b → ∀ x y z s, Op.binary F b x y = .ok z → P.binary (I.infixOp op) (val x) (val y) s = .ok (val z) s

theorem calc_value {F : Op.Env} {P : Prims Γ Er S} {I : Scope Γ} {val : Val → Γ.V} (H : HasInts F P I val) : (e : E) → (v : Int) → arith e = some v → ∀ s,
    value P I e s = .ok (val (.int v)) s ∧ Known I e ∧ NoFieldDot e ∧ ∀ y, e ≠ .unroll y
  | e, v, h, s => by
    unfold arith at h
    split at h
    · rename_i i
      refine ⟨?_, trivial, trivial, by simp⟩
      rw [value, H.lit, boxI_small h]
      simp
    · rename_i e
      obtain ⟨h1, h2, h3, h4⟩ := calc_value H e v h s
      refine ⟨?_, ?_, ⟨h3, trivial⟩, by simp⟩
      · rw [value, values_cons h4, h1]
        simp only [Out.bind, values, parens]
      · rw [Known, known_cons h4]
        exact ⟨h2, trivial⟩
    · rename_i e
      obtain ⟨x, hx, h⟩ := Option.bind_eq_some_iff.1 h
      obtain ⟨h1, h2, h3, _⟩ := calc_value H e x hx s
      refine ⟨?_, h2, h3, by simp⟩
      rw [value, h1]
      obtain ⟨w, hw, hw'⟩ := (Op.C08_neg (.int x) ⟨x, 0⟩ rfl).1
      have e : -(⟨x, 0⟩ : ℤ√(-1)) = ⟨-x, 0⟩ := by ext <;> simp
      rw [e] at hw'
      rw [rep_small hw' h] at hw
      exact H.neg _ _ s hw
    · rename_i op l r
      obtain ⟨x, hx, h⟩ := Option.bind_eq_some_iff.1 h
      obtain ⟨y, hy, h⟩ := Option.bind_eq_some_iff.1 h
      obtain ⟨h1, h2, h3, _⟩ := calc_value H l x hx s
      obtain ⟨h1', h2', h3', _⟩ := calc_value H r y hy s
      refine ⟨?_, ⟨h2, h2'⟩, ⟨h3, h3'⟩, by simp⟩
      obtain ⟨b, hb, hv⟩ := calcOp_machine F op x y v (calc_small _ _ hx) (calc_small _ _ hy) h
      have hk := H.bin op b hb _ _ _ s hv
      rw [value_infix _ _ _ (by rintro rfl; simp [arithOp] at hb) (by rintro rfl; simp [arithOp] at hb), h1]
      simp only [Out.bind, h1']
      cases op <;> first | exact hk | (simp [arithOp] at hb)
    · simp at h

/-- C80: for a text that is arithmetic with integers, and whose value and intermediate values are not too large, the compiler makes code, which leaves the value that one calculates with the integers of mathematics. -/
theorem C80_arithmetic {F : Op.Env} {P : Prims Γ Er S} {I : Scope Γ} (hI : I.ofCmp = P.ofCmp) {val : Val → Γ.V} (H : HasInts F P I val) {text : List Char} {e : E} (hr : Reads text e) {v : Int} (hv : arith e = some v) (m : Codegen.Mach Γ S) :
    ∃ x, Compiles I text x ∧ ((Codegen.code P x).length < 2 ^ 31 → Codegen.Ends P x m { m with stack := val (.int v) :: m.stack }) := by
  obtain ⟨h1, h2, h3, _⟩ := calc_value H e v hv m.s
  obtain ⟨x, hx⟩ := (C80_accepts I text).mpr ⟨e, hr, h2⟩
  refine ⟨x, hx, fun hsz => ?_⟩
  have := C80_value_partial P I hI hr h3 hx hsz m
  rw [h1] at this
  exact this

/-! ### An example -/

namespace Example

/-- A machine with the values and operators of `Model/Operator`; comparisons are always true, the rest does nothing. -/
abbrev Γ₁ : Sig := ⟨Val, UnaryOp, Option BinaryOp, Unit, Nat, Unit, Unit, Unit⟩

def F₁ : Op.Env := ⟨fun _ => [], fun _ _ => .error .panic⟩

def res : Res Val → Unit → Out String Unit Val
  | .ok v, s => .ok v s
  | .error _, s => .stop (.err "error") s

def P₁ : Prims Γ₁ String Unit where
  bool := Val.bool
  raise _ := "compile error"
  truthy v _ := v.toBool
  unary op v s := res (Op.unary op v) s
  binary op l r s := match op with | some op => res (Op.binary F₁ op l r) s | none => .ok (Val.bool true) s
  cmp _ _ _ _ := true
  ofCmp _ := none
  ne := none
  ofCmp_spec := fun _ _ _ _ => rfl
  load _ s := .ok Val.nil s
  store _ _ s := .ok () s
  toClosure v s := .ok v s
  capture _ v s := .ok v s
  iter _ s := .ok [] s
  spread _ _ s := .ok [] s
  mkLit _ vs s := .ok (Val.list vs) s
  slice2 a _ s := .ok a s
  slice3 a _ _ s := .ok a s
  index a _ s := .ok a s
  slice a _ _ s := .ok a s
  sliceStep a _ _ _ s := .ok a s
  getField a _ s := .ok a s
  setField _ _ v s := .ok v s
  bindMethod a _ s := .ok a s
  setIndex _ _ _ s := .ok () s
  pattern _ _ _ s := .ok () s
  call f _ s := .ok f s

def I₁ : Scope Γ₁ where
  lit l := match l with | .int v => Op.boxI (Op.i64 v) | .bool b => Val.bool b | .str s => Val.str s | _ => Val.nil
  name x := if x = "x" then some (.variable 0) else none
  field _ := none
  fieldFn _ := Val.nil
  prefixOp p := match p with | .neg => .neg | .not => .not | .lnot => .logicalNot
  infixOp op := some ((arithOp op).getD .eq)
  cmp _ := ()
  ofCmp _ := none
  asgOp _ := some .add
  maxOp := some .max
  minOp := some .min
  opFn _ := Val.nil
  swapped _ := Val.nil
  prefixFn _ := Val.nil
  pat _ := ()

theorem ints : HasInts F₁ P₁ I₁ id where
  lit _ := rfl
  neg x z s h := by simp only [P₁, I₁, id, h, res]
  bin op b hb x y z s h := by simp only [P₁, I₁, hb, Option.getD_some, id, h, res]

def line : List Tok := [.lit (.int 2), .star, .lit (.int 3), .starstar, .lit (.int 2), .minus, .lit (.int 7), .slash, .lparen, .minus, .lit (.int 2), .rparen]

/-- `**` is not stronger than `*`. -/
def tree : E := .bin .sub (.bin .pow (.bin .mul (.lit (.int 2)) (.lit (.int 3))) (.lit (.int 2))) (.bin .div (.lit (.int 7)) (.comma [.unary .neg (.lit (.int 2))] false))

theorem line_text : textOf (onLine line) = "2 * 3 ** 2 - 7 / ( - 2 ) ".toList := by decide +kernel

theorem line_reads : Reads "2 * 3 ** 2 - 7 / ( - 2 ) ".toList tree := by
  rw [← line_text]
  obtain ⟨o, hg⟩ := (C57_parse (onLine line) tree).mp ⟨60, rfl⟩
  exact reads_textOf hg (by intro t ht; simp only [line, List.mem_cons, List.not_mem_nil, or_false] at ht; rcases ht with h | h | h | h | h | h | h | h | h | h | h | h <;> subst h <;> simp [ofTok, Scan.Printable])

example : arith tree = some 40 := by decide

/-- `2 * 3 ** 2 - 7 / ( - 2 )` leaves 40. -/
example : ∃ x, Compiles I₁ "2 * 3 ** 2 - 7 / ( - 2 ) ".toList x ∧ ((Codegen.code P₁ x).length < 2 ^ 31 → Codegen.Ends P₁ x ⟨[], [], [], ()⟩ ⟨[Val.int 40], [], [], ()⟩) :=
  C80_arithmetic (I := I₁) rfl ints line_reads (by decide) ⟨[], [], [], ()⟩

/-- An assignment in a call, spread arguments, a chain of comparisons: known names, no `->f .=`. -/
example : Known I₁ (.compare (.call (.var "x") [.assign (.op .add) (.var "x") (.lit (.int 1)), .unroll (.list [.var "x"])]) [(.lt, .var "x"), (.lt, .lit (.int 3))]) ∧
    NoFieldDot (.call (.var "x") [.assign (.op .add) (.var "x") (.lit (.int 1)), .unroll (.list [.var "x"])]) := by
  refine ⟨⟨⟨by simp [Known, I₁], ⟨⟨0, by simp [I₁]⟩, trivial⟩, ⟨by simp [Known, I₁], trivial⟩, trivial⟩, by simp [Known, I₁], trivial, trivial⟩, ?_⟩
  exact ⟨trivial, ⟨trivial, trivial⟩, ⟨trivial, trivial⟩, trivial⟩

end Example

end Cordy.Source
