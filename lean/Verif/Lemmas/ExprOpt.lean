import Verif.Spec.OptSpec
import Verif.Lemmas.CodegenMain
namespace Cordy.Codegen
variable {Γ : Sig} {E S : Type}

theorem Same.rfl' {α : Type} (a : Out E S α) : Same a a := by cases a <;> simp [Same]
theorem Same.symm {α : Type} {a b : Out E S α} (h : Same a b) : Same b a := by
  cases a <;> cases b <;> simp_all [Same]
theorem Same.trans {α : Type} {a b d : Out E S α} (h : Same a b) (h' : Same b d) : Same a d := by
  cases a <;> cases b <;> cases d <;> simp_all [Same]
theorem Same.bind {α β : Type} {a b : Out E S α} {k k' : α → S → Out E S β} (h : Same a b) (hk : ∀ x s, Same (k x s) (k' x s)) : Same (a.bind k) (b.bind k') := by
  cases a <;> cases b <;> simp_all [Same, Out.bind]

/-- A relation between outcomes in which the optimised expression can be compared with the original one. -/
structure Rel (R : ∀ {α : Type}, Out E S α → Out E S α → Prop) : Prop where
  rfl : ∀ {α : Type} (a : Out E S α), R a a
  symm : ∀ {α : Type} {a b : Out E S α}, R a b → R b a
  trans : ∀ {α : Type} {a b d : Out E S α}, R a b → R b d → R a d
  bind : ∀ {α β : Type} {a b : Out E S α} {k k' : α → S → Out E S β}, R a b → (∀ x s, R (k x s) (k' x s)) → R (a.bind k) (b.bind k')

theorem Rel.same : Rel (E := E) (S := S) (fun {_} => Same) := ⟨Same.rfl', Same.symm, Same.trans, Same.bind⟩
theorem Rel.eq : Rel (E := E) (S := S) (fun {_} a b => a = b) := ⟨fun _ => _root_.rfl, Eq.symm, Eq.trans, fun {_ _ a b k k'} h hk => by
  subst h; cases a with
  | ok x s => exact hk x s
  | stop r s => simp [Out.bind]⟩

theorem Out.bind_assoc {α β γ : Type} (a : Out E S α) (k : α → S → Out E S β) (k' : β → S → Out E S γ) :
    (a.bind k).bind k' = a.bind fun x s => (k x s).bind k' := by cases a <;> rfl
theorem Out.stop_bind {α β : Type} (r : Stop E) (s : S) (k : α → S → Out E S β) : (Out.stop r s : Out E S α).bind k = .stop r s := rfl
theorem Out.bind_ok {α : Type} (a : Out E S α) : (a.bind fun x s => .ok x s) = a := by cases a <;> rfl

/-- What is needed of the choices. -/
structure Good (c : Consts Γ) (P : Prims Γ E S) (ch : Choices Γ) (R : ∀ {α : Type}, Out E S α → Out E S α → Prop) : Prop where
  rel : Rel R
  noBug : ch.swapBug = false
  reorder : ∀ a b, ch.canReorder a b = true → ∀ s (K : Γ.V → Γ.V → S → Out E S Γ.V),
    R ((eval P a s).bind fun va s => (eval P b s).bind fun vb s => K va vb s) ((eval P b s).bind fun vb s => (eval P a s).bind fun va s => K va vb s)
  slice : ch.slices = true → ∀ a b x s, R ((P.slice2 a b s).bind fun l s => P.call l [x] s) (P.slice x a b s)
  slice3 : ch.slices = true → ∀ a b d x s, R ((P.slice3 a b d s).bind fun l s => P.call l [x] s) (P.sliceStep x a b d s)
  stops : ch.badLists = true → ∀ (r : Stop E) (t : S) (r' : Stop E) (t' : S), R (.stop r t : Out E S Γ.V) (.stop r' t')

variable {c : Consts Γ} {P : Prims Γ E S} {ch : Choices Γ} {R : ∀ {α : Type}, Out E S α → Out E S α → Prop}

section
variable (L : Laws c P) (G : Good c P ch R)
include L

theorem eval_result (r : Except Γ.F Γ.V) (s : S) : eval P (resultExpr r) s = match r with | .ok w => .ok w s | .error f => .stop (.err (P.raise f)) s := by
  cases r <;> simp [resultExpr, eval, evalW]

theorem visitUnary_ok (op : Γ.U) (a : Expr Γ) (s : S) : eval P (visitUnary c op a) s = eval P (.unary op a) s := by
  unfold visitUnary
  split
  · split
    · rename_i v h
      rw [eval_result L]
      simp only [eval, evalW, Out.ok_bind]
      rw [L.foldU _ _ _ h]; cases c.foldU op v <;> rfl
    · rfl
  · rfl

omit L in
theorem foldB_ok (L : Laws c P) (op : Γ.B) (a b : Γ.V) (h : (c.foldable a && c.foldable b) = true) (swap : Bool) (s : S) :
    eval P (resultExpr (c.foldB op a b)) s = eval P (.binary op (.const a) (.const b) swap) s := by
  rw [eval_result L]
  simp only [Bool.and_eq_true] at h
  simp only [eval, evalW, Out.ok_bind]
  rw [L.foldB _ _ _ _ h.1 h.2]
  cases swap <;> rfl

include G
theorem visitBin_ok (op : Γ.B) (l r : Expr Γ) (swap : Bool) (s : S) : eval P (visitBin c ch op l r swap) s = eval P (.binary op l r swap) s := by
  unfold visitBin
  split
  · rename_i a b
    split
    · rename_i h
      rw [G.noBug]
      simp only [Bool.and_false, Bool.false_eq_true, if_false]
      exact foldB_ok L op a b h swap s
    · rfl
  · rfl

theorem visitCallConst_ok (v : Γ.V) (args : Args Γ) (s : S) : R (eval P (.call (.const v) args) s) (eval P (visitCallConst c ch v args) s) := by
  unfold visitCallConst
  split
  · rename_i a b
    have hcall : eval P (.call (.const v) (.plain a (.plain b .nil))) s =
        (eval P a s).bind fun va s => (eval P b s).bind fun vb s => P.call v [va, vb] s := by
      simp only [eval, evalW, evalArgsW, Out.ok_bind, Out.bind_assoc]
    split
    · rename_i op h
      rw [visitBin_ok L G, hcall]
      simp only [eval, evalW, Bool.false_eq_true, if_false, L.call_bin v op _ _ _ h]
      exact G.rel.rfl _
    · rename_i h0
      split
      · rename_i op h
        rw [visitBin_ok L G, hcall]
        simp only [eval, evalW, L.call_swap v op _ _ _ h0 h]
        by_cases hr : ch.canReorder b a = true
        · simp only [hr, Bool.not_true, Bool.false_eq_true, if_false]
          exact G.rel.symm (G.reorder b a hr s fun vb va s => P.binary op vb va s)
        · simp only [hr, Bool.not_false, if_true]
          exact G.rel.rfl _
      · exact G.rel.rfl _
  · rename_i w
    split
    · rename_i h
      simp only [Bool.and_eq_true, Bool.or_eq_true] at h
      have hcall : eval P (.call (.const v) (.plain (.const w) .nil)) s = P.call v [w] s := by
        simp only [eval, evalW, evalArgsW, Out.ok_bind]
      rw [hcall]
      by_cases hm : c.isMin v = true
      · rw [L.min_int v w s hm h.2, if_pos hm]; simp only [eval, evalW]; exact G.rel.rfl _
      · have hm' := h.1.resolve_left hm
        rw [L.max_int v w s hm' h.2, if_neg hm]; simp only [eval, evalW]; exact G.rel.rfl _
    · exact G.rel.rfl _
  · exact G.rel.rfl _

omit L G in
theorem evalArgs_append (sp : Γ.V → S → Out E S (List Γ.V)) : ∀ (a b : Args Γ) (s : S), evalArgsW P (fcDoc P) sp (a.append b) s =
    (evalArgsW P (fcDoc P) sp a s).bind fun vs s => (evalArgsW P (fcDoc P) sp b s).bind fun ws s => .ok (vs ++ ws) s
  | .nil, b, s => by simp only [Args.append, evalArgsW, Out.ok_bind, List.nil_append]; exact (Out.bind_ok _).symm
  | .plain e r, b, s => by
    simp only [Args.append, evalArgsW, Out.bind_assoc, Out.ok_bind, evalArgs_append sp r b]
    simp
  | .unroll e r, b, s => by
    simp only [Args.append, evalArgsW, Out.bind_assoc, Out.ok_bind, evalArgs_append sp r b]
    simp

omit L G in
theorem evalArgs_length (sp : Γ.V → S → Out E S (List Γ.V)) : ∀ (a : Args Γ) (s : S) (vs : List Γ.V) (s' : S), a.anyUnroll = false →
    evalArgsW P (fcDoc P) sp a s = .ok vs s' → vs.length = a.length
  | .nil, s, vs, s', _, h => by simp only [evalArgsW] at h; cases h; rfl
  | .plain e r, s, vs, s', hu, h => by
    simp only [evalArgsW] at h
    cases h1 : evalW P (fcDoc P) e s with
    | stop _ _ => rw [h1] at h; simp [Out.bind] at h
    | ok v s1 =>
      rw [h1, Out.ok_bind] at h
      cases h2 : evalArgsW P (fcDoc P) sp r s1 with
      | stop _ _ => rw [h2] at h; simp [Out.bind] at h
      | ok ws s2 =>
        rw [h2, Out.ok_bind] at h
        cases h
        simp [Args.length, evalArgs_length sp r s1 ws s' (by simpa [Args.anyUnroll] using hu) h2]
  | .unroll e r, s, vs, s', hu, h => by simp [Args.anyUnroll] at hu

theorem visitCall_ok (f : Expr Γ) (args : Args Γ) (s : S) : R (eval P (.call f args) s) (eval P (visitCall c ch f args) s) := by
  unfold visitCall
  split
  · exact visitCallConst_ok L G _ _ s
  · rename_i v inner
    split
    · rename_i h
      simp only [Bool.and_eq_true, Bool.not_eq_true', isPartial, decide_eq_true_eq] at h
      refine G.rel.trans ?_ (visitCallConst_ok L G v (inner.append args) s)
      have : eval P (.call (.call (.const v) inner) args) s = eval P (.call (.const v) (inner.append args)) s := by
        simp only [eval, evalW, Out.ok_bind, evalArgs_append, Out.bind_assoc]
        cases hi : evalArgsW P (fcDoc P) P.iter inner s with
        | stop r t => rfl
        | ok vs s1 =>
          have hl := evalArgs_length P.iter inner s vs s1 h.1 hi
          obtain ⟨p, hp⟩ := L.partial_call v vs (by rw [hl]; exact h.2)
          simp only [Out.ok_bind, (hp _).1, (hp _).2]
      rw [this]; exact G.rel.rfl _
    · exact G.rel.rfl _
  · exact G.rel.rfl _

theorem visitComposeOther_ok (x f : Expr Γ) (s : S) : R (eval P (.compose x f) s) (eval P (visitComposeOther c ch x f) s) := by
  unfold visitComposeOther
  split
  · rename_i h
    refine G.rel.trans ?_ (visitCall_ok L G f (.plain x .nil) s)
    have h1 : eval P (.call f (.plain x .nil)) s = (eval P f s).bind fun fv s => (eval P x s).bind fun xv s => P.call fv [xv] s := by
      simp only [eval, evalW, evalArgsW, Out.bind_assoc, Out.ok_bind]
    rw [h1]
    simp only [eval, evalW]
    exact G.rel.symm (G.reorder f x h s fun fv xv s => P.call fv [xv] s)
  · split
    · rename_i v r _
      split
      · have h1 : (c.binOp v).isSome ∨ (c.swapOp v).isSome → eval P (.compose x (.call (.const v) (.plain r .nil))) s =
            (eval P x s).bind fun xv s => (eval P r s).bind fun rv s => P.call v [rv, xv] s := by
          intro hop
          have hn := L.op_nargs v hop
          simp only [eval, evalW, evalArgsW, Out.bind_assoc, Out.ok_bind]
          congr 1; funext xv s; congr 1; funext rv s
          obtain ⟨p, hp⟩ := L.partial_call v [rv] (by simp [hn])
          simp only [(hp _).1, (hp _).2, Out.ok_bind, List.singleton_append]
        split
        · rename_i op h
          rw [h1 (.inl (by simp [h]))]
          simp only [eval, evalW, if_true, L.call_bin v op _ _ _ h]
          exact G.rel.rfl _
        · rename_i h0
          split
          · rename_i op h
            rw [h1 (.inr (by simp [h]))]
            simp only [eval, evalW, Bool.false_eq_true, if_false, L.call_swap v op _ _ _ h0 h]
            exact G.rel.rfl _
          · exact G.rel.rfl _
      · exact G.rel.rfl _
    · exact G.rel.rfl _

theorem visitCompose_ok (x f : Expr Γ) (s : S) : R (eval P (.compose x f) s) (eval P (visitCompose c ch x f) s) := by
  unfold visitCompose
  split
  · rename_i i
    have : eval P (.compose x (.literal .list (.plain i .nil))) s = eval P (.index x i) s := by
      simp only [eval, evalW, evalArgsW, Out.bind_assoc, Out.ok_bind, L.list_call]
    rw [this]; exact G.rel.rfl _
  · rename_i args hne
    split
    · rename_i h
      simp only [Bool.and_eq_true, Bool.not_eq_true'] at h
      have hlen : args.length ≠ 1 := by
        intro hl
        cases args with
        | nil => simp [Args.length] at hl
        | plain e r => cases r with
          | nil => exact hne e rfl
          | plain _ _ => simp [Args.length] at hl
          | unroll _ _ => simp [Args.length] at hl
        | unroll e r => simp [Args.anyUnroll] at h
      have hst : ∃ r t, eval P (.compose x (.literal .list args)) s = .stop r t := by
        simp only [eval, evalW]
        cases hx : evalW P (fcDoc P) x s with
        | stop r t => exact ⟨r, t, rfl⟩
        | ok xv s1 =>
          rw [Out.ok_bind, Out.bind_assoc]
          cases ha : evalArgsW P (fcDoc P) (P.spread .list) args s1 with
          | stop r t => exact ⟨r, t, rfl⟩
          | ok vs s2 =>
            rw [Out.ok_bind]
            exact L.list_bad vs xv s2 (by rw [evalArgs_length _ _ _ _ _ h.1 ha]; exact hlen)
      obtain ⟨r, t, hst⟩ := hst
      rw [hst]
      have : eval P (.error (c.badList args.length)) s = .stop (.err (P.raise (c.badList args.length))) s := by simp only [eval, evalW]
      rw [this]
      exact G.stops h.2 _ _ _ _
    · exact visitComposeOther_ok L G x _ s
  · split
    · rename_i a b h
      simp only [eval, evalW, Out.bind_assoc]
      exact G.rel.bind (G.rel.rfl _) fun xv s => G.rel.bind (G.rel.rfl _) fun av s => G.rel.bind (G.rel.rfl _) fun bv s => G.slice h av bv xv s
    · exact visitComposeOther_ok L G x _ s
  · split
    · rename_i a b d h
      simp only [eval, evalW, Out.bind_assoc]
      exact G.rel.bind (G.rel.rfl _) fun xv s => G.rel.bind (G.rel.rfl _) fun av s => G.rel.bind (G.rel.rfl _) fun bv s =>
        G.rel.bind (G.rel.rfl _) fun dv s => G.slice3 h av bv dv xv s
    · exact visitComposeOther_ok L G x _ s
  · exact visitComposeOther_ok L G x _ s

omit G in
theorem visitIte_ok (a t e : Expr Γ) (s : S) : eval P (visitIte c a t e) s = eval P (.ite a t e) s := by
  unfold visitIte
  split
  · split
    · rename_i v h
      simp only [eval, evalW, Out.ok_bind, L.truthy v s h]
      split <;> rfl
    · rfl
  · rfl

mutual
theorem opt_ok : ∀ (e : Expr Γ) (s : S), R (eval P e s) (eval P (opt c ch e) s)
  | .const _, s | .exit, s | .error _, s | .function _ _, s | .load _, s => by simp only [opt]; exact G.rel.rfl _
  | .call f args, s => by
    rw [opt]
    refine G.rel.trans ?_ (visitCall_ok L G _ _ s)
    simp only [eval, evalW]
    exact G.rel.bind (opt_ok f s) fun fv s => G.rel.bind (optArgs_ok P.iter args s) fun _ _ => G.rel.rfl _
  | .compose x f, s => by
    rw [opt]
    refine G.rel.trans ?_ (visitCompose_ok L G _ _ s)
    simp only [eval, evalW]
    exact G.rel.bind (opt_ok x s) fun fv s => G.rel.bind (opt_ok f s) fun _ _ => G.rel.rfl _
  | .unary op a, s => by
    rw [opt, visitUnary_ok L]
    simp only [eval, evalW]
    exact G.rel.bind (opt_ok a s) fun _ _ => G.rel.rfl _
  | .binary op l r swap, s => by
    rw [opt, visitBin_ok L G]
    simp only [eval, evalW]
    cases swap
    · exact G.rel.bind (opt_ok l s) fun _ s => G.rel.bind (opt_ok r s) fun _ _ => G.rel.rfl _
    · exact G.rel.bind (opt_ok r s) fun _ s => G.rel.bind (opt_ok l s) fun _ _ => G.rel.rfl _
  | .compare l d, s => by
    simp only [opt, eval, evalW]
    exact G.rel.bind (opt_ok l s) fun v s => optChain_ok d v s
  | .literal ty args, s => by
    simp only [opt, eval, evalW]
    exact G.rel.bind (optArgs_ok _ args s) fun _ _ => G.rel.rfl _
  | .sliceLit a b, s | .index a b, s | .setField a _ b, s => by
    simp only [opt, eval, evalW]
    exact G.rel.bind (opt_ok a s) fun _ s => G.rel.bind (opt_ok b s) fun _ _ => G.rel.rfl _
  | .sliceLit3 a b d, s | .slice a b d, s => by
    simp only [opt, eval, evalW]
    exact G.rel.bind (opt_ok a s) fun _ s => G.rel.bind (opt_ok b s) fun _ s => G.rel.bind (opt_ok d s) fun _ _ => G.rel.rfl _
  | .arraySet a b d, s => by
    simp only [opt, eval, evalW]
    exact G.rel.bind (opt_ok a s) fun _ s => G.rel.bind (opt_ok b s) fun _ s => G.rel.bind (opt_ok d s) fun _ _ => G.rel.rfl _
  | .sliceStep a b d f, s => by
    simp only [opt, eval, evalW]
    exact G.rel.bind (opt_ok a s) fun _ s => G.rel.bind (opt_ok b s) fun _ s => G.rel.bind (opt_ok d s) fun _ s => G.rel.bind (opt_ok f s) fun _ _ => G.rel.rfl _
  | .and a b, s => by
    simp only [opt, eval, evalW]
    refine G.rel.bind (opt_ok a s) fun v s => ?_
    split
    · exact opt_ok b s
    · exact G.rel.rfl _
  | .or a b, s => by
    simp only [opt, eval, evalW]
    refine G.rel.bind (opt_ok a s) fun v s => ?_
    split
    · exact G.rel.rfl _
    · exact opt_ok b s
  | .ite a t e, s => by
    rw [opt, visitIte_ok L]
    simp only [eval, evalW]
    refine G.rel.bind (opt_ok a s) fun v s => ?_
    split
    · exact opt_ok t s
    · exact opt_ok e s
  | .getField a _, s => by
    simp only [opt, eval, evalW]
    exact G.rel.bind (opt_ok a s) fun _ _ => G.rel.rfl _
  | .swapField a _ op b, s => by
    simp only [opt, eval, evalW]
    exact G.rel.bind (opt_ok a s) fun _ s => G.rel.bind (G.rel.rfl _) fun _ s => G.rel.bind (opt_ok b s) fun _ _ => G.rel.rfl _
  | .assign x r, s => by
    cases x <;> simp only [opt, eval, evalW]
    · exact G.rel.bind (opt_ok r s) fun _ _ => G.rel.rfl _
    · exact G.rel.bind (G.rel.rfl _) fun _ s => G.rel.bind (opt_ok r s) fun _ _ => G.rel.rfl _
    · exact opt_ok r s
  | .pattern ts p r, s => by
    simp only [opt, eval, evalW]
    exact G.rel.bind (G.rel.rfl _) fun _ s => G.rel.bind (opt_ok r s) fun _ _ => G.rel.rfl _
  | .arrayOp a b op d, s => by
    simp only [opt, eval, evalW]
    exact G.rel.bind (opt_ok a s) fun _ s => G.rel.bind (opt_ok b s) fun _ s => G.rel.bind (G.rel.rfl _) fun _ s => G.rel.bind (opt_ok d s) fun _ _ => G.rel.rfl _
theorem optArgs_ok (sp : Γ.V → S → Out E S (List Γ.V)) : ∀ (a : Args Γ) (s : S), R (evalArgsW P (fcDoc P) sp a s) (evalArgsW P (fcDoc P) sp (optArgs c ch a) s)
  | .nil, s => by simp only [optArgs]; exact G.rel.rfl _
  | .plain e r, s => by
    simp only [optArgs, evalArgsW]
    exact G.rel.bind (opt_ok e s) fun _ s => G.rel.bind (optArgs_ok sp r s) fun _ _ => G.rel.rfl _
  | .unroll e r, s => by
    simp only [optArgs, evalArgsW]
    exact G.rel.bind (opt_ok e s) fun _ s => G.rel.bind (G.rel.rfl _) fun _ s => G.rel.bind (optArgs_ok sp r s) fun _ _ => G.rel.rfl _
theorem optChain_ok : ∀ (d : Chain Γ) (l : Γ.V) (s : S), R (evalChainW P (fcDoc P) d l s) (evalChainW P (fcDoc P) (optChain c ch d) l s)
  | .last op e, l, s => by
    simp only [optChain, evalChainW]
    exact G.rel.bind (opt_ok e s) fun _ _ => G.rel.rfl _
  | .more op e r, l, s => by
    simp only [optChain, evalChainW]
    refine G.rel.bind (opt_ok e s) fun v s => ?_
    split
    · exact optChain_ok r v s
    · exact G.rel.rfl _
end
end

end Cordy.Codegen
