import Verif.Lemmas.CodegenGrow
/-! The graph of an expression is well formed: C36. -/
namespace Cordy.Codegen
open Cordy.Builder
open Cordy.Graph (Built)
variable {Γ : Sig} {O T : Type} {H : Target Γ O T}

theorem built_captures (caps : List Γ.Q) (b : Bld O T) (op : List Nat) (h : Built b.graph op) : Built (emitCaptures H caps b).graph op := by
  have hg : ∀ (caps : List Γ.Q) (c : Bld O T), Built c.graph op → Built (caps.foldl (fun b q => b.push (H.op (.capture q))) c).graph op := by
    intro caps
    induction caps with
    | nil => exact fun c h => h
    | cons q qs ih => exact fun c h => ih _ (built_push h _)
  unfold emitCaptures
  split
  · exact h
  · exact hg _ _ (built_push h _)

theorem built_acc (n : Nat) (b : Bld O T) (op : List Nat) (h : Built b.graph op) : Built (emitAcc H n b).graph op := by
  unfold emitAcc
  split
  · exact built_push h _
  · exact h

theorem built_joinAll (pend : List (Γ.C × Nat)) : ∀ (b : Bld O T) (op : List Nat), (pend.map (·.2)).Nodup → Built b.graph ((pend.map (·.2)).reverse ++ op) → Built (joinAll H pend b).graph op := by
  induction pend with
  | nil => exact fun b op _ h => h
  | cons p ps ih =>
    intro b op hn h
    simp only [List.map_cons, List.nodup_cons] at hn
    simp only [List.map_cons, List.reverse_cons, List.append_assoc, List.singleton_append] at h
    have := built_joinForward h p.2 (some (H.br (.compare p.1))) (by simp)
    rw [List.erase_append_right _ (by simpa using hn.1), List.erase_cons_head] at this
    exact ih _ op hn.2 this

variable (H)

mutual
theorem built_expr : ∀ (e : Expr Γ) (b : Bld O T) (op : List Nat), Built b.graph op → Built (emitExpr H e b).graph op
  | .const v, b, op, h => by simp only [emitExpr]; exact built_push h _
  | .exit, b, op, h => by simp only [emitExpr]; exact built_push h _
  | .error f, b, op, h => by simp only [emitExpr]; exact built_push h _
  | .function v caps, b, op, h => by simp only [emitExpr]; exact built_captures _ _ _ (built_push h _)
  | .call f args, b, op, h => by simp only [emitExpr]; exact built_push (built_args args _ _ _ (built_expr f _ _ h)) _
  | .compose x f, b, op, h => by
    simp only [emitExpr]; exact built_push (built_push (built_expr f _ _ (built_expr x _ _ h)) _) _
  | .load x, b, op, h => by
    cases x <;> simp only [emitExpr, emitLoad]
    · exact built_push h _
    · exact built_push (built_push h _) _
    · exact built_push (built_push h _) _
  | .unary o a, b, op, h => by simp only [emitExpr]; exact built_push (built_expr a _ _ h) _
  | .binary o l r swap, b, op, h => by
    simp only [emitExpr]
    refine built_push ?_ _
    split
    · exact built_push (built_expr l _ _ (built_expr r _ _ h)) _
    · exact built_expr r _ _ (built_expr l _ _ h)
  | .compare l c, b, op, h => by
    simp only [emitExpr]
    obtain ⟨_, new, h2, _, h4⟩ := grow_chain H c (emitExpr H l b) []
    rw [List.nil_append] at h2
    refine built_joinAll _ _ op (by rw [h2]; exact h4) ?_
    have := built_chain c (emitExpr H l b) [] op (by simpa using built_expr l _ _ h)
    exact this
  | .literal ty args, b, op, h => by simp only [emitExpr]; exact built_push (built_elems args _ _ _ (built_push h _)) _
  | .sliceLit a₁ a₂, b, op, h => by simp only [emitExpr]; exact built_push (built_expr a₂ _ _ (built_expr a₁ _ _ h)) _
  | .sliceLit3 a₁ a₂ a₃, b, op, h => by
    simp only [emitExpr]; exact built_push (built_expr a₃ _ _ (built_expr a₂ _ _ (built_expr a₁ _ _ h))) _
  | .and l r, b, op, h => by
    simp only [emitExpr]
    have h1 := built_expr l b op h
    have h2 := built_expr r _ _ (built_push (built_branchForward h1) (H.op .pop))
    have h3 := built_joinForward h2 (emitExpr H l b).done.length (some (H.br .ifFalse)) (by simp)
    rw [List.erase_cons_head] at h3
    exact h3
  | .or l r, b, op, h => by
    simp only [emitExpr]
    have h1 := built_expr l b op h
    have h2 := built_expr r _ _ (built_push (built_branchForward h1) (H.op .pop))
    have h3 := built_joinForward h2 (emitExpr H l b).done.length (some (H.br .ifTrue)) (by simp)
    rw [List.erase_cons_head] at h3
    exact h3
  | .index a i, b, op, h => by simp only [emitExpr]; exact built_push (built_expr i _ _ (built_expr a _ _ h)) _
  | .slice a₁ a₂ a₃, b, op, h => by
    simp only [emitExpr]; exact built_push (built_expr a₃ _ _ (built_expr a₂ _ _ (built_expr a₁ _ _ h))) _
  | .sliceStep a₁ a₂ a₃ a₄, b, op, h => by
    simp only [emitExpr]; exact built_push (built_expr a₄ _ _ (built_expr a₃ _ _ (built_expr a₂ _ _ (built_expr a₁ _ _ h)))) _
  | .ite c t e, b, op, h => by
    simp only [emitExpr]
    have h1 := built_expr c b op h
    have h2 := built_expr t _ _ (built_branchForward h1)
    have h3 := built_joinForward (built_branchForward h2) (emitExpr H c b).done.length (some (H.br .ifFalsePop)) (by simp)
    have hl := (grow_expr H t (emitExpr H c b).branchForward).le
    rw [branchForward_len] at hl
    rw [List.erase_cons_tail (by simp only [beq_iff_eq]; omega), List.erase_cons_head] at h3
    have h4 := built_joinForward (built_expr e _ _ h3) (emitExpr H t (emitExpr H c b).branchForward).done.length none (by simp)
    rw [List.erase_cons_head] at h4
    exact h4
  | .getField a fi, b, op, h => by simp only [emitExpr]; exact built_push (built_expr a _ _ h) _
  | .setField a fi r, b, op, h => by simp only [emitExpr]; exact built_push (built_expr r _ _ (built_expr a _ _ h)) _
  | .swapField a fi o r, b, op, h => by
    simp only [emitExpr]; exact built_push (built_push (built_expr r _ _ (built_push (built_expr a _ _ h) _)) _) _
  | .assign x r, b, op, h => by
    cases x <;> simp only [emitExpr, emitStorePrefix, emitStore]
    · exact built_push (built_expr r _ _ h) _
    · exact built_push (built_expr r _ _ (built_push h _)) _
    · exact built_expr r _ _ h
  | .pattern ts p r, b, op, h => by simp only [emitExpr]; exact built_push (built_expr r _ _ (built_exprs ts _ _ h)) _
  | .arraySet a i r, b, op, h => by
    simp only [emitExpr]; exact built_push (built_expr r _ _ (built_expr i _ _ (built_expr a _ _ h))) _
  | .arrayOp a i o r, b, op, h => by
    have h1 := built_expr r _ _ (built_push (built_expr i _ _ (built_expr a _ _ h)) (H.op .indexPeek))
    cases o <;> simp only [emitExpr]
    · exact built_push (built_push (built_push h1 _) _) _
    · exact built_push (built_push h1 _) _
theorem built_args : ∀ (args : Args Γ) (b : Bld O T) (u : Bool) (op : List Nat), Built b.graph op → Built (emitArgs H args b u).1.graph op
  | .nil, b, u, op, h => by simp only [emitArgs]; exact h
  | .plain e rest, b, u, op, h => by simp only [emitArgs]; exact built_args rest _ _ _ (built_expr e _ _ h)
  | .unroll e rest, b, u, op, h => by simp only [emitArgs]; exact built_args rest _ _ _ (built_push (built_expr e _ _ h) _)
theorem built_elems : ∀ (args : Args Γ) (b : Bld O T) (n : Nat) (op : List Nat), Built b.graph op → Built (emitElems H args b n).graph op
  | .nil, b, n, op, h => by simp only [emitElems]; exact built_acc _ _ _ h
  | .plain e rest, b, n, op, h => by simp only [emitElems]; exact built_elems rest _ _ _ (built_expr e _ _ h)
  | .unroll e rest, b, n, op, h => by
    simp only [emitElems]; exact built_elems rest _ _ _ (built_push (built_expr e _ _ (built_acc _ _ _ h)) _)
theorem built_chain : ∀ (c : Chain Γ) (b : Bld O T) (pend : List (Γ.C × Nat)) (op : List Nat), Built b.graph ((pend.map (·.2)).reverse ++ op) →
    Built (emitChain H c b pend).1.graph (((emitChain H c b pend).2.map (·.2)).reverse ++ op)
  | .last o e, b, pend, op, h => by simp only [emitChain]; exact built_push (built_expr e _ _ h) _
  | .more o e rest, b, pend, op, h => by
    simp only [emitChain]
    refine built_chain rest _ _ _ ?_
    have := built_branchForward (built_expr e b _ h)
    simpa using this
theorem built_exprs : ∀ (es : Exprs Γ) (b : Bld O T) (op : List Nat), Built b.graph op → Built (emitExprs H es b).graph op
  | .nil, b, op, h => by simp only [emitExprs]; exact h
  | .cons e rest, b, op, h => by simp only [emitExprs]; exact built_exprs rest _ _ (built_expr e _ _ h)
end

end Cordy.Codegen
