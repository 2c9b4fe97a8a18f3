import Verif.Lemmas.Codegen
/-! Emitting code only appends: C36–C38, C45. -/
namespace Cordy.Codegen
open Cordy.Builder
open Cordy.Graph (GRun GHalts Place gstep)
variable {Γ : Sig} {O T : Type} {H : Target Γ O T}

theorem grow_captures (caps : List Γ.Q) (b : Bld O T) : Grow b (emitCaptures H caps b) := by
  have h : ∀ (caps : List Γ.Q) (a c : Bld O T), Grow a c → Grow a (caps.foldl (fun b q => b.push (H.op (.capture q))) c) := by
    intro caps
    induction caps with
    | nil => exact fun a c h => h
    | cons q qs ih => exact fun a c h => ih a _ (h.push _)
  unfold emitCaptures
  split
  · exact .refl _
  · exact h _ _ _ ((Grow.refl b).push _)

theorem grow_load (x : LVal Γ) (b : Bld O T) : Grow b (emitLoad H x b) := by
  cases x
  · exact (Grow.refl b).push _
  · exact ((Grow.refl b).push _).push _
  · exact ((Grow.refl b).push _).push _

theorem grow_storePrefix (x : LVal Γ) (b : Bld O T) : Grow b (emitStorePrefix H x b) := by
  cases x
  · exact .refl _
  · exact (Grow.refl b).push _
  · exact .refl _

theorem grow_store (x : LVal Γ) (b : Bld O T) : Grow b (emitStore H x b) := by
  cases x
  · exact (Grow.refl b).push _
  · exact (Grow.refl b).push _
  · exact .refl _

theorem grow_acc (n : Nat) (b : Bld O T) : Grow b (emitAcc H n b) := by
  unfold emitAcc
  split
  · exact (Grow.refl b).push _
  · exact .refl _

theorem joinAll_len (pend : List (Γ.C × Nat)) : ∀ b : Bld O T, (joinAll H pend b).done.length = b.done.length + pend.length := by
  induction pend with
  | nil => exact fun b => rfl
  | cons p ps ih =>
    intro b
    show (joinAll H ps (b.joinForward p.2 (some (H.br (.compare p.1))))).done.length = _
    rw [ih, joinForward_len, List.length_cons]; omega

theorem grow_joinAll (pend : List (Γ.C × Nat)) : ∀ (a b : Bld O T), Grow a b → (∀ p ∈ pend, a.done.length ≤ p.2 ∧ p.2 < b.done.length) →
    Grow a (joinAll H pend b) := by
  induction pend with
  | nil => exact fun a b h _ => h
  | cons p ps ih =>
    intro a b h hp
    have h0 := hp p (by simp)
    exact ih a _ (h.joinForward p.2 _ h0.1 h0.2) (fun q hq => by have := hp q (by simp [hq]); rw [joinForward_len]; omega)

/-- What emitting a chain of comparisons gives. -/
structure ChainGrow (b : Bld O T) (pend : List (Γ.C × Nat)) (r : Bld O T × List (Γ.C × Nat)) : Prop where
  grow : Grow b r.1
  pend : ∃ new, r.2 = pend ++ new ∧ (∀ p ∈ new, b.done.length ≤ p.2 ∧ p.2 < r.1.done.length) ∧ (new.map (·.2)).Nodup

variable (H)

mutual
theorem grow_expr : ∀ (e : Expr Γ) (b : Bld O T), Grow b (emitExpr H e b)
  | .const v, b => by simp only [emitExpr]; exact (Grow.refl b).push _
  | .exit, b => by simp only [emitExpr]; exact (Grow.refl b).push _
  | .error f, b => by simp only [emitExpr]; exact (Grow.refl b).push _
  | .function v caps, b => by simp only [emitExpr]; exact ((Grow.refl b).push _).trans (grow_captures _ _)
  | .call f args, b => by
    simp only [emitExpr]; exact ((grow_expr f b).trans (grow_args args _ _)).push _
  | .compose x f, b => by simp only [emitExpr]; exact (((grow_expr x b).trans (grow_expr f _)).push _).push _
  | .load x, b => by simp only [emitExpr]; exact grow_load _ _
  | .unary op a, b => by simp only [emitExpr]; exact (grow_expr a b).push _
  | .binary op l r swap, b => by
    simp only [emitExpr]
    refine Grow.push ?_ _
    split
    · exact ((grow_expr r b).trans (grow_expr l _)).push _
    · exact (grow_expr l b).trans (grow_expr r _)
  | .compare l c, b => by
    simp only [emitExpr]
    have hl := grow_expr l b
    obtain ⟨h1, new, h2, h3, _⟩ := grow_chain c (emitExpr H l b) []
    refine grow_joinAll _ _ _ (hl.trans h1) ?_
    rw [h2]
    intro p hp
    have h4 := h3 p (by simpa using hp)
    exact ⟨Nat.le_trans hl.le h4.1, h4.2⟩
  | .literal ty args, b => by
    simp only [emitExpr]; exact (((Grow.refl b).push _).trans (grow_elems args _ _)).push _
  | .sliceLit a₁ a₂, b => by simp only [emitExpr]; exact ((grow_expr a₁ b).trans (grow_expr a₂ _)).push _
  | .sliceLit3 a₁ a₂ a₃, b => by
    simp only [emitExpr]; exact (((grow_expr a₁ b).trans (grow_expr a₂ _)).trans (grow_expr a₃ _)).push _
  | .and l r, b => by
    simp only [emitExpr]
    have h1 := grow_expr l b
    have h2 := (h1.branchForward.push (H.op (.pop))).trans (grow_expr r _)
    refine h2.joinForward _ _ h1.le ?_
    have := (grow_expr r ((emitExpr H l b).branchForward.push (H.op .pop))).le
    rw [push_len, branchForward_len] at this
    omega
  | .or l r, b => by
    simp only [emitExpr]
    have h1 := grow_expr l b
    have h2 := (h1.branchForward.push (H.op (.pop))).trans (grow_expr r _)
    refine h2.joinForward _ _ h1.le ?_
    have := (grow_expr r ((emitExpr H l b).branchForward.push (H.op .pop))).le
    rw [push_len, branchForward_len] at this
    omega
  | .index a i, b => by simp only [emitExpr]; exact ((grow_expr a b).trans (grow_expr i _)).push _
  | .slice a₁ a₂ a₃, b => by
    simp only [emitExpr]; exact (((grow_expr a₁ b).trans (grow_expr a₂ _)).trans (grow_expr a₃ _)).push _
  | .sliceStep a₁ a₂ a₃ a₄, b => by
    simp only [emitExpr]; exact ((((grow_expr a₁ b).trans (grow_expr a₂ _)).trans (grow_expr a₃ _)).trans (grow_expr a₄ _)).push _
  | .ite c t e, b => by
    simp only [emitExpr]
    have h1 := grow_expr c b
    have h2' := grow_expr t (emitExpr H c b).branchForward
    have h2 := h1.branchForward.trans h2'
    have hl2 := h2'.le
    rw [branchForward_len] at hl2
    have h3 : Grow b ((emitExpr H t (emitExpr H c b).branchForward).branchForward.joinForward (emitExpr H c b).done.length (some (H.br .ifFalsePop))) :=
      h2.branchForward.joinForward _ _ h1.le (by rw [branchForward_len]; omega)
    have h4' := grow_expr e ((emitExpr H t (emitExpr H c b).branchForward).branchForward.joinForward (emitExpr H c b).done.length (some (H.br .ifFalsePop)))
    refine (h3.trans h4').joinForward _ _ h2.le ?_
    have := h4'.le
    rw [joinForward_len, branchForward_len] at this
    omega
  | .getField a fi, b => by simp only [emitExpr]; exact (grow_expr a b).push _
  | .setField a fi r, b => by simp only [emitExpr]; exact ((grow_expr a b).trans (grow_expr r _)).push _
  | .swapField a fi op r, b => by
    simp only [emitExpr]; exact ((((grow_expr a b).push _).trans (grow_expr r _)).push _).push _
  | .assign x r, b => by
    simp only [emitExpr]; exact ((grow_storePrefix x b).trans (grow_expr r _)).trans (grow_store x _)
  | .pattern ts p r, b => by simp only [emitExpr]; exact ((grow_exprs ts b).trans (grow_expr r _)).push _
  | .arraySet a i r, b => by
    simp only [emitExpr]; exact (((grow_expr a b).trans (grow_expr i _)).trans (grow_expr r _)).push _
  | .arrayOp a i op r, b => by
    have h := ((((grow_expr a b).trans (grow_expr i _)).push (H.op (.indexPeek)))).trans (grow_expr r _)
    cases op with
    | none => simp only [emitExpr]; exact ((h.push _).push _).push _
    | some op => simp only [emitExpr]; exact (h.push _).push _
theorem grow_args : ∀ (args : Args Γ) (b : Bld O T) (u : Bool), Grow b (emitArgs H args b u).1
  | .nil, b, u => by simp only [emitArgs]; exact .refl _
  | .plain e rest, b, u => by simp only [emitArgs]; exact (grow_expr e b).trans (grow_args rest _ _)
  | .unroll e rest, b, u => by simp only [emitArgs]; exact ((grow_expr e b).push _).trans (grow_args rest _ _)
theorem grow_elems : ∀ (args : Args Γ) (b : Bld O T) (n : Nat), Grow b (emitElems H args b n)
  | .nil, b, n => by simp only [emitElems]; exact grow_acc _ _
  | .plain e rest, b, n => by simp only [emitElems]; exact (grow_expr e b).trans (grow_elems rest _ _)
  | .unroll e rest, b, n => by
    simp only [emitElems]; exact (((grow_acc n b).trans (grow_expr e _)).push _).trans (grow_elems rest _ _)
theorem grow_chain : ∀ (c : Chain Γ) (b : Bld O T) (pend : List (Γ.C × Nat)), ChainGrow b pend (emitChain H c b pend)
  | .last op e, b, pend => by
    simp only [emitChain]; exact ⟨(grow_expr e b).push _, [], by simp, by simp, by simp⟩
  | .more op e rest, b, pend => by
    simp only [emitChain]
    have h0 := grow_expr e b
    obtain ⟨h1, new, h2, h3, h4⟩ := grow_chain rest (emitExpr H e b).branchForward (pend ++ [(op, (emitExpr H e b).done.length)])
    refine ⟨h0.branchForward.trans h1, (op, (emitExpr H e b).done.length) :: new, by rw [h2]; simp, ?_, ?_⟩
    · intro p hp
      have hle := h1.le
      have := h0.le
      rw [branchForward_len] at hle
      rcases List.mem_cons.1 hp with rfl | hp
      · exact ⟨h0.le, by show (emitExpr H e b).done.length < _; omega⟩
      · have := h3 p hp
        rw [branchForward_len] at this
        omega
    · simp only [List.map_cons, List.nodup_cons]
      refine ⟨fun hm => ?_, h4⟩
      obtain ⟨p, hp, he⟩ := List.mem_map.1 hm
      have := h3 p hp
      rw [branchForward_len] at this
      omega
theorem grow_exprs : ∀ (es : Exprs Γ) (b : Bld O T), Grow b (emitExprs H es b)
  | .nil, b => by simp only [emitExprs]; exact .refl _
  | .cons e rest, b => by simp only [emitExprs]; exact (grow_expr e b).trans (grow_exprs rest _)
end

end Cordy.Codegen
