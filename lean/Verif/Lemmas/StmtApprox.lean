import Verif.Lemmas.StmtFuel
/-! Languages in which more expressions have a result: what ends without the marker of the missing ones ends the same (C76). -/
namespace Cordy.Stmts
variable {Γ : Sig} {S R : Type} {α : Type}

/-- The same language, except that some expressions give an error in `D` in `Λ`. -/
structure Approx (D : R → Prop) (Λ Λ' : Lang Γ S R) : Prop where
  nil : Λ.nil = Λ'.nil
  truthy : Λ.truthy = Λ'.truthy
  destr : Λ.destr = Λ'.destr
  iter : Λ.iter = Λ'.iter
  next : Λ.next = Λ'.next
  cmp : Λ.cmp = Λ'.cmp
  cmpMsg : Λ.cmpMsg = Λ'.cmpMsg
  failed : Λ.failed = Λ'.failed
  eval : ∀ e vs s, Λ.eval e vs s = Λ'.eval e vs s ∨ ∃ r, Λ.eval e vs s = .error r ∧ D r

def A (D : R → Prop) (o o' : Option (Res Γ S R)) : Prop := o = o' ∨ ∃ x, o = some (.stop x) ∧ D x
def AT (D : R → Prop) (o o' : Option (Turn Γ S R)) : Prop := o = o' ∨ ∃ x, o = some (.done (.stop x)) ∧ D x

/-- A relation between results that allows anything for an error in `D`. -/
structure Rel (D : R → Prop) (err : R → α) (Q : α → α → Prop) : Prop where
  refl : ∀ a, Q a a
  err : ∀ x, D x → ∀ b, Q (err x) b

variable {D : R → Prop} {Λ Λ' : Lang Γ S R}

theorem relA : Rel D (fail (Γ := Γ) (S := S)) (A D) := ⟨fun _ => .inl rfl, fun x h _ => .inr ⟨x, rfl, h⟩⟩
theorem relAT : Rel D (failTurn (Γ := Γ) (S := S)) (AT D) := ⟨fun _ => .inl rfl, fun x h _ => .inr ⟨x, rfl, h⟩⟩

section
variable {err : R → α} {Q : α → α → Prop}

theorem withVal_ap (h : Approx D Λ Λ') (hQ : Rel D err Q) (e : Γ.X) (env : List Γ.V) (s : S) {k k' : Γ.V → List Γ.V → S → α} (hk : ∀ v env s, Q (k v env s) (k' v env s)) :
    Q (withVal Λ e env s err k) (withVal Λ' e env s err k') := by
  unfold withVal
  rcases h.eval e env s with h | ⟨r, h, hd⟩
  · rw [h]
    cases Λ'.eval e env s with
    | error r => exact hQ.refl _
    | ok x => exact hk _ _ _
  · rw [h]
    exact hQ.err r hd _

theorem optVal_ap (h : Approx D Λ Λ') (hQ : Rel D err Q) (e : Option Γ.X) (env : List Γ.V) (s : S) {k k' : Γ.V → List Γ.V → S → α} (hk : ∀ v env s, Q (k v env s) (k' v env s)) :
    Q (optVal Λ e env s err k) (optVal Λ' e env s err k') := by
  cases e with
  | some e => exact withVal_ap h hQ e env s hk
  | none => simp only [optVal, h.nil]; exact hk _ _ _

theorem assign_ap (h : Approx D Λ Λ') (hQ : Rel D err Q) (l : LV Γ) (i : Nat) (v : Γ.V) (env : List Γ.V) (s : S) {k k' : List Γ.V → S → α} (hk : ∀ env s, Q (k env s) (k' env s)) :
    Q (assign Λ l i v env s err k) (assign Λ' l i v env s err k') := by
  unfold assign
  rw [h.destr]
  split
  · exact hk _ _
  · exact hk _ _
  · split
    · exact hk _ _
    · exact hQ.refl _

theorem testVal_ap (h : Approx D Λ Λ') (hQ : Rel D err Q) (t : Test Γ) (env : List Γ.V) (s : S) {k k' : Bool → Γ.V → List Γ.V → S → α} (hk : ∀ b v env s, Q (k b v env s) (k' b v env s)) :
    Q (testVal Λ t env s err k) (testVal Λ' t env s err k') := by
  unfold testVal
  rw [h.truthy, h.nil, h.cmp, h.cmpMsg]
  split
  · exact withVal_ap h hQ _ _ _ fun _ _ _ => hk _ _ _ _
  · exact withVal_ap h hQ _ _ _ fun _ _ _ => withVal_ap h hQ _ _ _ fun _ _ _ => hk _ _ _ _
  · exact withVal_ap h hQ _ _ _ fun _ _ _ => withVal_ap h hQ _ _ _ fun _ _ _ => hk _ _ _ _

end

theorem A.map_turn {o o' : Option (Res Γ S R)} (h : A D o o') (f : Res Γ S R → Turn Γ S R) (hf : ∀ x, f (.stop x) = .done (.stop x)) : AT D (o.map f) (o'.map f) := by
  rcases h with rfl | ⟨x, rfl, hx⟩
  · exact .inl rfl
  · exact .inr ⟨x, by simp [hf], hx⟩
theorem A.map {o o' : Option (Res Γ S R)} (h : A D o o') (f : Res Γ S R → Res Γ S R) (hf : ∀ x, f (.stop x) = .stop x) : A D (o.map f) (o'.map f) := by
  rcases h with rfl | ⟨x, rfl, hx⟩
  · exact .inl rfl
  · exact .inr ⟨x, by simp [hf], hx⟩

theorem inScope_ap {f f' : List Γ.V → S → Option (Res Γ S R)} (h : ∀ env s, A D (f env s) (f' env s)) (env : List Γ.V) (s : S) : A D (inScope f env s) (inScope f' env s) :=
  (h env s).map _ fun _ => rfl

theorem loopN_ap {t t' : List Γ.V → S → Option (Turn Γ S R)} (ht : ∀ env s, AT D (t env s) (t' env s)) : ∀ n env s, A D (loopN n t env s) (loopN n t' env s) := by
  intro n
  induction n with
  | zero => intro env s; exact .inl rfl
  | succ n ih =>
    intro env s
    simp only [loopN]
    rcases ht env s with h | ⟨x, h, hx⟩
    · rw [h]
      rcases t' env s with _ | (⟨env', s'⟩ | r)
      · exact .inl rfl
      · exact ih env' s'
      · exact .inl rfl
    · rw [h]
      exact .inr ⟨x, rfl, hx⟩

mutual
theorem runS_ap (h : Approx D Λ Λ') (n : Nat) : ∀ (st : Stmt Γ) env s, A D (runS Λ n st env s) (runS Λ' n st env s)
  | .expr e, env, s => by simp only [runS]; exact withVal_ap h relA _ _ _ fun _ _ _ => .inl rfl
  | .semi, env, s => by simp only [runS]; exact .inl rfl
  | .letIn l e, env, s => by
    simp only [runS]
    refine withVal_ap h relA _ _ _ fun v env s => ?_
    rw [h.nil]
    split
    · exact .inl rfl
    · exact assign_ap h relA _ _ _ _ _ fun _ _ => .inl rfl
  | .decl k, env, s => by simp only [runS, h.nil]; exact .inl rfl
  | .ite c t els, env, s => by
    simp only [runS, h.truthy]
    refine withVal_ap h relA _ _ _ fun v env s => ?_
    split
    · exact inScope_ap (runB_ap h n t) _ _
    · exact runElse_ap h n els _ _
  | .while c body els, env, s => by
    simp only [runS]
    refine loopN_ap (fun env s => ?_) n env s
    unfold whileTurn
    rw [h.truthy]
    refine withVal_ap h relAT _ _ _ fun v env s => ?_
    split
    · exact (inScope_ap (runB_ap h n body) _ _).map_turn _ fun _ => rfl
    · exact (inScope_ap (runB_ap h n els) _ _).map_turn _ fun _ => rfl
  | .doW body c els, env, s => by
    simp only [runS]
    refine loopN_ap (fun env s => ?_) n env s
    unfold doTurn
    rw [h.truthy]
    rcases inScope_ap (runB_ap h n body) env s with hb | ⟨x, hb, hx⟩
    · rw [hb]
      rcases inScope (runB Λ' n body) env s with _ | (⟨env', v, s'⟩ | _ | _ | _ | _)
      case some.normal =>
        cases c with
        | none => exact (inScope_ap (runB_ap h n els) env' s').map_turn _ fun _ => rfl
        | some c =>
          refine withVal_ap h relAT _ _ _ fun v env s => ?_
          split
          · exact .inl rfl
          · exact (inScope_ap (runB_ap h n els) _ _).map_turn _ fun _ => rfl
      all_goals exact .inl rfl
    · rw [hb]
      exact .inr ⟨x, rfl, hx⟩
  | .loop body, env, s => by
    simp only [runS]
    exact loopN_ap (fun env s => (inScope_ap (runB_ap h n body) env s).map_turn afterBody fun _ => rfl) n env s
  | .for l e body els, env, s => by
    simp only [runS, h.iter, h.nil]
    refine withVal_ap h relA _ _ _ fun v env' s => ?_
    cases Λ'.iter v _ s with
    | error r => exact .inl rfl
    | ok x =>
      refine (loopN_ap (fun env s => ?_) n _ _).map _ fun _ => rfl
      unfold forTurn
      rw [h.next]
      cases env.getLast? with
      | none => exact .inl rfl
      | some it =>
        simp only
        cases Λ'.next it s with
        | none => exact (inScope_ap (runB_ap h n els) _ _).map_turn _ fun _ => rfl
        | some x => exact assign_ap h relAT _ _ _ _ _ fun env s => (inScope_ap (runB_ap h n body) _ _).map_turn _ fun _ => rfl
  | .brk, env, s => by simp only [runS]; exact .inl rfl
  | .cont, env, s => by simp only [runS]; exact .inl rfl
  | .ret e, env, s => by simp only [runS]; exact optVal_ap h relA _ _ _ fun _ _ _ => .inl rfl
  | .assert t msg, env, s => by
    simp only [runS, h.failed]
    refine testVal_ap h relA _ _ _ fun b v env s => ?_
    split
    · exact .inl rfl
    · exact optVal_ap h relA _ _ _ fun _ _ _ => .inl rfl
theorem runB_ap (h : Approx D Λ Λ') (n : Nat) : ∀ (b : Block Γ) env s, A D (runB Λ n b env s) (runB Λ' n b env s)
  | .nil, env, s => by simp only [runB]; exact .inl rfl
  | .cons st .nil, env, s => by simp only [runB]; exact runS_ap h n st env s
  | .cons st (.cons st' b), env, s => by
    rw [runB, runB]
    rcases runS_ap h n st env s with hs | ⟨x, hs, hx⟩
    · rw [hs]
      rcases runS Λ' n st env s with _ | (⟨env', v, s'⟩ | _ | _ | _ | _)
      case some.normal => exact runB_ap h n (.cons st' b) env' s'
      all_goals exact .inl rfl
    · rw [hs]
      exact .inr ⟨x, rfl, hx⟩
theorem runElse_ap (h : Approx D Λ Λ') (n : Nat) : ∀ (e : Else Γ) env s, A D (runElse Λ n e env s) (runElse Λ' n e env s)
  | .none, env, s => by simp only [runElse]; exact .inl rfl
  | .els b, env, s => by simp only [runElse]; exact inScope_ap (runB_ap h n b) _ _
  | .elif c t els, env, s => by
    simp only [runElse, h.truthy]
    refine withVal_ap h relA _ _ _ fun v env s => ?_
    split
    · exact inScope_ap (runB_ap h n t) _ _
    · exact runElse_ap h n els _ _
  | .elifThen e, env, s => by simp only [runElse]; exact withVal_ap h relA _ _ _ fun _ _ _ => .inl rfl
end

/-- Calls: more fuel, and a language in which more expressions have a result. -/
theorem callBody_ap (h : Approx D Λ Λ') {n m : Nat} (hn : n ≤ m) (body : Block Γ) (args : List Γ.V) (s : S) (r : Except R (Γ.V × S)) (hr : callBody Λ n body args s = some r)
    (hD : ∀ x, r = .error x → ¬ D x) : callBody Λ' m body args s = some r := by
  refine callBody_le Λ' hn body args s r ?_
  unfold callBody at hr ⊢
  rcases runB_ap h n body args s with e | ⟨x, e, hx⟩
  · rw [← e, ← h.nil]; exact hr
  · rw [e] at hr
    injection hr with hr
    exact absurd hx (hD x hr.symm)

end Cordy.Stmts
