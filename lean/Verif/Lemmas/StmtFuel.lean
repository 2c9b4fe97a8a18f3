import Verif.Spec.Exec
/-! More turns do not change a result: C64. -/
namespace Cordy.Stmts
variable {Γ : Sig} {S R : Type} {α β : Type}

def Le (a b : Option α) : Prop := ∀ r, a = some r → b = some r

theorem Le.refl (a : Option α) : Le a a := fun _ h => h
theorem Le.map {a b : Option α} (h : Le a b) (f : α → β) : Le (a.map f) (b.map f) := by
  intro r hr
  obtain ⟨x, hx, rfl⟩ := Option.map_eq_some_iff.1 hr
  exact Option.map_eq_some_iff.2 ⟨x, h x hx, rfl⟩

theorem loopN_le {t t' : List Γ.V → S → Option (Turn Γ S R)} (ht : ∀ env s, Le (t env s) (t' env s)) : ∀ {n m : Nat}, n ≤ m → ∀ env s, Le (loopN n t env s) (loopN m t' env s) := by
  intro n
  induction n with
  | zero => intro m _ env s r h; simp [loopN] at h
  | succ n ih =>
    intro m hm env s r h
    obtain ⟨m, rfl⟩ : ∃ k, m = k + 1 := ⟨m - 1, by omega⟩
    rw [loopN] at h ⊢
    cases hr : t env s with
    | none => rw [hr] at h; simp at h
    | some x =>
      rw [hr] at h
      rw [ht env s x hr]
      cases x with
      | done r' => exact h
      | again env' s' => exact ih (by omega) env' s' r h

theorem withVal_le (Λ : Lang Γ S R) (e : Γ.X) (env : List Γ.V) (s : S) (err : R → Option α) {k k' : Γ.V → List Γ.V → S → Option α} (h : ∀ v env s, Le (k v env s) (k' v env s)) :
    Le (withVal Λ e env s err k) (withVal Λ e env s err k') := by
  unfold withVal
  cases Λ.eval e env s with
  | error r => exact .refl _
  | ok x => exact h _ _ _

theorem assign_le (Λ : Lang Γ S R) (l : LV Γ) (i : Nat) (v : Γ.V) (env : List Γ.V) (s : S) (err : R → Option α) {k k' : List Γ.V → S → Option α} (h : ∀ env s, Le (k env s) (k' env s)) :
    Le (assign Λ l i v env s err k) (assign Λ l i v env s err k') := by
  unfold assign
  split
  · exact h _ _
  · exact h _ _
  · split
    · exact h _ _
    · exact .refl _

theorem inScope_le {f f' : List Γ.V → S → Option (Res Γ S R)} (h : ∀ env s, Le (f env s) (f' env s)) (env : List Γ.V) (s : S) : Le (inScope f env s) (inScope f' env s) := (h env s).map _

theorem ite_le (c : Prop) [Decidable c] {a b a' b' : Option α} (h : Le a a') (h' : Le b b') : Le (if c then a else b) (if c then a' else b') := by
  split
  · exact h
  · exact h'

mutual
theorem runS_le (Λ : Lang Γ S R) {n m : Nat} (hn : n ≤ m) : ∀ (st : Stmt Γ) env s, Le (runS Λ n st env s) (runS Λ m st env s)
  | .expr e, env, s => by simp only [runS]; exact .refl _
  | .semi, env, s => by simp only [runS]; exact .refl _
  | .letIn l e, env, s => by simp only [runS]; exact .refl _
  | .decl k, env, s => by simp only [runS]; exact .refl _
  | .ite c t els, env, s => by
    simp only [runS]
    exact withVal_le _ _ _ _ _ (fun v env s => ite_le _ (inScope_le (runB_le Λ hn t) _ _) (runElse_le Λ hn els _ _))
  | .while c body els, env, s => by
    simp only [runS]
    exact loopN_le (fun env s => withVal_le _ _ _ _ _ (fun v env s => ite_le _ ((inScope_le (runB_le Λ hn body) _ _).map _) ((inScope_le (runB_le Λ hn els) _ _).map _))) hn env s
  | .doW body c els, env, s => by
    simp only [runS]
    refine loopN_le (fun env s => ?_) hn env s
    intro r h
    have hb := inScope_le (runB_le Λ hn body) env s
    unfold doTurn at h ⊢
    cases hr : inScope (runB Λ n body) env s with
    | none => rw [hr] at h; simp at h
    | some x =>
      rw [hr] at h
      rw [hb x hr]
      cases x with
      | normal env' v s' =>
        cases c with
        | none => exact (inScope_le (runB_le Λ hn els) env' s').map _ r h
        | some c => exact withVal_le _ _ _ _ _ (fun v env s => ite_le _ (.refl _) ((inScope_le (runB_le Λ hn els) _ _).map _)) r h
      | brk _ _ => exact h
      | cont _ _ => exact h
      | ret _ _ => exact h
      | stop _ => exact h
  | .loop body, env, s => by
    simp only [runS]
    exact loopN_le (fun env s => (inScope_le (runB_le Λ hn body) _ _).map _) hn env s
  | .for l e body els, env, s => by
    simp only [runS]
    refine withVal_le _ _ _ _ _ (fun v env' s => ?_)
    cases Λ.iter v _ s with
    | error r => exact .refl _
    | ok x =>
      refine (loopN_le (fun env s => ?_) hn _ _).map _
      unfold forTurn
      cases env.getLast? with
      | none => exact .refl _
      | some it =>
        simp only
        cases Λ.next it s with
        | none => exact (inScope_le (runB_le Λ hn els) _ _).map _
        | some x => exact assign_le _ _ _ _ _ _ _ (fun env s => (inScope_le (runB_le Λ hn body) _ _).map _)
  | .brk, env, s => by simp only [runS]; exact .refl _
  | .cont, env, s => by simp only [runS]; exact .refl _
  | .ret e, env, s => by simp only [runS]; exact .refl _
  | .assert t msg, env, s => by simp only [runS]; exact .refl _
theorem runB_le (Λ : Lang Γ S R) {n m : Nat} (hn : n ≤ m) : ∀ (b : Block Γ) env s, Le (runB Λ n b env s) (runB Λ m b env s)
  | .nil, env, s => by simp only [runB]; exact .refl _
  | .cons st .nil, env, s => by simp only [runB]; exact runS_le Λ hn st env s
  | .cons st (.cons st' b), env, s => by
    intro r h
    rw [runB] at h ⊢
    have h1 := runS_le Λ hn st env s
    cases hr : runS Λ n st env s with
    | none => rw [hr] at h; simp at h
    | some x =>
      rw [hr] at h
      rw [h1 x hr]
      cases x with
      | normal env' v s' => exact runB_le Λ hn (.cons st' b) env' s' r h
      | brk _ _ => exact h
      | cont _ _ => exact h
      | ret _ _ => exact h
      | stop _ => exact h
theorem runElse_le (Λ : Lang Γ S R) {n m : Nat} (hn : n ≤ m) : ∀ (e : Else Γ) env s, Le (runElse Λ n e env s) (runElse Λ m e env s)
  | .none, env, s => by simp only [runElse]; exact .refl _
  | .els b, env, s => by simp only [runElse]; exact inScope_le (runB_le Λ hn b) _ _
  | .elif c t els, env, s => by
    simp only [runElse]
    exact withVal_le _ _ _ _ _ (fun v env s => ite_le _ (inScope_le (runB_le Λ hn t) _ _) (runElse_le Λ hn els _ _))
  | .elifThen e, env, s => by simp only [runElse]; exact .refl _
end

theorem callBody_le (Λ : Lang Γ S R) {n m : Nat} (hn : n ≤ m) (body : Block Γ) (args : List Γ.V) (s : S) : Le (callBody Λ n body args s) (callBody Λ m body args s) := by
  intro r h
  unfold callBody at h ⊢
  have h1 := runB_le Λ hn body args s
  cases hr : runB Λ n body args s with
  | none => rw [hr] at h; simp at h
  | some x => rw [hr] at h; rw [h1 x hr]; exact h

end Cordy.Stmts
