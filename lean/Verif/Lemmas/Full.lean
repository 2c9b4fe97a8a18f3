import Verif.Model.Full
import Verif.Props.Codegen
import Verif.Lemmas.StmtMain
/-!
# The code of expressions inside that of statements
-/
namespace Cordy.Full
open Cordy.Builder
open Cordy.Codegen (Prims LitTy Out Host)
variable {Γ : Codegen.Sig} {E S : Type} (Ρ : Runtime Γ E S) (f : Codegen.Expr Γ → Codegen.Expr Γ)

theorem decode_encode {k : Nat} (m : Codegen.Mach Γ (Vars Γ.V k × S)) : decode k (encode m) = some m := by
  obtain ⟨st, ls, us, ⟨⟨vs, hv⟩, s⟩⟩ := m
  subst hv
  simp [decode, encode]

/-- The machine runs the code of expressions. -/
def host (k : Nat) : Host (Ρ.prims k) (Stmts.Op (sig Γ)) (Stmts.Br (sig Γ)) (Stmts.Mach (sig Γ) (St Γ S)) (Stmts.Stop (sig Γ) (St Γ S) (Bad Γ.V E S)) where
  em := target Ρ k
  sm := Stmts.sem (machine Ρ f)
  emb := encode
  halt := halt Ρ
  exec_eq := by
    intro o m
    show (match decode k (encode m) with | some c => _ | none => _) = _
    rw [decode_encode]
    simp only
    cases Codegen.exec (Ρ.prims k) o m <;> rfl
  test_eq := by
    intro t m
    show (match decode k (encode m) with | some c => _ | none => _) = _
    rw [decode_encode]
    simp only
    cases Codegen.execTest (Ρ.prims k) t m <;> rfl
  ofCmp := rfl
  ne := rfl

instance : Stmts.EmOk (em Ρ f) where
  grow k e b := Codegen.grow_expr (target Ρ k) (f e) b
  built k e b op h := Codegen.built_expr (target Ρ k) (f e) b op h

instance : Stmts.Compiles (machine Ρ f) (em Ρ f) where
  run g k e b ex h hex env rest s hk := by
    subst hk
    have h2 : Codegen.Agree b.done.length (em Ρ f env.length e b) g := ⟨fun i h1 h3 => h.blocks i h1 h3 (hex i h1 h3), h.last⟩
    have key := Codegen.C36_in_context (host Ρ f env.length) g (f e) b h2 ⟨rest.reverse, s.lits, s.unroll, (⟨env, rfl⟩, s.s)⟩
    have hs : Codegen.pl (host Ρ f env.length) b ⟨rest.reverse, s.lits, s.unroll, (⟨env, rfl⟩, s.s)⟩ = Stmts.pl b ⟨env ++ rest, s⟩ := by
      simp [Codegen.pl, Stmts.pl, host, encode]
    rw [hs] at key
    have hE : (machine Ρ f).eval e env s = (match ofOut Ρ.bot (Codegen.evalW (Ρ.prims env.length) (Codegen.fcCode (Ρ.prims env.length)) (f e) (⟨env, rfl⟩, s.s)) with
      | .ok (v, vs, s') => .ok (v, vs, { s with s := s' })
      | .error r => .error r) := rfl
    rw [hE]
    cases hev : Codegen.evalW (Ρ.prims env.length) (Codegen.fcCode (Ρ.prims env.length)) (f e) (⟨env, rfl⟩, s.s) with
    | ok v p =>
      rw [hev] at key
      obtain ⟨es, key⟩ := key
      have ht : Codegen.pl (host Ρ f env.length) (Codegen.emitExpr (host Ρ f env.length).em (f e) b) { stack := v :: rest.reverse, lits := s.lits, unroll := s.unroll, s := p } =
          Stmts.pl (em Ρ f env.length e b) ⟨p.1.1 ++ rest ++ [v], { s with s := p.2 }⟩ := by
        simp [Codegen.pl, Stmts.pl, host, encode, em]
      rw [ht] at key
      exact Stmts.run_steps key
    | stop r p =>
      rw [hev] at key
      obtain ⟨es, key⟩ := key
      exact Stmts.halts_halt key

/-! ## Literals and counters are as before -/

section Lift
variable (l : List (LitTy × List Γ.V)) (u : List Int)
open Cordy.Stmts

def resAt : Stmts.Res (sig Γ) S (Bad Γ.V E S) → Stmts.Res (sig Γ) (St Γ S) (Bad Γ.V E S)
  | .normal env v s => .normal env v ⟨l, u, s⟩
  | .brk env s => .brk env ⟨l, u, s⟩
  | .cont env s => .cont env ⟨l, u, s⟩
  | .ret v s => .ret v ⟨l, u, s⟩
  | .stop r => .stop r

def turnAt : Turn (sig Γ) S (Bad Γ.V E S) → Turn (sig Γ) (St Γ S) (Bad Γ.V E S)
  | .again env s => .again env ⟨l, u, s⟩
  | .done r => .done (resAt l u r)

/-- Both languages give these expressions the same meaning. -/
def Same (L L' : Lang (sig Γ) S (Bad Γ.V E S)) (G : Codegen.Expr Γ → Prop) : Prop := ∀ e, G e → ∀ env s, L'.eval e env s = L.eval e env s

variable {Ρ} {f f' : Codegen.Expr Γ → Codegen.Expr Γ} {fc fc' : ∀ k, Γ.V → Γ.V → Vars Γ.V k × S → Out E (Vars Γ.V k × S) Γ.V} {G : Codegen.Expr Γ → Prop} (hG : Same (lang Ρ f fc) (lang Ρ f' fc') G)
local notation "L" => lang Ρ f fc
local notation "L'" => lift (lang Ρ f' fc')

theorem resAt_leave (n : Nat) (r : Stmts.Res (sig Γ) S (Bad Γ.V E S)) : (resAt l u r).leave n = resAt l u (r.leave n) := by cases r <;> rfl
theorem afterBody_at (r : Stmts.Res (sig Γ) S (Bad Γ.V E S)) : afterBody (resAt l u r) = turnAt l u (afterBody r) := by cases r <;> rfl
theorem afterElse_at (back) (r : Stmts.Res (sig Γ) S (Bad Γ.V E S)) : afterElse back (resAt l u r) = turnAt l u (afterElse back r) := by cases r <;> rfl

include hG in
theorem withVal_at {α β : Type} (h : α → β) (e : Codegen.Expr Γ) (hg : G e) (env : List Γ.V) (s : S) (err : Bad Γ.V E S → α) (k : Γ.V → List Γ.V → S → α) (err' : Bad Γ.V E S → β) (k' : Γ.V → List Γ.V → St Γ S → β)
    (he : ∀ r, err' r = h (err r)) (hk : ∀ v env s, k' v env ⟨l, u, s⟩ = h (k v env s)) : withVal L' e env ⟨l, u, s⟩ err' k' = h (withVal L e env s err k) := by
  have := hG e hg env s
  simp only [withVal, lift, this]
  cases (L).eval e env s with
  | error r => exact he r
  | ok x => exact hk _ _ _

include hG in
theorem optVal_at {α β : Type} (h : α → β) (e : Option (Codegen.Expr Γ)) (hg : ∀ x, e = some x → G x) (env : List Γ.V) (s : S) (err : Bad Γ.V E S → α) (k : Γ.V → List Γ.V → S → α) (err' : Bad Γ.V E S → β) (k' : Γ.V → List Γ.V → St Γ S → β)
    (he : ∀ r, err' r = h (err r)) (hk : ∀ v env s, k' v env ⟨l, u, s⟩ = h (k v env s)) : optVal L' e env ⟨l, u, s⟩ err' k' = h (optVal L e env s err k) := by
  cases e with
  | none => exact hk _ _ _
  | some e => exact withVal_at l u hG h e (hg e rfl) env s err k err' k' he hk

theorem assign_at {α β : Type} (h : α → β) (x : LV (sig Γ)) (i : Nat) (v : Γ.V) (env : List Γ.V) (s : S) (err : Bad Γ.V E S → α) (k : List Γ.V → S → α) (err' : Bad Γ.V E S → β) (k' : List Γ.V → St Γ S → β)
    (he : ∀ r, err' r = h (err r)) (hk : ∀ env s, k' env ⟨l, u, s⟩ = h (k env s)) : assign L' x i v env ⟨l, u, s⟩ err' k' = h (assign L x i v env s err k) := by
  cases x with
  | named => exact hk _ _
  | empty => exact hk _ _
  | terms n p =>
    have hD : (L').destr p v env ⟨l, u, s⟩ = (match (L).destr p v env s with | .ok (vs, s) => Except.ok (vs, (⟨l, u, s⟩ : St Γ S)) | .error r => .error r) := rfl
    simp only [assign, hD]
    cases (L).destr p v env s with
    | error r => exact he r
    | ok x => exact hk _ _

include hG in
theorem testVal_at {α β : Type} (h : α → β) (t : Test (sig Γ)) (hg : t.each G) (env : List Γ.V) (s : S) (err : Bad Γ.V E S → α) (k : Bool → Γ.V → List Γ.V → S → α) (err' : Bad Γ.V E S → β) (k' : Bool → Γ.V → List Γ.V → St Γ S → β)
    (he : ∀ r, err' r = h (err r)) (hk : ∀ b v env s, k' b v env ⟨l, u, s⟩ = h (k b v env s)) : testVal L' t env ⟨l, u, s⟩ err' k' = h (testVal L t env s err k) := by
  cases t with
  | val e => exact withVal_at l u hG h e hg env s _ _ _ _ he (fun v env s => hk _ _ _ _)
  | cmp c a b sw =>
    cases sw
    · exact withVal_at l u hG h a hg.1 env s _ _ _ _ he (fun v env s => withVal_at l u hG h b hg.2 env s _ _ _ _ he (fun v env s => hk _ _ _ _))
    · exact withVal_at l u hG h b hg.2 env s _ _ _ _ he (fun v env s => withVal_at l u hG h a hg.1 env s _ _ _ _ he (fun v env s => hk _ _ _ _))

theorem loopN_at (t : List Γ.V → S → Option (Turn (sig Γ) S (Bad Γ.V E S))) (t' : List Γ.V → St Γ S → Option (Turn (sig Γ) (St Γ S) (Bad Γ.V E S)))
    (h : ∀ env s, t' env ⟨l, u, s⟩ = (t env s).map (turnAt l u)) : ∀ n env s, loopN n t' env ⟨l, u, s⟩ = (loopN n t env s).map (resAt l u) := by
  intro n
  induction n with
  | zero => intro env s; rfl
  | succ n ih =>
    intro env s
    simp only [loopN, h]
    rcases t env s with _ | (⟨env, s⟩ | r)
    · rfl
    · exact ih _ _
    · rfl

/-- The statements of a body. -/
abbrev Body (V S Y : Type) := List V → S → Option Y

def At (f : Body Γ.V S (Stmts.Res (sig Γ) S (Bad Γ.V E S))) (f' : Body Γ.V (St Γ S) (Stmts.Res (sig Γ) (St Γ S) (Bad Γ.V E S))) : Prop := ∀ env s, f' env ⟨l, u, s⟩ = (f env s).map (resAt l u)

variable {l u}

theorem inScope_at {f f'} (h : At (Γ := Γ) (E := E) (S := S) l u f f') : At (Γ := Γ) (E := E) (S := S) l u (inScope (Γ := sig Γ) f) (inScope (Γ := sig Γ) f') := by
  intro env s
  simp only [inScope, h env s, Option.map_map]
  congr 1
  funext r
  exact resAt_leave l u _ r

include hG in
theorem whileTurn_at {c b b' e e'} (hg : G c) (hb : At (Γ := Γ) (E := E) (S := S) l u b b') (he : At l u e e') : ∀ env s, whileTurn L' c b' e' env ⟨l, u, s⟩ = (whileTurn L c b e env s).map (turnAt l u) := by
  intro env s
  refine withVal_at l u hG (Option.map (turnAt l u)) c hg env s _ _ _ _ (fun r => rfl) (fun v env s => ?_)
  show (if Ρ.truthy v s then _ else _) = Option.map _ (if Ρ.truthy v s then _ else _)
  split
  · rw [hb env s]; simp only [Option.map_map]; congr 1; funext r; exact afterBody_at l u r
  · rw [he env s]; simp only [Option.map_map]; congr 1; funext r; exact afterElse_at l u _ r

include hG in
theorem doTurn_at {c b b' e e'} (hg : ∀ x, c = some x → G x) (hb : At (Γ := Γ) (E := E) (S := S) l u b b') (he : At l u e e') : ∀ env s, doTurn L' c b' e' env ⟨l, u, s⟩ = (doTurn L c b e env s).map (turnAt l u) := by
  intro env s
  simp only [doTurn, hb env s]
  have hel : ∀ env s, Option.map (afterElse []) (e' env ⟨l, u, s⟩) = Option.map (turnAt l u) (Option.map (afterElse []) (e env s)) := by
    intro env s
    rw [he env s]; simp only [Option.map_map]; congr 1; funext r; exact afterElse_at l u _ r
  rcases b env s with _ | (⟨env, v, s⟩ | _ | _ | _ | _)
  · rfl
  · simp only [Option.map_some, resAt]
    cases c with
    | none => exact hel env s
    | some c =>
      refine withVal_at l u hG (Option.map (turnAt l u)) c (hg c rfl) env s _ _ _ _ (fun r => rfl) (fun v env s => ?_)
      show (if Ρ.truthy v s then _ else _) = Option.map _ (if Ρ.truthy v s then _ else _)
      split
      · rfl
      · exact hel env s
  all_goals rfl

theorem forTurn_at {x n b b' e e'} (hb : At (Γ := Γ) (E := E) (S := S) l u b b') (he : At l u e e') : ∀ env s, forTurn L' x n b' e' env ⟨l, u, s⟩ = (forTurn L x n b e env s).map (turnAt l u) := by
  intro env s
  simp only [forTurn]
  cases env.getLast? with
  | none => rfl
  | some it =>
    have hN : (L').next it ⟨l, u, s⟩ = (L).next it s := rfl
    simp only [hN]
    cases (L).next it s with
    | some p =>
      refine assign_at l u (Option.map (turnAt l u)) x n p.2 _ s _ _ _ _ (fun r => rfl) (fun env s => ?_)
      rw [hb env s]; simp only [Option.map_map]; congr 1; funext r; exact afterBody_at l u r
    | none =>
      simp only
      rw [he _ s]; simp only [Option.map_map]; congr 1; funext r; exact afterElse_at l u _ r

variable (l u)
include hG
mutual
theorem runS_at (fuel : Nat) : ∀ (st : Stmts.Stmt (sig Γ)), st.each G → At l u (runS L fuel st) (runS L' fuel st)
  | .expr e => fun hg env s => withVal_at l u hG (Option.map (resAt l u)) e hg env s _ _ _ _ (fun r => rfl) (fun v env s => rfl)
  | .semi => fun hg env s => rfl
  | .letIn x e => fun hg env s => by
    refine withVal_at l u hG (Option.map (resAt l u)) e hg env s _ _ _ _ (fun r => rfl) (fun v env s => ?_)
    cases x with
    | named => rfl
    | empty => exact assign_at l u (Option.map (resAt l u)) _ _ _ _ _ _ _ _ _ (fun r => rfl) (fun env s => rfl)
    | terms n p => exact assign_at l u (Option.map (resAt l u)) _ _ _ _ _ _ _ _ _ (fun r => rfl) (fun env s => rfl)
  | .decl n => fun hg env s => rfl
  | .ite c t els => fun hg env s => by
    refine withVal_at l u hG (Option.map (resAt l u)) c hg.1 env s _ _ _ _ (fun r => rfl) (fun v env s => ?_)
    show (if Ρ.truthy v s then _ else _) = Option.map _ (if Ρ.truthy v s then _ else _)
    split
    · exact inScope_at (runB_at fuel t hg.2.1) env s
    · exact runElse_at fuel els hg.2.2 env s
  | .while c body els => fun hg env s => loopN_at l u _ _ (whileTurn_at hG hg.1 (inScope_at (runB_at fuel body hg.2.1)) (inScope_at (runB_at fuel els hg.2.2))) _ _ _
  | .doW body c els => fun hg env s => loopN_at l u _ _ (doTurn_at hG hg.1 (inScope_at (runB_at fuel body hg.2.1)) (inScope_at (runB_at fuel els hg.2.2))) _ _ _
  | .loop body => fun hg env s => by
    refine loopN_at l u _ _ (fun env s => ?_) _ _ _
    rw [inScope_at (runB_at fuel body hg) env s]; simp only [Option.map_map]; congr 1; funext r; exact afterBody_at l u r
  | .for x e body els => fun hg env s => by
    refine withVal_at l u hG (Option.map (resAt l u)) e hg.1 env s _ _ _ _ (fun r => rfl) (fun v env' s => ?_)
    have hD : (L').iter v (env' ++ List.replicate x.vars (L').nil) ⟨l, u, s⟩ = (match (L).iter v (env' ++ List.replicate x.vars (L).nil) s with | .ok (it, s) => Except.ok (it, (⟨l, u, s⟩ : St Γ S)) | .error r => .error r) := rfl
    simp only [hD]
    cases (L).iter v (env' ++ List.replicate x.vars (L).nil) s with
    | error r => rfl
    | ok p =>
      obtain ⟨it, s⟩ := p
      simp only
      have := loopN_at l u _ _ (forTurn_at (Ρ := Ρ) (f := f) (f' := f') (fc := fc) (fc' := fc') (x := x) (n := env.length) (inScope_at (runB_at fuel body hg.2.1)) (inScope_at (runB_at fuel els hg.2.2))) fuel (env' ++ List.replicate x.vars Ρ.nil ++ [it]) s
      have h2 := congrArg (Option.map (Stmts.Res.leave env.length)) this
      refine Eq.trans h2 ?_
      simp only [Option.map_map]; congr 1; funext r; exact resAt_leave l u _ r
  | .brk => fun hg env s => rfl
  | .cont => fun hg env s => rfl
  | .ret e => fun hg env s => optVal_at l u hG (Option.map (resAt l u)) e hg env s _ _ _ _ (fun r => rfl) (fun v env s => rfl)
  | .assert t msg => fun hg env s => by
    simp only [runS]
    refine testVal_at l u hG (Option.map (resAt l u)) t hg.1 env s _ _ _ _ (fun r => rfl) (fun ok m env s => ?_)
    cases ok
    · exact optVal_at l u hG (Option.map (resAt l u)) msg hg.2 env s _ _ _ _ (fun r => rfl) (fun v env s => rfl)
    · rfl
theorem runB_at (fuel : Nat) : ∀ (b : Block (sig Γ)), b.each G → At l u (runB L fuel b) (runB L' fuel b)
  | .nil => fun hg env s => rfl
  | .cons st .nil => fun hg env s => by simp only [runB]; exact runS_at fuel st hg.1 env s
  | .cons st (.cons st' b) => fun hg env s => by
    simp only [runB]
    rw [runS_at fuel st hg.1 env s]
    rcases runS (L) fuel st env s with _ | (⟨env, v, s⟩ | _ | _ | _ | _)
    case some.normal => exact runB_at fuel (.cons st' b) hg.2 env s
    all_goals rfl
theorem runElse_at (fuel : Nat) : ∀ (e : Else (sig Γ)), e.each G → At l u (runElse L fuel e) (runElse L' fuel e)
  | .none => fun hg env s => rfl
  | .els b => fun hg env s => inScope_at (runB_at fuel b hg) env s
  | .elif c t els => fun hg env s => by
    refine withVal_at l u hG (Option.map (resAt l u)) c hg.1 env s _ _ _ _ (fun r => rfl) (fun v env s => ?_)
    show (if Ρ.truthy v s then _ else _) = Option.map _ (if Ρ.truthy v s then _ else _)
    split
    · exact inScope_at (runB_at fuel t hg.2.1) env s
    · exact runElse_at fuel els hg.2.2 env s
  | .elifThen e => fun hg env s => withVal_at l u hG (Option.map (resAt l u)) e hg env s _ _ _ _ (fun r => rfl) (fun v env s => rfl)
end
end Lift

end Cordy.Full
