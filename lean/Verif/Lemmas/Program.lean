import Verif.Model.Program
import Verif.Lemmas.StmtApprox
import Verif.Lemmas.ExprApprox
import Verif.Props.Full
/-!
# Programs with functions: the machine with frames and the rules (C76)
-/
namespace Cordy.Program
open Cordy.Codegen (Out Prims LitTy Ap)
open Cordy.Full (Runtime Vars sig St decode encode machine em langDoc)
open Cordy.Stmts (Block Op Br emitBody emitProgram callBody linear entry Ends)
open Cordy.Graph (Instr LRun LHalts lstep)
variable {Γ : Codegen.Sig} {E S V : Type}

/-! ## More depth -/

theorem proc_ap {d : E} {run run' : Nat → List V → S → Out E S V} (h : ∀ fn args s, Ap d (run fn args s) (run' fn args s)) : ∀ p : Proc V E S, Ap d (p.run run) (p.run run')
  | .done o => .inl rfl
  | .enter fn args s next => by
    simp only [Proc.run]
    exact (h fn args s).bind fun v s => proc_ap h (next v s)

theorem back_ap {d : E} (k : Nat) (nil : V) {o o' : Out E (World V S) V} (h : Ap d o o') : Ap d (back k nil o) (back k nil o') := by
  rcases h with rfl | ⟨s, rfl⟩
  · exact .inl rfl
  · exact .inr ⟨(nils k nil, s), rfl⟩

/-- Errors that mark missing fuel. -/
def Div (P : Prog Γ E S) (r : Full.Bad Γ.V E (World Γ.V S)) : Prop := r.1 = .err P.diverge

theorem lang_ap (P : Prog Γ E S) {run run' : Nat → List Γ.V → World Γ.V S → Out E (World Γ.V S) Γ.V} (h : ∀ fn args w, Ap P.diverge (run fn args w) (run' fn args w)) :
    Stmts.Approx (Div P) (langDoc (withCalls P run)) (langDoc (withCalls P run')) where
  nil := rfl
  truthy := rfl
  destr := rfl
  iter := rfl
  next := rfl
  cmp := rfl
  cmpMsg := rfl
  failed := rfl
  eval := by
    intro e vs s
    have key := Codegen.evalW_ap (d := P.diverge) (Q := P.base.prims vs.length) (c := ((withCalls P run).prims vs.length).call) (c' := ((withCalls P run').prims vs.length).call)
      (i := ((withCalls P run).prims vs.length).index) (i' := ((withCalls P run').prims vs.length).index)
      (fun f args s => back_ap _ _ (proc_ap h _)) (fun a i s => back_ap _ _ (proc_ap h _)) e (⟨vs, rfl⟩, s)
    rcases key with key | ⟨p, key⟩
    · exact .inl (congrArg (Full.ofOut P.base.bot) key)
    · exact .inr ⟨(.err P.diverge, p.2, P.base.bot p.1.1 p.2), congrArg (Full.ofOut P.base.bot) key, rfl⟩

theorem withDefaults_ap {Δ : Stmts.Sig} {W R : Type} {D : R → Prop} {Λ Λ' : Stmts.Lang Δ W R} (h : Stmts.Approx D Λ Λ') : ∀ (es : List Δ.X) (vs : List Δ.V) (w : W),
    withDefaults Λ es vs w = withDefaults Λ' es vs w ∨ ∃ r, withDefaults Λ es vs w = .error r ∧ D r
  | [], vs, w => .inl rfl
  | e :: es, vs, w => by
    simp only [withDefaults]
    rcases h.eval e vs w with he | ⟨r, he, hr⟩
    · rw [he]
      rcases Λ'.eval e vs w with r | ⟨v, vs, w⟩
      · exact .inl rfl
      · exact withDefaults_ap h es _ _
    · exact .inr ⟨r, by rw [he], hr⟩

theorem bindPatterns_ap {Δ : Stmts.Sig} {W R : Type} {D : R → Prop} {Λ Λ' : Stmts.Lang Δ W R} (h : Stmts.Approx D Λ Λ') : ∀ (pats : List (Nat × Option (Nat × Δ.P))) (vs : List Δ.V) (w : W),
    bindPatterns Λ pats vs w = bindPatterns Λ' pats vs w
  | [], vs, w => rfl
  | (_, none) :: pats, vs, w => bindPatterns_ap h pats vs w
  | (i, some (_, p)) :: pats, vs, w => by
    simp only [bindPatterns, h.destr]
    split
    · exact bindPatterns_ap h pats vs w
    · split
      · exact bindPatterns_ap h pats _ _
      · rfl

theorem callWith_ap {Δ : Stmts.Sig} {W R : Type} {D : R → Prop} {Λ Λ' : Stmts.Lang Δ W R} (h : Stmts.Approx D Λ Λ') {n m : Nat} (hn : n ≤ m) (es : List Δ.X) (pats : List (Nat × Option (Nat × Δ.P))) (body : Block Δ) (args : List Δ.V) (s : W) (r : Except R (Δ.V × W))
    (hr : callWith Λ n es pats body args s = some r) (hD : ∀ x, r = .error x → ¬ D x) : callWith Λ' m es pats body args s = some r := by
  unfold callWith at hr ⊢
  rcases withDefaults_ap h es args s with he | ⟨x, he, hx⟩
  · rw [← he]
    rcases hw : withDefaults Λ es args s with x | ⟨vs, w⟩ <;> rw [hw] at hr
    · exact hr
    · simp only at hr ⊢
      rw [← bindPatterns_ap h, ← h.nil]
      rcases hw : bindPatterns Λ pats (vs ++ List.replicate (names pats) Λ.nil) w with x | ⟨vs, w⟩ <;> rw [hw] at hr
      · exact hr
      · exact Stmts.callBody_ap h hn body vs w r hr hD
  · rw [he] at hr
    injection hr with hr
    exact absurd hx (hD x hr.symm)

theorem callFn_mono (P : Prog Γ E S) : ∀ {n m : Nat}, n ≤ m → ∀ fn args w, Ap P.diverge (callFn P n fn args w) (callFn P m fn args w) := by
  intro n
  induction n with
  | zero => intro m _ fn args w; exact .inr ⟨w, rfl⟩
  | succ n ih =>
    intro m hm fn args w
    obtain ⟨m, rfl⟩ : ∃ k, m = k + 1 := ⟨m - 1, by omega⟩
    simp only [callFn]
    split
    · rename_i F _
      split
      · cases hr : callWith (langDoc (withCalls P (callFn P n))) n (F.defaults.drop (args.length - F.required)) F.patterns F.body args w with
        | none => exact .inr ⟨w, rfl⟩
        | some r =>
          by_cases hd : ∃ x, r = .error x ∧ Div P x
          · obtain ⟨⟨x, w', _⟩, rfl, hx⟩ := hd
            have hx : x = .err P.diverge := hx
            subst hx
            exact .inr ⟨w', rfl⟩
          · have := callWith_ap (lang_ap P (ih (show n ≤ m by omega))) (show n ≤ m by omega) _ F.patterns F.body args w r hr (fun x hx h => hd ⟨x, hx, h⟩)
            rw [this]
            exact .inl rfl
      · exact .inl rfl
    · exact .inl rfl

/-! ## Steps of the machine -/

section
variable (P : Prog Γ E S) (code : List (Instr (Op (sig Γ)) (Br (sig Γ)))) (starts : List (List Nat))

theorem steps_add : ∀ (n m : Nat) (x : State Γ E S), steps P code starts (n + m) x = steps P code starts m (steps P code starts n x)
  | 0, m, x => by simp [steps]
  | n + 1, m, .run c => by
    rw [show n + 1 + m = (n + m) + 1 by omega]
    simp only [steps]
    exact steps_add n m _
  | n + 1, m, .stop r => by
    rw [show n + 1 + m = (n + m) + 1 by omega]
    simp only [steps]
    cases m <;> rfl

theorem steps_stop (n : Nat) (r) : steps P code starts n (.stop r : State Γ E S) = .stop r := by cases n <;> rfl

/-- The machine gets from one state to the other. -/
def Reaches (x y : State Γ E S) : Prop := ∃ n, steps P code starts n x = y

variable {P code starts}

theorem Reaches.refl (x : State Γ E S) : Reaches P code starts x x := ⟨0, rfl⟩
theorem Reaches.trans {x y z : State Γ E S} (h : Reaches P code starts x y) (h' : Reaches P code starts y z) : Reaches P code starts x z := by
  obtain ⟨n, rfl⟩ := h
  obtain ⟨m, rfl⟩ := h'
  exact ⟨n + m, steps_add _ _ _ _ _ _⟩
theorem Reaches.step {c : Config Γ E S} {y : State Γ E S} (h : step P code starts c = y) : Reaches P code starts (.run c) y := ⟨1, by rw [← h]; rfl⟩
end

/-! ## Opcodes that ask for nothing -/

/-- The machine that runs calls in one step. -/
abbrev atomic (P : Prog Γ E S) (n : Nat) := machine (withCalls P (callFn P n)) id

theorem exec_none (P : Prog Γ E S) (run) {k : Nat} (o : Codegen.Op Γ) (d : Codegen.Mach Γ (Vars Γ.V k × World Γ.V S)) (h : asks o d = none) :
    Codegen.exec ((withCalls P run).prims k) o d = Codegen.exec (P.base.prims k) o d := by
  obtain ⟨stack, lits, unroll, s⟩ := d
  cases o
  case call n any =>
    have key : ∀ (k' : Nat) (us : List Int), (match stack.drop k' with
        | f :: st => if k' ≤ stack.length then some (Ask.call f (stack.take k').reverse, st, us) else none
        | [] => none) = none → (∃ f st, stack.drop k' = f :: st ∧ ¬ k' ≤ stack.length) ∨ stack.drop k' = [] := by
      intro k' us h
      cases hd : stack.drop k' with
      | nil => exact .inr rfl
      | cons f st =>
        rw [hd] at h
        simp only at h
        split at h
        · cases h
        · exact .inl ⟨f, st, rfl, ‹_›⟩
    cases any
    · rcases key n unroll h with ⟨f, st, h1, h2⟩ | h1 <;> simp [Codegen.exec, h1]
      rw [if_neg h2, if_neg h2]
    · cases unroll with
      | nil => rfl
      | cons u us =>
        rcases key ((n : Int) + u).toNat us h with ⟨f, st, h1, h2⟩ | h1 <;> simp only [Codegen.exec, h1, if_true]
        rw [if_neg h2, if_neg h2]
  case index =>
    rcases stack with _ | ⟨i, _ | ⟨a, st⟩⟩
    · rfl
    · rfl
    · cases h
  case indexPeek =>
    rcases stack with _ | ⟨i, _ | ⟨a, st⟩⟩
    · rfl
    · rfl
    · cases h
  all_goals rfl

theorem exec_some (P : Prog Γ E S) (run) {k : Nat} (o : Codegen.Op Γ) (d : Codegen.Mach Γ (Vars Γ.V k × World Γ.V S)) (a st us) (h : asks o d = some (a, st, us)) :
    Codegen.exec ((withCalls P run).prims k) o d = Codegen.pushOut { d with unroll := us } st (back k P.base.nil ((P.ask a (d.s.1.1 :: d.s.2.1, d.s.2.2)).run run)) := by
  obtain ⟨stack, lits, unroll, s⟩ := d
  cases o
  case call n any =>
    have key : ∀ (k' : Nat) (us' : List Int), (match stack.drop k' with
        | f :: st => if k' ≤ stack.length then some (Ask.call f (stack.take k').reverse, st, us') else none
        | [] => none) = some (a, st, us) → ∃ f, stack.drop k' = f :: st ∧ k' ≤ stack.length ∧ a = .call f (stack.take k').reverse ∧ us = us' := by
      intro k' us' h
      cases hd : stack.drop k' with
      | nil => rw [hd] at h; cases h
      | cons f st =>
        rw [hd] at h
        simp only at h
        split at h
        · injection h with h
          injection h with h1 h2
          injection h2 with h2 h3
          subst h1 h2 h3
          exact ⟨f, rfl, ‹_›, rfl, rfl⟩
        · cases h
    cases any
    · obtain ⟨f, h1, h2, rfl, rfl⟩ := key n unroll h
      simp only [Codegen.exec, Bool.false_eq_true, if_false, h1, if_pos h2]
      rfl
    · cases unroll with
      | nil => cases h
      | cons u us' =>
        obtain ⟨f, h1, h2, rfl, rfl⟩ := key ((n : Int) + u).toNat us' h
        simp only [Codegen.exec, if_true, h1, if_pos h2]
        rfl
  case index =>
    rcases stack with _ | ⟨i, _ | ⟨a, st⟩⟩
    · cases h
    · cases h
    · injection h with h
      injection h with h1 h2
      injection h2 with h2 h3
      subst h1 h2 h3
      rfl
  case indexPeek =>
    rcases stack with _ | ⟨i, _ | ⟨a, st⟩⟩
    · cases h
    · cases h
    · injection h with h
      injection h with h1 h2
      injection h2 with h2 h3
      subst h1 h2 h3
      rfl
  all_goals cases h

theorem op_same (P : Prog Γ E S) (n : Nat) (o : Op (sig Γ)) (m : Stmts.Mach (sig Γ) (St Γ (World Γ.V S))) (h : ∀ k x d, o = .x (k, x) → decode k m = some d → asks x d = none) :
    Stmts.exec (atomic P n) o m = Stmts.exec (machine P.base id) o m := by
  cases o
  case x p =>
    obtain ⟨k, x⟩ := p
    simp only [Stmts.exec, machine]
    cases hd : decode k m with
    | none => rfl
    | some d => simp only [exec_none P _ x d (h k x d rfl hd)]; rfl
  all_goals rfl

theorem test_same (P : Prog Γ E S) (n : Nat) (t : Br (sig Γ)) (m : Stmts.Mach (sig Γ) (St Γ (World Γ.V S))) : Stmts.test (atomic P n) t m = Stmts.test (machine P.base id) t m := by
  cases t
  case x p =>
    obtain ⟨k, x⟩ := p
    simp only [Stmts.test, machine]
    cases hd : decode k m with
    | none => rfl
    | some d => cases x <;> rfl
  all_goals rfl

end Cordy.Program
