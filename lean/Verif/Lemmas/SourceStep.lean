import Verif.Lemmas.SourceScope
/-! Lemmas for C81: there are as many variables as names in scope, wherever an expression is evaluated. -/
namespace Cordy.Source
open Cordy.Grammar
open Cordy.Stmts
variable {Γ : Codegen.Sig} {S R : Type}

/-- The same result, and such that `Q`. -/
def Agree {α : Type} (x x' : Option α) (Q : α → Prop) : Prop := x' = x ∧ ∀ r, x = some r → Q r

theorem Agree.mono {α : Type} {x x' : Option α} {Q Q' : α → Prop} (h : Agree x x' Q) (hq : ∀ r, Q r → Q' r) : Agree x x' Q' := ⟨h.1, fun r hr => hq r (h.2 r hr)⟩

theorem Agree.map {α β : Type} {x x' : Option α} {Q : α → Prop} {Q' : β → Prop} (f : α → β) (h : Agree x x' Q) (hq : ∀ r, Q r → Q' (f r)) : Agree (x.map f) (x'.map f) Q' := by
  refine ⟨by rw [h.1], fun r hr => ?_⟩
  obtain ⟨a, ha, rfl⟩ := Option.map_eq_some_iff.1 hr
  exact hq a (h.2 a ha)

theorem Agree.pure {α : Type} {a : α} {Q : α → Prop} (h : Q a) : Agree (some a) (some a) Q := ⟨rfl, by rintro r ⟨⟩; exact h⟩

/-- Lengths: `m` after the statement, at least `n` where it leaves a loop. -/
def Len (n m : Nat) : Stmts.Res (srcSig Γ) S R → Prop
  | .normal env _ _ => env.length = m
  | .brk env _ | .cont env _ => n ≤ env.length
  | _ => True

/-- `n` everywhere. -/
def LenX (n : Nat) : Stmts.Res (srcSig Γ) S R → Prop
  | .normal env _ _ => env.length = n
  | .brk env _ | .cont env _ => env.length = n
  | _ => True

def TurnLen (k : Nat) (Q : Stmts.Res (srcSig Γ) S R → Prop) : Turn (srcSig Γ) S R → Prop
  | .again env _ => env.length = k
  | .done r => Q r

/-- At least `n` everywhere. -/
def LenW (n : Nat) : Stmts.Res (srcSig Γ) S R → Prop
  | .normal env _ _ => n ≤ env.length
  | .brk env _ | .cont env _ => n ≤ env.length
  | _ => True

theorem LenX.len {n : Nat} {r : Stmts.Res (srcSig Γ) S R} (h : LenX n r) : Len n n r := by
  cases r <;> simp only [Len, LenX] at h ⊢ <;> omega

theorem LenX.weak {n m : Nat} (hm : n ≤ m) {r : Stmts.Res (srcSig Γ) S R} (h : LenX m r) : LenW n r := by
  cases r <;> simp only [LenW, LenX] at h ⊢ <;> omega

theorem Len.weak {n m : Nat} (hm : n ≤ m) {r : Stmts.Res (srcSig Γ) S R} (h : Len n m r) : LenW n r := by
  cases r <;> simp only [LenW, Len] at h ⊢ <;> omega

theorem LenW.leave {n : Nat} {r : Stmts.Res (srcSig Γ) S R} (h : LenW n r) : LenX n (r.leave n) := by
  cases r <;> simp only [LenW, LenX, Stmts.Res.leave, List.length_take] at h ⊢ <;> omega

variable (Λ : Lang (srcSig Γ) S R) (f : Names × E → List Γ.V → S → Except R (Γ.V × List Γ.V × S)) (hf : ∀ e vs s v vs' s', f e vs s = .ok (v, vs', s') → vs'.length = vs.length)

/-- Another meaning of expressions. -/
def withEval : Lang (srcSig Γ) S R := { Λ with eval := f, eval_len := hf }

variable (heq : ∀ e vs s, vs.length = e.1.length → f e vs s = Λ.eval e vs s)
local notation "Λ'" => withEval Λ f hf

include heq in
theorem withVal_step {α : Type} {Q : α → Prop} {p : Names × E} {env : List Γ.V} (hl : env.length = p.1.length) (s : S) {err err' : R → Option α} {k k' : Γ.V → List Γ.V → S → Option α}
    (he : ∀ r, Agree (err r) (err' r) Q) (hk : ∀ v (env' : List Γ.V) s', env'.length = env.length → Agree (k v env' s') (k' v env' s') Q) : Agree (withVal Λ p env s err k) (withVal Λ' p env s err' k') Q := by
  have h : (Λ').eval p env s = Λ.eval p env s := heq p env s hl
  simp only [withVal, h]
  cases hv : Λ.eval p env s with
  | error r => exact he r
  | ok x => exact hk _ _ _ (Λ.eval_len _ _ _ _ _ _ hv)

theorem fail_step {Q : Stmts.Res (srcSig Γ) S R → Prop} (h : ∀ r, Q (.stop r)) (r : R) : Agree (fail r) (fail r) Q := Agree.pure (h r)

theorem failTurn_step {k : Nat} {Q : Stmts.Res (srcSig Γ) S R → Prop} (h : ∀ r, Q (.stop r)) (r : R) : Agree (failTurn r) (failTurn r) (TurnLen k Q) := Agree.pure (h r)

include heq in
theorem optVal_step {α : Type} {Q : α → Prop} {p : Option (Names × E)} {env : List Γ.V} (hl : ∀ e, p = some e → env.length = e.1.length) (s : S) {err err' : R → Option α} {k k' : Γ.V → List Γ.V → S → Option α}
    (he : ∀ r, Agree (err r) (err' r) Q) (hk : ∀ v (env' : List Γ.V) s', env'.length = env.length → Agree (k v env' s') (k' v env' s') Q) : Agree (optVal Λ p env s err k) (optVal Λ' p env s err' k') Q := by
  cases p with
  | none => exact hk _ _ _ rfl
  | some p => exact withVal_step Λ f hf heq (hl p rfl) s he hk

include heq in
theorem testVal_step {α : Type} {Q : α → Prop} {I : Scope Γ} {ns : Names} {e : E} {env : List Γ.V} (hl : env.length = ns.length) (s : S) {err err' : R → Option α} {k k' : Bool → Γ.V → List Γ.V → S → Option α}
    (he : ∀ r, Agree (err r) (err' r) Q) (hk : ∀ b v (env' : List Γ.V) s', env'.length = env.length → Agree (k b v env' s') (k' b v env' s') Q) : Agree (testVal Λ (tested I ns e) env s err k) (testVal Λ' (tested I ns e) env s err' k') Q := by
  unfold tested
  split
  · refine withVal_step Λ f hf heq hl s he fun v env1 s1 h1 => ?_
    refine withVal_step Λ f hf heq (h1.trans hl) s1 he fun v env2 s2 h2 => ?_
    exact hk _ _ _ _ (h2.trans h1)
  · exact withVal_step Λ f hf heq hl s he fun v env1 s1 h1 => hk _ _ _ _ h1

theorem loopN_step {k : Nat} {Q : Stmts.Res (srcSig Γ) S R → Prop} {t t' : List Γ.V → S → Option (Turn (srcSig Γ) S R)} (h : ∀ env s, env.length = k → Agree (t env s) (t' env s) (TurnLen k Q)) :
    ∀ n (env : List Γ.V) s, env.length = k → Agree (loopN n t env s) (loopN n t' env s) Q := by
  intro n
  induction n with
  | zero => intro env s _; exact ⟨rfl, by simp [loopN]⟩
  | succ n ih =>
    intro env s hl
    obtain ⟨h1, h2⟩ := h env s hl
    simp only [loopN, h1]
    cases ht : t env s with
    | none => exact ⟨rfl, by simp⟩
    | some r =>
      have := h2 r ht
      cases r with
      | again env' s' => exact ih env' s' this
      | done r => exact Agree.pure this

/-- What a body does, from `n` variables. -/
def Step (n : Nat) (Q : Stmts.Res (srcSig Γ) S R → Prop) (g g' : List Γ.V → S → Option (Stmts.Res (srcSig Γ) S R)) : Prop := ∀ env s, env.length = n → Agree (g env s) (g' env s) Q

theorem Step.inScope {n m : Nat} (hm : n ≤ m) {g g'} (h : Step (Γ := Γ) (S := S) (R := R) n (Len n m) g g') : Step (Γ := Γ) (S := S) (R := R) n (LenX n) (Stmts.inScope (Γ := srcSig Γ) g) (Stmts.inScope (Γ := srcSig Γ) g') := by
  intro env s hl
  exact (h env s hl).map _ fun r hr => by rw [hl]; exact (Len.weak hm hr).leave

theorem afterBody_len {n k : Nat} (hn : n ≤ k) {Q : Stmts.Res (srcSig Γ) S R → Prop} (hQ : ∀ r, LenX k r → Q r) {r : Stmts.Res (srcSig Γ) S R} (h : LenX k r) : TurnLen k Q (afterBody r) := by
  cases r with
  | normal env v s => exact h
  | brk env s => exact hQ (.normal env none s) h
  | cont env s => exact h
  | ret v s => exact hQ _ h
  | stop r => exact hQ _ h

theorem afterElse_len {n k : Nat} {back : List Γ.V} (hb : n + back.length = k) {Q : Stmts.Res (srcSig Γ) S R → Prop} (hQ : ∀ r, LenX n r → Q r) {r : Stmts.Res (srcSig Γ) S R} (h : LenX n r) : TurnLen k Q (afterElse (Γ := srcSig Γ) back r) := by
  cases r with
  | normal env v s => exact hQ (.normal env none s) h
  | brk env s => exact hQ (.normal env none s) h
  | cont env s => simp only [LenX] at h; simp only [afterElse, TurnLen, List.length_append]; omega
  | ret v s => exact hQ _ h
  | stop r => exact hQ _ h

include heq in
theorem whileTurn_step {n : Nat} {p : Names × E} (hp : p.1.length = n) {b b' e e'} (hb : Step (Γ := Γ) (S := S) (R := R) n (LenX n) b b') (he : Step n (LenX n) e e') :
    ∀ env s, env.length = n → Agree (whileTurn Λ p b e env s) (whileTurn Λ' p b' e' env s) (TurnLen n (LenX n)) := by
  intro env s hl
  refine withVal_step Λ f hf heq (hl.trans hp.symm) s (failTurn_step fun r => trivial) fun v env1 s1 h1 => ?_
  show Agree (if Λ.truthy v s1 then _ else _) (if Λ.truthy v s1 then _ else _) _
  split
  · exact (hb env1 s1 (h1.trans hl)).map _ fun r hr => afterBody_len (Nat.le_refl n) (fun _ h => h) hr
  · exact (he env1 s1 (h1.trans hl)).map _ fun r hr => afterElse_len rfl (fun _ h => h) hr

include heq in
theorem doTurn_step {n : Nat} {p : Option (Names × E)} (hp : ∀ e, p = some e → e.1.length = n) {b b' e e'} (hb : Step (Γ := Γ) (S := S) (R := R) n (LenX n) b b') (he : Step n (LenX n) e e') :
    ∀ env s, env.length = n → Agree (doTurn Λ p b e env s) (doTurn Λ' p b' e' env s) (TurnLen n (LenX n)) := by
  intro env s hl
  obtain ⟨h1, h2⟩ := hb env s hl
  have hel : ∀ env s, env.length = n → Agree ((e env s).map (afterElse (Γ := srcSig Γ) [])) ((e' env s).map (afterElse (Γ := srcSig Γ) [])) (TurnLen n (LenX n)) :=
    fun env s hl => (he env s hl).map _ fun r hr => afterElse_len rfl (fun _ h => h) hr
  simp only [doTurn, h1]
  cases hr : b env s with
  | none => exact ⟨rfl, by simp⟩
  | some r =>
    have h3 := h2 r hr
    cases r with
    | normal env1 v s1 =>
      simp only
      cases p with
      | none => exact hel env1 s1 h3
      | some c =>
        refine withVal_step Λ f hf heq (Eq.trans h3 (hp c rfl).symm) s1 (failTurn_step fun r => trivial) fun v env2 s2 h4 => ?_
        show Agree (if Λ.truthy v s2 then _ else _) (if Λ.truthy v s2 then _ else _) _
        split
        · exact Agree.pure (h4.trans h3)
        · exact hel env2 s2 (h4.trans h3)
    | brk env1 s1 => exact Agree.pure h3
    | cont env1 s1 => exact Agree.pure h3
    | ret v s1 => exact Agree.pure h3
    | stop r => exact Agree.pure h3

theorem assign_step {α : Type} {Q : α → Prop} (l : LV (srcSig Γ)) (i : Nat) (v : Γ.V) (env : List Γ.V) (s : S) {err err' : R → Option α} {k k' : List Γ.V → S → Option α}
    (he : ∀ r, Agree (err r) (err' r) Q) (hk : ∀ (env' : List Γ.V) s', env'.length = env.length → Agree (k env' s') (k' env' s') Q) : Agree (assign Λ l i v env s err k) (assign Λ' l i v env s err' k') Q := by
  cases l with
  | named => exact hk _ _ (by simp)
  | empty => exact hk _ _ rfl
  | terms n p =>
    have hd : (Λ').destr p v env s = Λ.destr p v env s := rfl
    simp only [assign, hd]
    cases h : Λ.destr p v env s with
    | error r => exact he r
    | ok x => exact hk _ _ (Λ.destr_len _ _ _ _ _ _ h)

theorem forTurn_step {n m : Nat} {l : LV (srcSig Γ)} {b b' e e'} (hb : Step (Γ := Γ) (S := S) (R := R) (n + m + 1) (LenX (n + m + 1)) b b') (he : Step n (LenX n) e e') :
    ∀ env s, env.length = n + m + 1 → Agree (forTurn Λ l n b e env s) (forTurn Λ' l n b' e' env s) (TurnLen (n + m + 1) (LenW n)) := by
  intro env s hl
  simp only [forTurn]
  cases hg : env.getLast? with
  | none => exact ⟨rfl, by simp⟩
  | some it =>
    have hN : (Λ').next it s = Λ.next it s := rfl
    simp only [hN]
    cases Λ.next it s with
    | some p =>
      refine assign_step Λ f hf l n p.2 _ s (failTurn_step fun r => trivial) fun env' s' h' => ?_
      exact (hb _ s' (by simp at h'; omega)).map _ fun r hr => afterBody_len (n := n) (by omega) (fun _ h => h.weak (by omega)) hr
    | none =>
      simp only
      exact (he _ s (by simp; omega)).map _ fun r hr => afterElse_len (by simp; omega) (fun _ h => h.weak (Nat.le_refl n)) hr

theorem Step.cons {n m k fuel : Nat} (hnm : n ≤ m) {st : Stmt (srcSig Γ)} {b : Block (srcSig Γ)} (hs : Step (Γ := Γ) (S := S) (R := R) n (Len n m) (runS Λ fuel st) (runS Λ' fuel st))
    (hb : Step (Γ := Γ) (S := S) (R := R) m (Len m k) (runB Λ fuel b) (runB Λ' fuel b)) : Step (Γ := Γ) (S := S) (R := R) n (Len n k) (runB Λ fuel (.cons st b)) (runB Λ' fuel (.cons st b)) := by
  intro env s hl
  obtain ⟨h1, h2⟩ := hs env s hl
  cases b with
  | nil =>
    simp only [runB]
    refine ⟨h1, fun r hr => ?_⟩
    have h3 := h2 r hr
    cases r with
    | normal env1 v s1 =>
      have := (hb env1 s1 h3).2 (.normal env1 none s1) (by simp [runB])
      exact this
    | brk env1 s1 => exact h3
    | cont env1 s1 => exact h3
    | ret v s1 => exact h3
    | stop r => exact h3
  | cons st' b =>
    simp only [runB, h1]
    cases hr : runS Λ fuel st env s with
    | none => exact ⟨rfl, by simp⟩
    | some r =>
      have h3 := h2 r hr
      cases r with
      | normal env1 v s1 =>
        refine (hb env1 s1 h3).mono fun r hr => ?_
        cases r <;> simp only [Len] at hr ⊢ <;> omega
      | brk env1 s1 => exact Agree.pure h3
      | cont env1 s1 => exact Agree.pure h3
      | ret v s1 => exact Agree.pure h3
      | stop r => exact Agree.pure h3

include heq in
theorem decs_step {I : Scope Γ} {outer : Names} {fuel : Nat} : ∀ {ds : List Dec} {here : Names} {ss : List (Stmt (srcSig Γ))} {here' : Names} {b : Block (srcSig Γ)} {k : Nat}, scopeDecs I outer ds here = some (ss, here') →
    Step (Γ := Γ) (S := S) (R := R) (outer ++ here').length (Len (outer ++ here').length k) (runB Λ fuel b) (runB Λ' fuel b) →
    Step (Γ := Γ) (S := S) (R := R) (outer ++ here).length (Len (outer ++ here).length k) (runB Λ fuel (appendB ss b)) (runB Λ' fuel (appendB ss b))
  | [], here, ss, here', b, k, h, hb => by
    simp only [scopeDecs, Option.some.injEq, Prod.mk.injEq] at h
    obtain ⟨rfl, rfl⟩ := h
    exact hb
  | .bind ps e :: ds, here, ss, here', b, k, h, hb => by
    simp only [scopeDecs] at h
    split at h
    · obtain ⟨p, hp, h⟩ := Option.map_eq_some_iff.1 h
      simp only [Prod.mk.injEq] at h
      obtain ⟨rfl, rfl⟩ := h
      refine Step.cons Λ f hf (m := (outer ++ (here ++ (Pat.varsAll ps).map some)).length) (by simp) ?_ (decs_step (ds := ds) (here := here ++ (Pat.varsAll ps).map some) (ss := p.1) hp hb)
      intro env s hl
      have hv := into_vars (Γ := Γ) (outer ++ here) ps
      refine withVal_step Λ f hf heq hl s (fail_step fun r => trivial) fun v env1 s1 h1 => ?_
      revert hv
      cases into (Γ := Γ) (outer ++ here) ps with
      | named =>
        intro hv
        refine Agree.pure ?_
        simp only [LV.vars] at hv
        simp only [Len, List.length_append, List.length_cons, List.length_nil, List.length_map] at hl ⊢
        omega
      | empty =>
        intro hv
        refine assign_step Λ f hf _ _ _ _ _ (fail_step fun r => trivial) fun env2 s2 h2 => Agree.pure ?_
        simp only [Len, List.length_append, List.length_replicate, List.length_map] at hl h2 ⊢
        omega
      | terms n q =>
        intro hv
        refine assign_step Λ f hf _ _ _ _ _ (fail_step fun r => trivial) fun env2 s2 h2 => Agree.pure ?_
        simp only [Len, List.length_append, List.length_replicate, List.length_map] at hl h2 ⊢
        omega
    · simp at h
  | .names xs :: ds, here, ss, here', b, k, h, hb => by
    simp only [scopeDecs] at h
    split at h
    · obtain ⟨p, hp, h⟩ := Option.map_eq_some_iff.1 h
      simp only [Prod.mk.injEq] at h
      obtain ⟨rfl, rfl⟩ := h
      refine Step.cons Λ f hf (m := (outer ++ (here ++ xs.map some)).length) (by simp) ?_ (decs_step (ds := ds) (here := here ++ xs.map some) (ss := p.1) hp hb)
      intro env s hl
      refine Agree.pure ?_
      simp only [Len, List.length_append, List.length_replicate, List.length_map] at hl ⊢
      omega
    · simp at h

theorem decs_len {I : Scope Γ} {outer : Names} : ∀ {ds : List Dec} {here : Names} {ss : List (Stmt (srcSig Γ))} {here' : Names}, scopeDecs I outer ds here = some (ss, here') → here.length ≤ here'.length
  | [], here, ss, here', h => by
    simp only [scopeDecs, Option.some.injEq, Prod.mk.injEq] at h
    rw [h.2]
  | .bind _ e :: ds, here, ss, here', h => by
    simp only [scopeDecs] at h
    split at h
    · obtain ⟨p, hp, h⟩ := Option.map_eq_some_iff.1 h
      simp only [Prod.mk.injEq] at h
      obtain ⟨rfl, rfl⟩ := h
      have := decs_len hp
      simp only [List.length_append] at this; omega
    · simp at h
  | .names xs :: ds, here, ss, here', h => by
    simp only [scopeDecs] at h
    split at h
    · obtain ⟨p, hp, h⟩ := Option.map_eq_some_iff.1 h
      simp only [Prod.mk.injEq] at h
      obtain ⟨rfl, rfl⟩ := h
      have := decs_len hp
      simp only [List.length_append] at this; omega
    · simp at h

theorem LenX.step {n : Nat} {g g'} (h : Step (Γ := Γ) (S := S) (R := R) n (LenX n) g g') : Step (Γ := Γ) (S := S) (R := R) n (Len n n) g g' := fun env s hl => (h env s hl).mono fun _ h => h.len

include heq in
theorem ite_step {n : Nat} {p : Names × E} (hp : p.1.length = n) {b b' e e'} (hb : Step (Γ := Γ) (S := S) (R := R) n (LenX n) b b') (he : Step (Γ := Γ) (S := S) (R := R) n (LenX n) e e') {env : List Γ.V} (s : S) (hl : env.length = n) :
    Agree (withVal Λ p env s fail fun v env s => if Λ.truthy v s then b env s else e env s) (withVal Λ' p env s fail fun v env s => if (Λ').truthy v s then b' env s else e' env s) (LenX n) := by
  refine withVal_step Λ f hf heq (hl.trans hp.symm) s (fail_step fun r => trivial) fun v env1 s1 h1 => ?_
  show Agree (if Λ.truthy v s1 then _ else _) (if Λ.truthy v s1 then _ else _) _
  split
  · exact hb env1 s1 (h1.trans hl)
  · exact he env1 s1 (h1.trans hl)

include heq
mutual
theorem stepB {I : Scope Γ} (fuel : Nat) : ∀ (p : SBlock) {lp : Bool} {outer here : Names} {q : Block (srcSig Γ)}, scopeB I lp outer p here = some q →
    ∃ k, (outer ++ here).length ≤ k ∧ Step (Γ := Γ) (S := S) (R := R) (outer ++ here).length (Len (outer ++ here).length k) (runB Λ fuel q) (runB Λ' fuel q)
  | .nil, lp, outer, here, q, h => by
    simp only [scopeB, Option.some.injEq] at h
    subst h
    exact ⟨_, Nat.le_refl _, fun env s hl => Agree.pure hl⟩
  | .cons s b, lp, outer, here, q, h => by
    by_cases hs : ∃ ds, s = .lets ds
    · obtain ⟨ds, rfl⟩ := hs
      rw [scopeB] at h
      cases hd : scopeDecs I outer ds here with
      | none => rw [hd] at h; cases h
      | some p =>
        obtain ⟨ss, here'⟩ := p
        rw [hd] at h
        obtain ⟨q1, hq1, rfl⟩ := Option.map_eq_some_iff.1 h
        obtain ⟨k, hk, h1⟩ := stepB fuel b hq1
        refine ⟨k, ?_, decs_step Λ f hf heq hd h1⟩
        refine Nat.le_trans ?_ hk
        have := decs_len hd
        simp only [List.length_append]; omega
    · have hs' : ∀ ds, s = .lets ds → False := fun ds e => hs ⟨ds, e⟩
      rw [scopeB] at h
      · cases h1 : scopeS I lp (outer ++ here) s with
        | none => rw [h1] at h; cases h
        | some s1 =>
          cases h2 : scopeB I lp outer b here with
          | none => rw [h1, h2] at h; cases h
          | some b1 =>
            rw [h1, h2] at h
            simp only [Option.some.injEq] at h
            subst h
            obtain ⟨k, hk, h3⟩ := stepB fuel b h2
            exact ⟨k, hk, Step.cons Λ f hf (Nat.le_refl _) (LenX.step (stepS fuel s h1)) h3⟩
      · exact hs'
theorem stepIn {I : Scope Γ} (fuel : Nat) : ∀ (p : SBlock) {lp : Bool} {ns : Names} {q : Block (srcSig Γ)}, scopeB I lp ns p [] = some q →
    Step (Γ := Γ) (S := S) (R := R) ns.length (LenX ns.length) (Stmts.inScope (Γ := srcSig Γ) (runB Λ fuel q)) (Stmts.inScope (Γ := srcSig Γ) (runB Λ' fuel q))
  | p, lp, ns, q, h => by
    obtain ⟨k, hk, h1⟩ := stepB fuel p h
    simp only [List.append_nil] at hk h1
    exact Step.inScope hk h1
theorem stepS {I : Scope Γ} (fuel : Nat) : ∀ (p : SStmt) {lp : Bool} {ns : Names} {q : Stmt (srcSig Γ)}, scopeS I lp ns p = some q →
    Step (Γ := Γ) (S := S) (R := R) ns.length (LenX ns.length) (runS Λ fuel q) (runS Λ' fuel q)
  | .expr e, lp, ns, q, h => by
    simp only [scopeS, Option.some.injEq] at h
    subst h
    exact fun env s hl => withVal_step Λ f hf heq hl s (fail_step fun r => trivial) fun v env1 s1 h1 => Agree.pure (h1.trans hl)
  | .semi, lp, ns, q, h => by
    simp only [scopeS, Option.some.injEq] at h
    subst h
    exact fun env s hl => Agree.pure hl
  | .lets ds, lp, ns, q, h => by simp [scopeS] at h
  | .ite c t els, lp, ns, q, h => by
    rw [scopeS] at h
    cases h1 : scopeB I lp ns t [] with
    | none => rw [h1] at h; cases h
    | some t1 =>
      cases h2 : scopeElse I lp ns els with
      | none => rw [h1, h2] at h; cases h
      | some e1 =>
        rw [h1, h2] at h
        simp only [Option.some.injEq] at h
        subst h
        exact fun env s hl => ite_step Λ f hf heq rfl (stepIn fuel t h1) (stepElse fuel els h2) s hl
  | .while c t els, lp, ns, q, h => by
    rw [scopeS] at h
    cases h1 : scopeB I true ns t [] with
    | none => rw [h1] at h; cases h
    | some t1 =>
      cases h2 : scopeB I true ns els [] with
      | none => rw [h1, h2] at h; cases h
      | some e1 =>
        rw [h1, h2] at h
        simp only [Option.some.injEq] at h
        subst h
        exact fun env s hl => loopN_step (whileTurn_step Λ f hf heq rfl (stepIn fuel t h1) (stepIn fuel els h2)) fuel env s hl
  | .doW t c els, lp, ns, q, h => by
    rw [scopeS] at h
    cases h1 : scopeB I true ns t [] with
    | none => rw [h1] at h; cases h
    | some t1 =>
      cases h2 : scopeB I true ns els [] with
      | none => rw [h1, h2] at h; cases h
      | some e1 =>
        rw [h1, h2] at h
        simp only [Option.some.injEq] at h
        subst h
        exact fun env s hl => loopN_step (doTurn_step Λ f hf heq (by rintro e he; obtain ⟨e, _, rfl⟩ := Option.map_eq_some_iff.1 he; rfl) (stepIn fuel t h1) (stepIn fuel els h2)) fuel env s hl
  | .loop t, lp, ns, q, h => by
    rw [scopeS] at h
    obtain ⟨t1, h1, rfl⟩ := Option.map_eq_some_iff.1 h
    exact fun env s hl => loopN_step (fun env s hl => (stepIn fuel t h1 env s hl).map _ fun r hr => afterBody_len (Nat.le_refl _) (fun _ h => h) hr) fuel env s hl
  | .for ps e t els, lp, ns, q, h => by
    rw [scopeS] at h
    split at h
    · cases h1 : scopeB I true (ns ++ (Pat.varsAll ps).map some ++ [none]) t [] with
      | none => rw [h1] at h; cases h
      | some t1 =>
        cases h2 : scopeB I true ns els [] with
        | none => rw [h1, h2] at h; cases h
        | some e1 =>
          rw [h1, h2] at h
          simp only [Option.some.injEq] at h
          subst h
          intro env s hl
          refine withVal_step Λ f hf heq hl s (fail_step fun r => trivial) fun v env1 s1 hl1 => ?_
          have hI : (Λ').iter v (env1 ++ List.replicate (into (Γ := Γ) ns ps).vars (Λ').nil) s1 = Λ.iter v (env1 ++ List.replicate (into (Γ := Γ) ns ps).vars Λ.nil) s1 := rfl
          simp only [hI]
          cases Λ.iter v (env1 ++ List.replicate (into (Γ := Γ) ns ps).vars Λ.nil) s1 with
          | error r => exact Agree.pure trivial
          | ok p =>
            simp only
            have hb := stepIn fuel t h1
            simp only [List.length_append, List.length_cons, List.length_nil, List.length_map] at hb
            rw [hl]
            refine (loopN_step (forTurn_step Λ f hf hb (stepIn fuel els h2)) fuel _ p.2 ?_).map _ fun r hr => LenW.leave hr
            simp only [List.length_append, List.length_replicate, List.length_cons, List.length_nil, into_vars]
            omega
    · cases h
  | .brk, lp, ns, q, h => by
    rw [scopeS] at h
    split at h
    · simp only [Option.some.injEq] at h; subst h; exact fun env s hl => Agree.pure hl
    · cases h
  | .cont, lp, ns, q, h => by
    rw [scopeS] at h
    split at h
    · simp only [Option.some.injEq] at h; subst h; exact fun env s hl => Agree.pure hl
    · cases h
  | .assert e msg, lp, ns, q, h => by
    simp only [scopeS, Option.some.injEq] at h
    subst h
    intro env s hl
    simp only [runS]
    refine testVal_step (Q := LenX ns.length) Λ f hf heq hl s (fail_step fun r => trivial) fun ok m env1 s1 h1 => ?_
    cases ok
    · exact optVal_step Λ f hf heq (by rintro e he; obtain ⟨e, _, rfl⟩ := Option.map_eq_some_iff.1 he; exact h1.trans hl) s1 (fail_step fun r => trivial) fun v env2 s2 h2 => Agree.pure trivial
    · exact Agree.pure (h1.trans hl)
  | .ret e, lp, ns, q, h => by
    simp only [scopeS, Option.some.injEq] at h
    subst h
    intro env s hl
    simp only [runS]
    exact optVal_step Λ f hf heq (by rintro e he; obtain ⟨e, _, rfl⟩ := Option.map_eq_some_iff.1 he; exact hl) s (fail_step fun r => trivial) fun v env2 s2 h2 => Agree.pure trivial
  | .fn _ _ _, lp, ns, q, h => by simp [scopeS] at h
theorem stepElse {I : Scope Γ} (fuel : Nat) : ∀ (p : SElse) {lp : Bool} {ns : Names} {q : Else (srcSig Γ)}, scopeElse I lp ns p = some q →
    Step (Γ := Γ) (S := S) (R := R) ns.length (LenX ns.length) (runElse Λ fuel q) (runElse Λ' fuel q)
  | .none, lp, ns, q, h => by
    simp only [scopeElse, Option.some.injEq] at h
    subst h
    exact fun env s hl => Agree.pure hl
  | .els b, lp, ns, q, h => by
    rw [scopeElse] at h
    obtain ⟨t1, h1, rfl⟩ := Option.map_eq_some_iff.1 h
    exact fun env s hl => stepIn fuel b h1 env s hl
  | .elif c t els, lp, ns, q, h => by
    rw [scopeElse] at h
    cases h1 : scopeB I lp ns t [] with
    | none => rw [h1] at h; cases h
    | some t1 =>
      cases h2 : scopeElse I lp ns els with
      | none => rw [h1, h2] at h; cases h
      | some e1 =>
        rw [h1, h2] at h
        simp only [Option.some.injEq] at h
        subst h
        exact fun env s hl => ite_step Λ f hf heq rfl (stepIn fuel t h1) (stepElse fuel els h2) s hl
  | .elifThen e, lp, ns, q, h => by
    simp only [scopeElse, Option.some.injEq] at h
    subst h
    exact fun env s hl => withVal_step Λ f hf heq hl s (fail_step fun r => trivial) fun v env1 s1 h1 => Agree.pure (h1.trans hl)
end

end Cordy.Source
