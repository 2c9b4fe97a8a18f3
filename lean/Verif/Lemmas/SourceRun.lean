import Verif.Lemmas.SourceScope
import Verif.Lemmas.SourceStmt
import Verif.Props.Source
import Verif.Props.Full
/-! Lemmas for C81: what is made from the trees does what the trees mean. -/
namespace Cordy.Source
open Cordy.Grammar
open Cordy.Codegen (Expr)
open Cordy.Stmts
open Cordy.Full (Bad langDoc Runtime)
variable {Γ : Codegen.Sig} {Er S : Type}

section
variable {R : Type}
def convR : Stmts.Res (srcSig Γ) S R → Stmts.Res (Full.sig Γ) S R
  | .normal env v s => .normal env v s
  | .brk env s => .brk env s
  | .cont env s => .cont env s
  | .ret v s => .ret v s
  | .stop r => .stop r

def convT : Turn (srcSig Γ) S R → Turn (Full.sig Γ) S R
  | .again env s => .again env s
  | .done r => .done (convR r)

theorem convR_leave (n : Nat) (r : Stmts.Res (srcSig Γ) S R) : (convR r).leave n = convR (r.leave n) := by cases r <;> rfl
theorem afterBody_conv (r : Stmts.Res (srcSig Γ) S R) : afterBody (convR r) = convT (afterBody r) := by cases r <;> rfl
theorem afterElse_conv (back : List Γ.V) (r : Stmts.Res (srcSig Γ) S R) : afterElse (Γ := Full.sig Γ) back (convR r) = convT (afterElse (Γ := srcSig Γ) back r) := by cases r <;> rfl
end

variable {Ρ : Runtime Γ Er S} {I : Scope Γ} {slot : Nat → Γ.X} (hI : ∀ k, I.ofCmp = (Ρ.prims k).ofCmp)
local notation "L" => srcLang Ρ I slot
local notation "L'" => langDoc Ρ

include hI in
theorem eval_conv {p : Names × E} {e : Expr Γ} (h : buildX I slot p = some e) (env : List Γ.V) (s : S) : (L').eval e env s = (L).eval p env s := by
  have := build_value (Ρ.prims env.length) (within I slot p.1) (hI _) p.2 e h (⟨env, rfl⟩, s)
  simp only [langDoc, Full.lang, srcLang, id]
  rw [this]

include hI in
theorem withVal_conv {α β : Type} (h : α → β) {p : Names × E} {e : Expr Γ} (hp : buildX I slot p = some e) (env : List Γ.V) (s : S) (err : Bad Γ.V Er S → α) (k : Γ.V → List Γ.V → S → α) (err' : Bad Γ.V Er S → β) (k' : Γ.V → List Γ.V → S → β)
    (he : ∀ r, err' r = h (err r)) (hk : ∀ v env s, k' v env s = h (k v env s)) : withVal L' e env s err' k' = h (withVal L p env s err k) := by
  simp only [withVal, eval_conv hI hp env s]
  cases (L).eval p env s with
  | error r => exact he r
  | ok x => exact hk _ _ _

include hI in
theorem optVal_conv {α β : Type} (h : α → β) {p : Option (Names × E)} {e : Option (Expr Γ)} (hp : buildO I slot p = some e) (env : List Γ.V) (s : S) (err : Bad Γ.V Er S → α) (k : Γ.V → List Γ.V → S → α) (err' : Bad Γ.V Er S → β) (k' : Γ.V → List Γ.V → S → β)
    (he : ∀ r, err' r = h (err r)) (hk : ∀ v env s, k' v env s = h (k v env s)) : Stmts.optVal L' e env s err' k' = h (Stmts.optVal L p env s err k) := by
  cases p with
  | none => simp only [buildO, Option.some.injEq] at hp; subst hp; exact hk _ _ _
  | some p =>
    simp only [buildO, Option.map_eq_some_iff] at hp
    obtain ⟨e1, hp, rfl⟩ := hp
    exact withVal_conv hI h hp env s err k err' k' he hk

include hI in
theorem testVal_conv {α β : Type} (h : α → β) {t : Test (srcSig Γ)} {t' : Test (Full.sig Γ)} (ht : buildT I slot t = some t') (env : List Γ.V) (s : S) (err : Bad Γ.V Er S → α) (k : Bool → Γ.V → List Γ.V → S → α) (err' : Bad Γ.V Er S → β) (k' : Bool → Γ.V → List Γ.V → S → β)
    (he : ∀ r, err' r = h (err r)) (hk : ∀ b v env s, k' b v env s = h (k b v env s)) : testVal L' t' env s err' k' = h (testVal L t env s err k) := by
  cases t with
  | val p =>
    simp only [buildT, Option.map_eq_some_iff] at ht
    obtain ⟨e, hp, rfl⟩ := ht
    exact withVal_conv hI h hp env s _ _ _ _ he (fun v env s => hk _ _ _ _)
  | cmp c a b sw =>
    simp only [buildT, Option.bind_eq_some_iff, Option.some.injEq] at ht
    obtain ⟨x, hx, y, hy, rfl⟩ := ht
    cases sw
    · exact withVal_conv hI h hx env s _ _ _ _ he (fun v env s => withVal_conv hI h hy env s _ _ _ _ he (fun v env s => hk _ _ _ _))
    · exact withVal_conv hI h hy env s _ _ _ _ he (fun v env s => withVal_conv hI h hx env s _ _ _ _ he (fun v env s => hk _ _ _ _))

theorem loopN_conv {R : Type} (t : List Γ.V → S → Option (Turn (srcSig Γ) S R)) (t' : List Γ.V → S → Option (Turn (Full.sig Γ) S R))
    (h : ∀ env s, t' env s = (t env s).map convT) : ∀ n (env : List Γ.V) s, loopN (Γ := Full.sig Γ) n t' env s = (loopN (Γ := srcSig Γ) n t env s).map convR := by
  intro n
  induction n with
  | zero => intro env s; rfl
  | succ n ih =>
    intro env s
    simp only [loopN, h]
    rcases t env s with _ | (⟨env, s⟩ | r)
    · rfl
    · exact ih _ _
    · rfl

/-- Both bodies do the same. -/
def Conv (f : List Γ.V → S → Option (Stmts.Res (srcSig Γ) S (Bad Γ.V Er S))) (f' : List Γ.V → S → Option (Stmts.Res (Full.sig Γ) S (Bad Γ.V Er S))) : Prop := ∀ env s, f' env s = (f env s).map convR

theorem inScope_conv {f f'} (h : Conv (Γ := Γ) (Er := Er) (S := S) f f') : Conv (Γ := Γ) (Er := Er) (S := S) (inScope (Γ := srcSig Γ) f) (inScope (Γ := Full.sig Γ) f') := by
  intro env s
  simp only [inScope, h env s, Option.map_map]
  congr 1
  funext r
  exact convR_leave _ r

include hI in
theorem whileTurn_conv {p c b b' e e'} (hp : buildX I slot p = some c) (hb : Conv (Γ := Γ) (Er := Er) (S := S) b b') (he : Conv e e') : ∀ env s, whileTurn L' c b' e' env s = (whileTurn L p b e env s).map convT := by
  intro env s
  refine withVal_conv hI (Option.map convT) hp env s _ _ _ _ (fun r => rfl) (fun v env s => ?_)
  show (if Ρ.truthy v s then _ else _) = Option.map _ (if Ρ.truthy v s then _ else _)
  split
  · rw [hb env s]; simp only [Option.map_map]; congr 1; funext r; exact afterBody_conv r
  · rw [he env s]; simp only [Option.map_map]; congr 1; funext r; exact afterElse_conv _ r

include hI in
theorem doTurn_conv {p c b b' e e'} (hp : buildO I slot p = some c) (hb : Conv (Γ := Γ) (Er := Er) (S := S) b b') (he : Conv e e') : ∀ env s, doTurn L' c b' e' env s = (doTurn L p b e env s).map convT := by
  intro env s
  simp only [doTurn, hb env s]
  have hel : ∀ env s, Option.map (afterElse (Γ := Full.sig Γ) []) (e' env s) = Option.map convT (Option.map (afterElse (Γ := srcSig Γ) []) (e env s)) := by
    intro env s
    rw [he env s]; simp only [Option.map_map]; congr 1; funext r; exact afterElse_conv _ r
  rcases b env s with _ | (⟨env, v, s⟩ | _ | _ | _ | _)
  · rfl
  · simp only [Option.map_some, convR]
    cases p with
    | none => simp only [buildO, Option.some.injEq] at hp; subst hp; exact hel env s
    | some p =>
      simp only [buildO, Option.map_eq_some_iff] at hp
      obtain ⟨c1, hp, rfl⟩ := hp
      refine withVal_conv hI (Option.map convT) hp env s _ _ _ _ (fun r => rfl) (fun v env s => ?_)
      show (if Ρ.truthy v s then _ else _) = Option.map _ (if Ρ.truthy v s then _ else _)
      split
      · rfl
      · exact hel env s
  all_goals rfl

theorem assign_conv {α β : Type} (h : α → β) (x : LV (srcSig Γ)) (i : Nat) (v : Γ.V) (env : List Γ.V) (s : S) (err : Bad Γ.V Er S → α) (k : List Γ.V → S → α) (err' : Bad Γ.V Er S → β) (k' : List Γ.V → S → β)
    (he : ∀ r, err' r = h (err r)) (hk : ∀ env s, k' env s = h (k env s)) : assign L' (convLV I slot x) i v env s err' k' = h (assign L x i v env s err k) := by
  cases x with
  | named => exact hk _ _
  | empty => exact hk _ _
  | terms n p =>
    have hd : (L').destr (patIn I slot p) v env s = (L).destr p v env s := rfl
    simp only [assign, convLV, hd]
    cases (L).destr p v env s with
    | error r => exact he r
    | ok x => exact hk _ _

theorem forTurn_conv {x n b b' e e'} (hb : Conv (Γ := Γ) (Er := Er) (S := S) b b') (he : Conv e e') : ∀ env s, forTurn L' (convLV I slot x) n b' e' env s = (forTurn L x n b e env s).map convT := by
  intro env s
  simp only [forTurn]
  cases env.getLast? with
  | none => rfl
  | some it =>
    have hN : (L').next it s = (L).next it s := rfl
    simp only [hN]
    cases (L).next it s with
    | some p =>
      refine assign_conv (Option.map convT) x n p.2 _ s _ _ _ _ (fun r => rfl) (fun env s => ?_)
      rw [hb env s]; simp only [Option.map_map]; congr 1; funext r; exact afterBody_conv r
    | none =>
      simp only
      rw [he _ s]; simp only [Option.map_map]; congr 1; funext r; exact afterElse_conv _ r

theorem convLV_vars (x : LV (srcSig Γ)) : (convLV I slot x).vars = x.vars := by cases x <;> rfl

include hI
mutual
theorem runS_conv (fuel : Nat) : ∀ (st : Stmt (srcSig Γ)) {st' : Stmt (Full.sig Γ)}, buildS I slot st = some st' → Conv (runS L fuel st) (runS L' fuel st')
  | .expr e, st', h => fun env s => by
    simp only [buildS, Option.map_eq_some_iff] at h
    obtain ⟨x, hx, rfl⟩ := h
    exact withVal_conv hI (Option.map convR) hx env s _ _ _ _ (fun r => rfl) (fun v env s => rfl)
  | .semi, st', h => fun env s => by simp only [buildS, Option.some.injEq] at h; subst h; rfl
  | .letIn x e, st', h => fun env s => by
    simp only [buildS, Option.map_eq_some_iff] at h
    obtain ⟨e', hx, rfl⟩ := h
    refine withVal_conv hI (Option.map convR) hx env s _ _ _ _ (fun r => rfl) (fun v env s => ?_)
    cases x with
    | named => rfl
    | empty => rfl
    | terms n p => exact assign_conv (Option.map convR) (.terms n p) _ _ _ _ _ _ _ _ (fun r => rfl) (fun env s => rfl)
  | .decl n, st', h => fun env s => by simp only [buildS, Option.some.injEq] at h; subst h; rfl
  | .ite c t els, st', h => fun env s => by
    simp only [buildS, Option.bind_eq_some_iff, Option.some.injEq] at h
    obtain ⟨c', hc, t', ht, els', he, rfl⟩ := h
    refine withVal_conv hI (Option.map convR) hc env s _ _ _ _ (fun r => rfl) (fun v env s => ?_)
    show (if Ρ.truthy v s then _ else _) = Option.map _ (if Ρ.truthy v s then _ else _)
    split
    · exact inScope_conv (runB_conv fuel t ht) env s
    · exact runElse_conv fuel els he env s
  | .while c body els, st', h => fun env s => by
    simp only [buildS, Option.bind_eq_some_iff, Option.some.injEq] at h
    obtain ⟨c', hc, t', ht, els', he, rfl⟩ := h
    exact loopN_conv _ _ (whileTurn_conv hI hc (inScope_conv (runB_conv fuel body ht)) (inScope_conv (runB_conv fuel els he))) _ _ _
  | .doW body c els, st', h => fun env s => by
    simp only [buildS, Option.bind_eq_some_iff, Option.some.injEq] at h
    obtain ⟨t', ht, c', hc, els', he, rfl⟩ := h
    exact loopN_conv _ _ (doTurn_conv hI hc (inScope_conv (runB_conv fuel body ht)) (inScope_conv (runB_conv fuel els he))) _ _ _
  | .loop body, st', h => fun env s => by
    simp only [buildS, Option.map_eq_some_iff] at h
    obtain ⟨b', hb, rfl⟩ := h
    refine loopN_conv _ _ (fun env s => ?_) _ _ _
    rw [inScope_conv (runB_conv fuel body hb) env s]; simp only [Option.map_map]; congr 1; funext r; exact afterBody_conv r
  | .for x e body els, st', h => fun env s => by
    simp only [buildS, Option.bind_eq_some_iff, Option.some.injEq] at h
    obtain ⟨c', hc, t', ht, els', he, rfl⟩ := h
    refine withVal_conv hI (Option.map convR) hc env s _ _ _ _ (fun r => rfl) (fun v env' s => ?_)
    have hD : (L').iter v (env' ++ List.replicate (convLV I slot x).vars (L').nil) s = (L).iter v (env' ++ List.replicate x.vars (L).nil) s := by rw [convLV_vars]; rfl
    simp only [hD]
    cases (L).iter v (env' ++ List.replicate x.vars (L).nil) s with
    | error r => rfl
    | ok p =>
      obtain ⟨it, s⟩ := p
      simp only [convLV_vars]
      have := loopN_conv _ _ (forTurn_conv (Ρ := Ρ) (I := I) (slot := slot) (x := x) (n := env.length) (inScope_conv (runB_conv fuel body ht)) (inScope_conv (runB_conv fuel els he))) fuel (env' ++ List.replicate x.vars Ρ.nil ++ [it]) s
      have h2 := congrArg (Option.map (Stmts.Res.leave env.length)) this
      refine Eq.trans h2 ?_
      simp only [Option.map_map]; congr 1; funext r; exact convR_leave _ r
  | .brk, st', h => fun env s => by simp only [buildS, Option.some.injEq] at h; subst h; rfl
  | .cont, st', h => fun env s => by simp only [buildS, Option.some.injEq] at h; subst h; rfl
  | .ret e, st', h => fun env s => by
    simp only [buildS, Option.map_eq_some_iff] at h
    obtain ⟨x, hx, rfl⟩ := h
    exact optVal_conv hI (Option.map convR) hx env s _ _ _ _ (fun r => rfl) (fun v env s => rfl)
  | .assert t msg, st', h => fun env s => by
    simp only [buildS, Option.bind_eq_some_iff, Option.some.injEq] at h
    obtain ⟨t', ht, m', hm, rfl⟩ := h
    simp only [runS]
    refine testVal_conv hI (Option.map convR) ht env s _ _ _ _ (fun r => rfl) (fun ok m env s => ?_)
    cases ok
    · exact optVal_conv hI (Option.map convR) hm env s _ _ _ _ (fun r => rfl) (fun v env s => rfl)
    · rfl
theorem runB_conv (fuel : Nat) : ∀ (b : Block (srcSig Γ)) {b' : Block (Full.sig Γ)}, buildB I slot b = some b' → Conv (runB L fuel b) (runB L' fuel b')
  | .nil, b', h => fun env s => by simp only [buildB, Option.some.injEq] at h; subst h; rfl
  | .cons st .nil, b', h => fun env s => by
    simp only [buildB, Option.bind_eq_some_iff, Option.some.injEq] at h
    obtain ⟨s', hs, _, rfl, rfl⟩ := h
    simp only [runB]; exact runS_conv fuel st hs env s
  | .cons st (.cons st1 b), b', h => fun env s => by
    rw [buildB] at h
    simp only [Option.bind_eq_some_iff, Option.some.injEq] at h
    obtain ⟨s', hs, b1, hb, rfl⟩ := h
    have hb0 := hb
    rw [buildB] at hb
    simp only [Option.bind_eq_some_iff, Option.some.injEq] at hb
    obtain ⟨s1', _, b2, _, rfl⟩ := hb
    simp only [runB]
    rw [runS_conv fuel st hs env s]
    rcases runS (L) fuel st env s with _ | (⟨env, v, s⟩ | _ | _ | _ | _)
    case some.normal => exact runB_conv fuel (.cons st1 b) hb0 env s
    all_goals rfl
theorem runElse_conv (fuel : Nat) : ∀ (e : Else (srcSig Γ)) {e' : Else (Full.sig Γ)}, buildE I slot e = some e' → Conv (runElse L fuel e) (runElse L' fuel e')
  | .none, e', h => fun env s => by simp only [buildE, Option.some.injEq] at h; subst h; rfl
  | .els b, e', h => fun env s => by
    simp only [buildE, Option.map_eq_some_iff] at h
    obtain ⟨b', hb, rfl⟩ := h
    exact inScope_conv (runB_conv fuel b hb) env s
  | .elif c t els, e', h => fun env s => by
    simp only [buildE, Option.bind_eq_some_iff, Option.some.injEq] at h
    obtain ⟨c', hc, t', ht, els', he, rfl⟩ := h
    refine withVal_conv hI (Option.map convR) hc env s _ _ _ _ (fun r => rfl) (fun v env s => ?_)
    show (if Ρ.truthy v s then _ else _) = Option.map _ (if Ρ.truthy v s then _ else _)
    split
    · exact inScope_conv (runB_conv fuel t ht) env s
    · exact runElse_conv fuel els he env s
  | .elifThen e, e', h => fun env s => by
    simp only [buildE, Option.map_eq_some_iff] at h
    obtain ⟨x, hx, rfl⟩ := h
    exact withVal_conv hI (Option.map convR) hx env s _ _ _ _ (fun r => rfl) (fun v env s => rfl)
end

omit hI

theorem program_conv (hI : ∀ k, I.ofCmp = (Ρ.prims k).ofCmp) (fuel : Nat) {b : Block (srcSig Γ)} {b' : Block (Full.sig Γ)} (h : buildB I slot b = some b') (s : S) :
    runProgram L' fuel b' s = runProgram L fuel b s := by
  have := runB_conv hI fuel b h [] s
  unfold runProgram
  rw [this]
  rcases runB (L) fuel b [] s with _ | (_ | _ | _ | _ | _) <;> rfl

/-! ## When there is code -/

/-- Every name in it is known. -/
abbrev KnownX (I : Scope Γ) (slot : Nat → Γ.X) (p : Names × E) : Prop := Known (within I slot p.1) p.2

theorem buildX_known (p : Names × E) : (∃ x, buildX I slot p = some x) ↔ KnownX I slot p := build_known _ _

theorem buildO_known (p : Option (Names × E)) : (∃ x, buildO I slot p = some x) ↔ ∀ e, p = some e → KnownX I slot e := by
  cases p with
  | none => simp [buildO]
  | some p =>
    simp only [buildO, Option.some.injEq, forall_eq', ← buildX_known]
    cases buildX I slot p <;> simp

theorem bind_known {α β γ : Type} {a : Option α} {b : Option β} {f : α → β → γ} : (∃ x, (a.bind fun a => b.bind fun b => some (f a b)) = some x) ↔ (∃ x, a = some x) ∧ ∃ x, b = some x := by
  cases a <;> cases b <;> simp

theorem bind3_known {α β γ δ : Type} {a : Option α} {b : Option β} {c : Option γ} {f : α → β → γ → δ} :
    (∃ x, (a.bind fun a => b.bind fun b => c.bind fun c => some (f a b c)) = some x) ↔ (∃ x, a = some x) ∧ (∃ x, b = some x) ∧ ∃ x, c = some x := by
  cases a <;> cases b <;> cases c <;> simp

theorem map_known {α β : Type} {a : Option α} {f : α → β} : (∃ x, a.map f = some x) ↔ ∃ x, a = some x := by cases a <;> simp

theorem buildT_known (t : Test (srcSig Γ)) : (∃ x, buildT I slot t = some x) ↔ t.each (KnownX I slot) := by
  cases t with
  | val e => simp only [buildT, map_known, Test.each, buildX_known]
  | cmp c l r sw => simp only [buildT, bind_known, Test.each, buildX_known]

mutual
theorem buildS_known : ∀ st : Stmt (srcSig Γ), (∃ x, buildS I slot st = some x) ↔ st.each (KnownX I slot)
  | .expr e => by simp only [buildS, map_known, Stmt.each, buildX_known]
  | .semi => by simp [buildS, Stmt.each]
  | .letIn x e => by simp only [buildS, map_known, Stmt.each, buildX_known]
  | .decl n => by simp [buildS, Stmt.each]
  | .ite c t els => by simp only [buildS, bind3_known, Stmt.each, buildX_known, buildB_known t, buildE_known els]
  | .while c t els => by simp only [buildS, bind3_known, Stmt.each, buildX_known, buildB_known t, buildB_known els]
  | .doW t c els => by
    simp only [buildS, bind3_known, Stmt.each, buildO_known, buildB_known t, buildB_known els]
    constructor
    · rintro ⟨a, b, c⟩; exact ⟨b, a, c⟩
    · rintro ⟨a, b, c⟩; exact ⟨b, a, c⟩
  | .loop t => by simp only [buildS, map_known, Stmt.each, buildB_known t]
  | .for x e t els => by simp only [buildS, bind3_known, Stmt.each, buildX_known, buildB_known t, buildB_known els]
  | .brk => by simp [buildS, Stmt.each]
  | .cont => by simp [buildS, Stmt.each]
  | .ret e => by simp only [buildS, map_known, Stmt.each, buildO_known]
  | .assert t m => by simp only [buildS, bind_known, Stmt.each, buildT_known, buildO_known]
theorem buildB_known : ∀ b : Block (srcSig Γ), (∃ x, buildB I slot b = some x) ↔ b.each (KnownX I slot)
  | .nil => by simp [buildB, Block.each]
  | .cons s b => by simp only [buildB, bind_known, Block.each, buildS_known s, buildB_known b]
theorem buildE_known : ∀ e : Else (srcSig Γ), (∃ x, buildE I slot e = some x) ↔ e.each (KnownX I slot)
  | .none => by simp [buildE, Else.each]
  | .els b => by simp only [buildE, map_known, Else.each, buildB_known b]
  | .elif c t els => by simp only [buildE, bind3_known, Else.each, buildX_known, buildB_known t, buildE_known els]
  | .elifThen e => by simp only [buildE, map_known, Else.each, buildX_known]
end

/-! ## Programs for which the rules are exact -/

abbrev NoDotX (p : Names × E) : Prop := NoFieldDot p.2

theorem buildX_noFC {p : Names × E} {e : Expr Γ} (h : buildX I slot p = some e) (hn : NoDotX p) : e.NoFieldCompose := build_noFC _ _ _ h hn

theorem buildO_noFC {p : Option (Names × E)} {e : Option (Expr Γ)} (h : buildO I slot p = some e) (hn : ∀ x, p = some x → NoDotX x) : ∀ x, e = some x → x.NoFieldCompose := by
  cases p with
  | none => simp only [buildO, Option.some.injEq] at h; subst h; simp
  | some p =>
    simp only [buildO, Option.map_eq_some_iff] at h
    obtain ⟨e1, hp, rfl⟩ := h
    simp only [Option.some.injEq, forall_eq']
    exact buildX_noFC hp (hn p rfl)

theorem buildT_noFC {t : Test (srcSig Γ)} {t' : Test (Full.sig Γ)} (h : buildT I slot t = some t') (hn : t.each NoDotX) : t'.each Expr.NoFieldCompose := by
  cases t with
  | val p =>
    simp only [buildT, Option.map_eq_some_iff] at h
    obtain ⟨e, hp, rfl⟩ := h
    exact buildX_noFC hp hn
  | cmp c a b sw =>
    simp only [buildT, Option.bind_eq_some_iff, Option.some.injEq] at h
    obtain ⟨x, hx, y, hy, rfl⟩ := h
    exact ⟨buildX_noFC hx hn.1, buildX_noFC hy hn.2⟩

theorem buildS_isExpr {st : Stmt (srcSig Γ)} {st' : Stmt (Full.sig Γ)} (h : buildS I slot st = some st') : st'.isExpr = st.isExpr := by
  cases st <;> simp only [buildS, Option.map_eq_some_iff, Option.bind_eq_some_iff, Option.some.injEq] at h
  case expr => obtain ⟨_, _, rfl⟩ := h; rfl
  case semi => subst h; rfl
  case letIn => obtain ⟨_, _, rfl⟩ := h; rfl
  case decl => subst h; rfl
  case ite => obtain ⟨_, _, _, _, _, _, rfl⟩ := h; rfl
  case «while» => obtain ⟨_, _, _, _, _, _, rfl⟩ := h; rfl
  case doW => obtain ⟨_, _, _, _, _, _, rfl⟩ := h; rfl
  case loop => obtain ⟨_, _, rfl⟩ := h; rfl
  case «for» => obtain ⟨_, _, _, _, _, _, rfl⟩ := h; rfl
  case brk => subst h; rfl
  case cont => subst h; rfl
  case ret => obtain ⟨_, _, rfl⟩ := h; rfl
  case assert => obtain ⟨_, _, _, _, rfl⟩ := h; rfl

mutual
theorem buildS_ok : ∀ {st : Stmt (srcSig Γ)} {st' : Stmt (Full.sig Γ)} {lp after}, buildS I slot st = some st' → st.ok lp after → st.each NoDotX → st'.ok lp after ∧ st'.each Expr.NoFieldCompose
  | .expr e, st', lp, after, h => fun hok hn => by
    simp only [buildS, Option.map_eq_some_iff] at h
    obtain ⟨x, hx, rfl⟩ := h
    exact ⟨True.intro, buildX_noFC hx hn⟩
  | .semi, st', lp, after, h => fun hok hn => by simp only [buildS, Option.some.injEq] at h; subst h; exact ⟨True.intro, True.intro⟩
  | .letIn x e, st', lp, after, h => fun hok hn => by
    simp only [buildS, Option.map_eq_some_iff] at h
    obtain ⟨x, hx, rfl⟩ := h
    exact ⟨True.intro, buildX_noFC hx hn⟩
  | .decl n, st', lp, after, h => fun hok hn => by simp only [buildS, Option.some.injEq] at h; subst h; exact ⟨True.intro, True.intro⟩
  | .ite c t els, st', lp, after, h => fun hok hn => by
    simp only [buildS, Option.bind_eq_some_iff, Option.some.injEq] at h
    obtain ⟨c', hc, t', ht, els', he, rfl⟩ := h
    have h1 := buildB_ok ht hok.1 hn.2.1
    have h2 := buildE_ok he hok.2 hn.2.2
    exact ⟨⟨h1.1, h2.1⟩, buildX_noFC hc hn.1, h1.2, h2.2⟩
  | .while c t els, st', lp, after, h => fun hok hn => by
    simp only [buildS, Option.bind_eq_some_iff, Option.some.injEq] at h
    obtain ⟨c', hc, t', ht, els', he, rfl⟩ := h
    have h1 := buildB_ok ht hok.1 hn.2.1
    have h2 := buildB_ok he hok.2 hn.2.2
    exact ⟨⟨h1.1, h2.1⟩, buildX_noFC hc hn.1, h1.2, h2.2⟩
  | .doW t c els, st', lp, after, h => fun hok hn => by
    simp only [buildS, Option.bind_eq_some_iff, Option.some.injEq] at h
    obtain ⟨t', ht, c', hc, els', he, rfl⟩ := h
    have h1 := buildB_ok ht hok.2.1 hn.2.1
    have h2 := buildB_ok he hok.2.2 hn.2.2
    exact ⟨⟨hok.1, h1.1, h2.1⟩, buildO_noFC hc hn.1, h1.2, h2.2⟩
  | .loop t, st', lp, after, h => fun hok hn => by
    simp only [buildS, Option.map_eq_some_iff] at h
    obtain ⟨b', hb, rfl⟩ := h
    exact buildB_ok hb hok hn
  | .for x e t els, st', lp, after, h => fun hok hn => by
    simp only [buildS, Option.bind_eq_some_iff, Option.some.injEq] at h
    obtain ⟨c', hc, t', ht, els', he, rfl⟩ := h
    have h1 := buildB_ok ht hok.1 hn.2.1
    have h2 := buildB_ok he hok.2 hn.2.2
    exact ⟨⟨h1.1, h2.1⟩, buildX_noFC hc hn.1, h1.2, h2.2⟩
  | .brk, st', lp, after, h => fun hok hn => by simp only [buildS, Option.some.injEq] at h; subst h; exact ⟨hok, True.intro⟩
  | .cont, st', lp, after, h => fun hok hn => by simp only [buildS, Option.some.injEq] at h; subst h; exact ⟨hok, True.intro⟩
  | .ret e, st', lp, after, h => fun hok hn => by
    simp only [buildS, Option.map_eq_some_iff] at h
    obtain ⟨x, hx, rfl⟩ := h
    exact ⟨True.intro, buildO_noFC hx hn⟩
  | .assert t m, st', lp, after, h => fun hok hn => by
    simp only [buildS, Option.bind_eq_some_iff, Option.some.injEq] at h
    obtain ⟨t', ht, m', hm, rfl⟩ := h
    exact ⟨True.intro, buildT_noFC ht hn.1, buildO_noFC hm hn.2⟩
theorem buildB_ok : ∀ {b : Block (srcSig Γ)} {b' : Block (Full.sig Γ)} {lp after}, buildB I slot b = some b' → b.ok lp after → b.each NoDotX → b'.ok lp after ∧ b'.each Expr.NoFieldCompose
  | .nil, b', lp, after, h => fun hok hn => by simp only [buildB, Option.some.injEq] at h; subst h; exact ⟨True.intro, True.intro⟩
  | .cons s b, b', lp, after, h => fun hok hn => by
    simp only [buildB, Option.bind_eq_some_iff, Option.some.injEq] at h
    obtain ⟨s', hs, b1, hb, rfl⟩ := h
    have h1 := buildS_ok hs hok.1 hn.1
    have h2 := buildB_ok hb hok.2 hn.2
    exact ⟨⟨h1.1, by rw [buildS_isExpr hs]; exact h2.1⟩, h1.2, h2.2⟩
theorem buildE_ok : ∀ {e : Else (srcSig Γ)} {e' : Else (Full.sig Γ)} {lp}, buildE I slot e = some e' → e.ok lp → e.each NoDotX → e'.ok lp ∧ e'.each Expr.NoFieldCompose
  | .none, e', lp, h => fun hok hn => by simp only [buildE, Option.some.injEq] at h; subst h; exact ⟨True.intro, True.intro⟩
  | .els b, e', lp, h => fun hok hn => by
    simp only [buildE, Option.map_eq_some_iff] at h
    obtain ⟨b', hb, rfl⟩ := h
    exact buildB_ok hb hok hn
  | .elif c t els, e', lp, h => fun hok hn => by
    simp only [buildE, Option.bind_eq_some_iff, Option.some.injEq] at h
    obtain ⟨c', hc, t', ht, els', he, rfl⟩ := h
    have h1 := buildB_ok ht hok.1 hn.2.1
    have h2 := buildE_ok he hok.2 hn.2.2
    exact ⟨⟨h1.1, h2.1⟩, buildX_noFC hc hn.1, h1.2, h2.2⟩
  | .elifThen e, e', lp, h => fun hok => hok.elim
end

end Cordy.Source
