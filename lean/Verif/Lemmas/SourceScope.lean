import Verif.Spec.SourceStmt
/-! Lemmas for C81: the variables of the parser are those of the scopes. -/
namespace Cordy.Source
open Cordy.Grammar
open Cordy.Codegen (Expr)
variable {Γ : Codegen.Sig}

/-! ## Expressions with their scopes -/

/-- What the code of an expression is made from. -/
def buildX (I : Scope Γ) (slot : Nat → Γ.X) (p : Names × E) : Option (Expr Γ) := build (within I slot p.1) p.2

def buildO (I : Scope Γ) (slot : Nat → Γ.X) : Option (Names × E) → Option (Option (Expr Γ))
  | none => some none
  | some p => (buildX I slot p).map some

def buildT (I : Scope Γ) (slot : Nat → Γ.X) : Stmts.Test (srcSig Γ) → Option (Stmts.Test (Full.sig Γ))
  | .val e => (buildX I slot e).map .val
  | .cmp c l r sw => (buildX I slot l).bind fun l => (buildX I slot r).bind fun r => some (.cmp c l r sw)

def convLV (I : Scope Γ) (slot : Nat → Γ.X) : Stmts.LV (srcSig Γ) → Stmts.LV (Full.sig Γ)
  | .named => .named
  | .empty => .empty
  | .terms n p => .terms n (patIn I slot p)

mutual
def buildS (I : Scope Γ) (slot : Nat → Γ.X) : Stmts.Stmt (srcSig Γ) → Option (Stmts.Stmt (Full.sig Γ))
  | .expr e => (buildX I slot e).map .expr
  | .semi => some .semi
  | .letIn l e => (buildX I slot e).map (.letIn (convLV I slot l))
  | .decl n => some (.decl n)
  | .ite c t els => (buildX I slot c).bind fun c => (buildB I slot t).bind fun t => (buildE I slot els).bind fun els => some (.ite c t els)
  | .while c body els => (buildX I slot c).bind fun c => (buildB I slot body).bind fun body => (buildB I slot els).bind fun els => some (.while c body els)
  | .doW body c els => (buildB I slot body).bind fun body => (buildO I slot c).bind fun c => (buildB I slot els).bind fun els => some (.doW body c els)
  | .loop body => (buildB I slot body).map .loop
  | .for l e body els => (buildX I slot e).bind fun e => (buildB I slot body).bind fun body => (buildB I slot els).bind fun els => some (.for (convLV I slot l) e body els)
  | .brk => some .brk
  | .cont => some .cont
  | .ret e => (buildO I slot e).map .ret
  | .assert t msg => (buildT I slot t).bind fun t => (buildO I slot msg).bind fun m => some (.assert t m)
def buildB (I : Scope Γ) (slot : Nat → Γ.X) : Stmts.Block (srcSig Γ) → Option (Stmts.Block (Full.sig Γ))
  | .nil => some .nil
  | .cons s b => (buildS I slot s).bind fun s => (buildB I slot b).bind fun b => some (.cons s b)
def buildE (I : Scope Γ) (slot : Nat → Γ.X) : Stmts.Else (srcSig Γ) → Option (Stmts.Else (Full.sig Γ))
  | .none => some .none
  | .els b => (buildB I slot b).map .els
  | .elif c t els => (buildX I slot c).bind fun c => (buildB I slot t).bind fun t => (buildE I slot els).bind fun els => some (.elif c t els)
  | .elifThen e => (buildX I slot e).map .elifThen
end

def buildL (I : Scope Γ) (slot : Nat → Γ.X) : List (Stmts.Stmt (srcSig Γ)) → Option (List (Stmts.Stmt (Full.sig Γ)))
  | [] => some []
  | s :: ss => (buildS I slot s).bind fun s => (buildL I slot ss).bind fun ss => some (s :: ss)

theorem build_append (I : Scope Γ) (slot : Nat → Γ.X) (ss : List (Stmts.Stmt (srcSig Γ))) (b : Stmts.Block (srcSig Γ)) :
    buildB I slot (appendB ss b) = (buildL I slot ss).bind fun ss => (buildB I slot b).bind fun b => some (appendB ss b) := by
  induction ss with
  | nil => simp [appendB, buildL]
  | cons s ss ih =>
    simp only [appendB, buildB, ih, buildL]
    cases buildS I slot s <;> cases buildL I slot ss <;> cases buildB I slot b <;> rfl

/-! ## Variables -/

/-- Variables that are declared and initialised. -/
def varsOf (depth : Nat) (xs : List String) : List Var := xs.map (⟨some ·, depth, true⟩)

/-- The variables of the parser are those in scope. -/
structure Inv (vs : List Var) (outer here : Names) (depth : Nat) : Prop where
  names : vs.map (·.name) = outer ++ here
  init : ∀ v ∈ vs, v.name ≠ none → v.init = true
  le : ∀ v ∈ vs, v.depth ≤ depth
  cur : ∀ x, (∃ v ∈ vs, v.depth = depth ∧ v.name = some x) ↔ some x ∈ here

theorem findVar_init (x : String) (vs : List Var) (h : ∀ v ∈ vs, v.name ≠ none → v.init = true) : findVar x vs = place x (vs.map (·.name)) := by
  induction vs with
  | nil => rfl
  | cons v vs ih =>
    simp only [findVar, List.map_cons, place, ih fun w hw => h w (List.mem_cons_of_mem _ hw)]
    cases place x (vs.map (·.name)) with
    | some i => rfl
    | none =>
      simp only
      by_cases hx : v.name = some x
      · simp [hx, h v (by simp) (by simp [hx])]
      · simp [hx]

theorem findVar_uninit (y : String) (vs us : List Var) (h : ∀ u ∈ us, u.init = false) : findVar y (vs ++ us) = findVar y vs := by
  induction vs with
  | nil =>
    induction us with
    | nil => rfl
    | cons u us ih =>
      have := ih fun w hw => h w (List.mem_cons_of_mem _ hw)
      simp only [List.nil_append, findVar] at this ⊢
      simp [this, h u (by simp)]
  | cons v vs ih => simp only [List.cons_append, findVar, ih]

/-! ## The variables of a pattern -/

theorem place_append (x : String) (a b : Names) : place x (a ++ b) = match place x b with | some i => some (a.length + i) | none => place x a := by
  induction a with
  | nil => cases h : place x b <;> simp [h, place]
  | cons n a ih =>
    simp only [List.cons_append, place, ih]
    cases place x b with
    | none => rfl
    | some i => simp; omega

theorem place_none {x : String} {xs : List String} (h : x ∉ xs) : place x (xs.map some) = none := by
  induction xs with
  | nil => rfl
  | cons y xs ih =>
    simp only [List.mem_cons, not_or] at h
    simp only [List.map_cons, place, ih h.2]
    simp [Ne.symm h.1]

theorem place_at {x : String} {pre post : List String} (ns : Names) (h : (pre ++ x :: post).Nodup) : place x (ns ++ (pre ++ x :: post).map some) = some (ns.length + pre.length) := by
  have hx : x ∉ post := by
    have := (List.nodup_append.1 h).2.1
    exact (List.nodup_cons.1 this).1
  have : place x ((x :: post).map some) = some 0 := by
    simp [place, place_none hx]
  rw [List.map_append, place_append, place_append, this]
  simp

mutual
theorem numberP_eq (slot : Nat → Γ.X) (ns : Names) : ∀ (p : Pat String) (pre post : List String), (pre ++ (p.vars ++ post)).Nodup →
    numberP slot (ns.length + pre.length) p = p.map (fun x => slot ((place x (ns ++ (pre ++ (p.vars ++ post)).map some)).getD 0))
  | .name x, pre, post, h => by simp only [Pat.vars, List.singleton_append] at h; simp only [numberP, Pat.map, Pat.vars, List.singleton_append, place_at ns h]; rfl
  | .star x, pre, post, h => by simp only [Pat.vars, List.singleton_append] at h; simp only [numberP, Pat.map, Pat.vars, List.singleton_append, place_at ns h]; rfl
  | .hole, pre, post, h => rfl
  | .starHole, pre, post, h => rfl
  | .terms ps, pre, post, h => by
    simp only [Pat.vars] at h
    simp only [numberP, Pat.map, Pat.vars, numberAll_eq slot ns ps pre post h]
theorem numberAll_eq (slot : Nat → Γ.X) (ns : Names) : ∀ (ps : List (Pat String)) (pre post : List String), (pre ++ (Pat.varsAll ps ++ post)).Nodup →
    numberAll slot (ns.length + pre.length) ps = Pat.mapAll (fun x => slot ((place x (ns ++ (pre ++ (Pat.varsAll ps ++ post)).map some)).getD 0)) ps
  | [], pre, post, h => rfl
  | p :: ps, pre, post, h => by
    simp only [Pat.varsAll, List.append_assoc] at h
    have h1 := numberP_eq slot ns p pre (Pat.varsAll ps ++ post) h
    have h2 := numberAll_eq slot ns ps (pre ++ p.vars) post (by simpa using h)
    simp only [List.append_assoc, List.length_append, ← Nat.add_assoc] at h2
    simp only [numberAll, Pat.mapAll, Pat.varsAll, List.append_assoc, h1, h2]
end

theorem target_eq (I : Scope Γ) (slot : Nat → Γ.X) (ns : Names) (ps : List (Pat String)) (h : (Pat.varsAll ps).Nodup) : target I slot ns.length ps = convLV I slot (into ns ps) := by
  unfold target into
  split
  · rfl
  · rfl
  · rfl
  · rfl
  · have := numberAll_eq slot ns ps [] [] (by simpa using h)
    simp only [List.length_nil, Nat.add_zero, List.nil_append, List.append_nil] at this
    simp only [convLV, patIn, this]

theorem into_vars (ns : Names) (ps : List (Pat String)) : (into (Γ := Γ) ns ps).vars = (Pat.varsAll ps).length := by
  unfold into
  split <;> rfl

theorem Inv.scope {vs : List Var} {outer here : Names} {depth : Nat} (h : Inv vs outer here depth) (I : Scope Γ) (slot : Nat → Γ.X) : scopeOf I slot vs = within I slot (outer ++ here) := by
  unfold scopeOf within
  congr
  funext x
  rw [findVar_init x vs h.init, h.names]
  rfl

theorem Inv.scope_uninit {vs : List Var} {outer here : Names} {depth : Nat} (h : Inv vs outer here depth) (I : Scope Γ) (slot : Nat → Γ.X) (us : List Var) (hu : ∀ u ∈ us, u.init = false) :
    scopeOf I slot (vs ++ us) = within I slot (outer ++ here) := by
  rw [← h.scope I slot]
  unfold scopeOf
  congr
  funext x
  rw [findVar_uninit x vs us hu]

theorem Inv.push {vs : List Var} {outer here : Names} {depth : Nat} (h : Inv vs outer here depth) (x : String) : Inv (vs ++ [⟨some x, depth, true⟩]) outer (here ++ [some x]) depth := by
  refine ⟨by simp [h.names], ?_, ?_, ?_⟩
  · intro v hv
    rcases List.mem_append.1 hv with hv | hv
    · exact h.init v hv
    · simp only [List.mem_singleton] at hv; subst hv; intro; rfl
  · intro v hv
    rcases List.mem_append.1 hv with hv | hv
    · exact h.le v hv
    · simp only [List.mem_singleton] at hv; subst hv; exact Nat.le_refl _
  · intro y
    rw [List.mem_append, ← h.cur y]
    constructor
    · rintro ⟨v, hv, h1, h2⟩
      rcases List.mem_append.1 hv with hv | hv
      · exact .inl ⟨v, hv, h1, h2⟩
      · simp only [List.mem_singleton] at hv; subst hv; right; simp at h2; simp [h2]
    · rintro (⟨v, hv, h1, h2⟩ | hy)
      · exact ⟨v, List.mem_append_left _ hv, h1, h2⟩
      · simp only [List.mem_singleton, Option.some.injEq] at hy; subst hy
        exact ⟨⟨some y, depth, true⟩, List.mem_append_right _ (by simp), rfl, rfl⟩

theorem Inv.pushAll {vs : List Var} {outer here : Names} {depth : Nat} (h : Inv vs outer here depth) (xs : List String) : Inv (vs ++ varsOf depth xs) outer (here ++ xs.map some) depth := by
  induction xs generalizing vs here with
  | nil => simpa [varsOf] using h
  | cons x xs ih =>
    have := ih (h.push x)
    simpa [varsOf] using this

theorem Inv.into {vs : List Var} {outer here : Names} {depth : Nat} (h : Inv vs outer here depth) : Inv vs (outer ++ here) [] (depth + 1) := by
  refine ⟨by simp [h.names], h.init, fun v hv => Nat.le_succ_of_le (h.le v hv), fun x => ?_⟩
  constructor
  · rintro ⟨v, hv, h1, _⟩
    have := h.le v hv
    omega
  · intro h; cases h

theorem Inv.loop {vs : List Var} {outer here : Names} {depth : Nat} (h : Inv vs outer here depth) (xs : List String) :
    Inv (vs ++ varsOf (depth + 1) xs ++ [⟨none, depth + 1, false⟩]) (outer ++ here ++ xs.map some ++ [none]) [] (depth + 2) := by
  refine ⟨by simp [h.names, varsOf], ?_, ?_, ?_⟩
  · intro v hv hn
    simp only [varsOf, List.mem_append, List.mem_map, List.mem_singleton] at hv
    rcases hv with (hv | ⟨x, _, rfl⟩) | rfl
    · exact h.init v hv hn
    · rfl
    · exact absurd rfl hn
  · intro v hv
    simp only [varsOf, List.mem_append, List.mem_map, List.mem_singleton] at hv
    rcases hv with (hv | ⟨x, _, rfl⟩) | rfl
    · have := h.le v hv; omega
    · exact Nat.le_succ _
    · exact Nat.le_succ _
  · intro y
    constructor
    · rintro ⟨v, hv, h1, _⟩
      simp only [varsOf, List.mem_append, List.mem_map, List.mem_singleton] at hv
      rcases hv with (hv | ⟨x, _, rfl⟩) | rfl
      · have := h.le v hv; omega
      · simp at h1
      · simp at h1
    · intro h; cases h

/-- A block ends: its variables go, the others stay. -/
theorem popVars_eq (depth : Nat) (vs us : List Var) (h : ∀ v ∈ vs, v.depth < depth) (hu : ∀ u ∈ us, depth ≤ u.depth) : popVars depth (vs ++ us) = vs := by
  unfold popVars
  have h1 : (vs.countP fun v => decide (v.depth < depth)) = vs.length := List.countP_eq_length.2 fun v hv => by simpa using h v hv
  have h2 : (us.countP fun v => decide (v.depth < depth)) = 0 := List.countP_eq_zero.2 fun v hv => by simpa using hu v hv
  rw [List.countP_append, h1, h2]
  simp

theorem declare_eq {I : Scope Γ} {depth : Nat} {x : String} {vs : List Var} {here : Names} (cur : ∀ x, (∃ v ∈ vs, v.depth = depth ∧ v.name = some x) ↔ some x ∈ here) :
    declare I depth x vs = if Free I here x then some (vs ++ [⟨some x, depth, false⟩]) else none := by
  have hany : (vs.any fun v => decide (v.depth = depth ∧ v.name = some x)) = decide (some x ∈ here) := by
    rw [Bool.eq_iff_iff]
    simp only [List.any_eq_true, decide_eq_true_eq]
    exact cur x
  unfold declare Free
  rw [hany]
  by_cases h1 : I.name x = none
  · by_cases h2 : some x ∈ here
    · simp [h1, h2]
    · simp [h1, h2]
  · simp [h1, Option.isSome_iff_ne_none.2 h1]

theorem cur_push {vs : List Var} {here : Names} {depth : Nat} (cur : ∀ x, (∃ v ∈ vs, v.depth = depth ∧ v.name = some x) ↔ some x ∈ here) (x : String) (i : Bool) :
    ∀ y, (∃ v ∈ vs ++ [⟨some x, depth, i⟩], v.depth = depth ∧ v.name = some y) ↔ some y ∈ here ++ [some x] := by
  intro y
  rw [List.mem_append, ← cur y]
  constructor
  · rintro ⟨v, hv, h1, h2⟩
    rcases List.mem_append.1 hv with hv | hv
    · exact .inl ⟨v, hv, h1, h2⟩
    · simp only [List.mem_singleton] at hv; subst hv; right; simp at h2; simp [h2]
  · rintro (⟨v, hv, h1, h2⟩ | hy)
    · exact ⟨v, List.mem_append_left _ hv, h1, h2⟩
    · simp only [List.mem_singleton, Option.some.injEq] at hy; subst hy
      exact ⟨⟨some y, depth, i⟩, List.mem_append_right _ (by simp), rfl, rfl⟩

theorem declareAll_eq {I : Scope Γ} {depth : Nat} (xs : List String) : ∀ {vs : List Var} {here : Names} (_ : ∀ x, (∃ v ∈ vs, v.depth = depth ∧ v.name = some x) ↔ some x ∈ here),
    declareAll I depth xs vs = if xs.Nodup ∧ ∀ x ∈ xs, Free I here x then some (vs ++ xs.map (⟨some ·, depth, false⟩)) else none := by
  induction xs with
  | nil => intro vs here cur; simp [declareAll]
  | cons x xs ih =>
    intro vs here cur
    simp only [declareAll, declare_eq cur]
    by_cases hx : Free I here x
    · simp only [hx, if_true, Option.bind_some, ih (cur_push cur x false)]
      have key : (xs.Nodup ∧ ∀ y ∈ xs, Free I (here ++ [some x]) y) ↔ ((x :: xs).Nodup ∧ ∀ y ∈ x :: xs, Free I here y) := by
        simp only [List.nodup_cons, List.mem_cons, forall_eq_or_imp]
        constructor
        · rintro ⟨h1, h2⟩
          refine ⟨⟨fun hm => ?_, h1⟩, hx, fun y hy => ⟨(h2 y hy).1, fun hm => (h2 y hy).2 (by simp [hm])⟩⟩
          exact (h2 x hm).2 (by simp)
        · rintro ⟨⟨h1, h2⟩, _, h3⟩
          refine ⟨h2, fun y hy => ⟨(h3 y hy).1, fun hm => ?_⟩⟩
          rcases List.mem_append.1 hm with hm | hm
          · exact (h3 y hy).2 hm
          · simp only [List.mem_singleton, Option.some.injEq] at hm; subst hm; exact h1 hy
      by_cases hc : (x :: xs).Nodup ∧ ∀ y ∈ x :: xs, Free I here y
      · rw [if_pos (key.2 hc), if_pos hc]; simp
      · rw [if_neg (fun h => hc (key.1 h)), if_neg hc]
    · simp only [hx, if_false, Option.bind_none]
      rw [if_neg]
      rintro ⟨_, h⟩
      exact hx (h x (by simp))

theorem initFrom_eq (vs us : List Var) : initFrom vs.length (vs ++ us) = vs ++ us.map fun v => { v with init := true } := by
  simp [initFrom]

theorem init_map (depth : Nat) (xs : List String) : (xs.map (fun x => (⟨some x, depth, false⟩ : Var))).map (fun v => { v with init := true }) = varsOf depth xs := by simp [varsOf]

theorem uninit (depth : Nat) (xs : List String) : ∀ u ∈ xs.map (fun x => (⟨some x, depth, false⟩ : Var)), u.init = false := by
  intro u hu
  simp only [List.mem_map] at hu
  obtain ⟨x, _, rfl⟩ := hu
  rfl

/-- The names that a `let` declares. -/
def Dec.declared : Dec → List String
  | .bind ps _ => Pat.varsAll ps
  | .names xs => xs

def SStmt.declared : SStmt → List String
  | .lets ds => ds.flatMap Dec.declared
  | _ => []

def SBlock.declared : SBlock → List String
  | .nil => []
  | .cons s b => s.declared ++ b.declared

theorem compDecs_eq (I : Scope Γ) (slot : Nat → Γ.X) (depth : Nat) (outer : Names) : ∀ (ds : List Dec) {vs : List Var} {here : Names}, Inv vs outer here depth →
    compDecs I slot depth ds vs = (scopeDecs I outer ds here).bind fun p => (buildL I slot p.1).bind fun ss => some (ss, vs ++ varsOf depth (ds.flatMap Dec.declared))
  | [], vs, here, h => by simp [compDecs, scopeDecs, buildL, varsOf]
  | .bind ps e :: ds, vs, here, h => by
    simp only [compDecs, scopeDecs, declareAll_eq (Pat.varsAll ps) h.cur]
    by_cases hx : (Pat.varsAll ps).Nodup ∧ ∀ x ∈ Pat.varsAll ps, Free I here x
    · have hl : vs.length = (outer ++ here).length := by rw [← h.names, List.length_map]
      rw [if_pos hx, if_pos hx]
      simp only [Option.bind_some, h.scope_uninit I slot _ (uninit depth (Pat.varsAll ps)), initFrom_eq, init_map]
      simp only [hl, target_eq I slot _ ps hx.1, compDecs_eq I slot depth outer ds (h.pushAll (Pat.varsAll ps))]
      cases scopeDecs I outer ds (here ++ (Pat.varsAll ps).map some) with
      | none => simp
      | some p =>
        simp only [Option.bind_some, Option.map_some, buildL, buildS, buildX]
        cases build (within I slot (outer ++ here)) e with
        | none => simp
        | some e' =>
          simp only [Option.bind_some, Option.map_some]
          cases buildL I slot p.1 <;> simp [varsOf, Dec.declared]
    · rw [if_neg hx, if_neg hx]; simp
  | .names xs :: ds, vs, here, h => by
    simp only [compDecs, scopeDecs, declareAll_eq xs h.cur]
    by_cases hx : xs.Nodup ∧ ∀ x ∈ xs, Free I here x
    · have e1 : (xs.map (fun x => (⟨some x, depth, false⟩ : Var))).map (fun v => { v with init := true }) = varsOf depth xs := by simp [varsOf]
      have := h.pushAll xs
      rw [if_pos hx, if_pos hx]
      simp only [Option.bind_some, initFrom_eq, e1]
      rw [compDecs_eq I slot depth outer ds this]
      cases scopeDecs I outer ds (here ++ xs.map some) with
      | none => simp
      | some p =>
        simp only [Option.bind_some, Option.map_some, buildL, buildS]
        cases buildL I slot p.1 <;> simp [varsOf, Dec.declared]
    · rw [if_neg hx, if_neg hx]; simp

theorem scopeDecs_names (I : Scope Γ) (outer : Names) : ∀ (ds : List Dec) (here : Names) (p), scopeDecs I outer ds here = some p → p.2 = here ++ (ds.flatMap Dec.declared).map some
  | [], here, p, h => by simp [scopeDecs] at h; subst h; simp
  | .bind ps e :: ds, here, p, h => by
    simp only [scopeDecs] at h
    split at h
    · cases hd : scopeDecs I outer ds (here ++ (Pat.varsAll ps).map some) with
      | none => simp [hd] at h
      | some q =>
        rw [hd] at h
        simp only [Option.map_some, Option.some.injEq] at h
        subst h
        simp [scopeDecs_names I outer ds _ _ hd, Dec.declared]
    · simp at h
  | .names xs :: ds, here, p, h => by
    simp only [scopeDecs] at h
    split at h
    · cases hd : scopeDecs I outer ds (here ++ xs.map some) with
      | none => simp [hd] at h
      | some q =>
        rw [hd] at h
        simp only [Option.map_some, Option.some.injEq] at h
        subst h
        simp [scopeDecs_names I outer ds _ _ hd, Dec.declared]
    · simp at h

theorem SBlock.declared_depth (depth : Nat) (xs : List String) : ∀ u ∈ varsOf depth xs, depth ≤ u.depth := by
  intro u hu
  simp only [varsOf, List.mem_map] at hu
  obtain ⟨x, _, rfl⟩ := hu
  exact Nat.le_refl _

theorem opt {α : Type _} (o : Option α) : o = none ∨ ∃ a, o = some a := by cases o <;> simp

/-- A block, when its statements are those in scope. -/
theorem compBlock_of {I : Scope Γ} {slot : Nat → Γ.X} {depth : Nat} {lp : Bool} {b : SBlock} {vs : List Var} {ns : Names} (hle : ∀ v ∈ vs, v.depth ≤ depth)
    (h : compB I slot (depth + 1) lp b vs = (scopeB I lp ns b []).bind fun b' => (buildB I slot b').bind fun b' => some (b', vs ++ varsOf (depth + 1) b.declared)) :
    compBlock I slot depth lp b vs = (scopeB I lp ns b []).bind fun b' => (buildB I slot b').bind fun b' => some (b', vs) := by
  rw [compBlock, h]
  have hp : popVars (depth + 1) (vs ++ varsOf (depth + 1) b.declared) = vs := popVars_eq _ _ _ (fun v hv => Nat.lt_succ_of_le (hle v hv)) (SBlock.declared_depth _ _)
  cases scopeB I lp ns b [] with
  | none => rfl
  | some b' =>
    simp only [Option.bind_some]
    cases buildB I slot b' with
    | none => rfl
    | some b'' => simp only [Option.bind_some, hp]

theorem compTest_eq (I : Scope Γ) (slot : Nat → Γ.X) (ns : Names) (e : E) : compTest (within I slot ns) e = buildT I slot (tested I ns e) := by
  unfold compTest
  split
  · rfl
  · rename_i h; rw [tested]; · rfl
    · exact h

theorem compOpt_eq (I : Scope Γ) (slot : Nat → Γ.X) (ns : Names) (e : Option E) : compOpt (within I slot ns) e = buildO I slot (e.map (ns, ·)) := by
  cases e <;> rfl

mutual
theorem compB_eq (I : Scope Γ) (slot : Nat → Γ.X) (lp : Bool) : ∀ (b : SBlock) {vs : List Var} {outer here : Names} {depth : Nat}, Inv vs outer here depth →
    compB I slot depth lp b vs = (scopeB I lp outer b here).bind fun b' => (buildB I slot b').bind fun b' => some (b', vs ++ varsOf depth b.declared)
  | .nil, vs, outer, here, depth, h => by simp [compB, scopeB, buildB, varsOf, SBlock.declared]
  | .cons s b, vs, outer, here, depth, h => by
    by_cases hs : ∃ ds, s = .lets ds
    · obtain ⟨ds, rfl⟩ := hs
      rw [compB, compS, compDecs_eq I slot depth outer ds h, scopeB]
      cases hd : scopeDecs I outer ds here with
      | none => rfl
      | some p =>
        obtain ⟨ss, here'⟩ := p
        have hh : here' = here ++ (ds.flatMap Dec.declared).map some := scopeDecs_names I outer ds here _ hd
        have h' : Inv (vs ++ varsOf depth (ds.flatMap Dec.declared)) outer here' depth := by rw [hh]; exact h.pushAll _
        have ih := compB_eq I slot lp b h'
        simp only [Option.bind_some]
        cases hss : buildL I slot ss with
        | none =>
          cases scopeB I lp outer b here' <;> simp [build_append, hss]
        | some ss' =>
          simp only [Option.bind_some, ih]
          cases scopeB I lp outer b here' with
          | none => rfl
          | some b1 =>
            simp only [Option.bind_some, Option.map_some, build_append, hss]
            cases buildB I slot b1 <;> simp [varsOf, SBlock.declared, SStmt.declared]
    · have hs' : ∀ ds, s = .lets ds → False := fun ds e => hs ⟨ds, e⟩
      have hd : s.declared = [] := by cases s <;> first | rfl | exact (hs' _ rfl).elim
      rw [compB, compS_eq I slot lp s hs' h, scopeB]
      · cases scopeS I lp (outer ++ here) s with
        | none => rfl
        | some s1 =>
          simp only [Option.bind_some]
          have ih := compB_eq I slot lp b h
          cases hs1 : buildS I slot s1 with
          | none => cases scopeB I lp outer b here <;> simp [buildB, hs1]
          | some s2 =>
            simp only [Option.bind_some, ih]
            cases scopeB I lp outer b here with
            | none => rfl
            | some b1 =>
              simp only [Option.bind_some, buildB, hs1]
              cases buildB I slot b1 <;> simp [SBlock.declared, hd, appendB]
      · exact hs'
theorem compS_eq (I : Scope Γ) (slot : Nat → Γ.X) (lp : Bool) : ∀ (s : SStmt) (_ : ∀ ds, s = .lets ds → False) {vs : List Var} {outer here : Names} {depth : Nat}, Inv vs outer here depth →
    compS I slot depth lp s vs = (scopeS I lp (outer ++ here) s).bind fun s' => (buildS I slot s').bind fun s' => some ([s'], vs)
  | .expr e, _, vs, outer, here, depth, h => by
    simp only [compS, scopeS, h.scope, Option.bind_some, buildS, buildX]
    cases build (within I slot (outer ++ here)) e <;> rfl
  | .semi, _, vs, outer, here, depth, h => by simp [compS, scopeS, buildS]
  | .lets ds, hs, vs, outer, here, depth, h => (hs ds rfl).elim
  | .ite c t els, _, vs, outer, here, depth, h => by
    have h1 := compBlock_of h.le (compB_eq I slot lp t h.into)
    have h2 := compElse_eq I slot lp els h
    simp only [compS, scopeS, h.scope, h1]
    rcases opt (build (within I slot (outer ++ here)) c) with hc | ⟨c1, hc⟩ <;> rcases opt (scopeB I lp (outer ++ here) t []) with hb | ⟨t1, hb⟩ <;>
      rcases opt (scopeElse I lp (outer ++ here) els) with he | ⟨e1, he⟩ <;> simp only [hc, hb, he, Option.bind_none, Option.bind_some, buildS, buildX] <;>
      rcases opt (buildB I slot t1) with hb' | ⟨t2, hb'⟩ <;> simp [hb', h2, he] <;> rcases opt (buildE I slot e1) with he' | ⟨e2, he'⟩ <;> simp [he']
  | .while c body els, _, vs, outer, here, depth, h => by
    have h1 := compBlock_of h.le (compB_eq I slot true body h.into)
    have h2 := compBlock_of h.le (compB_eq I slot true els h.into)
    simp only [compS, scopeS, h.scope, h1]
    rcases opt (build (within I slot (outer ++ here)) c) with hc | ⟨c1, hc⟩ <;> rcases opt (scopeB I true (outer ++ here) body []) with hb | ⟨t1, hb⟩ <;>
      rcases opt (scopeB I true (outer ++ here) els []) with he | ⟨e1, he⟩ <;> simp only [hc, hb, he, Option.bind_none, Option.bind_some, buildS, buildX] <;>
      rcases opt (buildB I slot t1) with hb' | ⟨t2, hb'⟩ <;> simp [hb', h2, he] <;> rcases opt (buildB I slot e1) with he' | ⟨e2, he'⟩ <;> simp [he']
  | .doW body c els, _, vs, outer, here, depth, h => by
    have h1 := compBlock_of h.le (compB_eq I slot true body h.into)
    have h2 := compBlock_of h.le (compB_eq I slot true els h.into)
    simp only [compS, scopeS, h1]
    rcases opt (scopeB I true (outer ++ here) body []) with hb | ⟨t1, hb⟩ <;> rcases opt (scopeB I true (outer ++ here) els []) with he | ⟨e1, he⟩ <;>
      simp only [hb, he, Option.bind_none, Option.bind_some, buildS] <;> rcases opt (buildB I slot t1) with hb' | ⟨t2, hb'⟩ <;>
      simp only [hb', Option.bind_none, Option.bind_some, h.scope, compOpt_eq, h2, he] <;> rcases opt (buildO I slot (c.map ((outer ++ here), ·))) with hc | ⟨c1, hc⟩ <;>
      simp [hc] <;> rcases opt (buildB I slot e1) with he' | ⟨e2, he'⟩ <;> simp [he']
  | .loop body, _, vs, outer, here, depth, h => by
    have h1 := compBlock_of h.le (compB_eq I slot true body h.into)
    simp only [compS, scopeS, h1]
    rcases opt (scopeB I true (outer ++ here) body []) with hb | ⟨t1, hb⟩ <;> simp [hb, buildS]
    rcases opt (buildB I slot t1) with hb' | ⟨t2, hb'⟩ <;> simp [hb']
  | .for ps e body els, _, vs, outer, here, depth, h => by
    have hl := h.loop (Pat.varsAll ps)
    have hle : ∀ v ∈ vs ++ varsOf (depth + 1) (Pat.varsAll ps) ++ [⟨none, depth + 1, false⟩], v.depth ≤ depth + 1 := by
      intro v hv
      simp only [varsOf, List.mem_append, List.mem_map, List.mem_singleton] at hv
      rcases hv with (hv | ⟨x, _, rfl⟩) | rfl
      · exact Nat.le_succ_of_le (h.le v hv)
      · exact Nat.le_refl _
      · exact Nat.le_refl _
    have h1 := compBlock_of hle (compB_eq I slot true body hl)
    have h2 := compBlock_of h.le (compB_eq I slot true els h.into)
    have hp : popVars (depth + 1) (vs ++ varsOf (depth + 1) (Pat.varsAll ps) ++ [⟨none, depth + 1, false⟩]) = vs := by
      rw [List.append_assoc]
      refine popVars_eq _ _ _ (fun v hv => Nat.lt_succ_of_le (h.le v hv)) ?_
      intro u hu
      simp only [varsOf, List.mem_append, List.mem_map, List.mem_singleton] at hu
      rcases hu with ⟨x, _, rfl⟩ | rfl <;> exact Nat.le_refl _
    simp only [compS, scopeS, declareAll_eq (Pat.varsAll ps) h.into.cur]
    by_cases hx : (Pat.varsAll ps).Nodup ∧ ∀ x ∈ Pat.varsAll ps, Free I [] x
    · have hlen : vs.length = (outer ++ here).length := by rw [← h.names, List.length_map]
      rw [if_pos hx, if_pos hx]
      simp only [Option.bind_some, h.scope_uninit I slot _ (uninit (depth + 1) (Pat.varsAll ps)), initFrom_eq, init_map]
      simp only [hlen, target_eq I slot _ ps hx.1, h1]
      rcases opt (build (within I slot (outer ++ here)) e) with hc | ⟨c1, hc⟩
      · simp only [hc, Option.bind_none]
        rcases opt (scopeB I true (outer ++ here ++ (Pat.varsAll ps).map some ++ [none]) body []) with hb | ⟨t1, hb⟩ <;>
          rcases opt (scopeB I true (outer ++ here) els []) with he | ⟨e1, he⟩ <;> simp [-List.append_assoc, hc, hb, he, buildS, buildX]
      · simp only [hc, Option.bind_some]
        rcases opt (scopeB I true (outer ++ here ++ (Pat.varsAll ps).map some ++ [none]) body []) with hb | ⟨t1, hb⟩
        · simp only [hb, Option.bind_none]
        · simp only [hb, Option.bind_some]
          rcases opt (buildB I slot t1) with hb' | ⟨t2, hb'⟩
          · rcases opt (scopeB I true (outer ++ here) els []) with he | ⟨e1, he⟩ <;> simp [-List.append_assoc, hc, hb', he, buildS, buildX]
          · simp only [hb', Option.bind_some, hp, h2]
            rcases opt (scopeB I true (outer ++ here) els []) with he | ⟨e1, he⟩
            · simp [-List.append_assoc, he]
            · rcases opt (buildB I slot e1) with he' | ⟨e2, he'⟩ <;> simp [-List.append_assoc, hc, hb', he, he', buildS, buildX]
    · rw [if_neg hx, if_neg hx]; rfl
  | .brk, _, vs, outer, here, depth, h => by cases lp <;> simp [compS, scopeS, buildS]
  | .cont, _, vs, outer, here, depth, h => by cases lp <;> simp [compS, scopeS, buildS]
  | .assert e msg, _, vs, outer, here, depth, h => by
    simp only [compS, scopeS, h.scope, Option.bind_some, buildS, compTest_eq, compOpt_eq]
    cases buildT I slot (tested I (outer ++ here) e) <;> cases buildO I slot (msg.map ((outer ++ here), ·)) <;> rfl
  | .ret e, _, vs, outer, here, depth, h => by
    simp only [compS, scopeS, h.scope, Option.bind_some, buildS, compOpt_eq]
    cases buildO I slot (e.map ((outer ++ here), ·)) <;> rfl
  | .fn _ _ _, _, vs, outer, here, depth, h => by simp [compS, scopeS]
theorem compElse_eq (I : Scope Γ) (slot : Nat → Γ.X) (lp : Bool) : ∀ (s : SElse) {vs : List Var} {outer here : Names} {depth : Nat}, Inv vs outer here depth →
    compElse I slot depth lp s vs = (scopeElse I lp (outer ++ here) s).bind fun s' => (buildE I slot s').bind fun s' => some (s', vs)
  | .none, vs, outer, here, depth, h => by simp [compElse, scopeElse, buildE]
  | .els b, vs, outer, here, depth, h => by
    have h1 := compBlock_of h.le (compB_eq I slot lp b h.into)
    simp only [compElse, scopeElse, h1]
    rcases opt (scopeB I lp (outer ++ here) b []) with hb | ⟨t1, hb⟩ <;> simp [hb, buildE]
    rcases opt (buildB I slot t1) with hb' | ⟨t2, hb'⟩ <;> simp [hb']
  | .elif c t els, vs, outer, here, depth, h => by
    have h1 := compBlock_of h.le (compB_eq I slot lp t h.into)
    have h2 := compElse_eq I slot lp els h
    simp only [compElse, scopeElse, h.scope, h1]
    rcases opt (build (within I slot (outer ++ here)) c) with hc | ⟨c1, hc⟩ <;> rcases opt (scopeB I lp (outer ++ here) t []) with hb | ⟨t1, hb⟩ <;>
      rcases opt (scopeElse I lp (outer ++ here) els) with he | ⟨e1, he⟩ <;> simp only [hc, hb, he, Option.bind_none, Option.bind_some, buildE, buildX] <;>
      rcases opt (buildB I slot t1) with hb' | ⟨t2, hb'⟩ <;> simp [hb', h2, he] <;> rcases opt (buildE I slot e1) with he' | ⟨e2, he'⟩ <;> simp [he']
  | .elifThen e, vs, outer, here, depth, h => by
    simp only [compElse, scopeElse, h.scope, Option.bind_some, buildE, buildX]
    cases build (within I slot (outer ++ here)) e <;> rfl
end

end Cordy.Source
