import Verif.Spec.SourceFn
import Verif.Lemmas.SourceRun
/-! Lemmas for C82. -/
namespace Cordy.Source
open Cordy.Grammar
open Cordy.Codegen (Expr Out)
open Cordy.Program (Prog World withCalls withDefaults Fn callFn callWith)
open Cordy.Full (langDoc)
variable {Γ : Codegen.Sig}

/-! ## Names -/

theorem seeing_eq (I : Scope Γ) (glob : Nat → Γ.X) (ns : List String) : seeing I glob ns = withGlobals I glob ns := by
  unfold seeing withGlobals
  congr
  funext x
  rw [findVar_init x _ (by simp)]
  simp only [List.map_map]
  rfl

theorem scopeOf_nil (I : Scope Γ) (slot : Nat → Γ.X) : scopeOf I slot [] = within I slot [] :=
  Inv.scope (outer := []) (here := []) (depth := 0) ⟨rfl, by simp, by simp, by simp⟩ I slot

/-! ## Expressions -/

theorem buildAll_known (I : Scope Γ) : ∀ es : List E, (∃ xs, buildAll I es = some xs) ↔ ∀ e ∈ es, Known I e
  | [] => by simp [buildAll]
  | e :: es => by
    simp only [buildAll, List.mem_cons, forall_eq_or_imp]
    rw [bind_known, build_known, buildAll_known I es]

theorem buildAll_length {I : Scope Γ} : ∀ {es : List E} {xs}, buildAll I es = some xs → xs.length = es.length
  | [], xs, h => by simp [buildAll] at h; simp [h]
  | e :: es, xs, h => by
    simp only [buildAll, Option.bind_eq_some_iff, Option.some.injEq] at h
    obtain ⟨x, _, ys, hy, rfl⟩ := h
    simp [buildAll_length hy]

theorem buildAll_drop {I : Scope Γ} : ∀ (k : Nat) {es : List E} {xs}, buildAll I es = some xs → buildAll I (es.drop k) = some (xs.drop k)
  | 0, es, xs, h => h
  | k + 1, [], xs, h => by simp [buildAll] at h; simp [h, buildAll]
  | k + 1, e :: es, xs, h => by
    simp only [buildAll, Option.bind_eq_some_iff, Option.some.injEq] at h
    obtain ⟨x, _, ys, hy, rfl⟩ := h
    exact buildAll_drop k hy

theorem buildAll_noFC {I : Scope Γ} : ∀ {es : List E} {xs}, buildAll I es = some xs → (∀ e ∈ es, NoFieldDot e) → ∀ x ∈ xs, x.NoFieldCompose
  | [], xs, h => by simp [buildAll] at h; simp [h]
  | e :: es, xs, h => by
    simp only [buildAll, Option.bind_eq_some_iff, Option.some.injEq] at h
    obtain ⟨x, hx, ys, hy, rfl⟩ := h
    intro hn z hz
    rcases List.mem_cons.1 hz with rfl | hz
    · exact build_noFC _ _ _ hx (hn e (by simp))
    · exact buildAll_noFC hy (fun e he => hn e (by simp [he])) z hz

/-! ## Functions -/

/-- The patterns of a function. -/
def convPats (I : Scope Γ) (slot : Nat → Γ.X) (pats : List (Nat × Option (Nat × (Names × List (Pat String))))) : List (Nat × Option (Nat × Γ.P)) :=
  pats.map fun q => (q.1, q.2.map fun r => (r.1, patIn I slot r.2))

/-- The code of a function. -/
def buildFn (slot : Nat → Γ.X) (G : SFn Γ) : Option (Fn Γ) :=
  (buildAll (within G.inDefaults slot []) G.defaults).bind fun es =>
  (buildB G.inBody slot G.body).bind fun b => some { required := G.required, defaults := es, patterns := convPats G.inBody slot G.patterns, body := b }

/-- `*x` without a default value. -/
def plainRest (p : Pat String × Option E) : Prop := takesRest p ∧ p.2 = none

instance (p : Pat String × Option E) : Decidable (plainRest p) := decidable_of_iff (takesRest p ∧ p.2.isNone) (by simp [plainRest])

theorem defaultsOf_rest : ∀ (ps : List (Pat String × Option E)) (ds : List E), (∀ p ∈ ps, plainRest p) → defaultsOf true ds ps = some (ds ++ ps.filterMap given) ∧ ∀ p ∈ ps, ¬ needed p
  | [], ds, _ => by simp [defaultsOf]
  | (p, d) :: ps, ds, h => by
    obtain ⟨h1, h2⟩ := h (p, d) (by simp)
    cases p <;> first | cases h1 | skip
    simp only at h2
    subst h2
    obtain ⟨h3, h4⟩ := defaultsOf_rest ps (ds ++ [.list []]) fun p hp => h p (by simp [hp])
    refine ⟨by simp [defaultsOf, h3, given], ?_⟩
    intro q hq
    rcases List.mem_cons.1 hq with rfl | hq
    · exact Bool.false_ne_true
    · exact h4 q hq

theorem defaultsOf_norest : ∀ (ps : List (Pat String × Option E)) (ds : List E), (¬ ∀ p ∈ ps, plainRest p) → defaultsOf true ds ps = none
  | [], ds, h => by simp at h
  | (p, d) :: ps, ds, h => by
    by_cases hp : plainRest (p, d)
    · have h' : ¬ ∀ p ∈ ps, plainRest p := fun h' => h fun q hq => by
        rcases List.mem_cons.1 hq with rfl | hq
        · exact hp
        · exact h' q hq
      obtain ⟨h1, h2⟩ := hp
      cases p <;> first | cases h1 | skip
      simp only at h2
      subst h2
      exact defaultsOf_norest ps _ h'
    · cases p <;> cases d <;> first | rfl | exact absurd ⟨rfl, rfl⟩ hp

theorem drop_rest (p : Pat String × Option E) (ps : List (Pat String × Option E)) (h : takesRest p = true) : (p :: ps).dropWhile (fun p => !takesRest p) = p :: ps := by simp [h]
theorem drop_norest (p : Pat String × Option E) (ps : List (Pat String × Option E)) (h : takesRest p = false) : (p :: ps).dropWhile (fun p => !takesRest p) = ps.dropWhile (fun p => !takesRest p) := by simp [h]

theorem all_cons {P : Pat String × Option E → Prop} (p : Pat String × Option E) (ps : List (Pat String × Option E)) (h : P p) : (∀ q ∈ p :: ps, P q) ↔ ∀ q ∈ ps, P q := by
  simp [h]

theorem defaultsOf_eq : ∀ (ps : List (Pat String × Option E)) (ds : List E), ds ≠ [] →
    defaultsOf false ds ps = if (∀ p ∈ ps, ¬ needed p) ∧ ∀ p ∈ ps.dropWhile (fun p => !takesRest p), plainRest p then some (ds ++ ps.filterMap given) else none
  | [], ds, _ => by simp [defaultsOf]
  | (p, d) :: ps, ds, h => by
    have key : takesRest (p, d) = false → defaultsOf false ds ((p, d) :: ps) = match d with
        | some e => defaultsOf false (ds ++ [e]) ps
        | none => none := by
      intro hp
      cases p <;> cases d <;> simp [takesRest] at hp <;> simp [defaultsOf, h]
    have hgiven : takesRest (p, d) = false → given (p, d) = d := by
      intro hp
      cases p <;> cases d <;> simp [takesRest] at hp <;> rfl
    by_cases hp : takesRest (p, d) = false
    · rw [key hp, drop_norest _ _ hp]
      have hg := hgiven hp
      cases d with
      | none =>
        simp only
        rw [if_neg]
        intro hq
        exact hq.1 (p, none) (by simp) (by simp [needed, hg])
      | some e =>
        have hn : ¬ needed (p, some e) = true := by simp [needed, hg]
        simp only [List.filterMap_cons, hg]
        rw [defaultsOf_eq ps (ds ++ [e]) (by simp), List.append_assoc, List.singleton_append]
        exact if_congr (and_congr_left fun _ => (all_cons (P := fun p => ¬ needed p = true) _ ps hn).symm) rfl rfl
    · have hp : takesRest (p, d) = true := by simpa using hp
      rw [drop_rest _ _ hp]
      cases p <;> first | cases hp | skip
      rename_i x
      cases d with
      | some e =>
        rw [if_neg]
        · rfl
        · intro hq
          have := (hq.2 _ (by simp : (Pat.star x, some e) ∈ (Pat.star x, some e) :: ps)).2
          cases this
      | none =>
        have hpl : plainRest (.star x, none) := ⟨rfl, rfl⟩
        show defaultsOf true (ds ++ [.list []]) ps = _
        by_cases hr : ∀ p ∈ ps, plainRest p
        · obtain ⟨h1, h2⟩ := defaultsOf_rest ps (ds ++ [.list []]) hr
          rw [h1, if_pos]
          · simp [given]
          · refine ⟨?_, (all_cons (P := plainRest) _ ps hpl).2 hr⟩
            exact (all_cons (P := fun p => ¬ needed p = true) _ ps (by simp [needed, given])).2 h2
        · rw [defaultsOf_norest ps _ hr, if_neg]
          intro hq
          exact hr ((all_cons (P := plainRest) _ ps hpl).1 hq.2)

theorem drop_needed (p : Pat String × Option E) (ps : List (Pat String × Option E)) (h : needed p = true) : (p :: ps).dropWhile needed = ps.dropWhile needed := by simp [h]
theorem drop_given (p : Pat String × Option E) (ps : List (Pat String × Option E)) (h : needed p = false) : (p :: ps).dropWhile needed = p :: ps := by simp [h]

theorem defaultsOf_nil : ∀ ps : List (Pat String × Option E),
    defaultsOf false [] ps = if Ordered ps then some ((ps.dropWhile needed).filterMap given) else none
  | [] => by simp [defaultsOf, Ordered]
  | (p, d) :: ps => by
    by_cases hp : takesRest (p, d) = false
    · have hgiven : given (p, d) = d := by
        cases p <;> cases d <;> simp [takesRest] at hp <;> rfl
      cases d with
      | none =>
        have hn : needed (p, none) = true := by simp [needed, hgiven]
        have hstep : defaultsOf false [] ((p, none) :: ps) = defaultsOf false [] ps := by
          cases p <;> simp [takesRest] at hp <;> rfl
        have ho : Ordered ((p, none) :: ps) ↔ Ordered ps := by unfold Ordered; rw [drop_needed _ _ hn, drop_norest _ _ hp]
        rw [hstep, defaultsOf_nil ps, drop_needed _ _ hn]
        exact if_congr ho.symm rfl rfl
      | some e =>
        have hn : needed (p, some e) = false := by simp [needed, hgiven]
        have hstep : defaultsOf false [] ((p, some e) :: ps) = defaultsOf false [e] ps := by
          cases p <;> simp [takesRest] at hp <;> rfl
        have ho : Ordered ((p, some e) :: ps) ↔ (∀ p ∈ ps, ¬ needed p) ∧ ∀ p ∈ ps.dropWhile (fun p => !takesRest p), plainRest p := by
          unfold Ordered
          rw [drop_given _ _ hn, drop_norest _ _ hp]
          exact and_congr_left fun _ => all_cons (P := fun p => ¬ needed p = true) _ ps (by simp [hn])
        rw [hstep, defaultsOf_eq ps _ (by simp), drop_given _ _ hn]
        simp only [List.filterMap_cons, hgiven]
        exact if_congr ho.symm rfl rfl
    · have hp : takesRest (p, d) = true := by simpa using hp
      have ho : Ordered ((p, d) :: ps) ↔ (∀ q ∈ ((p, d) :: ps).dropWhile needed, ¬ needed q) ∧ ∀ q ∈ (p, d) :: ps, plainRest q := by
        unfold Ordered
        rw [drop_rest _ _ hp]
        rfl
      cases p <;> first | cases hp | skip
      rename_i x
      cases d with
      | some e =>
        rw [if_neg]
        · rfl
        · intro hq
          have := ((ho.1 hq).2 _ (by simp : (Pat.star x, some e) ∈ (Pat.star x, some e) :: ps)).2
          cases this
      | none =>
        have hpl : plainRest (.star x, none) := ⟨rfl, rfl⟩
        have hn : needed (.star x, none) = false := rfl
        rw [drop_given _ _ hn]
        show defaultsOf true ([] ++ [.list []]) ps = _
        by_cases hr : ∀ p ∈ ps, plainRest p
        · obtain ⟨h1, h2⟩ := defaultsOf_rest ps ([] ++ [.list []]) hr
          rw [h1, if_pos]
          · simp [given]
          · refine ho.2 ⟨?_, (all_cons (P := plainRest) _ ps hpl).2 hr⟩
            rw [drop_given _ _ hn]
            exact (all_cons (P := fun p => ¬ needed p = true) _ ps (by simp [needed, given])).2 h2
        · rw [defaultsOf_norest ps _ hr, if_neg]
          intro hq
          exact hr ((all_cons (P := plainRest) _ ps hpl).1 (ho.1 hq).2)

theorem required_eq (ps : List (Pat String × Option E)) (h : ∀ p ∈ ps.dropWhile needed, ¬ needed p) :
    ps.length - ((ps.dropWhile needed).filterMap given).length = (ps.takeWhile needed).length := by
  have h1 : ((ps.dropWhile needed).filterMap given).length = (ps.dropWhile needed).length := by
    generalize ps.dropWhile needed = qs at h
    induction qs with
    | nil => rfl
    | cons q qs ih =>
      cases hg : given q with
      | none => exact absurd (by simp [needed, hg]) (h q (by simp))
      | some e => simp [hg, ih fun p hp => h p (by simp [hp])]
  have h2 := congrArg List.length (List.takeWhile_append_dropWhile (p := needed) (l := ps))
  rw [List.length_append] at h2
  omega

/-- A parameter or a name in a pattern, before its value is known and after that. -/
def argVar (o : Option String) : Var := ⟨o, 1, false⟩
def argVar' (o : Option String) : Var := ⟨o, 1, true⟩

theorem cur_args (zs : Names) (x : String) : (∃ v ∈ zs.map argVar, v.depth = 1 ∧ v.name = some x) ↔ some x ∈ zs := by
  simp [argVar]

theorem inv_args (zs : Names) : Inv (zs.map argVar') [] zs 1 := by
  refine ⟨?_, ?_, ?_, ?_⟩ <;> simp [argVar', Function.comp_def]

theorem free_more (I : Scope Γ) (zs : Names) (x y : String) : Free I (zs ++ [some x]) y ↔ Free I zs y ∧ y ≠ x := by
  unfold Free
  simp only [List.mem_append, List.mem_singleton, not_or, Option.some.injEq, and_assoc]

theorem free_none (I : Scope Γ) (zs : Names) (y : String) : Free I (zs ++ [none]) y ↔ Free I zs y := by
  unfold Free
  simp

/-- The names are different, and new. -/
def New (I : Scope Γ) (zs : Names) (xs : List String) : Prop := xs.Nodup ∧ ∀ x ∈ xs, Free I zs x

instance (I : Scope Γ) (zs : Names) (xs : List String) : Decidable (New I zs xs) := inferInstanceAs (Decidable (_ ∧ _))

theorem new_cons (I : Scope Γ) (zs : Names) (x : String) (xs : List String) : New I zs (x :: xs) ↔ Free I zs x ∧ New I (zs ++ [some x]) xs := by
  unfold New
  simp only [List.nodup_cons, List.mem_cons, forall_eq_or_imp, free_more]
  constructor
  · rintro ⟨⟨h1, h2⟩, h3, h4⟩
    exact ⟨h3, h2, fun y hy => ⟨h4 y hy, fun h => h1 (h ▸ hy)⟩⟩
  · rintro ⟨h3, h2, h4⟩
    exact ⟨⟨fun h => (h4 x h).2 rfl, h2⟩, h3, fun y hy => (h4 y hy).1⟩

theorem new_none (I : Scope Γ) (zs : Names) (xs : List String) : New I (zs ++ [none]) xs ↔ New I zs xs := by
  unfold New
  simp only [free_none]

theorem new_append (I : Scope Γ) : ∀ (ps : List (Pat String)) (zs : Names) (ys : List String),
    New I zs (ps.filterMap argName ++ ys) ↔ New I zs (ps.filterMap argName) ∧ New I (zs ++ ps.map argName) ys
  | [], zs, ys => by simp [New]
  | p :: ps, zs, ys => by
    have key : zs ++ (p :: ps).map argName = (zs ++ [argName p]) ++ ps.map argName := by simp
    rw [key]
    cases h : argName p with
    | none =>
      simp only [List.filterMap_cons, h]
      rw [← new_none I zs, new_append I ps (zs ++ [none]) ys, new_none]
    | some x =>
      simp only [List.filterMap_cons, h, List.cons_append]
      rw [new_cons, new_cons, new_append I ps (zs ++ [some x]) ys, and_assoc]

theorem declareParams_eq (I : Scope Γ) : ∀ (ps : List (Pat String)) (zs : Names),
    declareParams I ps (zs.map argVar) = if New I zs (ps.filterMap argName) then some ((zs ++ ps.map argName).map argVar) else none := by
  have hd : ∀ (x : String) (zs : Names), declare I 1 x (zs.map argVar) = if Free I zs x then some ((zs ++ [some x]).map argVar) else none := by
    intro x zs
    rw [declare_eq (cur_args zs)]
    simp [argVar]
  intro ps
  induction ps with
  | nil => intro zs; simp [declareParams, New]
  | cons p ps ih =>
    intro zs
    have hnone : argName p = none → declareParams I ps (zs.map argVar ++ [⟨none, 1, false⟩]) = if New I zs ((p :: ps).filterMap argName) then some ((zs ++ (p :: ps).map argName).map argVar) else none := by
      intro h
      have := ih (zs ++ [none])
      rw [List.map_append, show [none].map argVar = [(⟨none, 1, false⟩ : Var)] from rfl] at this
      rw [this]
      simp only [List.filterMap_cons, h, List.map_cons, List.append_assoc, List.singleton_append, new_none]
    have hsome : ∀ x, argName p = some x → ((declare I 1 x (zs.map argVar)).bind fun vs => declareParams I ps vs) = if New I zs ((p :: ps).filterMap argName) then some ((zs ++ (p :: ps).map argName).map argVar) else none := by
      intro x h
      rw [hd]
      simp only [List.filterMap_cons, h, List.map_cons]
      by_cases hx : Free I zs x
      · rw [if_pos hx]
        simp only [Option.bind_some]
        rw [ih]
        simp only [List.append_assoc, List.singleton_append]
        refine if_congr ?_ rfl rfl
        rw [new_cons]
        exact ⟨fun h => ⟨hx, h⟩, fun h => h.2⟩
      · rw [if_neg hx, if_neg fun h => hx ((new_cons I zs x _).1 h).1]
        rfl
    cases p with
    | name x => exact hsome x rfl
    | star x => exact hsome x rfl
    | hole => exact hnone rfl
    | starHole => exact hnone rfl
    | terms qs => exact hnone rfl

theorem innerNames_eq : ∀ ps : List (Pat String), innerNames ps = ps.flatMap argNames
  | [] => rfl
  | p :: ps => by cases p <;> simp [innerNames, argNames, innerNames_eq ps]

theorem declared_eq (I : Scope Γ) (ps : List (Pat String)) :
    ((declareParams I ps []).bind fun vs => declareAll I 1 (innerNames ps) vs) = if New I [] (ps.filterMap argName ++ ps.flatMap argNames) then some ((namesIn ps).map argVar) else none := by
  have h := declareParams_eq I ps []
  simp only [List.map_nil, List.nil_append] at h
  rw [h, innerNames_eq]
  by_cases h1 : New I [] (ps.filterMap argName)
  · rw [if_pos h1]
    simp only [Option.bind_some]
    rw [declareAll_eq _ (cur_args (ps.map argName))]
    refine (if_congr ?_ ?_ rfl)
    · rw [new_append, List.nil_append]
      exact ⟨fun h => ⟨h1, h⟩, fun h => h.2⟩
    · simp [namesIn, argVar]
  · rw [if_neg h1, if_neg fun h => h1 ((new_append I ps [] _).1 h).1]
    rfl

theorem paramPats_eq (I : Scope Γ) (slot : Nat → Γ.X) (ns : Names) : ∀ (ps : List (Pat String)) (i : Nat) (pre : List String), (pre ++ ps.flatMap argNames).Nodup →
    paramPats I slot i (ns.length + pre.length) ps = convPats I slot (argPatterns (ns ++ (pre ++ ps.flatMap argNames).map some) i ps)
  | [], i, pre, h => rfl
  | p :: ps, i, pre, h => by
    cases p with
    | terms qs =>
      simp only [List.flatMap_cons, argNames] at h
      have h1 := numberAll_eq slot ns qs pre (ps.flatMap argNames) h
      have h2 := paramPats_eq I slot ns ps (i + 1) (pre ++ Pat.varsAll qs) (by simpa using h)
      simp only [List.append_assoc, List.length_append, ← Nat.add_assoc] at h2
      simp only [paramPats, argPatterns, convPats, List.map_cons, List.flatMap_cons, argNames, Option.map_some, patIn, h1, h2]
    | name x => exact paramPats_eq I slot ns ps (i + 1) pre h
    | star x => exact paramPats_eq I slot ns ps (i + 1) pre h
    | hole => 
      have := paramPats_eq I slot ns ps (i + 1) pre h
      simp only [paramPats, this]
      rfl
    | starHole => 
      have := paramPats_eq I slot ns ps (i + 1) pre h
      simp only [paramPats, this]
      rfl

theorem compFn_eq (I : Scope Γ) (slot glob : Nat → Γ.X) (tops : List String) (F : List String × FnText) :
    compFn I slot glob tops F = (scopeFn I glob tops F.1 F.2).bind (buildFn slot) := by
  obtain ⟨before, f, ps, body⟩ := F
  simp only [compFn, scopeFn, defaultsOf_nil, seeing_eq, scopeOf_nil]
  by_cases h1 : Ordered ps
  · rw [if_pos h1]
    simp only [Option.bind_some]
    have hd := declared_eq I (ps.map Prod.fst)
    have hassoc : ∀ {α : Type} (k : List Var → Option α), ((declareParams I (ps.map Prod.fst) []).bind fun ps' => (declareAll I 1 (innerNames (ps.map Prod.fst)) ps').bind k) =
        ((declareParams I (ps.map Prod.fst) []).bind fun vs => declareAll I 1 (innerNames (ps.map Prod.fst)) vs).bind k := fun k => (Option.bind_assoc ..).symm
    simp only [hassoc, hd]
    have hr := required_eq ps h1.1
    have hl : ps.length = ((ps.map Prod.fst).map argName).length := by simp
    rw [hr]
    generalize hps : ps.map Prod.fst = as at *
    by_cases h2 : New I [] (as.filterMap argName ++ as.flatMap argNames)
    · rw [if_pos h2, if_pos ⟨h2.1, h2.2, h1⟩]
      have hi : initFrom 0 ((namesIn as).map argVar) = (namesIn as).map argVar' := by
        have := initFrom_eq [] ((namesIn as).map argVar)
        simp only [List.length_nil, List.nil_append] at this
        rw [this]
        simp [argVar, argVar']
      have hp : paramPats I slot 0 ps.length as = convPats (withGlobals I glob tops) slot (argPatterns (namesIn as) 0 as) := by
        have := paramPats_eq I slot (as.map argName) as 0 [] (by simpa using (List.nodup_append.1 h2.1).2.1)
        simp only [List.length_nil, Nat.add_zero, List.nil_append, ← hl] at this
        exact this
      simp only [Option.bind_some]
      rw [hi, compB_eq _ slot false body (inv_args (namesIn as)).into, hp]
      simp only [List.nil_append]
      cases hb : scopeB (withGlobals I glob tops) false (namesIn as) body [] with
      | none =>
        simp only [Option.map_none, Option.bind_none]
        cases buildAll (within (withGlobals I glob before) slot []) ((ps.dropWhile needed).filterMap given) <;> rfl
      | some q =>
        simp only [Option.map_some, Option.bind_some, buildFn]
        cases buildAll (within (withGlobals I glob before) slot []) ((ps.dropWhile needed).filterMap given) with
        | none => rfl
        | some es =>
          simp only [Option.bind_some]
          cases buildB (withGlobals I glob tops) slot q <;> rfl
    · rw [if_neg h2, if_neg fun h => h2 ⟨h.1, h.2.1⟩]
      cases buildAll (within (withGlobals I glob before) slot []) ((ps.dropWhile needed).filterMap given) <;> rfl
  · rw [if_neg h1, if_neg fun h => h1 h.2.2]
    rfl

/-- The code of all functions. -/
def buildFns (slot : Nat → Γ.X) : List (SFn Γ) → Option (List (Fn Γ))
  | [] => some []
  | G :: Gs => (buildFn slot G).bind fun F => (buildFns slot Gs).bind fun Fs => some (F :: Fs)

theorem compFns_iff (I : Scope Γ) (slot glob : Nat → Γ.X) (tops : List String) : ∀ (Fs : List (List String × FnText)) (fns : List (Fn Γ)),
    compFns I slot glob tops Fs = some fns ↔ ∃ Gs, Fs.mapM (fun F => scopeFn I glob tops F.1 F.2) = some Gs ∧ buildFns slot Gs = some fns
  | [], fns => by simp [compFns, buildFns]
  | F :: Fs, fns => by
    simp only [compFns, compFn_eq, List.mapM_cons, Option.bind_eq_bind, Option.bind_eq_some_iff, Option.some.injEq, compFns_iff I slot glob tops Fs, Option.pure_def]
    constructor
    · rintro ⟨F', ⟨G, hG, hF⟩, fns', ⟨Gs, hGs, hb⟩, rfl⟩
      exact ⟨G :: Gs, ⟨G, hG, Gs, hGs, rfl⟩, by simp [buildFns, hF, hb]⟩
    · rintro ⟨_, ⟨G, hG, Gs, hGs, rfl⟩, hb⟩
      simp only [buildFns, Option.bind_eq_some_iff, Option.some.injEq] at hb
      obtain ⟨F', hF, fns', hb, rfl⟩ := hb
      exact ⟨F', ⟨G, hG, hF⟩, fns', ⟨Gs, hGs, hb⟩, rfl⟩

theorem buildFn_known (slot : Nat → Γ.X) (G : SFn Γ) : (∃ F, buildFn slot G = some F) ↔ G.known slot := by
  unfold buildFn SFn.known
  rw [bind_known, buildAll_known, buildB_known]

theorem buildFns_known (slot : Nat → Γ.X) : ∀ Gs : List (SFn Γ), (∃ Fs, buildFns slot Gs = some Fs) ↔ ∀ G ∈ Gs, G.known slot
  | [] => by simp [buildFns]
  | G :: Gs => by
    simp only [buildFns, List.mem_cons, forall_eq_or_imp]
    rw [bind_known, buildFn_known, buildFns_known slot Gs]

theorem buildFns_get {slot : Nat → Γ.X} : ∀ {Gs : List (SFn Γ)} {Fs}, buildFns slot Gs = some Fs → ∀ i : Nat, Fs[i]? = Gs[i]?.bind (buildFn slot)
  | [], Fs, h, i => by simp [buildFns] at h; simp [h]
  | G :: Gs, Fs, h, i => by
    simp only [buildFns, Option.bind_eq_some_iff, Option.some.injEq] at h
    obtain ⟨F, hF, Fs', hFs, rfl⟩ := h
    cases i with
    | zero => simp [hF]
    | succ i => simpa using buildFns_get hFs i

/-- The patterns are parameters. -/
def PatsIn (G : SFn Γ) : Prop := ∀ q ∈ G.patterns, q.1 < G.required + G.defaults.length

theorem argPatterns_lt (ns : Names) : ∀ (ps : List (Pat String)) (i : Nat), ∀ q ∈ argPatterns ns i ps, q.1 < i + ps.length
  | [], i, q, h => by simp [argPatterns] at h
  | p :: ps, i, q, h => by
    have ih := argPatterns_lt ns ps (i + 1) q
    have key : q.1 = i ∨ q ∈ argPatterns ns (i + 1) ps := by
      cases p <;> simp only [argPatterns, List.mem_cons] at h
      · exact .inr h
      · exact h.imp (fun h => by rw [h]) id
      · exact h.imp (fun h => by rw [h]) id
      · exact .inr h
      · exact h.imp (fun h => by rw [h]) id
    simp only [List.length_cons]
    rcases key with h | h
    · omega
    · have := ih h
      omega

theorem buildFn_ok {slot : Nat → Γ.X} {G : SFn Γ} {F : Fn Γ} (h : buildFn slot G = some F) (hp : PatsIn G) (hg : G.fine) : F.ok ∧ F.each Codegen.Expr.NoFieldCompose := by
  simp only [buildFn, Option.bind_eq_some_iff, Option.some.injEq] at h
  obtain ⟨es, he, b, hb, rfl⟩ := h
  obtain ⟨g1, g2, g3⟩ := hg
  obtain ⟨h1, h2⟩ := buildB_ok hb g3 g2
  refine ⟨⟨h1, ?_⟩, buildAll_noFC he g1, h2⟩
  intro q hq
  simp only [convPats, List.mem_map] at hq
  obtain ⟨r, hr, rfl⟩ := hq
  simpa [buildAll_length he] using hp r hr

theorem buildFns_ok {slot : Nat → Γ.X} : ∀ {Gs : List (SFn Γ)} {Fs}, buildFns slot Gs = some Fs → (∀ G ∈ Gs, PatsIn G) → (∀ G ∈ Gs, G.fine) → ∀ F ∈ Fs, F.ok ∧ F.each Codegen.Expr.NoFieldCompose
  | [], Fs, h => by simp [buildFns] at h; simp [h]
  | G :: Gs, Fs, h => by
    simp only [buildFns, Option.bind_eq_some_iff, Option.some.injEq] at h
    obtain ⟨F, hF, Fs', hFs, rfl⟩ := h
    intro hp hg F' hF'
    rcases List.mem_cons.1 hF' with rfl | hF'
    · exact buildFn_ok hF (hp G (by simp)) (hg G (by simp))
    · exact buildFns_ok hFs (fun G hG => hp G (by simp [hG])) (fun G hG => hg G (by simp [hG])) F' hF'

/-! ## Calls -/
variable {Er S : Type}

theorem withDefaults_conv {Ρ : Full.Runtime Γ Er S} {J : Scope Γ} {slot : Nat → Γ.X} (hI : ∀ k, J.ofCmp = (Ρ.prims k).ofCmp) : ∀ {es : List E} {xs : List (Expr Γ)}, buildAll (within J slot []) es = some xs →
    ∀ (vs : List Γ.V) (w : S), withDefaults (langDoc Ρ) xs vs w = withDefaults (srcLang Ρ J slot) (es.map ([], ·)) vs w
  | [], xs, h, vs, w => by
    simp only [buildAll, Option.some.injEq] at h
    subst h
    rfl
  | e :: es, xs, h, vs, w => by
    simp only [buildAll, Option.bind_eq_some_iff, Option.some.injEq] at h
    obtain ⟨x, hx, ys, hy, rfl⟩ := h
    simp only [List.map_cons, withDefaults]
    rw [eval_conv (slot := slot) hI (p := ([], e)) hx vs w]
    cases (srcLang Ρ J slot).eval ([], e) vs w with
    | error r => rfl
    | ok p =>
      obtain ⟨v, vs, w⟩ := p
      exact withDefaults_conv hI hy _ _

theorem callBody_conv {Ρ : Full.Runtime Γ Er S} {J : Scope Γ} {slot : Nat → Γ.X} (hI : ∀ k, J.ofCmp = (Ρ.prims k).ofCmp) (fuel : Nat) {q : Stmts.Block (srcSig Γ)} {b : Stmts.Block (Full.sig Γ)} (h : buildB J slot q = some b)
    (vs : List Γ.V) (w : S) : Stmts.callBody (langDoc Ρ) fuel b vs w = Stmts.callBody (srcLang Ρ J slot) fuel q vs w := by
  unfold Stmts.callBody
  rw [runB_conv hI fuel q h vs w]
  rcases Stmts.runB (srcLang Ρ J slot) fuel q vs w with _ | (_ | _ | _ | _ | _) <;> rfl

theorem names_conv (I : Scope Γ) (slot : Nat → Γ.X) (pats : List (Nat × Option (Nat × (Names × List (Pat String))))) : Program.names (convPats I slot pats) = Program.names pats := by
  unfold Program.names convPats
  rw [List.map_map]
  congr 1
  refine List.map_congr_left fun q _ => ?_
  obtain ⟨i, o⟩ := q
  cases o <;> rfl

theorem bindPatterns_conv {Ρ : Full.Runtime Γ Er S} {J : Scope Γ} {slot : Nat → Γ.X} : ∀ (pats : List (Nat × Option (Nat × (Names × List (Pat String))))) (vs : List Γ.V) (w : S),
    Program.bindPatterns (langDoc Ρ) (convPats J slot pats) vs w = Program.bindPatterns (srcLang Ρ J slot) pats vs w
  | [], vs, w => rfl
  | (i, none) :: pats, vs, w => bindPatterns_conv pats vs w
  | (i, some (m, p)) :: pats, vs, w => by
    have hd : ∀ v, (langDoc Ρ).destr (patIn J slot p) v vs w = (srcLang Ρ J slot).destr p v vs w := fun v => rfl
    simp only [convPats, List.map_cons, Option.map_some, Program.bindPatterns, hd]
    cases vs[i]? with
    | none => exact bindPatterns_conv pats vs w
    | some v =>
      simp only
      cases (srcLang Ρ J slot).destr p v vs w with
      | error r => rfl
      | ok q => exact bindPatterns_conv pats _ _

/-- The scopes of the functions have the same comparisons. -/
def SameCmp (I : Scope Γ) (Gs : List (SFn Γ)) : Prop := ∀ G ∈ Gs, G.inDefaults.ofCmp = I.ofCmp ∧ G.inBody.ofCmp = I.ofCmp

theorem callFn_conv (P : Prog Γ Er S) (I : Scope Γ) (hI : ∀ k, I.ofCmp = (P.base.prims k).ofCmp) (slot : Nat → Γ.X) {Gs : List (SFn Γ)} (hs : SameCmp I Gs) (hf : buildFns slot Gs = some P.fns) :
    ∀ n, callFn P n = callSrc P slot Gs n
  | 0 => rfl
  | n + 1 => by
    have ih := callFn_conv P I hI slot hs hf n
    funext fn args w
    simp only [callFn, callSrc, buildFns_get hf fn, ih]
    cases hG : Gs[fn]? with
    | none => rfl
    | some G =>
      have hmem := List.mem_of_getElem? hG
      cases hF : buildFn slot G with
      | none =>
        exfalso
        obtain ⟨F, h⟩ := (buildFn_known slot G).2 ((buildFns_known slot Gs).1 ⟨_, hf⟩ G hmem)
        rw [h] at hF; cases hF
      | some F =>
        simp only [buildFn, Option.bind_eq_some_iff, Option.some.injEq] at hF
        obtain ⟨es, he, b, hb, rfl⟩ := hF
        simp only [Option.bind_some, buildFn, he, hb, buildAll_length he]
        split
        · have h1 := withDefaults_conv (Ρ := withCalls P (callSrc P slot Gs n)) (J := G.inDefaults) (slot := slot) (fun k => (hs G hmem).1.trans (hI k)) (buildAll_drop (args.length - G.required) he) args w
          simp only [callWith, h1]
          cases withDefaults (srcLang (withCalls P (callSrc P slot Gs n)) G.inDefaults slot) ((G.defaults.drop (args.length - G.required)).map ([], ·)) args w with
          | error r => rfl
          | ok p =>
            obtain ⟨vs, w⟩ := p
            have hnil : (langDoc (withCalls P (callSrc P slot Gs n))).nil = P.base.nil := rfl
            simp only [names_conv, hnil, bindPatterns_conv]
            cases Program.bindPatterns (srcLang (withCalls P (callSrc P slot Gs n)) G.inBody slot) G.patterns (vs ++ List.replicate (Program.names G.patterns) P.base.nil) w with
            | error r => rfl
            | ok p =>
              obtain ⟨vs, w⟩ := p
              have h2 := callBody_conv (Ρ := withCalls P (callSrc P slot Gs n)) (J := G.inBody) (slot := slot) (fun k => (hs G hmem).2.trans (hI k)) n hb vs w
              simp only [h2]
              rcases Stmts.callBody (srcLang (withCalls P (callSrc P slot Gs n)) G.inBody slot) n G.body vs w with _ | (_ | _) <;> rfl
        · rfl

theorem result_conv (P : Prog Γ Er S) (I : Scope Γ) (hI : ∀ k, I.ofCmp = (P.base.prims k).ofCmp) (slot glob : Nat → Γ.X) {Gs : List (SFn Γ)} (hs : SameCmp I Gs) (hf : buildFns slot Gs = some P.fns)
    {q : Stmts.Block (srcSig Γ)} {b : Stmts.Block (Full.sig Γ)} (hb : buildB (withGlobals I glob []) slot q = some b) (n : Nat) (s : S) :
    Program.result P n b s = resultSrc P I slot glob Gs n q s := by
  unfold Program.result resultSrc
  rw [show Program.lang P n = langDoc (withCalls P (callFn P n)) from rfl, callFn_conv P I hI slot hs hf n,
    runB_conv (Ρ := withCalls P (callSrc P slot Gs n)) (I := withGlobals I glob []) (slot := slot) hI n q hb [] ([], s)]
  rcases Stmts.runB (srcLang (withCalls P (callSrc P slot Gs n)) (withGlobals I glob []) slot) n q [] ([], s) with _ | (_ | _ | _ | _ | _) <;> rfl

/-! ## The functions and the rest of the program -/

/-- The specification after the statements `pre`. -/
def partsOf (pre : List SStmt) (p : List SStmt) : SBlock × List (List String × FnText) × List String :=
  (.ofList (p.mapIdx fun i s => s.inMain (pre ++ p.take i)),
    ((List.range p.length).filterMap fun (i : Nat) => p[i]?.bind (SStmt.function (pre ++ p.take i))),
    (pre ++ p).flatMap SStmt.declares)

theorem partsOf_cons (pre : List SStmt) (s : SStmt) (p : List SStmt) :
    partsOf pre (s :: p) = (.cons (s.inMain pre) (partsOf (pre ++ [s]) p).1, (s.function pre).toList ++ (partsOf (pre ++ [s]) p).2.1, (partsOf (pre ++ [s]) p).2.2) := by
  unfold partsOf
  simp only [List.mapIdx_cons, SBlock.ofList, List.take_zero, List.append_nil, List.take_succ_cons, List.append_assoc, List.singleton_append, List.length_cons, List.range_succ_eq_map, List.filterMap_cons, List.filterMap_map]
  refine Prod.ext rfl (Prod.ext ?_ rfl)
  simp only [List.getElem?_cons_zero, Option.bind_some]
  cases s.function pre <;> rfl

theorem vars_eq (ds : List Dec) : ds.flatMap Dec.vars = (SStmt.lets ds).declares := by
  unfold SStmt.declares
  congr 1

theorem topLevel_after : ∀ (p : SBlock) (pre : List SStmt),
    topLevel (pre.countP SStmt.isFn) (pre.flatMap SStmt.declares) p = partsOf pre p.list
  | .nil, pre => by simp [topLevel, SBlock.list, SBlock.ofList, partsOf]
  | .cons s b, pre => by
    have ih := topLevel_after b (pre ++ [s])
    rw [SBlock.list, partsOf_cons, ← ih, List.countP_append, List.flatMap_append, List.flatMap_singleton]
    cases s <;> simp only [topLevel, vars_eq, SStmt.inMain, SStmt.function, Option.toList, List.nil_append, List.cons_append] <;> simp [SStmt.declares, SStmt.isFn]

theorem topLevel_eq (p : SBlock) : topLevel 0 [] p = (mainOf p.list, functionsOf p.list, p.list.flatMap SStmt.declares) := topLevel_after p []

end Cordy.Source
