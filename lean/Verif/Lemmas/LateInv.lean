import Verif.Lemmas.LateRun
/-!
# The invariant of a history, for one block
-/
namespace Cordy.Late
open Cordy.LateSpec

variable {O : Type}

/-! ## The tables of names -/

def methodsOf (past : List (Ev O)) : List Method := past.filterMap (fun | .method m n id i => some ⟨m, n, id, i⟩ | _ => none)

def globalsOf (past : List (Ev O)) : List (String × Nat) := past.filterMap (fun | .global n i => some (n, i) | _ => none)

theorem find_methodsOf (m : Nat) (name : String) (past : List (Ev O)) :
    ((methodsOf past).find? (fun d => d.module = m ∧ d.name = name)).map (fun d => Bound.method d.id d.inst) =
      past.findSome? (declaresMethod m name) := by
  induction past with
  | nil => rfl
  | cons e past ih =>
    cases e <;> simp only [methodsOf, List.filterMap_cons, List.findSome?_cons, declaresMethod] at ih ⊢ <;> try exact ih
    rename_i m' n id i
    rw [List.find?_cons]
    by_cases h : m' = m ∧ n = name
    · simp [h]
    · simp only [h, decide_false, if_false]; exact ih

structure Tables (past : List (Ev O)) (s : State O) : Prop where
  methods : s.methods = methodsOf past
  names : s.globals.map (fun g => (g.name, g.index)) = globalsOf past
  ready : ∀ name, s.findGlobal name = globalReady name past

theorem DistinctGlobals.left {a b : List (Ev O)} (h : DistinctGlobals (a ++ b)) : DistinctGlobals a := by
  unfold DistinctGlobals at h ⊢
  rw [List.filterMap_append] at h
  exact (List.nodup_append.1 h).1

theorem globalsOf_nodup {past : List (Ev O)} (h : DistinctGlobals past) : ((globalsOf past).map Prod.fst).Nodup := by
  unfold DistinctGlobals at h
  have : (globalsOf past).map Prod.fst = past.filterMap (fun | .global n _ => some n | _ => none) := by
    unfold globalsOf
    rw [List.map_filterMap]
    congr 1
    funext e
    cases e <;> rfl
  rw [this]; exact h

theorem globalReady_append_other (name : String) (past : List (Ev O)) (e : Ev O) (h : e ≠ .initialised name) :
    globalReady name (past ++ [e]) = globalReady name past := by
  induction past with
  | nil => cases e <;> simp [globalReady]
  | cons x past ih =>
    cases x <;> simp only [List.cons_append, globalReady, ih]
    rename_i n i
    have : (past ++ [e]).any (initialises name) = past.any (initialises name) := by
      rw [List.any_append]
      cases e <;> simp [initialises]
      rename_i n'
      intro hn; exact absurd (by rw [hn]) h
    rw [this]

theorem globalReady_append_init (name : String) (past : List (Ev O)) :
    globalReady name (past ++ [.initialised name]) = ((globalsOf past).find? (fun p => p.1 = name)).map Prod.snd := by
  induction past with
  | nil => rfl
  | cons x past ih =>
    cases x <;> simp only [List.cons_append, globalReady, globalsOf, List.filterMap_cons] at ih ⊢ <;> try exact ih
    rename_i n i
    rw [List.find?_cons]
    by_cases h : n = name
    · simp [h, initialises]
    · simp only [h, false_and, if_false, decide_false]; exact ih

theorem tables_other {past : List (Ev O)} {s s' : State O} (e : Ev O) (h : Tables past s)
    (he : methodsOf [e] = [] ∧ globalsOf [e] = [] ∧ ∀ n, e ≠ .initialised n)
    (hm : s'.methods = s.methods) (hg : s'.globals = s.globals) : Tables (past ++ [e]) s' := by
  refine ⟨?_, ?_, ?_⟩
  · rw [hm, h.methods]; unfold methodsOf at *; rw [List.filterMap_append, he.1]; simp
  · rw [hg, h.names]; have := he.2.1; unfold globalsOf at *; rw [List.filterMap_append, this]; simp
  · intro name
    rw [globalReady_append_other _ _ _ (he.2.2 name), ← h.ready]
    unfold State.findGlobal; rw [hg]

theorem tables_global {past : List (Ev O)} {s s' : State O} (n : String) (i : Nat) (h : Tables past s)
    (hm : s'.methods = s.methods) (hg : s'.globals = s.globals ++ [⟨n, i, false⟩]) : Tables (past ++ [.global n i]) s' := by
  refine ⟨?_, ?_, ?_⟩
  · rw [hm, h.methods]; simp [methodsOf]
  · rw [hg, List.map_append, h.names]; simp [globalsOf]
  · intro name
    rw [globalReady_append_other _ _ _ (by simp), ← h.ready]
    unfold State.findGlobal; rw [hg]
    simp

theorem tables_method {past : List (Ev O)} {s s' : State O} (m : Nat) (n : String) (id : Nat) (inst : Bool) (h : Tables past s)
    (hm : s'.methods = s.methods ++ [⟨m, n, id, inst⟩]) (hg : s'.globals = s.globals) : Tables (past ++ [.method m n id inst]) s' := by
  refine ⟨?_, ?_, ?_⟩
  · rw [hm, h.methods]; simp [methodsOf]
  · rw [hg, h.names]; simp [globalsOf]
  · intro name
    rw [globalReady_append_other _ _ _ (by simp), ← h.ready]
    unfold State.findGlobal; rw [hg]

theorem find_reverse_of_nodup {α : Type} (key : α → String) (name : String) : ∀ (l : List α), (l.map key).Nodup →
    l.reverse.find? (fun x => key x = name) = l.find? (fun x => key x = name) := by
  intro l
  induction l with
  | nil => intro _; rfl
  | cons x l ih =>
    intro h
    rw [List.map_cons, List.nodup_cons] at h
    rw [List.reverse_cons, List.find?_append, ih h.2, List.find?_cons]
    by_cases hx : key x = name
    · have : l.find? (fun x => key x = name) = none := by
        rw [List.find?_eq_none]
        intro y hy
        simp only [decide_eq_true_eq]
        intro hy'
        exact h.1 (List.mem_map.2 ⟨y, hy, hy'.trans hx.symm⟩)
      rw [this]; simp [hx]
    · simp [hx]

theorem tables_init {past : List (Ev O)} {s : State O} (n : String) (h : Tables past s) (hd : DistinctGlobals past) :
    Tables (past ++ [.initialised n]) (s.initialise n) := by
  have hnames : (s.initialise n).globals.map (fun g => (g.name, g.index)) = s.globals.map (fun g => (g.name, g.index)) := by
    simp only [State.initialise, List.map_map]
    congr 1
    funext g
    simp only [Function.comp_apply]
    split <;> rfl
  refine ⟨?_, ?_, ?_⟩
  · simp [State.initialise, h.methods, methodsOf]
  · rw [hnames, h.names]; simp [globalsOf]
  · intro name
    by_cases hn : n = name
    · subst hn
      rw [globalReady_append_init]
      have hnd : (s.globals.map Global.name).Nodup := by
        have := globalsOf_nodup hd
        rw [← h.names, List.map_map] at this
        exact this
      have hnd' : ((s.initialise n).globals.map Global.name).Nodup := by
        have : (s.initialise n).globals.map Global.name = s.globals.map Global.name := by
          have := congrArg (List.map Prod.fst) hnames
          simpa [List.map_map, Function.comp_def] using this
        rw [this]; exact hnd
      unfold State.findGlobal
      have e1 : (s.initialise n).globals.reverse.find? (fun g => g.name = n ∧ g.init = true) =
          (s.initialise n).globals.reverse.find? (fun g => g.name = n) := by
        have : ∀ l : List Global, (∀ g ∈ l, g.name = n → g.init = true) →
            l.find? (fun g => g.name = n ∧ g.init = true) = l.find? (fun g => g.name = n) := by
          intro l
          induction l with
          | nil => intro _; rfl
          | cons g l ih =>
            intro hl
            rw [List.find?_cons, List.find?_cons, ih (fun g hg => hl g (by simp [hg]))]
            by_cases hg : g.name = n
            · simp [hg, hl g (by simp) hg]
            · simp [hg]
        apply this
        intro g hg hgn
        rw [List.mem_reverse] at hg
        simp only [State.initialise, List.mem_map] at hg
        obtain ⟨g0, _, rfl⟩ := hg
        split
        · rfl
        · rename_i hne; rw [if_neg hne] at hgn; exact absurd hgn hne
      rw [e1, find_reverse_of_nodup Global.name n _ hnd']
      have h1 := congrArg (fun l => (l.find? (fun p : String × Nat => p.1 = n)).map Prod.snd) (hnames.trans h.names)
      simp only [List.find?_map, Option.map_map] at h1
      exact h1
    · rw [globalReady_append_other _ _ _ (by simp [hn]), ← h.ready]
      unfold State.findGlobal
      simp only [State.initialise, ← List.map_reverse, List.find?_map, Option.map_map]
      have e2 : ((fun g : Global => decide (g.name = name ∧ g.init = true)) ∘ fun g : Global => if g.name = n then { g with init := true } else g) =
          fun g => decide (g.name = name ∧ g.init = true) := by
        funext g
        simp only [Function.comp_apply]
        by_cases hg : g.name = n
        · rw [if_pos hg]; simp [hg, hn]
        · rw [if_neg hg]
      rw [e2]
      congr 1
      funext g
      simp only [Function.comp_apply]
      split <;> rfl

theorem findSome_global (name : String) (past : List (Ev O)) :
    past.findSome? (declaresGlobal name) = ((globalsOf past).find? (fun p => p.1 = name)).map (fun p => Bound.global p.2) := by
  induction past with
  | nil => rfl
  | cons e past ih =>
    cases e <;> simp only [globalsOf, List.filterMap_cons, List.findSome?_cons, declaresGlobal] at ih ⊢ <;> try exact ih
    rename_i n i
    rw [List.find?_cons]
    by_cases h : n = name
    · simp [h]
    · simp only [h, decide_false, if_false]; exact ih

theorem globalReady_first (name : String) : ∀ (past : List (Ev O)) (i : Nat), ((globalsOf past).map Prod.fst).Nodup → globalReady name past = some i →
    past.findSome? (declaresGlobal name) = some (.global i) := by
  intro past
  induction past with
  | nil => intro i _ h; cases h
  | cons e past ih =>
    intro i hd h
    cases e <;> simp only [globalReady, List.findSome?_cons, declaresGlobal, globalsOf, List.filterMap_cons] at hd h ⊢ <;> try exact ih i hd h
    rename_i n j
    by_cases hn : n = name
    · simp only [hn, if_true]
      split at h
      · cases h; rfl
      · have hd' := (List.nodup_cons.1 hd)
        have := ih i hd'.2 h
        rw [findSome_global] at this
        cases hf : (globalsOf past).find? (fun p => p.1 = name) with
        | none => rw [hf] at this; cases this
        | some p =>
          exfalso
          apply hd'.1
          have hp := List.find?_some hf
          simp only [decide_eq_true_eq] at hp
          exact List.mem_map.2 ⟨p, List.mem_of_find?_eq_some hf, by simp [hp, hn]⟩
    · rw [if_neg (by simp [hn])] at h
      simp only [hn, if_false]
      exact ih i (List.nodup_cons.1 hd).2 h

/-- what `resolve_reference` finds -/
theorem resolve_late {past : List (Ev O)} {s : State O} (h : Tables past s) (mod : Option Nat) (name : String)
    (hl : isLate past mod name = true) :
    s.resolve mod name = .late (if mod.isSome then globalReady name past else none) := by
  unfold isLate at hl
  simp only [Bool.and_eq_true, Option.isNone_iff_eq_none, Bool.or_eq_true] at hl
  have hm : s.findMethod mod name = none := by
    cases mod with
    | none => rfl
    | some m =>
      have := hl.1
      simp only [Option.bind_some] at this
      rw [← find_methodsOf, ← h.methods] at this
      simpa [State.findMethod] using this
  unfold State.resolve
  rw [hm, h.ready]
  cases mod with
  | none =>
    rcases hl.2 with h2 | h2
    · cases h2
    · simp [h2]
  | some m => cases hg : globalReady name past <;> simp

theorem resolve_found {past fut : List (Ev O)} {s : State O} (h : Tables past s) (hd : DistinctGlobals past) (mod : Option Nat) (name : String)
    (hl : isLate past mod name = false) :
    ∃ r, means (past ++ fut) mod name = some r ∧
      s.resolve mod name = match r with | .global i => .global i | .method id inst => .method id inst := by
  cases hm : mod.bind (fun m => past.findSome? (declaresMethod m name)) with
  | some r =>
    cases mod with
    | none => cases hm
    | some m =>
      simp only [Option.bind_some] at hm
      refine ⟨r, ?_, ?_⟩
      · simp [means, List.findSome?_append, hm]
      · rw [← find_methodsOf, ← h.methods] at hm
        cases hf : s.methods.find? (fun d => d.module = m ∧ d.name = name) with
        | none => rw [hf] at hm; cases hm
        | some d =>
          rw [hf] at hm
          cases hm
          have : s.findMethod (some m) name = some d := hf
          simp [State.resolve, this]
  | none =>
    unfold isLate at hl
    rw [hm] at hl
    cases mod with
    | some m => simp at hl
    | none =>
      cases hg : globalReady name past with
      | none => simp [hg] at hl
      | some i =>
        refine ⟨.global i, ?_, ?_⟩
        · have := globalReady_first name past i (globalsOf_nodup hd) hg
          simp [means, List.findSome?_append, this]
        · simp [State.resolve, State.findMethod, h.ready, hg]

end Cordy.Late
