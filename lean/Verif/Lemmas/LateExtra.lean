import Verif.Lemmas.LateMain
import Mathlib.Data.List.Forall2
/-!
# Patterns, errors, panics, and programs without forward references
-/
namespace Cordy.Late
open Cordy.LateSpec

variable {O : Type}

/-! ## Running in two parts -/

theorem run_append (a b : List (Ev O)) : ∀ s : State O, run s (a ++ b) = (run s a).bind (fun s' => run s' b) := by
  induction a with
  | nil => intro s; rfl
  | cons e a ih =>
    intro s
    simp only [List.cons_append, run]
    cases step s e with
    | none => rfl
    | some s' => exact ih s'

/-! ## The tables along a run -/

theorem resolveLate_tables {s s' : State O} {name : String} {r : Bound} (h : s.resolveLate name r = some s') :
    s'.methods = s.methods ∧ s'.globals = s.globals ∧ s'.next = s.next := by
  unfold State.resolveLate at h
  split at h
  · cases h; exact ⟨rfl, rfl, rfl⟩
  · cases h

theorem step_tables {past : List (Ev O)} {s s' : State O} {e : Ev O} (ht : Tables past s) (hd : DistinctGlobals past) (hs : step s e = some s') :
    Tables (past ++ [e]) s' := by
  cases e with
  | openFn => cases hs; exact tables_other _ ht ⟨rfl, rfl, by simp⟩ rfl rfl
  | emit f o => cases hs; exact tables_other _ ht ⟨rfl, rfl, by simp⟩ rfl rfl
  | branch f => cases hs; exact tables_other _ ht ⟨rfl, rfl, by simp⟩ rfl rfl
  | use f store name mod this =>
    cases hs
    refine tables_other _ ht ⟨rfl, rfl, by simp⟩ ?_ ?_ <;> (unfold State.use; split <;> rfl)
  | pattern names mod this =>
    simp only [step] at hs
    unfold State.pattern at hs
    cases h1 : s.targets s.code.patterns.length mod this names with
    | none => rw [h1] at hs; cases hs
    | some x =>
      rw [h1] at hs
      cases hs
      obtain ⟨_, a2, a3, _⟩ := targets_spec _ _ _ _ _ _ _ h1
      exact tables_other _ ht ⟨rfl, rfl, by simp⟩ a2 a3
  | global name i =>
    obtain ⟨a1, a2, _⟩ := resolveLate_tables hs
    exact tables_global name i ht a1 a2
  | initialised name => cases hs; exact tables_init name ht hd
  | method m name id inst =>
    obtain ⟨a1, a2, _⟩ := resolveLate_tables hs
    exact tables_method m name id inst ht a1 a2

theorem run_tables (fut : List (Ev O)) : ∀ (past : List (Ev O)) (s s' : State O), Tables past s → DistinctGlobals (past ++ fut) →
    run s fut = some s' → Tables (past ++ fut) s' := by
  induction fut with
  | nil => intro past s s' ht _ h; cases h; simpa using ht
  | cons e fut ih =>
    intro past s s' ht hd h
    unfold run at h
    cases h1 : step s e with
    | none => rw [h1] at h; cases h
    | some s1 =>
      rw [h1] at h
      have := ih (past ++ [e]) s1 s' (step_tables ht (DistinctGlobals.left hd) h1) (by simpa using hd) h
      simpa using this

theorem tables_nil : Tables ([] : List (Ev O)) init := ⟨rfl, rfl, fun _ => rfl⟩

/-! ## What each event does to the outstanding bindings -/

/-- A step appends new bindings, then drops those of the name that is declared. -/
theorem step_late {past : List (Ev O)} {s s' : State O} {e : Ev O} (hs : step s e = some s') :
    ∀ β ∈ s.late, declares β.name e = none → β ∈ s'.late := by
  have hres : ∀ (s0 : State O) (name : String) (r : Bound), s0.late = s.late → s0.resolveLate name r = some s' →
      ∀ β ∈ s.late, β.name ≠ name → β ∈ s'.late := by
    intro s0 name r hl h β hβ hn
    unfold State.resolveLate at h
    cases h1 : resolveLoop name r s0.code s0.late 0 with
    | none => rw [h1] at h; cases h
    | some x =>
      obtain ⟨c, l⟩ := x
      rw [h1] at h
      cases h
      obtain ⟨_, _, p2, _⟩ := resolveLoop_spec name r _ _ _ 0 rfl (by intro j hj; omega) _ _ h1
      apply p2.symm.subset
      rw [hl, List.mem_filter]
      exact ⟨hβ, by simpa using hn⟩
  intro β hβ hd
  cases e with
  | openFn => cases hs; exact hβ
  | emit f o => cases hs; exact hβ
  | branch f => cases hs; exact hβ
  | use f store name mod this =>
    cases hs
    unfold State.use
    split
    · exact hβ
    · exact hβ
    · simp [State.addLate, hβ]
  | pattern names mod this =>
    simp only [step] at hs
    unfold State.pattern at hs
    cases h1 : s.targets s.code.patterns.length mod this names with
    | none => rw [h1] at hs; cases hs
    | some x =>
      rw [h1] at hs
      cases hs
      obtain ⟨_, _, _, extra, a4, _⟩ := targets_spec _ _ _ _ _ _ _ h1
      show β ∈ x.1.late
      rw [a4]; simp [hβ]
  | global name i =>
    refine hres { s with globals := s.globals ++ [⟨name, i, false⟩] } name (.global i) rfl hs β hβ ?_
    rintro rfl; simp [declares] at hd
  | initialised name => cases hs; exact hβ
  | method m name id inst =>
    refine hres { s with methods := s.methods ++ [⟨m, name, id, inst⟩] } name (.method id inst) rfl hs β hβ ?_
    rintro rfl; simp [declares] at hd

theorem run_late (fut : List (Ev O)) : ∀ (s s' : State O), run s fut = some s' →
    ∀ β ∈ s.late, (∀ e ∈ fut, declares β.name e = none) → β ∈ s'.late := by
  induction fut with
  | nil => intro s s' h β hβ _; cases h; exact hβ
  | cons e fut ih =>
    intro s s' h β hβ hd
    unfold run at h
    cases h1 : step s e with
    | none => rw [h1] at h; cases h
    | some s1 =>
      rw [h1] at h
      exact ih s1 s' h β (step_late (past := []) h1 β hβ (hd e (by simp))) (fun x hx => hd x (by simp [hx]))

/-! ## Errors -/

theorem resolveRemaining_errors : ∀ (l : List Binding) (c c' : Code O), resolveRemaining c l = some c' →
    (∀ x ∈ c.errors, x ∈ c'.errors) ∧ ∀ β ∈ l, β.fallback = none → Err.undeclaredIdentifier β.name ∈ c'.errors := by
  intro l
  induction l with
  | nil => intro c c' h; cases h; exact ⟨fun _ h => h, by simp⟩
  | cons β l ih =>
    intro c c' h
    unfold resolveRemaining at h
    cases h1 : resolveRemainingOne c β with
    | none => rw [h1] at h; cases h
    | some c1 =>
      rw [h1] at h
      obtain ⟨a, b⟩ := ih c1 c' h
      have hc1 : ∀ x ∈ c.errors, x ∈ c1.errors := by
        intro x hx
        unfold resolveRemainingOne at h1
        split at h1
        · cases h1; exact hx
        · cases h1; exact hx
        · cases h1
        · cases h1; simp [Code.error, hx]
      refine ⟨fun x hx => a x (hc1 x hx), ?_⟩
      intro β' hβ' hf
      rcases List.mem_cons.1 hβ' with rfl | hβ'
      · apply a
        unfold resolveRemainingOne at h1
        rw [hf] at h1
        cases h1
        simp [Code.error]
      · exact b β' hβ' hf

/-- the late binding of a late use -/
theorem use_adds {past : List (Ev O)} {s : State O} (ht : Tables past s) (f : Nat) (store : Bool) (name : String) (mod : Option Nat) (this : This)
    (hl : isLate past mod name = true) :
    ∃ β ∈ (s.use f store name mod this).late, β.name = name ∧ β.fallback = if mod.isSome then globalReady name past else none := by
  unfold State.use
  rw [resolve_late ht mod name hl]
  exact ⟨⟨s.next, name, this, (if store then .store (s.code.nextOpcode f) else .load (s.code.nextOpcode f)),
    if mod.isSome then globalReady name past else none⟩, by simp [State.addLate], rfl, rfl⟩

theorem isLate_of_undeclared {past : List (Ev O)} {mod : Option Nat} {name : String} (h : ∀ e ∈ past, declares name e = none) :
    isLate past mod name = true ∧ globalReady name past = none := by
  have hg : globalReady name past = none := by
    induction past with
    | nil => rfl
    | cons e past ih =>
      have := ih (fun x hx => h x (by simp [hx]))
      cases e <;> simp only [globalReady, this]
      rename_i n i
      have hn := h (.global n i) (by simp)
      simp only [declares, ite_eq_right_iff] at hn
      rw [if_neg (fun hh => by cases hn hh.1)]
  refine ⟨?_, hg⟩
  have hm : ∀ m, past.findSome? (declaresMethod m name) = none := by
    intro m
    rw [List.findSome?_eq_none_iff]
    intro e he
    have := h e he
    cases e <;> simp only [declaresMethod, declares] at this ⊢
    rename_i m' n id i
    rw [if_neg]
    rintro ⟨_, rfl⟩
    simp at this
  unfold isLate
  rw [hg]
  cases mod with
  | none => rfl
  | some m => simp [hm]

/-! ## Panics -/

/-- the outstanding patterns will be settled by globals, or are errors -/
def PatternsFine (fut : List (Ev O)) (late : List Binding) : Prop :=
  ∀ β ∈ late, ∀ p, β.kind = .pattern p → (∃ i, fut.findSome? (declares β.name) = some (.global i)) ∨
    (fut.findSome? (declares β.name) = none ∧ β.fallback = none)

theorem patternsFine_skip {e : Ev O} {fut : List (Ev O)} {late : List Binding} (h : PatternsFine (e :: fut) late) (hd : ∀ n, declares n e = none) :
    PatternsFine fut late := by
  intro β hβ p hp
  have := h β hβ p hp
  rw [List.findSome?_cons, hd] at this
  exact this

theorem resolveOne_some {c : Code O} {β : Binding} {r : Bound} (h : ∀ p, β.kind = .pattern p → ∃ i, r = .global i) : ∃ c', resolveOne c β r = some c' := by
  unfold resolveOne
  cases hk : β.kind with
  | load pos => cases r with
    | global i => exact ⟨_, rfl⟩
    | method id inst => cases inst <;> exact ⟨_, rfl⟩
  | store pos => cases r <;> exact ⟨_, rfl⟩
  | pattern p =>
    obtain ⟨i, rfl⟩ := h p hk
    exact ⟨_, rfl⟩

theorem resolveLoop_some (name : String) (r : Bound) : ∀ (n : Nat) (c : Code O) (late : List Binding) (i : Nat), late.length - i = n →
    (∀ β ∈ late, β.name = name → ∀ p, β.kind = .pattern p → ∃ i, r = .global i) → ∃ x, resolveLoop name r c late i = some x := by
  intro n
  induction n with
  | zero => intro c late i hn _; rw [resolveLoop, dif_neg (by omega)]; exact ⟨_, rfl⟩
  | succ n ih =>
    intro c late i hn h
    have hi : i < late.length := by omega
    rw [resolveLoop, dif_pos hi]
    by_cases hname : late[i].name = name
    · rw [if_pos hname]
      obtain ⟨c', hc'⟩ := resolveOne_some (c := c) (β := late[i]) (r := r) (h _ (List.getElem_mem hi) hname)
      rw [hc']
      refine ih c' _ i (by rw [swapRemove_length]; omega) ?_
      intro β hβ
      exact h β ((swapRemove_perm late i hi).subset (by simp [hβ]))
    · rw [if_neg hname]
      exact ih c late (i + 1) (by omega) h

theorem declare_some {s : State O} {e : Ev O} {fut : List (Ev O)} (h : PatternsFine (e :: fut) s.late) (s0 : State O) (hl : s0.late = s.late)
    (name : String) (r : Bound) (hdecl : ∀ n, declares n e = if name = n then some r else none) :
    ∃ s', s0.resolveLate name r = some s' ∧ PatternsFine fut s'.late := by
  have h1 : ∀ β ∈ s0.late, β.name = name → ∀ p, β.kind = .pattern p → ∃ i, r = .global i := by
    intro β hβ hn p hp
    have := h β (by rw [← hl]; exact hβ) p hp
    rw [List.findSome?_cons, hdecl, if_pos hn.symm] at this
    rcases this with ⟨i, hi⟩ | ⟨hi, _⟩
    · exact ⟨i, by simpa using hi⟩
    · cases hi
  obtain ⟨⟨c, l⟩, hx⟩ := resolveLoop_some name r _ s0.code s0.late 0 rfl h1
  refine ⟨{ s0 with code := c, late := l }, by simp [State.resolveLate, hx], ?_⟩
  obtain ⟨_, _, p2, _⟩ := resolveLoop_spec name r _ _ _ 0 rfl (by intro j hj; omega) _ _ hx
  intro β hβ p hp
  have hm := p2.subset hβ
  rw [List.mem_filter, hl] at hm
  have := h β hm.1 p hp
  rw [List.findSome?_cons, hdecl, if_neg (by have := hm.2; simp at this; exact fun hh => this hh.symm)] at this
  exact this

theorem targets_fine (p : Nat) (mod : Option Nat) (this : This) (past fut : List (Ev O)) : ∀ (ns : List String) (s : State O), Tables past s →
    TargetsFine past fut mod ns → PatternsFine fut s.late →
    ∃ s' l, s.targets p mod this ns = some (s', l) ∧ PatternsFine fut s'.late := by
  intro ns
  induction ns with
  | nil => intro s _ _ hp; exact ⟨s, [], rfl, hp⟩
  | cons n ns ih =>
    intro s ht hf hp
    have hn := hf n (by simp)
    have h1 : ∃ s1 st, s.target p n mod this = some (s1, st) ∧ PatternsFine fut s1.late ∧ s1.methods = s.methods ∧ s1.globals = s.globals := by
      cases hl : isLate past mod n with
      | true =>
        rw [hl] at hn
        simp only [if_true] at hn
        refine ⟨s.addLate n this (.pattern p) (if mod.isSome then globalReady n past else none), .late s.next,
          by unfold State.target; rw [resolve_late ht mod n hl], ?_, rfl, rfl⟩
        intro β hβ q hq
        simp only [State.addLate, List.mem_append, List.mem_singleton] at hβ
        rcases hβ with hβ | rfl
        · exact hp β hβ q hq
        · simp only
          rcases hn with hn | ⟨hn, hn2⟩
          · exact Or.inl hn
          · right
            refine ⟨hn, ?_⟩
            cases hm : mod.isSome with
            | false => simp
            | true =>
              rw [hm] at hn2
              simp only [true_and] at hn2
              simp only [if_true]
              cases hg : globalReady n past with
              | none => rfl
              | some g => rw [hg] at hn2; simp at hn2
      | false =>
        rw [hl] at hn
        simp only [Bool.false_eq_true, if_false] at hn
        have hm : s.findMethod mod n = none := by
          cases mod with
          | none => rfl
          | some m =>
            simp only [Option.bind_some] at hn
            rw [← find_methodsOf, ← ht.methods] at hn
            simpa [State.findMethod] using hn
        cases mod with
        | some m =>
          unfold isLate at hl
          rw [hn] at hl
          simp at hl
        | none =>
          cases hg : s.findGlobal n with
          | none => unfold isLate at hl; rw [← ht.ready, hg] at hl; simp at hl
          | some i =>
            refine ⟨s, .bound i, ?_, hp, rfl, rfl⟩
            unfold State.target State.resolve
            rw [hm, hg]
    obtain ⟨s1, st, e1, e2, e3, e4⟩ := h1
    have ht1 : Tables past s1 := by
      refine ⟨by rw [e3]; exact ht.methods, by rw [e4]; exact ht.names, ?_⟩
      intro name
      rw [← ht.ready]; unfold State.findGlobal; rw [e4]
    obtain ⟨s2, sts, e5, e6⟩ := ih s1 ht1 (fun x hx => hf x (by simp [hx])) e2
    exact ⟨s2, st :: sts, by unfold State.targets; rw [e1]; simp [e5], e6⟩

theorem run_some : ∀ (fut past : List (Ev O)) (s : State O), Tables past s → DistinctGlobals (past ++ fut) → PatternsFine fut s.late →
    (∀ a names mod this b, fut = a ++ .pattern names mod this :: b → TargetsFine (past ++ a) b mod names) →
    ∃ s', run s fut = some s' ∧ PatternsFine ([] : List (Ev O)) s'.late := by
  intro fut
  induction fut with
  | nil => intro past s _ _ hp _; exact ⟨s, rfl, hp⟩
  | cons e fut ih =>
    intro past s ht hd hp hpat
    have hpat' : ∀ a names mod this b, fut = a ++ .pattern names mod this :: b → TargetsFine ((past ++ [e]) ++ a) b mod names := by
      intro a names mod this b hh
      have := hpat (e :: a) names mod this b (by simp [hh])
      simpa using this
    have key : ∃ s', step s e = some s' ∧ PatternsFine fut s'.late := by
      cases e with
      | openFn => exact ⟨_, rfl, patternsFine_skip hp (fun _ => rfl)⟩
      | emit f o => exact ⟨_, rfl, patternsFine_skip hp (fun _ => rfl)⟩
      | branch f => exact ⟨_, rfl, patternsFine_skip hp (fun _ => rfl)⟩
      | use f store name mod this =>
        refine ⟨_, rfl, ?_⟩
        have h0 := patternsFine_skip hp (fun _ => rfl)
        unfold State.use
        split
        · exact h0
        · exact h0
        · intro β hβ q hq
          simp only [State.addLate, List.mem_append, List.mem_singleton] at hβ
          rcases hβ with hβ | rfl
          · exact h0 β hβ q hq
          · cases store <;> cases hq
      | pattern names mod this =>
        have h0 := patternsFine_skip hp (fun _ => rfl)
        obtain ⟨s1, l, e1, e2⟩ := targets_fine s.code.patterns.length mod this past fut names s ht
          (by have := hpat [] names mod this fut rfl; simpa using this) h0
        exact ⟨{ s1 with code := { s1.code with patterns := s1.code.patterns ++ [l] } }, by simp only [step, State.pattern, e1], e2⟩
      | global name i => exact declare_some hp { s with globals := s.globals ++ [⟨name, i, false⟩] } rfl name (.global i) (fun n => rfl)
      | initialised name => exact ⟨_, rfl, patternsFine_skip hp (fun _ => rfl)⟩
      | method m name id inst => exact declare_some hp { s with methods := s.methods ++ [⟨m, name, id, inst⟩] } rfl name (.method id inst) (fun n => rfl)
    obtain ⟨s1, h1, h2⟩ := key
    obtain ⟨s', h3, h4⟩ := ih (past ++ [e]) s1 (step_tables ht (DistinctGlobals.left hd) h1) (by simpa using hd) h2 hpat'
    exact ⟨s', by unfold run; rw [h1]; exact h3, h4⟩

theorem resolveRemaining_some : ∀ (l : List Binding) (c : Code O), PatternsFine ([] : List (Ev O)) l → ∃ c', resolveRemaining c l = some c' := by
  intro l
  induction l with
  | nil => intro c _; exact ⟨c, rfl⟩
  | cons β l ih =>
    intro c h
    have h1 : ∃ c1, resolveRemainingOne c β = some c1 := by
      unfold resolveRemainingOne
      cases hf : β.fallback with
      | none => exact ⟨_, rfl⟩
      | some g =>
        cases hk : β.kind with
        | load pos => exact ⟨_, rfl⟩
        | store pos => exact ⟨_, rfl⟩
        | pattern p =>
          rcases h β (by simp) p hk with ⟨i, hi⟩ | ⟨_, hi⟩
          · cases hi
          · rw [hf] at hi; cases hi
    obtain ⟨c1, e1⟩ := h1
    obtain ⟨c2, e2⟩ := ih c1 (fun β hβ => h β (by simp [hβ]))
    exact ⟨c2, by unfold resolveRemaining; rw [e1]; exact e2⟩

end Cordy.Late
