import Verif.Lemmas.LatePattern
/-!
# Programs that are accepted, the shape of the code, the stores of a pattern
-/
namespace Cordy.Late
open Cordy.LateSpec

variable {O : Type}

/-! ## No errors -/

/-- what settles an outstanding binding -/
def settle (fut : List (Ev O)) (β : Binding) : Option Bound :=
  match fut.findSome? (declares β.name) with
  | some r => some r
  | none => β.fallback.map .global

/-- an outstanding binding will not be an error -/
def FineKind (O : Type) (β : Binding) (r : Option Bound) : Prop :=
  match β.kind with
  | .load _ => (useCode (O := O) false β.this r).isSome
  | .store _ => (useCode (O := O) true β.this r).isSome
  | .pattern _ => ∃ i, r = some (.global i)

def Fine (fut : List (Ev O)) (late : List Binding) : Prop := ∀ β ∈ late, FineKind O β (settle fut β)

theorem fine_skip {e : Ev O} {fut : List (Ev O)} {late : List Binding} (h : Fine (e :: fut) late) (hd : ∀ n, declares n e = none) : Fine fut late := by
  intro β hβ
  have := h β hβ
  unfold settle at this
  rw [List.findSome?_cons, hd] at this
  exact this

theorem resolveOne_noError {c c' : Code O} {β : Binding} {r : Bound} (h : resolveOne c β r = some c') (hf : FineKind O β (some r)) :
    c'.errors = c.errors := by
  unfold resolveOne at h
  unfold FineKind at hf
  cases hk : β.kind with
  | load pos =>
    rw [hk] at h hf
    cases r with
    | global i => cases h; rfl
    | method id inst =>
      cases inst with
      | false => cases h; rfl
      | true =>
        simp only [Option.some.injEq] at h
        subst h
        unfold loadSelfMethod
        cases ht : β.this with
        | invalid => rw [ht] at hf; simp [useCode] at hf
        | «local» i => rfl
        | upvalue i => rfl
  | store pos =>
    rw [hk] at h hf
    cases r with
    | global i => cases h; rfl
    | method id inst => cases inst <;> simp [useCode] at hf
  | pattern p =>
    rw [hk] at h
    cases r with
    | global i => cases h; rfl
    | method id inst => cases h

theorem resolveAll_noError (r : Bound) : ∀ (ms : List Binding) (c c' : Code O), resolveAll r c ms = some c' → (∀ β ∈ ms, FineKind O β (some r)) →
    c'.errors = c.errors := by
  intro ms
  induction ms with
  | nil => intro c c' h _; cases h; rfl
  | cons β ms ih =>
    intro c c' h hf
    unfold resolveAll at h
    cases h1 : resolveOne c β r with
    | none => rw [h1] at h; cases h
    | some c1 =>
      rw [h1] at h
      rw [ih c1 c' h (fun β hβ => hf β (by simp [hβ])), resolveOne_noError h1 (hf β (by simp))]

theorem declare_noError {s0 s' : State O} {e : Ev O} {fut : List (Ev O)} {name : String} {r : Bound} (hf : Fine (e :: fut) s0.late)
    (hd : ∀ n, declares n e = if name = n then some r else none) (hs : s0.resolveLate name r = some s') :
    s'.code.errors = s0.code.errors ∧ Fine fut s'.late := by
  unfold State.resolveLate at hs
  cases h1 : resolveLoop name r s0.code s0.late 0 with
  | none => rw [h1] at hs; cases hs
  | some x =>
    obtain ⟨c, late'⟩ := x
    rw [h1] at hs
    cases hs
    obtain ⟨ms, p1, p2, p3⟩ := resolveLoop_spec name r _ _ _ 0 rfl (by intro j hj; omega) _ _ h1
    refine ⟨resolveAll_noError r ms _ _ p3 ?_, ?_⟩
    · intro β hβ
      have hm := p1.subset hβ
      rw [List.mem_filter] at hm
      have h2 := hf β hm.1
      unfold settle at h2
      rw [List.findSome?_cons, hd, if_pos (by have := hm.2; simp at this; exact this.symm)] at h2
      exact h2
    · intro β hβ
      have hm := p2.subset hβ
      rw [List.mem_filter] at hm
      have h2 := hf β hm.1
      unfold settle at h2
      rw [List.findSome?_cons, hd, if_neg (by have := hm.2; simp at this; exact fun hh => this hh.symm)] at h2
      exact h2

theorem found_noError (c : Code O) (f : Nat) (store : Bool) (this : This) (r : Bound) (h : (useCode (O := O) store this (some r)).isSome) :
    ((if store then c.storeFound f this r else c.loadFound f this r) : Code O).errors = c.errors := by
  cases r with
  | global i => cases store <;> rfl
  | method id inst =>
    cases store with
    | true => cases inst <;> simp [useCode] at h
    | false =>
      cases inst with
      | false => rfl
      | true => cases this with
        | invalid => simp [useCode] at h
        | «local» i => rfl
        | upvalue i => rfl

/-- the bindings that a pattern adds, and its stores -/
theorem targets_bindings (g : String → Nat) (p : Nat) (mod : Option Nat) (this : This) (past fut : List (Ev O)) (hd : DistinctGlobals past) :
    ∀ (ns : List String) (s s' : State O) (l : List PStore),
    Tables past s → s.targets p mod this ns = some (s', l) →
    (∀ β ∈ s'.late, β ∈ s.late ∨ (β.kind = .pattern p ∧ β.name ∈ ns ∧ isLate past mod β.name = true)) ∧
    ((∀ n ∈ ns, means (past ++ fut) mod n = some (.global (g n))) → Stores g p s'.late ns l) := by
  intro ns
  induction ns with
  | nil => intro s s' l _ h; cases h; exact ⟨fun β hβ => Or.inl hβ, fun _ => List.Forall₂.nil⟩
  | cons n ns ih =>
    intro s s' l ht h
    unfold State.targets at h
    cases h1 : s.target p n mod this with
    | none => rw [h1] at h; cases h
    | some x =>
      rw [h1] at h
      simp only at h
      cases h2 : x.1.targets p mod this ns with
      | none => rw [h2] at h; cases h
      | some y =>
        rw [h2] at h
        cases h
        obtain ⟨_, _, _, extra, a4, _⟩ := targets_spec _ _ _ _ _ _ _ h2
        unfold State.target at h1
        cases hl : isLate past mod n with
        | true =>
          rw [resolve_late ht mod n hl] at h1
          simp only [Option.some.injEq] at h1
          subst h1
          obtain ⟨hA, hB⟩ := ih (s.addLate n this (.pattern p) (if mod.isSome then globalReady n past else none)) _ _ ⟨ht.methods, ht.names, ht.ready⟩ h2
          refine ⟨?_, ?_⟩
          · intro β hβ
            rcases hA β hβ with h3 | ⟨h3, h4, h5⟩
            · simp only [State.addLate, List.mem_append, List.mem_singleton] at h3
              rcases h3 with h3 | rfl
              · exact Or.inl h3
              · exact Or.inr ⟨rfl, by simp, hl⟩
            · exact Or.inr ⟨h3, by simp [h4], h5⟩
          · intro hm
            refine List.Forall₂.cons ?_ (hB (fun n hn => hm n (by simp [hn])))
            right
            exact ⟨⟨s.next, n, this, .pattern p, if mod.isSome then globalReady n past else none⟩, by rw [a4]; simp [State.addLate], rfl, rfl, rfl⟩
        | false =>
          obtain ⟨r, e1, e2⟩ := resolve_found (fut := fut) ht hd mod n hl
          rw [e2] at h1
          cases r with
          | method id inst => cases h1
          | global i =>
            simp only [Option.some.injEq] at h1
            subst h1
            obtain ⟨hA, hB⟩ := ih s _ _ ht h2
            refine ⟨?_, ?_⟩
            · intro β hβ
              rcases hA β hβ with h3 | ⟨h3, h4, h5⟩
              · exact Or.inl h3
              · exact Or.inr ⟨h3, by simp [h4], h5⟩
            · intro hm
              refine List.Forall₂.cons ?_ (hB (fun n hn => hm n (by simp [hn])))
              left
              have := hm n (by simp)
              rw [e1] at this
              cases this
              rfl

theorem run_noError : ∀ (fut past : List (Ev O)) (s s' : State O), Tables past s → DistinctGlobals (past ++ fut) → Fine fut s.late →
    (∀ a f store name mod this b, fut = a ++ .use f store name mod this :: b →
      (useCode (O := O) store this (if isLate (past ++ a) mod name then settledBy (past ++ a) b mod name else means (past ++ fut) mod name)).isSome) →
    (∀ a names mod this b, fut = a ++ .pattern names mod this :: b →
      ∀ n ∈ names, isLate (past ++ a) mod n = true → ∃ i, b.findSome? (declares n) = some (.global i)) →
    run s fut = some s' → s'.code.errors = s.code.errors ∧ Fine ([] : List (Ev O)) s'.late := by
  intro fut
  induction fut with
  | nil => intro past s s' _ _ hf _ _ h; cases h; exact ⟨rfl, hf⟩
  | cons e fut ih =>
    intro past s s' ht hd hf hu hp h
    unfold run at h
    cases h1 : step s e with
    | none => rw [h1] at h; cases h
    | some s1 =>
      rw [h1] at h
      have key : s1.code.errors = s.code.errors ∧ Fine fut s1.late := by
        cases e with
        | openFn => cases h1; exact ⟨rfl, fine_skip hf (fun _ => rfl)⟩
        | emit f o => cases h1; exact ⟨rfl, fine_skip hf (fun _ => rfl)⟩
        | branch f => cases h1; exact ⟨rfl, fine_skip hf (fun _ => rfl)⟩
        | use f store name mod this =>
          cases h1
          have h0 := fine_skip hf (fun _ => rfl)
          have h2 := hu [] f store name mod this fut rfl
          simp only [List.append_nil] at h2
          unfold State.use
          cases hl : isLate past mod name with
          | true =>
            rw [hl] at h2
            simp only [if_true] at h2
            rw [resolve_late ht mod name hl]
            refine ⟨rfl, ?_⟩
            intro β hβ
            simp only [State.addLate, List.mem_append, List.mem_singleton] at hβ
            rcases hβ with hβ | rfl
            · exact h0 β hβ
            · have hs : settle fut ⟨s.next, name, this, (if store then .store (s.code.nextOpcode f) else .load (s.code.nextOpcode f)),
                  if mod.isSome then globalReady name past else none⟩ = settledBy past fut mod name := by
                unfold settle settledBy
                cases fut.findSome? (declares name) with
                | some r => rfl
                | none => cases mod <;> rfl
              unfold FineKind
              rw [hs]
              cases store <;> exact h2
          | false =>
            obtain ⟨r, e1, e2⟩ := resolve_found (fut := Ev.use f store name mod this :: fut) ht (DistinctGlobals.left hd) mod name hl
            rw [hl, e1] at h2
            simp only [Bool.false_eq_true, if_false] at h2
            rw [e2]
            cases r with
            | global i => exact ⟨found_noError _ _ _ _ _ h2, h0⟩
            | method id inst => exact ⟨found_noError _ _ _ _ _ h2, h0⟩
        | pattern names mod this =>
          have h0 := fine_skip hf (fun _ => rfl)
          simp only [step] at h1
          unfold State.pattern at h1
          cases h2 : s.targets s.code.patterns.length mod this names with
          | none => rw [h2] at h1; cases h1
          | some x =>
            rw [h2] at h1
            cases h1
            obtain ⟨a1, _⟩ := targets_spec _ _ _ _ _ _ _ h2
            obtain ⟨b1, _⟩ := targets_bindings (fun _ => 0) _ mod this past [] (DistinctGlobals.left hd) names s x.1 x.2 ht h2
            refine ⟨by show x.1.code.errors = _; rw [a1], ?_⟩
            intro β hβ
            rcases b1 β hβ with h3 | ⟨h3, h4, h5⟩
            · exact h0 β h3
            · obtain ⟨i, hi⟩ := hp [] names mod this fut rfl β.name h4 (by simpa using h5)
              unfold FineKind settle
              rw [h3, hi]
              exact ⟨i, rfl⟩
        | global name i =>
          exact declare_noError (s0 := { s with globals := s.globals ++ [⟨name, i, false⟩] }) hf (fun n => rfl) h1
        | initialised name => cases h1; exact ⟨rfl, fine_skip hf (fun _ => rfl)⟩
        | method m name id inst =>
          exact declare_noError (s0 := { s with methods := s.methods ++ [⟨m, name, id, inst⟩] }) hf (fun n => rfl) h1
      obtain ⟨k1, k2⟩ := key
      obtain ⟨a, b⟩ := ih (past ++ [e]) s1 s' (step_tables ht (DistinctGlobals.left hd) h1) (by simpa using hd) k2
        (by
          intro a f store name mod this b hh
          have := hu (e :: a) f store name mod this b (by simp [hh])
          simpa using this)
        (by
          intro a names mod this b hh
          have := hp (e :: a) names mod this b (by simp [hh])
          simpa using this) h
      exact ⟨a.trans k1, b⟩

theorem resolveRemaining_noError : ∀ (l : List Binding) (c c' : Code O), Fine ([] : List (Ev O)) l → resolveRemaining c l = some c' → c'.errors = c.errors := by
  intro l
  induction l with
  | nil => intro c c' _ h; cases h; rfl
  | cons β l ih =>
    intro c c' hf h
    unfold resolveRemaining at h
    cases h1 : resolveRemainingOne c β with
    | none => rw [h1] at h; cases h
    | some c1 =>
      rw [h1] at h
      rw [ih c1 c' (fun β hβ => hf β (by simp [hβ])) h]
      have h2 := hf β (by simp)
      unfold resolveRemainingOne at h1
      split at h1
      · cases h1; rfl
      · cases h1; rfl
      · cases h1
      · rename_i hfb
        exfalso
        unfold FineKind settle at h2
        rw [hfb] at h2
        cases hk : β.kind <;> rw [hk] at h2 <;> simp [useCode] at h2

/-! ## Bad uses are reported -/

theorem resolveOne_errors {c c' : Code O} {β : Binding} {r : Bound} (h : resolveOne c β r = some c') (hk : ∀ p, β.kind ≠ .pattern p) :
    (c.errors ≠ [] → c'.errors ≠ []) ∧ (¬ FineKind O β (some r) → c'.errors ≠ []) := by
  unfold resolveOne at h
  unfold FineKind
  cases hk' : β.kind with
  | load pos =>
    rw [hk'] at h
    cases r with
    | global i => cases h; exact ⟨fun h => h, by simp [useCode]⟩
    | method id inst =>
      cases inst with
      | false => cases h; exact ⟨fun h => h, by simp [useCode]⟩
      | true =>
        simp only [Option.some.injEq] at h
        subst h
        unfold loadSelfMethod
        cases ht : β.this with
        | invalid => exact ⟨fun _ => by simp [Code.error], fun _ => by simp [Code.error]⟩
        | «local» i => exact ⟨fun h => h, by simp [useCode]⟩
        | upvalue i => exact ⟨fun h => h, by simp [useCode]⟩
  | store pos =>
    rw [hk'] at h
    cases r with
    | global i => cases h; exact ⟨fun h => h, by simp [useCode]⟩
    | method id inst => cases h; exact ⟨fun _ => by simp [Code.error], fun _ => by simp [Code.error]⟩
  | pattern p => exact absurd hk' (hk p)

theorem resolveOne_keeps {c c' : Code O} {β : Binding} {r : Bound} (h : resolveOne c β r = some c') (hc : c.errors ≠ []) : c'.errors ≠ [] := by
  by_cases hk : ∀ p, β.kind ≠ .pattern p
  · exact (resolveOne_errors h hk).1 hc
  · push Not at hk
    obtain ⟨p, hp⟩ := hk
    unfold resolveOne at h
    rw [hp] at h
    cases r with
    | global i => cases h; exact hc
    | method id inst => cases h

theorem resolveAll_errors (r : Bound) : ∀ (ms : List Binding) (c c' : Code O), resolveAll r c ms = some c' →
    (c.errors ≠ [] ∨ ∃ β ∈ ms, (∀ p, β.kind ≠ .pattern p) ∧ ¬ FineKind O β (some r)) → c'.errors ≠ [] := by
  intro ms
  induction ms with
  | nil => intro c c' h hf; cases h; rcases hf with hf | ⟨β, hβ, _⟩; exact hf; cases hβ
  | cons β ms ih =>
    intro c c' h hf
    unfold resolveAll at h
    cases h1 : resolveOne c β r with
    | none => rw [h1] at h; cases h
    | some c1 =>
      rw [h1] at h
      refine ih c1 c' h ?_
      rcases hf with hf | ⟨β', hβ', hk, hf⟩
      · exact Or.inl (resolveOne_keeps h1 hf)
      · rcases List.mem_cons.1 hβ' with rfl | hβ'
        · exact Or.inl ((resolveOne_errors h1 hk).2 hf)
        · exact Or.inr ⟨β', hβ', hk, hf⟩

/-- there is an error, or a binding that will be one -/
def Bad (fut : List (Ev O)) (s : State O) : Prop :=
  s.code.errors ≠ [] ∨ ∃ β ∈ s.late, (∀ p, β.kind ≠ .pattern p) ∧ ¬ FineKind O β (settle fut β)

theorem declare_bad {s0 s' : State O} {e : Ev O} {fut : List (Ev O)} {name : String} {r : Bound} (hb : Bad (e :: fut) s0)
    (hd : ∀ n, declares n e = if name = n then some r else none) (hs : s0.resolveLate name r = some s') : Bad fut s' := by
  unfold State.resolveLate at hs
  cases h1 : resolveLoop name r s0.code s0.late 0 with
  | none => rw [h1] at hs; cases hs
  | some x =>
    obtain ⟨c, late'⟩ := x
    rw [h1] at hs
    cases hs
    obtain ⟨ms, p1, p2, p3⟩ := resolveLoop_spec name r _ _ _ 0 rfl (by intro j hj; omega) _ _ h1
    rcases hb with hb | ⟨β, hβ, hk, hf⟩
    · exact Or.inl (resolveAll_errors r ms _ _ p3 (Or.inl hb))
    · unfold settle at hf
      rw [List.findSome?_cons, hd] at hf
      by_cases hn : name = β.name
      · rw [if_pos hn] at hf
        refine Or.inl (resolveAll_errors r ms _ _ p3 (Or.inr ⟨β, ?_, hk, hf⟩))
        apply p1.symm.subset
        rw [List.mem_filter]
        exact ⟨hβ, by simp [hn]⟩
      · rw [if_neg hn] at hf
        refine Or.inr ⟨β, ?_, hk, hf⟩
        apply p2.symm.subset
        rw [List.mem_filter]
        exact ⟨hβ, by simpa using fun hh => hn hh.symm⟩

theorem bad_skip {e : Ev O} {fut : List (Ev O)} {s s' : State O} (h : Bad (e :: fut) s) (hd : ∀ n, declares n e = none)
    (he : s.code.errors ≠ [] → s'.code.errors ≠ []) (hl : ∀ β ∈ s.late, β ∈ s'.late) : Bad fut s' := by
  rcases h with h | ⟨β, hβ, hk, hf⟩
  · exact Or.inl (he h)
  · refine Or.inr ⟨β, hl β hβ, hk, ?_⟩
    unfold settle at hf
    rw [List.findSome?_cons, hd] at hf
    exact hf

theorem found_errors (c : Code O) (f : Nat) (store : Bool) (this : This) (r : Bound) :
    (c.errors ≠ [] → ((if store then c.storeFound f this r else c.loadFound f this r) : Code O).errors ≠ []) ∧
    (useCode (O := O) store this (some r) = none → ((if store then c.storeFound f this r else c.loadFound f this r) : Code O).errors ≠ []) := by
  cases r with
  | global i => cases store <;> exact ⟨fun h => h, by simp [useCode]⟩
  | method id inst =>
    cases store with
    | true => cases inst <;> exact ⟨fun _ => by simp [Code.storeFound, Code.error], fun _ => by simp [Code.storeFound, Code.error]⟩
    | false =>
      cases inst with
      | false => exact ⟨fun h => h, by simp [useCode]⟩
      | true => cases this with
        | invalid => exact ⟨fun _ => by simp [Code.loadFound, Code.error], fun _ => by simp [Code.loadFound, Code.error]⟩
        | «local» i => exact ⟨fun h => h, by simp [useCode]⟩
        | upvalue i => exact ⟨fun h => h, by simp [useCode]⟩

theorem run_bad : ∀ (fut : List (Ev O)) (s s' : State O), Bad fut s → run s fut = some s' → Bad ([] : List (Ev O)) s' := by
  intro fut
  induction fut with
  | nil => intro s s' h hr; cases hr; exact h
  | cons e fut ih =>
    intro s s' h hr
    unfold run at hr
    cases h1 : step s e with
    | none => rw [h1] at hr; cases hr
    | some s1 =>
      rw [h1] at hr
      refine ih s1 s' ?_ hr
      cases e with
      | openFn => cases h1; exact bad_skip h (fun _ => rfl) id (fun _ h => h)
      | emit f o => cases h1; exact bad_skip h (fun _ => rfl) id (fun _ h => h)
      | branch f => cases h1; exact bad_skip h (fun _ => rfl) id (fun _ h => h)
      | use f store name mod this =>
        cases h1
        refine bad_skip h (fun _ => rfl) ?_ ?_
        · unfold State.use
          split
          · exact (found_errors _ _ _ _ _).1
          · exact (found_errors _ _ _ _ _).1
          · exact id
        · intro β hβ
          unfold State.use
          split
          · exact hβ
          · exact hβ
          · simp [State.addLate, hβ]
      | pattern names mod this =>
        simp only [step] at h1
        unfold State.pattern at h1
        cases h2 : s.targets s.code.patterns.length mod this names with
        | none => rw [h2] at h1; cases h1
        | some x =>
          rw [h2] at h1
          cases h1
          obtain ⟨a1, _, _, extra, a4, _⟩ := targets_spec _ _ _ _ _ _ _ h2
          refine bad_skip h (fun _ => rfl) (by intro hh; show x.1.code.errors ≠ []; rw [a1]; exact hh) ?_
          intro β hβ
          show β ∈ x.1.late
          rw [a4]; simp [hβ]
      | global name i => exact declare_bad (s0 := { s with globals := s.globals ++ [⟨name, i, false⟩] }) h (fun n => rfl) h1
      | initialised name => cases h1; exact bad_skip h (fun _ => rfl) id (fun _ h => h)
      | method m name id inst => exact declare_bad (s0 := { s with methods := s.methods ++ [⟨m, name, id, inst⟩] }) h (fun n => rfl) h1

theorem resolveRemaining_bad (s : State O) (c : Code O) (h : Bad ([] : List (Ev O)) s) (hr : resolveRemaining s.code s.late = some c) : c.errors ≠ [] := by
  obtain ⟨a, b⟩ := resolveRemaining_errors s.late s.code c hr
  rcases h with h | ⟨β, hβ, hk, hf⟩
  · obtain ⟨x, hx⟩ := List.exists_mem_of_ne_nil _ h
    exact List.ne_nil_of_mem (a x hx)
  · refine List.ne_nil_of_mem (b β hβ ?_)
    by_contra hne
    rw [← ne_eq, Option.ne_none_iff_exists'] at hne
    obtain ⟨g, hg⟩ := hne
    apply hf
    unfold FineKind settle
    rw [hg]
    cases hk' : β.kind with
    | load pos => simp [useCode]
    | store pos => simp [useCode]
    | pattern p => exact absurd hk' (hk p)

theorem use_bad {past fut : List (Ev O)} {s : State O} (ht : Tables past s) (hd : DistinctGlobals past) (f : Nat) (store : Bool) (name : String) (mod : Option Nat) (this : This)
    (h : useCode (O := O) store this (if isLate past mod name then settledBy past fut mod name
      else means (past ++ .use f store name mod this :: fut) mod name) = none) : Bad fut (s.use f store name mod this) := by
  unfold State.use
  cases hl : isLate past mod name with
  | true =>
    rw [hl] at h
    simp only [if_true] at h
    rw [resolve_late ht mod name hl]
    refine Or.inr ⟨⟨s.next, name, this, (if store then .store (s.code.nextOpcode f) else .load (s.code.nextOpcode f)),
      if mod.isSome then globalReady name past else none⟩, by simp [State.addLate], by cases store <;> simp, ?_⟩
    have hs : settle fut ⟨s.next, name, this, (if store then .store (s.code.nextOpcode f) else .load (s.code.nextOpcode f)),
        if mod.isSome then globalReady name past else none⟩ = settledBy past fut mod name := by
      unfold settle settledBy
      cases fut.findSome? (declares name) with
      | some r => rfl
      | none => cases mod <;> rfl
    unfold FineKind
    rw [hs]
    cases store <;> simp [h]
  | false =>
    obtain ⟨r, e1, e2⟩ := resolve_found (fut := Ev.use f store name mod this :: fut) ht hd mod name hl
    rw [hl, e1] at h
    simp only [Bool.false_eq_true, if_false] at h
    rw [e2]
    cases r with
    | global i => exact Or.inl ((found_errors _ _ _ _ _).2 h)
    | method id inst => exact Or.inl ((found_errors _ _ _ _ _).2 h)

/-! ## The stores of a pattern -/

theorem resolveRemaining_patterns : ∀ (l : List Binding) (c c' : Code O), resolveRemaining c l = some c' → c'.patterns = c.patterns := by
  intro l
  induction l with
  | nil => intro c c' h; cases h; rfl
  | cons β l ih =>
    intro c c' h
    unfold resolveRemaining at h
    cases h1 : resolveRemainingOne c β with
    | none => rw [h1] at h; cases h
    | some c1 =>
      rw [h1] at h
      rw [ih c1 c' h]
      unfold resolveRemainingOne at h1
      split at h1 <;> (cases h1; try rfl)

theorem resolveAll_npatterns (r : Bound) : ∀ (ms : List Binding) (c c' : Code O), resolveAll r c ms = some c' → c'.patterns.length = c.patterns.length := by
  intro ms
  induction ms with
  | nil => intro c c' h; cases h; rfl
  | cons β ms ih =>
    intro c c' h
    unfold resolveAll at h
    cases h1 : resolveOne c β r with
    | none => rw [h1] at h; cases h
    | some c1 =>
      rw [h1] at h
      rw [ih c1 c' h, resolveOne_patterns h1]
      cases β.kind <;> cases r <;> simp

theorem resolveLate_npatterns {s s' : State O} {name : String} {r : Bound} (h : s.resolveLate name r = some s') :
    s'.code.patterns.length = s.code.patterns.length := by
  unfold State.resolveLate at h
  cases h1 : resolveLoop name r s.code s.late 0 with
  | none => rw [h1] at h; cases h
  | some x =>
    obtain ⟨c, late'⟩ := x
    rw [h1] at h
    cases h
    obtain ⟨ms, _, _, p3⟩ := resolveLoop_spec name r _ _ _ 0 rfl (by intro j hj; omega) _ _ h1
    exact resolveAll_npatterns r ms _ _ p3

theorem use_patterns (s : State O) (f : Nat) (store : Bool) (name : String) (mod : Option Nat) (this : This) :
    (s.use f store name mod this).code.patterns = s.code.patterns := by
  have hfound : ∀ (r : Bound), ((if store then s.code.storeFound f this r else s.code.loadFound f this r) : Code O).patterns = s.code.patterns := by
    intro r
    cases store with
    | true => cases r with
      | global i => rfl
      | method id inst => cases inst <;> rfl
    | false => cases r with
      | global i => rfl
      | method id inst => cases inst with
        | false => rfl
        | true => cases this <;> rfl
  unfold State.use
  split
  · exact hfound _
  · exact hfound _
  · rfl

theorem run_npatterns : ∀ (h : List (Ev O)) (s s' : State O), run s h = some s' → s'.code.patterns.length = s.code.patterns.length + h.countP isPattern := by
  intro h
  induction h with
  | nil => intro s s' hr; cases hr; rfl
  | cons e h ih =>
    intro s s' hr
    unfold run at hr
    cases h1 : step s e with
    | none => rw [h1] at hr; cases hr
    | some s1 =>
      rw [h1] at hr
      rw [ih s1 s' hr, List.countP_cons]
      have : s1.code.patterns.length = s.code.patterns.length + if isPattern e then 1 else 0 := by
        cases e with
        | openFn => cases h1; rfl
        | emit f o => cases h1; rfl
        | branch f => cases h1; rfl
        | use f store name mod this => cases h1; rw [use_patterns]; rfl
        | pattern names mod this =>
          simp only [step] at h1
          unfold State.pattern at h1
          cases h2 : s.targets s.code.patterns.length mod this names with
          | none => rw [h2] at h1; cases h1
          | some x =>
            rw [h2] at h1
            cases h1
            obtain ⟨a1, _⟩ := targets_spec _ _ _ _ _ _ _ h2
            show (x.1.code.patterns ++ [x.2]).length = _
            rw [a1]; simp [isPattern]
        | global name i => exact resolveLate_npatterns (s := { s with globals := s.globals ++ [⟨name, i, false⟩] }) h1
        | initialised name => cases h1; rfl
        | method m name id inst => exact resolveLate_npatterns (s := { s with methods := s.methods ++ [⟨m, name, id, inst⟩] }) h1
      omega

/-- outstanding targets belong to patterns that exist -/
theorem run_kinds : ∀ (h : List (Ev O)) (s s' : State O), run s h = some s' → (∀ β ∈ s.late, ∀ p, β.kind = .pattern p → p < s.code.patterns.length) →
    ∀ β ∈ s'.late, ∀ p, β.kind = .pattern p → p < s'.code.patterns.length := by
  intro h
  induction h with
  | nil => intro s s' hr hk; cases hr; exact hk
  | cons e h ih =>
    intro s s' hr hk
    unfold run at hr
    cases h1 : step s e with
    | none => rw [h1] at hr; cases hr
    | some s1 =>
      rw [h1] at hr
      refine ih s1 s' hr ?_
      have hdecl : ∀ (s0 : State O) (name : String) (r : Bound), s0.code = s.code → s0.late = s.late → s0.resolveLate name r = some s1 →
          ∀ β ∈ s1.late, ∀ p, β.kind = .pattern p → p < s1.code.patterns.length := by
        intro s0 name r e1 e2 hs β hβ p hp
        rw [resolveLate_npatterns hs, e1]
        have := (resolveLate_late hs).1.subset hβ
        rw [List.mem_filter, e2] at this
        exact hk β this.1 p hp
      cases e with
      | openFn => cases h1; exact hk
      | emit f o => cases h1; exact hk
      | branch f => cases h1; exact hk
      | use f store name mod this =>
        cases h1
        rw [use_patterns]
        intro β hβ p hp
        unfold State.use at hβ
        split at hβ
        · exact hk β hβ p hp
        · exact hk β hβ p hp
        · simp only [State.addLate, List.mem_append, List.mem_singleton] at hβ
          rcases hβ with hβ | rfl
          · exact hk β hβ p hp
          · cases store <;> cases hp
      | pattern names mod this =>
        simp only [step] at h1
        unfold State.pattern at h1
        cases h2 : s.targets s.code.patterns.length mod this names with
        | none => rw [h2] at h1; cases h1
        | some x =>
          rw [h2] at h1
          cases h1
          obtain ⟨a1, _⟩ := targets_spec _ _ _ _ _ _ _ h2
          intro β hβ p hp
          show p < (x.1.code.patterns ++ [x.2]).length
          rw [a1, List.length_append]
          rcases targets_kind _ _ _ _ _ _ _ h2 β hβ with h3 | h3
          · have := hk β h3 p hp; omega
          · rw [hp] at h3; cases h3; simp
      | global name i => exact hdecl { s with globals := s.globals ++ [⟨name, i, false⟩] } name (.global i) rfl rfl h1
      | initialised name => cases h1; exact hk
      | method m name id inst => exact hdecl { s with methods := s.methods ++ [⟨m, name, id, inst⟩] } name (.method id inst) rfl rfl h1

theorem stores_final {g : String → Nat} {p : Nat} {late : List Binding} {names : List String} {l : List PStore} (h : Stores g p late names l)
    (hs : Settles g p ([] : List (Ev O)) late) : l = names.map (fun n => .bound (g n)) := by
  unfold Stores at h
  induction h with
  | nil => rfl
  | cons h1 _ ih =>
    rw [List.map_cons, ← ih]
    rcases h1 with rfl | ⟨β, hβ, _, _, hk⟩
    · rfl
    · have := hs β hβ hk
      simp at this

/-! ## The shape of the code -/

theorem resolveAll_shape (r : Bound) : ∀ (ms : List Binding) (c c' : Code O), resolveAll r c ms = some c' → SameShape c c' := by
  intro ms
  induction ms with
  | nil => intro c c' h; cases h; exact SameShape.refl _
  | cons β ms ih =>
    intro c c' h
    unfold resolveAll at h
    cases h1 : resolveOne c β r with
    | none => rw [h1] at h; cases h
    | some c1 =>
      rw [h1] at h
      exact (resolveOne_shape h1).trans (ih c1 c' h)

theorem resolveLate_shape {s s' : State O} {name : String} {r : Bound} (h : s.resolveLate name r = some s') : SameShape s.code s'.code := by
  unfold State.resolveLate at h
  cases h1 : resolveLoop name r s.code s.late 0 with
  | none => rw [h1] at h; cases h
  | some x =>
    obtain ⟨c, late'⟩ := x
    rw [h1] at h
    cases h
    obtain ⟨ms, _, _, p3⟩ := resolveLoop_spec name r _ _ _ 0 rfl (by intro j hj; omega) _ _ h1
    exact resolveAll_shape r ms _ _ p3

theorem resolveRemaining_shape : ∀ (l : List Binding) (c c' : Code O), resolveRemaining c l = some c' → SameShape c c' := by
  intro l
  induction l with
  | nil => intro c c' h; cases h; exact SameShape.refl _
  | cons β l ih =>
    intro c c' h
    unfold resolveRemaining at h
    cases h1 : resolveRemainingOne c β with
    | none => rw [h1] at h; cases h
    | some c1 =>
      rw [h1] at h
      exact (resolveRemainingOne_shape h1).trans (ih c1 c' h)

structure Shape (past : List (Ev O)) (opened : Nat) (c : Code O) : Prop where
  count : opened = past.countP isOpen
  fns : c.fns.length = opened
  blocks : ∀ f, f < opened → nblocks c f = 1 + past.countP (isBranch f)
  none : ∀ f, opened ≤ f → past.countP (isBranch f) = 0

theorem Shape.same {past : List (Ev O)} {opened : Nat} {c c' : Code O} {e : Ev O} (h : Shape past opened c) (hs : SameShape c c') (ho : isOpen e = false)
    (hb : ∀ f, isBranch f e = false) : Shape (past ++ [e]) opened c' := by
  refine ⟨?_, ?_, ?_, ?_⟩
  · simp [ho, ← h.count]
  · rw [hs.1, h.fns]
  · intro f hf; rw [hs.2, h.blocks f hf]; simp [hb]
  · intro f hf; simp [hb, h.none f hf]

theorem sameShape_push (c : Code O) (f : Nat) (o : Op O) : SameShape c (c.push f o) := ⟨by simp [Code.push], fun g => nblocks_push c f g o⟩

theorem use_shape (s : State O) (f : Nat) (store : Bool) (name : String) (mod : Option Nat) (this : This) :
    SameShape s.code (s.use f store name mod this).code := by
  have hfound : ∀ (r : Bound), SameShape s.code (if store then s.code.storeFound f this r else s.code.loadFound f this r) := by
    intro r
    cases store with
    | true => cases r with
      | global i => exact sameShape_push _ _ _
      | method id inst => cases inst <;> exact sameShape_error _ _
    | false => cases r with
      | global i => exact sameShape_push _ _ _
      | method id inst => cases inst with
        | false => exact sameShape_push _ _ _
        | true => cases this with
          | invalid => exact sameShape_error _ _
          | «local» i => exact (sameShape_push _ _ _).trans (sameShape_push _ _ _)
          | upvalue i => exact (sameShape_push _ _ _).trans (sameShape_push _ _ _)
  unfold State.use
  split
  · exact hfound _
  · exact hfound _
  · exact SameShape.refl _

theorem run_shape : ∀ (fut past : List (Ev O)) (opened closed : Nat) (s s' : State O), WellFormedFrom opened closed fut → Shape past opened s.code →
    run s fut = some s' → ∃ o, Shape (past ++ fut) o s'.code := by
  intro fut
  induction fut with
  | nil => intro past opened closed s s' _ h hr; cases hr; exact ⟨opened, by simpa using h⟩
  | cons e fut ih =>
    intro past opened closed s s' hw h hr
    unfold run at hr
    cases h1 : step s e with
    | none => rw [h1] at hr; cases hr
    | some s1 =>
      rw [h1] at hr
      have key : ∃ opened' closed', WellFormedFrom opened' closed' fut ∧ Shape (past ++ [e]) opened' s1.code := by
        cases e with
        | openFn =>
          cases h1
          refine ⟨opened + 1, closed, hw, ?_, ?_, ?_, ?_⟩
          · simp [isOpen, ← h.count]
          · simp [Code.openFn, h.fns]
          · intro f hf
            rw [nblocks_openFn, h.fns]
            by_cases hh : f = opened
            · rw [if_pos hh]; simp [isBranch, h.none f (by omega)]
            · rw [if_neg hh, h.blocks f (by omega)]; simp [isBranch]
          · intro f hf; simp [isBranch, h.none f (by omega)]
        | emit f o => cases h1; exact ⟨opened, closed, hw.2.2, h.same (sameShape_push _ _ _) rfl (fun _ => rfl)⟩
        | branch f =>
          cases h1
          have hw' : closed ≤ f ∧ f < opened ∧ WellFormedFrom opened closed fut := hw
          refine ⟨opened, closed, hw'.2.2, ?_, ?_, ?_, ?_⟩
          · simp [isOpen, ← h.count]
          · simp [Code.branch, h.fns]
          · intro g hg
            have hb := h.blocks g hg
            unfold nblocks at hb ⊢
            simp only [Code.branch]
            rw [getD_modify _ _ _ _ _ (by rw [h.fns]; exact hg)]
            by_cases hh : f = g
            · rw [if_pos hh, List.length_append, hb, List.countP_append]; simp [isBranch, hh]; omega
            · rw [if_neg hh, hb]; simp [isBranch, hh]
          · intro g hg
            have : f ≠ g := by omega
            simp [isBranch, this, h.none g hg]
        | use f store name mod this => cases h1; exact ⟨opened, closed, hw.2.2, h.same (use_shape _ _ _ _ _ _) rfl (fun _ => rfl)⟩
        | pattern names mod this =>
          simp only [step] at h1
          unfold State.pattern at h1
          cases h2 : s.targets s.code.patterns.length mod this names with
          | none => rw [h2] at h1; cases h1
          | some x =>
            rw [h2] at h1
            cases h1
            obtain ⟨a1, _⟩ := targets_spec _ _ _ _ _ _ _ h2
            refine ⟨opened, closed, hw, h.same (c' := { x.1.code with patterns := x.1.code.patterns ++ [x.2] }) ?_ rfl (fun _ => rfl)⟩
            rw [a1]; exact ⟨rfl, fun _ => rfl⟩
        | global name i =>
          exact ⟨opened, opened, hw, h.same (resolveLate_shape (s := { s with globals := s.globals ++ [⟨name, i, false⟩] }) h1) rfl (fun _ => rfl)⟩
        | initialised name => cases h1; exact ⟨opened, closed, hw, h.same (SameShape.refl _) rfl (fun _ => rfl)⟩
        | method m name id inst =>
          exact ⟨opened, opened, hw, h.same (resolveLate_shape (s := { s with methods := s.methods ++ [⟨m, name, id, inst⟩] }) h1) rfl (fun _ => rfl)⟩
      obtain ⟨o, c, k1, k2⟩ := key
      obtain ⟨o', k3⟩ := ih (past ++ [e]) o c s1 s' k1 k2 hr
      exact ⟨o', by simpa using k3⟩

end Cordy.Late
