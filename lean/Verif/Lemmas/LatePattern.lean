import Verif.Lemmas.LateExtra
import Mathlib.Data.List.Nodup
/-!
# The targets of patterns; programs without forward references
-/
namespace Cordy.Late
open Cordy.LateSpec

variable {O : Type}

/-! ## Indices of bindings are unique -/

structure Unique (s : State O) : Prop where
  nodup : (s.late.map Binding.index).Nodup
  lt : ∀ β ∈ s.late, β.index < s.next

theorem Unique.add {s : State O} (h : Unique s) (name : String) (this : This) (kind : Kind) (fb : Option Nat) : Unique (s.addLate name this kind fb) := by
  refine ⟨?_, ?_⟩
  · simp only [State.addLate, List.map_append, List.map_cons, List.map_nil]
    rw [List.nodup_append]
    refine ⟨h.nodup, by simp, ?_⟩
    intro a ha b hb
    simp only [List.mem_singleton] at hb
    subst hb
    rw [List.mem_map] at ha
    obtain ⟨β, hβ, rfl⟩ := ha
    exact (Nat.ne_of_lt (h.lt β hβ))
  · intro β hβ
    simp only [State.addLate, List.mem_append, List.mem_singleton] at hβ ⊢
    rcases hβ with hβ | rfl
    · have := h.lt β hβ; omega
    · simp

theorem Unique.inj {s : State O} (h : Unique s) {β β' : Binding} (hβ : β ∈ s.late) (hβ' : β' ∈ s.late) (he : β.index = β'.index) : β = β' := by
  have := List.inj_on_of_nodup_map h.nodup hβ hβ' he
  exact this

theorem targets_next (p : Nat) (mod : Option Nat) (this : This) : ∀ (ns : List String) (s s' : State O) (l : List PStore), Unique s →
    s.targets p mod this ns = some (s', l) → Unique s' ∧ s.next ≤ s'.next := by
  intro ns
  induction ns with
  | nil => intro s s' l hu h; cases h; exact ⟨hu, le_refl _⟩
  | cons n ns ih =>
    intro s s' l hu h
    unfold State.targets at h
    cases h1 : s.target p n mod this with
    | none => rw [h1] at h; cases h
    | some x =>
      obtain ⟨s1, st⟩ := x
      rw [h1] at h
      simp only at h
      cases h2 : s1.targets p mod this ns with
      | none => rw [h2] at h; cases h
      | some y =>
        rw [h2] at h
        cases h
        have h3 : Unique s1 ∧ s.next ≤ s1.next := by
          unfold State.target at h1
          split at h1
          · cases h1; exact ⟨hu, le_refl _⟩
          · cases h1
          · cases h1; exact ⟨hu.add _ _ _ _, by simp [State.addLate]⟩
        obtain ⟨a, b⟩ := ih s1 y.1 y.2 h3.1 h2
        exact ⟨a, le_trans h3.2 b⟩

theorem resolveLate_late {s s' : State O} {name : String} {r : Bound} (h : s.resolveLate name r = some s') :
    s'.late.Perm (s.late.filter (fun b => ¬ b.name = name)) ∧ s'.next = s.next := by
  unfold State.resolveLate at h
  cases h1 : resolveLoop name r s.code s.late 0 with
  | none => rw [h1] at h; cases h
  | some x =>
    obtain ⟨c, l⟩ := x
    rw [h1] at h
    cases h
    obtain ⟨_, _, p2, _⟩ := resolveLoop_spec name r _ _ _ 0 rfl (by intro j hj; omega) _ _ h1
    exact ⟨p2, rfl⟩

theorem Unique.filter {s s' : State O} (h : Unique s) (P : Binding → Bool) (hp : s'.late.Perm (s.late.filter P)) (hn : s'.next = s.next) : Unique s' := by
  refine ⟨?_, ?_⟩
  · have h1 := (hp.map Binding.index)
    rw [h1.nodup_iff]
    exact h.nodup.sublist (List.Sublist.map _ (List.filter_sublist))
  · intro β hβ
    rw [hn]
    have := hp.subset hβ
    rw [List.mem_filter] at this
    exact h.lt β this.1

theorem Unique.step {s s' : State O} {e : Ev O} (h : Unique s) (hs : Late.step s e = some s') : Unique s' := by
  cases e with
  | openFn => cases hs; exact ⟨h.nodup, h.lt⟩
  | emit f o => cases hs; exact ⟨h.nodup, h.lt⟩
  | branch f => cases hs; exact ⟨h.nodup, h.lt⟩
  | use f store name mod this =>
    cases hs
    unfold State.use
    split
    · exact ⟨h.nodup, h.lt⟩
    · exact ⟨h.nodup, h.lt⟩
    · exact h.add _ _ _ _
  | pattern names mod this =>
    simp only [Late.step] at hs
    unfold State.pattern at hs
    cases h1 : s.targets s.code.patterns.length mod this names with
    | none => rw [h1] at hs; cases hs
    | some x =>
      rw [h1] at hs
      cases hs
      obtain ⟨a, _⟩ := targets_next _ _ _ _ _ _ _ h h1
      exact ⟨a.nodup, a.lt⟩
  | global name i =>
    obtain ⟨a, b⟩ := resolveLate_late (s := { s with globals := s.globals ++ [⟨name, i, false⟩] }) hs
    exact Unique.filter h _ a b
  | initialised name => cases hs; exact ⟨h.nodup, h.lt⟩
  | method m name id inst =>
    obtain ⟨a, b⟩ := resolveLate_late (s := { s with methods := s.methods ++ [⟨m, name, id, inst⟩] }) hs
    exact Unique.filter h _ a b

theorem Unique.run : ∀ (fut : List (Ev O)) (s s' : State O), Unique s → Late.run s fut = some s' → Unique s' := by
  intro fut
  induction fut with
  | nil => intro s s' h hr; cases hr; exact h
  | cons e fut ih =>
    intro s s' h hr
    unfold Late.run at hr
    cases h1 : Late.step s e with
    | none => rw [h1] at hr; cases hr
    | some s1 => rw [h1] at hr; exact ih s1 s' (h.step h1) hr

theorem unique_init : Unique (init : State O) := ⟨List.nodup_nil, by intro β h; cases h⟩

/-! ## One pattern -/

/-- the stores of a pattern, while some of its targets are outstanding: each target is bound to `g` of its name, or late -/
def Stores (g : String → Nat) (p : Nat) (late : List Binding) (names : List String) (l : List PStore) : Prop :=
  List.Forall₂ (fun n st => st = .bound (g n) ∨ ∃ β ∈ late, st = .late β.index ∧ β.name = n ∧ β.kind = .pattern p) names l

theorem Stores.mono {g : String → Nat} {p : Nat} {late late' : List Binding} {names : List String} {l : List PStore} (h : Stores g p late names l)
    (hs : ∀ β ∈ late, β ∈ late') : Stores g p late' names l := by
  refine List.Forall₂.imp ?_ h
  rintro n st (h | ⟨β, hβ, h⟩)
  · exact Or.inl h
  · exact Or.inr ⟨β, hs β hβ, h⟩

theorem insert_patterns (c : Code O) (pos : OpcodeId) (o : Op O) : (c.insert pos o).patterns = c.patterns := rfl

theorem resolveOne_patterns {c c' : Code O} {β : Binding} {r : Bound} (h : resolveOne c β r = some c') :
    c'.patterns = match β.kind, r with
      | .pattern p, .global i => c.patterns.modify p (fun l => l.map (PStore.bind β.index i))
      | _, _ => c.patterns := by
  unfold resolveOne at h
  cases hk : β.kind with
  | load pos =>
    rw [hk] at h
    cases r with
    | global i => cases h; rfl
    | method id inst =>
      cases inst with
      | false => cases h; rfl
      | true =>
        simp only [Option.some.injEq] at h
        subst h
        show (loadSelfMethod c β.this pos id).patterns = c.patterns
        unfold loadSelfMethod
        cases β.this <;> rfl
  | store pos => rw [hk] at h; cases r <;> (cases h; rfl)
  | pattern p => rw [hk] at h; cases r <;> (cases h; try rfl)

/-- resolving the bindings `ms` of one name: they leave the outstanding ones -/
theorem resolveAll_patterns (g : String → Nat) (name : String) (i : Nat) (p : Nat) (names : List String) (hg : name ∈ names → g name = i) (rest : List Binding) :
    ∀ (ms : List Binding) (c c' : Code O) (l : List PStore), ((ms ++ rest).map Binding.index).Nodup → (∀ β ∈ ms, β.name = name) →
    resolveAll (.global i) c ms = some c' → c.patterns[p]? = some l → Stores g p (ms ++ rest) names l →
    ∃ l', c'.patterns[p]? = some l' ∧ Stores g p rest names l' := by
  intro ms
  induction ms with
  | nil => intro c c' l _ _ h hl hst; cases h; exact ⟨l, hl, by simpa using hst⟩
  | cons β ms ih =>
    intro c c' l hnd hn h hl hst
    unfold resolveAll at h
    cases h1 : resolveOne c β (.global i) with
    | none => rw [h1] at h; cases h
    | some c1 =>
      rw [h1] at h
      have hp := resolveOne_patterns h1
      have hnd' : ((ms ++ rest).map Binding.index).Nodup := by
        simp only [List.cons_append, List.map_cons, List.nodup_cons] at hnd
        exact hnd.2
      have hinj : ∀ β' ∈ β :: (ms ++ rest), β'.index = β.index → β' = β := by
        intro β' hβ' he
        exact List.inj_on_of_nodup_map (by simpa using hnd) hβ' (by simp) he
      by_cases hk : β.kind = .pattern p
      · rw [hk] at hp
        simp only at hp
        refine ih c1 c' (l.map (PStore.bind β.index i)) hnd' (fun β' hβ' => hn β' (by simp [hβ'])) h ?_ ?_
        · rw [hp, List.getElem?_modify, hl]; simp
        · unfold Stores at hst ⊢
          rw [List.forall₂_map_right_iff]
          have hst' := List.forall₂_iff_zip.1 hst
          rw [List.forall₂_iff_zip]
          refine ⟨hst'.1, ?_⟩
          intro n st hz
          have hmem : n ∈ names := (List.of_mem_zip hz).1
          rcases hst'.2 hz with hb | ⟨β', hβ', e1, e2, e3⟩
          · left; rw [hb]; rfl
          · by_cases hi : β'.index = β.index
            · have hβb := hinj β' (by simpa using hβ') hi
              left
              rw [e1, hi]
              have hnn : n = name := by rw [← e2, hβb]; exact hn β (by simp)
              rw [hnn] at hmem ⊢
              simp [PStore.bind, hg hmem]
            · right
              refine ⟨β', ?_, ?_, e2, e3⟩
              · rcases List.mem_cons.1 (by simpa using hβ' : β' ∈ β :: (ms ++ rest)) with rfl | h
                · exact absurd rfl hi
                · exact h
              · rw [e1]; simp [PStore.bind, hi]
      · refine ih c1 c' l hnd' (fun β' hβ' => hn β' (by simp [hβ'])) h ?_ ?_
        · rw [hp]
          cases hk' : β.kind with
          | load pos => exact hl
          | store pos => exact hl
          | pattern q =>
            have hq : q ≠ p := by rintro rfl; exact hk hk'
            simp [List.getElem?_modify, hl, hq]
        · refine List.Forall₂.imp ?_ hst
          rintro n st (hb | ⟨β', hβ', e1, e2, e3⟩)
          · exact Or.inl hb
          · right
            refine ⟨β', ?_, e1, e2, e3⟩
            rcases List.mem_cons.1 (by simpa using hβ' : β' ∈ β :: (ms ++ rest)) with rfl | h
            · exact absurd e3 hk
            · exact h

/-- resolving bindings of a name that no outstanding target of the pattern has -/
theorem resolveAll_patterns_other (r : Bound) (g : String → Nat) (name : String) (p : Nat) (names : List String) (hn0 : name ∉ names) (rest : List Binding) :
    ∀ (ms : List Binding) (c c' : Code O) (l : List PStore), ((ms ++ rest).map Binding.index).Nodup → (∀ β ∈ ms, β.name = name) →
    resolveAll r c ms = some c' → c.patterns[p]? = some l → Stores g p (ms ++ rest) names l →
    ∃ l', c'.patterns[p]? = some l' ∧ Stores g p rest names l' := by
  cases r with
  | global i =>
    intro ms c c' l a b c d e
    exact resolveAll_patterns g name i p names (fun h => absurd h hn0) rest ms _ _ l a b c d e
  | method id inst =>
    intro ms
    induction ms with
    | nil => intro c c' l _ _ h hl hst; cases h; exact ⟨l, hl, by simpa using hst⟩
    | cons β ms ih =>
      intro c c' l hnd hn h hl hst
      unfold resolveAll at h
      cases h1 : resolveOne c β (.method id inst) with
      | none => rw [h1] at h; cases h
      | some c1 =>
        rw [h1] at h
        have hp := resolveOne_patterns h1
        have hp' : c1.patterns = c.patterns := by rw [hp]; cases β.kind <;> rfl
        refine ih c1 c' l ?_ (fun β' hβ' => hn β' (by simp [hβ'])) h (by rw [hp']; exact hl) ?_
        · simp only [List.cons_append, List.map_cons, List.nodup_cons] at hnd
          exact hnd.2
        · have hst' := List.forall₂_iff_zip.1 hst
          unfold Stores
          rw [List.forall₂_iff_zip]
          refine ⟨hst'.1, ?_⟩
          intro n st hz
          have hmem : n ∈ names := (List.of_mem_zip hz).1
          rcases hst'.2 hz with hb | ⟨β', hβ', e1, e2, e3⟩
          · exact Or.inl hb
          · right
            refine ⟨β', ?_, e1, e2, e3⟩
            rcases List.mem_cons.1 (by simpa using hβ' : β' ∈ β :: (ms ++ rest)) with rfl | h
            · exfalso; apply hn0; rw [← hn β' (by simp), e2]; exact hmem
            · exact h

theorem declare_stores {s0 s' : State O} {name : String} {r : Bound} (hu : Unique s0) (hs : s0.resolveLate name r = some s') (g : String → Nat) (p : Nat)
    (names : List String) (l : List PStore) (hl : s0.code.patterns[p]? = some l) (hst : Stores g p s0.late names l)
    (hr : name ∈ names → (∃ β ∈ s0.late, β.name = name ∧ β.kind = .pattern p) → r = .global (g name)) :
    ∃ l', s'.code.patterns[p]? = some l' ∧ Stores g p s'.late names l' := by
  unfold State.resolveLate at hs
  cases h1 : resolveLoop name r s0.code s0.late 0 with
  | none => rw [h1] at hs; cases hs
  | some x =>
    obtain ⟨c, late'⟩ := x
    rw [h1] at hs
    cases hs
    obtain ⟨ms, p1, p2, p3⟩ := resolveLoop_spec name r _ _ _ 0 rfl (by intro j hj; omega) _ _ h1
    have hperm : s0.late.Perm (ms ++ late') := by
      refine (List.filter_append_perm (fun β => decide (β.name = name)) s0.late).symm.trans ?_
      refine List.Perm.append p1.symm ?_
      have : (fun β : Binding => !decide (β.name = name)) = fun β => decide (¬ β.name = name) := by funext β; simp
      rw [this]; exact p2.symm
    have hnd : ((ms ++ late').map Binding.index).Nodup := by
      rw [← (hperm.map Binding.index).nodup_iff]; exact hu.nodup
    have hms : ∀ β ∈ ms, β.name = name := by
      intro β hβ
      have := p1.subset hβ
      rw [List.mem_filter] at this
      simpa using this.2
    have hst' : Stores g p (ms ++ late') names l := hst.mono (fun β hβ => hperm.subset hβ)
    by_cases hn : name ∈ names
    · by_cases hex : ∃ β ∈ s0.late, β.name = name ∧ β.kind = .pattern p
      · have hrg := hr hn hex
        subst hrg
        exact resolveAll_patterns g name (g name) p names (fun _ => rfl) late' ms _ _ l hnd hms p3 hl hst'
      · -- no outstanding target has this name: those of the pattern are untouched
        have hkinds : ∀ β ∈ ms, β.kind ≠ .pattern p := by
          intro β hβ hk
          exact hex ⟨β, hperm.symm.subset (by simp [hβ]), hms β hβ, hk⟩
        have hgo : ∀ (ms : List Binding) (c c' : Code O), (∀ β ∈ ms, β.kind ≠ .pattern p) → resolveAll r c ms = some c' → c'.patterns[p]? = c.patterns[p]? := by
          intro ms
          induction ms with
          | nil => intro c c' _ h; cases h; rfl
          | cons β ms ih =>
            intro c c' hk h
            unfold resolveAll at h
            cases h1 : resolveOne c β r with
            | none => rw [h1] at h; cases h
            | some c1 =>
              rw [h1] at h
              rw [ih c1 c' (fun β hβ => hk β (by simp [hβ])) h, resolveOne_patterns h1]
              have hkβ := hk β (by simp)
              cases hk' : β.kind with
              | load pos => rfl
              | store pos => rfl
              | pattern q =>
                have hq : q ≠ p := by rintro rfl; exact hkβ hk'
                cases r with
                | global i => simp [List.getElem?_modify, hq]
                | method id inst => rfl
        refine ⟨l, by show c.patterns[p]? = _; rw [hgo ms _ _ hkinds p3]; exact hl, ?_⟩
        refine List.Forall₂.imp ?_ hst'
        rintro n st (hb | ⟨β', hβ', e1, e2, e3⟩)
        · exact Or.inl hb
        · right
          refine ⟨β', ?_, e1, e2, e3⟩
          rcases List.mem_append.1 hβ' with hh | hh
          · exact absurd e3 (hkinds β' hh)
          · exact hh
    · exact resolveAll_patterns_other r g name p names hn late' ms _ _ l hnd hms p3 hl hst'

/-- the names of a pattern's outstanding targets are settled by `g` -/
def Settles (g : String → Nat) (p : Nat) (fut : List (Ev O)) (late : List Binding) : Prop :=
  ∀ β ∈ late, β.kind = .pattern p → fut.findSome? (declares β.name) = some (.global (g β.name))

theorem settles_skip {g : String → Nat} {p : Nat} {e : Ev O} {fut : List (Ev O)} {late : List Binding} (h : Settles g p (e :: fut) late)
    (hd : ∀ n, declares n e = none) : Settles g p fut late := by
  intro β hβ hk
  have := h β hβ hk
  rw [List.findSome?_cons, hd] at this
  exact this

theorem targets_kind (q : Nat) (mod : Option Nat) (this : This) : ∀ (ns : List String) (s s' : State O) (l : List PStore), s.targets q mod this ns = some (s', l) →
    ∀ β ∈ s'.late, β ∈ s.late ∨ β.kind = .pattern q := by
  intro ns
  induction ns with
  | nil => intro s s' l h; cases h; exact fun β hβ => Or.inl hβ
  | cons n ns ih =>
    intro s s' l h
    unfold State.targets at h
    cases h1 : s.target q n mod this with
    | none => rw [h1] at h; cases h
    | some x =>
      rw [h1] at h
      simp only at h
      cases h2 : x.1.targets q mod this ns with
      | none => rw [h2] at h; cases h
      | some y =>
        rw [h2] at h
        cases h
        intro β hβ
        rcases ih _ _ _ h2 β hβ with h3 | h3
        · unfold State.target at h1
          split at h1
          · cases h1; exact Or.inl h3
          · cases h1
          · cases h1
            simp only [State.addLate, List.mem_append, List.mem_singleton] at h3
            rcases h3 with h3 | rfl
            · exact Or.inl h3
            · exact Or.inr rfl
        · exact Or.inr h3

/-- after a pattern is built, the rest of the program settles its targets -/
theorem run_pattern (g : String → Nat) (p : Nat) (names : List String) : ∀ (fut : List (Ev O)) (s s' : State O) (l : List PStore), Unique s →
    run s fut = some s' → s.code.patterns[p]? = some l → Stores g p s.late names l → Settles g p fut s.late →
    ∃ l', s'.code.patterns[p]? = some l' ∧ Stores g p s'.late names l' ∧ Settles g p ([] : List (Ev O)) s'.late := by
  intro fut
  induction fut with
  | nil => intro s s' l _ h hl hst hse; cases h; exact ⟨l, hl, hst, hse⟩
  | cons e fut ih =>
    intro s s' l hu h hl hst hse
    unfold run at h
    cases h1 : step s e with
    | none => rw [h1] at h; cases h
    | some s1 =>
      rw [h1] at h
      have hu1 := hu.step h1
      have key : ∃ l1, s1.code.patterns[p]? = some l1 ∧ Stores g p s1.late names l1 ∧ Settles g p fut s1.late := by
        have hdecl : ∀ (s0 : State O) (name : String) (r : Bound), s0.code = s.code → s0.late = s.late → s0.next = s.next →
            (∀ n, declares n e = if name = n then some r else none) → s0.resolveLate name r = some s1 →
            ∃ l1, s1.code.patterns[p]? = some l1 ∧ Stores g p s1.late names l1 ∧ Settles g p fut s1.late := by
          intro s0 name r hc hlt hnx hd hs
          obtain ⟨l1, a, b⟩ := declare_stores (s0 := s0) ⟨by rw [hlt]; exact hu.nodup, by rw [hlt, hnx]; exact hu.lt⟩ hs g p names l (by rw [hc]; exact hl)
            (by rw [hlt]; exact hst) (by
              rintro _ ⟨β, hβ, hn, hk⟩
              have := hse β (by rw [← hlt]; exact hβ) hk
              rw [List.findSome?_cons, hd, if_pos hn.symm] at this
              simp only [Option.some.injEq] at this
              rw [this, hn])
          refine ⟨l1, a, b, ?_⟩
          intro β hβ hk
          have hm := (resolveLate_late hs).1.subset hβ
          rw [List.mem_filter, hlt] at hm
          have := hse β hm.1 hk
          rw [List.findSome?_cons, hd, if_neg (by have := hm.2; simp at this; exact fun hh => this hh.symm)] at this
          exact this
        cases e with
        | openFn => cases h1; exact ⟨l, hl, hst, settles_skip hse (fun _ => rfl)⟩
        | emit f o => cases h1; exact ⟨l, hl, hst, settles_skip hse (fun _ => rfl)⟩
        | branch f => cases h1; exact ⟨l, hl, hst, settles_skip hse (fun _ => rfl)⟩
        | use f store name mod this =>
          cases h1
          have hse' := settles_skip hse (fun _ => rfl)
          unfold State.use
          have hfound : ∀ (r : Bound), ((if store then s.code.storeFound f this r else s.code.loadFound f this r) : Code O).patterns = s.code.patterns := by
            intro r
            cases store with
            | true => cases r with
              | global i => rfl
              | method id inst => cases inst <;> rfl
            | false => cases r with
              | global i => rfl
              | method id inst => cases inst with
                | false => rfl
                | true => cases this <;> rfl
          split
          · exact ⟨l, by show (if store then s.code.storeFound f this _ else s.code.loadFound f this _ : Code O).patterns[p]? = _; rw [hfound]; exact hl, hst, hse'⟩
          · exact ⟨l, by show (if store then s.code.storeFound f this _ else s.code.loadFound f this _ : Code O).patterns[p]? = _; rw [hfound]; exact hl, hst, hse'⟩
          · refine ⟨l, hl, hst.mono (by intro β hβ; simp [State.addLate, hβ]), ?_⟩
            intro β hβ hk
            simp only [State.addLate, List.mem_append, List.mem_singleton] at hβ
            rcases hβ with hβ | rfl
            · exact hse' β hβ hk
            · cases store <;> cases hk
        | pattern ns mod this =>
          simp only [step] at h1
          unfold State.pattern at h1
          cases h2 : s.targets s.code.patterns.length mod this ns with
          | none => rw [h2] at h1; cases h1
          | some x =>
            rw [h2] at h1
            cases h1
            obtain ⟨a1, _, _, extra, a4, _⟩ := targets_spec _ _ _ _ _ _ _ h2
            have hplt : p < s.code.patterns.length := (List.getElem?_eq_some_iff.1 hl).1
            refine ⟨l, ?_, ?_, ?_⟩
            · show (x.1.code.patterns ++ [x.2])[p]? = _
              rw [a1, List.getElem?_append_left hplt]; exact hl
            · show Stores g p x.1.late names l
              exact hst.mono (by intro β hβ; rw [a4]; simp [hβ])
            · intro β hβ hk
              rcases targets_kind _ _ _ ns s x.1 x.2 h2 β hβ with h3 | h3
              · exact settles_skip hse (fun _ => rfl) β h3 hk
              · rw [hk] at h3; cases h3; omega
        | global name i => exact hdecl { s with globals := s.globals ++ [⟨name, i, false⟩] } name (.global i) rfl rfl rfl (fun n => rfl) h1
        | initialised name => cases h1; exact ⟨l, hl, hst, settles_skip hse (fun _ => rfl)⟩
        | method m name id inst => exact hdecl { s with methods := s.methods ++ [⟨m, name, id, inst⟩] } name (.method id inst) rfl rfl rfl (fun n => rfl) h1
      obtain ⟨l1, a, b, c⟩ := key
      exact ih s1 s' l1 hu1 h a b c

end Cordy.Late
