import Verif.Model.Memo
/-!
# C26: memoized functions

The history of a run is its log of events, for arbitrary bodies that call each other, fail, and change the state.
-/
namespace Cordy.Memo
variable {V W P : Type}

/-- The arguments of all calls so far: of bodies and of calls answered from the cache. -/
def argsOf : Event V → List V
  | .start _ _ as => as
  | .done _ _ as _ => as
  | .abort _ _ as => as
  | .got _ as _ => as

/-- Arguments whose equality does not change during the program: they are not mutated after the call. `Eqv` is their equality, and equal ones have equal hashes. -/
structure Frozen (S : Sys V W P) (Adm : List V → Prop) (Eqv : List V → List V → Prop) : Prop where
  same : ∀ w a b, Adm a → Adm b → (sameArgs S w a b = true ↔ Eqv a b)
  hash : ∀ w w' a b, Adm a → Adm b → Eqv a b → S.hash w a = S.hash w' b
  refl : ∀ a, Adm a → Eqv a a
  symm : ∀ a b, Adm a → Adm b → Eqv a b → Eqv b a
  trans : ∀ a b c, Adm a → Adm b → Adm c → Eqv a b → Eqv b c → Eqv a c

/-- A computation of `m` with arguments equal to `args` was completed, and the first of them gave `v`. -/
def First (Eqv : List V → List V → Prop) (log : List (Event V)) (m : Nat) (args : List V) (v : V) : Prop :=
  ∃ l₁ i args' l₂, log = l₁ ++ .done i m args' v :: l₂ ∧ Eqv args' args ∧ ∀ j as u, Eqv as args → Event.done j m as u ∉ l₁

/-- No computation of `m` with equal arguments was completed. -/
def Never (Eqv : List V → List V → Prop) (log : List (Event V)) (m : Nat) (args : List V) : Prop :=
  ∀ i as v, Eqv as args → Event.done i m as v ∉ log

/-- What holds at each point of a history. -/
inductive Good (Eqv : List V → List V → Prop) : List (Event V) → Prop where
  | nil : Good Eqv []
  | start {l i m args} : Good Eqv l → Never Eqv l m args → Good Eqv (l ++ [.start i m args])
  | done {l} (i m args v) : Good Eqv l → Good Eqv (l ++ [.done i m args v])
  | abort {l} (i m args) : Good Eqv l → Good Eqv (l ++ [.abort i m args])
  | got {l m args v} : Good Eqv l → First Eqv l m args v → Good Eqv (l ++ [.got m args v])

structure Inv (S : Sys V W P) (Adm : List V → Prop) (Eqv : List V → List V → Prop) (c : Cfg V W P) : Prop where
  good : Good Eqv c.log
  waits : ∀ x ∈ c.waits, Adm x.args
  adm : ∀ e ∈ c.log, Adm (argsOf e)
  /-- the caches hold the first values -/
  cache : ∀ m args, Adm args → ∀ w, (∀ v, lookup S w (c.caches m) args = some v → First Eqv c.log m args v) ∧ (lookup S w (c.caches m) args = none → Never Eqv c.log m args)
  keys : ∀ m, ∀ e ∈ c.caches m, Adm e.key ∧ ∃ w, e.hash = S.hash w e.key

theorem First.append {Eqv : List V → List V → Prop} {log : List (Event V)} {m : Nat} {args : List V} {v : V} (h : First Eqv log m args v) (l : List (Event V)) :
    First Eqv (log ++ l) m args v := by
  obtain ⟨l₁, i, as, l₂, rfl, h1, h2⟩ := h
  exact ⟨l₁, i, as, l₂ ++ l, by simp, h1, h2⟩

theorem Never.append {Eqv : List V → List V → Prop} {log l : List (Event V)} {m : Nat} {args : List V} (h : Never Eqv log m args) (h' : ∀ i as v, Eqv as args → Event.done i m as v ∉ l) : Never Eqv (log ++ l) m args := by
  intro i as v he hm
  rcases List.mem_append.mp hm with hm | hm
  · exact h i as v he hm
  · exact h' i as v he hm

theorem good_abort {Eqv : List V → List V → Prop} {l : List (Event V)} (h : Good Eqv l) (xs : List (Wait V P)) : Good Eqv (l ++ xs.map fun x => .abort x.id x.m x.args) := by
  induction xs generalizing l with
  | nil => simpa using h
  | cons x xs ih =>
    have := ih (.abort x.id x.m x.args h)
    simpa using this

/-- All calls so far had admissible arguments. -/
def AllAdm (Adm : List V → Prop) (c : Cfg V W P) : Prop := ∀ e ∈ c.log, Adm (argsOf e)

theorem lookup_append (S : Sys V W P) (w : W) (cache : List (Entry V)) (e : Entry V) (args : List V) :
    lookup S w (cache ++ [e]) args = (lookup S w cache args).or (if e.hash == S.hash w args && sameArgs S w e.key args then some e.val else none) := by
  simp only [lookup, List.find?_append]
  cases cache.find? _ with
  | some x => simp
  | none =>
    simp only [Option.none_or, List.find?_cons, List.find?_nil, Option.map_none]
    split
    · rename_i h; simp [h]
    · rename_i h; simp [h]

theorem inv_step {S : Sys V W P} {Adm : List V → Prop} {Eqv : List V → List V → Prop} (F : Frozen S Adm Eqv) {c c' : Cfg V W P} (h : Inv S Adm Eqv c) (hs : Step S c c')
    (ha : AllAdm Adm c') : Inv S Adm Eqv c' := by
  cases hs with
  | tau _ _ => exact ⟨h.good, h.waits, h.adm, h.cache, h.keys⟩
  | next p _ _ _ => exact ⟨h.good, h.waits, h.adm, h.cache, h.keys⟩
  | @call m args _ _ =>
    unfold begin at ha ⊢
    cases hl : lookup S c.w (c.caches m) args with
    | some v =>
      simp only [hl] at ha ⊢
      have hadm : Adm args := ha (.got m args v) (by simp)
      have hf := (h.cache m args hadm c.w).1 v hl
      refine ⟨.got h.good hf, h.waits, ha, fun m' as has w => ⟨fun v' hv' => ((h.cache m' as has w).1 v' hv').append _, fun hn => ?_⟩, h.keys⟩
      exact ((h.cache m' as has w).2 hn).append (by simp)
    | none =>
      simp only [hl] at ha ⊢
      have hadm : Adm args := ha (.start c.count m args) (by simp)
      have hn := (h.cache m args hadm c.w).2 hl
      refine ⟨.start h.good hn, ?_, ha, fun m' as has w => ⟨fun v' hv' => ((h.cache m' as has w).1 v' hv').append _, fun hn => ?_⟩, h.keys⟩
      · intro x hx
        rcases List.mem_cons.mp hx with rfl | hx
        · exact hadm
        · exact h.waits x hx
      · exact ((h.cache m' as has w).2 hn).append (by simp)
  | @ret v x rest _ _ hw =>
    unfold finish at ha ⊢
    split
    · exact ⟨h.good, h.waits, h.adm, h.cache, h.keys⟩
    · rename_i ht
      simp only [ht] at ha
      have hx : Adm x.args := h.waits x (by simp [hw])
      have hrest : ∀ y ∈ rest, Adm y.args := fun y hy => h.waits y (by simp [hw, hy])
      have hgood1 : Good Eqv (c.log ++ [.done x.id x.m x.args v]) := .done _ _ _ _ h.good
      cases hl : lookup S c.w (c.caches x.m) x.args with
      | some v' =>
        have e1 : orInsert S c.w (c.caches x.m) x.args v = (v', c.caches x.m) := by simp [orInsert, hl]
        simp only [e1]
        have hf := (h.cache x.m x.args hx c.w).1 v' hl
        have hg : Good Eqv (c.log ++ [.done x.id x.m x.args v, .got x.m x.args v']) := by
          have := Good.got hgood1 (hf.append _)
          simpa using this
        refine ⟨hg, hrest, by simpa [e1, AllAdm] using ha, fun m' as has w => ?_, fun m' e he => ?_⟩
        · simp only
          have e2 : (if m' = x.m then c.caches x.m else c.caches m') = c.caches m' := by split <;> simp_all
          rw [e2]
          refine ⟨fun u hu => ((h.cache m' as has w).1 u hu).append _, fun hn => ((h.cache m' as has w).2 hn).append ?_⟩
          intro i bs u he hm
          simp at hm
          obtain ⟨_, rfl, rfl, _⟩ := hm
          -- the earlier entry is found for `as` too
          obtain ⟨l₁, j, as', l₂, hlog, h1, _⟩ := hf
          have has' : Adm as' := h.adm (.done j x.m as' v') (by rw [hlog]; simp)
          exact (h.cache x.m as has w).2 hn j as' v' (F.trans _ _ _ has' hx has h1 he) (by rw [hlog]; simp)
        · simp only at he
          split at he
          · rename_i e2; subst e2; exact h.keys _ e he
          · exact h.keys _ e he
      | none =>
        have e1 : orInsert S c.w (c.caches x.m) x.args v = (v, c.caches x.m ++ [⟨S.hash c.w x.args, x.args, v⟩]) := by simp [orInsert, hl]
        simp only [e1]
        have hn0 := (h.cache x.m x.args hx c.w).2 hl
        have hfirst : First Eqv (c.log ++ [.done x.id x.m x.args v]) x.m x.args v :=
          ⟨c.log, x.id, x.args, [], by simp, F.refl _ hx, fun j as u he => hn0 j as u he⟩
        have hg : Good Eqv (c.log ++ [.done x.id x.m x.args v, .got x.m x.args v]) := by
          have := Good.got hgood1 hfirst
          simpa using this
        refine ⟨hg, hrest, by simpa [e1, AllAdm] using ha, fun m' as has w => ?_, fun m' e he => ?_⟩
        · simp only
          by_cases hm : m' = x.m
          · subst hm
            simp only [if_true, lookup_append]
            cases hl' : lookup S w (c.caches x.m) as with
            | some u =>
              simp only [Option.some_or, Option.some.injEq, forall_eq', reduceCtorEq, false_implies, and_true]
              exact ((h.cache _ as has w).1 u hl').append _
            | none =>
              have hn := (h.cache _ as has w).2 hl'
              simp only [Option.none_or]
              by_cases hE : Eqv x.args as
              · have e3 : (S.hash c.w x.args == S.hash w as && sameArgs S w x.args as) = true := by
                  simp [F.hash c.w w _ _ hx has hE, (F.same w _ _ hx has).mpr hE]
                simp only [e3, if_true, Option.some.injEq, forall_eq', reduceCtorEq, false_implies, and_true]
                exact ⟨c.log, x.id, x.args, [.got x.m x.args v], by simp, hE, fun j bs u he => hn j bs u he⟩
              · have e3 : (S.hash c.w x.args == S.hash w as && sameArgs S w x.args as) = false := by
                  have : sameArgs S w x.args as = false := by
                    cases hb : sameArgs S w x.args as with
                    | false => rfl
                    | true => exact absurd ((F.same w _ _ hx has).mp hb) hE
                  simp [this]
                simp only [e3, Bool.false_eq_true, if_false, reduceCtorEq, false_implies, implies_true, forall_const, true_and]
                refine hn.append ?_
                intro i bs u he hm
                simp at hm
                obtain ⟨_, rfl, _⟩ := hm
                exact hE he
          · simp only [if_neg hm]
            refine ⟨fun u hu => ((h.cache m' as has w).1 u hu).append _, fun hn => ((h.cache m' as has w).2 hn).append ?_⟩
            intro i bs u he hm'
            simp at hm'
            exact hm hm'.2.1
        · simp only at he
          split at he
          · rename_i e2; subst e2
            rcases List.mem_append.mp he with he | he
            · exact h.keys _ e he
            · simp at he; subst he; exact ⟨hx, c.w, rfl⟩
          · exact h.keys _ e he
  | fail p _ _ =>
    refine ⟨good_abort h.good _, by simp [failAll], ha, fun m' as has w => ⟨fun v' hv' => ((h.cache m' as has w).1 v' hv').append _, fun hn => ?_⟩, h.keys⟩
    exact ((h.cache m' as has w).2 hn).append (by simp)

theorem step_log {S : Sys V W P} {c c' : Cfg V W P} (hs : Step S c c') : ∃ l, c'.log = c.log ++ l := by
  cases hs with
  | tau _ _ => exact ⟨[], by simp⟩
  | next p _ _ _ => exact ⟨[], by simp⟩
  | @call m args _ _ => unfold begin; split <;> exact ⟨_, rfl⟩
  | ret _ _ _ => unfold finish; split; exact ⟨[], by simp⟩; exact ⟨_, rfl⟩
  | fail p _ _ => exact ⟨_, rfl⟩

theorem inv_steps {S : Sys V W P} {Adm : List V → Prop} {Eqv : List V → List V → Prop} (F : Frozen S Adm Eqv) {p : P} {w : W} {c : Cfg V W P} (h : Steps S (init p w) c)
    (ha : AllAdm Adm c) : Inv S Adm Eqv c := by
  have h0 : Inv S Adm Eqv (init p w : Cfg V W P) := by
    refine ⟨.nil, by simp [init], by simp [init], fun m as _ w' => ⟨by simp [init, lookup], fun _ i bs v _ => by simp [init]⟩, by simp [init]⟩
  generalize hi : init p w = c0 at h h0
  induction h with
  | refl => exact h0
  | tail hs hstep ih =>
    obtain ⟨l, hl⟩ := step_log hstep
    have ha' : AllAdm Adm _ := fun e he => ha e (by rw [hl]; exact List.mem_append_left _ he)
    exact inv_step F (ih ha') hstep ha

theorem Good.split {Eqv : List V → List V → Prop} {log : List (Event V)} (h : Good Eqv log) : ∀ l₁ e l₂, log = l₁ ++ e :: l₂ →
    (∀ i m args, e = .start i m args → Never Eqv l₁ m args) ∧ (∀ m args v, e = .got m args v → First Eqv l₁ m args v) := by
  induction h with
  | nil => intro l₁ e l₂ h; simp at h
  | start hg hn ih | done i m args v hg ih | abort i m args hg ih | got hg hf ih =>
    intro l₁ e l₂ h
    rcases List.eq_nil_or_concat l₂ with rfl | ⟨l, b, rfl⟩
    · rw [← List.concat_eq_append, ← List.concat_eq_append] at h
      obtain ⟨rfl, rfl⟩ := List.concat_inj.mp h
      simp_all
    · have h' := h
      rw [List.concat_eq_append, ← List.cons_append, ← List.append_assoc, ← List.concat_eq_append, ← List.concat_eq_append] at h'
      obtain ⟨h2, _⟩ := List.concat_inj.mp h'
      exact ih l₁ e l h2

/-- C26: in every history, each call of a memoized function gets the value of the first completed computation with equal arguments. -/
theorem C26_value_partial {S : Sys V W P} {Adm : List V → Prop} {Eqv : List V → List V → Prop} (F : Frozen S Adm Eqv) {p : P} {w : W} {c : Cfg V W P} (h : Steps S (init p w) c) (ha : AllAdm Adm c)
    (l₁ l₂ : List (Event V)) (m : Nat) (args : List V) (v : V) (hlog : c.log = l₁ ++ .got m args v :: l₂) : First Eqv l₁ m args v :=
  ((inv_steps F h ha).good.split _ _ _ hlog).2 m args v rfl

/-- C26: in every history, the body of a memoized function starts only if no computation with equal arguments was completed before. -/
theorem C26_not_run_again_partial {S : Sys V W P} {Adm : List V → Prop} {Eqv : List V → List V → Prop} (F : Frozen S Adm Eqv) {p : P} {w : W} {c : Cfg V W P} (h : Steps S (init p w) c)
    (ha : AllAdm Adm c) (l₁ l₂ : List (Event V)) (i m : Nat) (args : List V) (hlog : c.log = l₁ ++ .start i m args :: l₂) : Never Eqv l₁ m args :=
  ((inv_steps F h ha).good.split _ _ _ hlog).1 i m args rfl

/-! ## Failed computations -/

/-- The number of the activation that an event starts, or ends. -/
def startOf : Event V → Option Nat
  | .start i _ _ => some i
  | _ => none
def endOf : Event V → Option Nat
  | .done i _ _ _ => some i
  | .abort i _ _ => some i
  | _ => none

@[simp] theorem startOf_start (i m : Nat) (as : List V) : startOf (.start i m as) = some i := rfl
@[simp] theorem startOf_done (i m : Nat) (as : List V) (v : V) : startOf (.done i m as v) = none := rfl
@[simp] theorem startOf_abort (i m : Nat) (as : List V) : startOf (.abort i m as) = none := rfl
@[simp] theorem startOf_got (m : Nat) (as : List V) (v : V) : startOf (.got m as v) = none := rfl
@[simp] theorem endOf_start (i m : Nat) (as : List V) : endOf (.start i m as) = none := rfl
@[simp] theorem endOf_done (i m : Nat) (as : List V) (v : V) : endOf (.done i m as v) = some i := rfl
@[simp] theorem endOf_abort (i m : Nat) (as : List V) : endOf (.abort i m as) = some i := rfl
@[simp] theorem endOf_got (m : Nat) (as : List V) (v : V) : endOf (.got m as v) = none := rfl

@[simp] theorem filterMap_one_none {α β : Type} {f : α → Option β} {a : α} (h : f a = none) : [a].filterMap f = [] := by simp [h]

structure Ids (c : Cfg V W P) : Prop where
  starts : c.log.filterMap startOf = List.range c.count
  /-- a body that ended is not running -/
  ends : ∀ i, (i ∈ c.log.filterMap endOf ∨ i ∈ c.waits.map (·.id)) → i < c.count
  nodup : (c.log.filterMap endOf ++ c.waits.map (·.id)).Nodup
  started : ∀ x ∈ c.waits, Event.start x.id x.m x.args ∈ c.log
  match_ : ∀ i m args v, Event.done i m args v ∈ c.log → Event.start i m args ∈ c.log
  match' : ∀ i m args, Event.abort i m args ∈ c.log → Event.start i m args ∈ c.log

theorem ids_step {S : Sys V W P} {c c' : Cfg V W P} (h : Ids c) (hs : Step S c c') : Ids c' := by
  cases hs with
  | tau _ _ => exact ⟨h.starts, h.ends, h.nodup, h.started, h.match_, h.match'⟩
  | next p _ _ _ => exact ⟨h.starts, h.ends, h.nodup, h.started, h.match_, h.match'⟩
  | @call m args _ _ =>
    unfold begin
    split
    · refine ⟨by simpa [List.filterMap_cons] using h.starts, by simpa [List.filterMap_cons] using h.ends, by simpa [List.filterMap_cons] using h.nodup, ?_, ?_, ?_⟩
      · intro x hx; simp [h.started x hx]
      · intro i m' as v hv; simp at hv ⊢; exact h.match_ i m' as v hv
      · intro i m' as hv; simp at hv ⊢; exact h.match' i m' as hv
    · refine ⟨by simp [h.starts, List.range_succ, List.filterMap_cons], ?_, ?_, ?_, ?_, ?_⟩
      · intro i hi
        simp [List.filterMap_cons] at hi
        rcases hi with hi | rfl | hi
        · exact Nat.lt_succ_of_lt (h.ends i (.inl (by simpa [List.mem_filterMap] using hi)))
        · simp
        · exact Nat.lt_succ_of_lt (h.ends i (.inr (by simpa using hi)))
      · have : (c.log ++ [Event.start c.count m args]).filterMap endOf = c.log.filterMap endOf := by simp [List.filterMap_cons]
        simp only [this, List.map_cons]
        obtain ⟨h1, h2, h3⟩ := List.nodup_append.mp h.nodup
        rw [List.nodup_append]
        refine ⟨h1, List.nodup_cons.mpr ⟨fun hm => absurd (h.ends _ (.inr hm)) (Nat.lt_irrefl _), h2⟩, fun a ha b hb => ?_⟩
        rcases List.mem_cons.mp hb with rfl | hb
        · rintro rfl; exact absurd (h.ends _ (.inl ha)) (Nat.lt_irrefl _)
        · exact h3 a ha b hb
      · intro x hx
        rcases List.mem_cons.mp hx with rfl | hx
        · simp
        · simp [h.started x hx]
      · intro i m' as v hv; simp at hv ⊢; exact .inl (h.match_ i m' as v hv)
      · intro i m' as hv; simp at hv ⊢; exact .inl (h.match' i m' as hv)
  | @ret v x rest _ _ hw =>
    unfold finish
    split
    · exact ⟨h.starts, h.ends, h.nodup, h.started, h.match_, h.match'⟩
    · have hn := h.nodup
      rw [hw] at hn
      have he := h.ends
      rw [hw] at he
      refine ⟨by simpa [List.filterMap_cons] using h.starts, ?_, ?_, ?_, ?_, ?_⟩
      · intro i hi
        refine he i ?_
        simp [List.filterMap_cons] at hi ⊢
        rcases hi with (hi | rfl) | hi
        · exact .inl hi
        · exact .inr (.inl rfl)
        · exact .inr (.inr hi)
      · simpa [List.filterMap_cons] using hn
      · intro y hy; simp [h.started y (by simp [hw, hy])]
      · intro i m' as u hv; simp at hv ⊢
        rcases hv with hv | ⟨rfl, rfl, rfl, rfl⟩
        · exact h.match_ i m' as u hv
        · exact h.started x (by simp [hw])
      · intro i m' as hv; simp at hv ⊢; exact h.match' i m' as hv
  | fail p _ _ =>
    have e1 : (c.waits.map fun x => Event.abort x.id x.m x.args).filterMap startOf = [] := by
      rw [List.filterMap_map]; simp [Function.comp_def]
    have e2 : (c.waits.map fun x => Event.abort x.id x.m x.args).filterMap endOf = c.waits.map (·.id) := by
      rw [List.filterMap_map]; simp [Function.comp_def]
    refine ⟨by simp [failAll, e1, h.starts], ?_, ?_, by simp [failAll], ?_, ?_⟩
    · intro i hi
      simp only [failAll, List.filterMap_append, e2, List.map_nil, List.not_mem_nil, or_false, List.mem_append] at hi
      exact h.ends i hi
    · simpa only [failAll, List.filterMap_append, e2, List.map_nil, List.append_nil] using h.nodup
    · intro i m' as v hv
      simp [failAll] at hv ⊢
      exact h.match_ i m' as v hv
    · intro i m' as hv
      simp [failAll] at hv ⊢
      rcases hv with hv | ⟨x, hx, rfl, rfl, rfl⟩
      · exact h.match' i m' as hv
      · exact h.started x hx

theorem ids_steps {S : Sys V W P} {p : P} {w : W} {c : Cfg V W P} (h : Steps S (init p w) c) : Ids c := by
  have h0 : Ids (init p w : Cfg V W P) := ⟨by simp [init], by simp [init], by simp [init], by simp [init], by simp [init], by simp [init]⟩
  generalize init p w = c0 at h h0
  induction h with
  | refl => exact h0
  | tail _ hstep ih => exact ids_step ih hstep

/-- C26: each computation of a body that ended was started before with the same arguments, and ended once: with a value or with an error, not both. With the theorems above: a computation that failed
does not count as completed, so it does not keep the body from running again, and no call gets a value from it. -/
theorem C26_ends_once {S : Sys V W P} {p : P} {w : W} {c : Cfg V W P} (h : Steps S (init p w) c) :
    (c.log.filterMap startOf).Nodup ∧ (c.log.filterMap endOf).Nodup ∧
    (∀ i m args v, Event.done i m args v ∈ c.log → Event.start i m args ∈ c.log) ∧ (∀ i m args, Event.abort i m args ∈ c.log → Event.start i m args ∈ c.log) := by
  have hi := ids_steps h
  exact ⟨by rw [hi.starts]; exact List.nodup_range, (List.nodup_append.mp hi.nodup).1, hi.match_, hi.match'⟩

/-! ## Violations: equality that changes, or does not agree with the hash; and a crash -/

namespace Example

/-- Values: integers, references to lists, and memoized functions. -/
inductive Val where
  | int (n : Nat)
  | list (r : Nat)
  | fn (m : Nat)
  deriving DecidableEq, Repr

/-- A program is a list of actions: calls, and the change of a list; then the value `0`. -/
inductive Cmd where
  | call (m : Nat) (args : List Val)
  | write (r : Nat) (xs : List Nat)
  | fail
  deriving DecidableEq, Repr

def contents (w : Nat → List Nat) : Val → List Nat
  | .int n => [0, n]
  | .list r => 1 :: w r
  | .fn m => [2, m]

/-- Lists are equal, and have equal hashes, if they have the same elements now. -/
def sys : Sys Val (Nat → List Nat) (List Cmd) where
  same w a b := contents w a == contents w b
  hash w as := (as.map fun a => ((contents w a).foldl (fun h x => h * 31 + x) 7)).foldl (fun h x => h * 1009 + x) 3
  touches _ m as := as.contains (.fn m)
  act p w := match p with
    | [] => .ret (.int 0)
    | .call m as :: _ => .call m as
    | .write r xs :: p => .tau p (fun r' => if r' = r then xs else w r')
    | .fail :: _ => .fail
  resume p _ := p.tail
  -- function 1 fails; function 2 calls function 0
  body _ m as := if m = 1 then [.fail] else if m = 2 then [.call 0 as] else []

def w0 : Nat → List Nat := fun r => if r = 0 then [1] else [1]

/-- A deterministic run. -/
def step1 (c : Cfg Val (Nat → List Nat) (List Cmd)) : Cfg Val (Nat → List Nat) (List Cmd) :=
  if c.crashed then c else
  match sys.act c.cur c.w with
  | .tau p w => { c with cur := p, w := w }
  | .call m as => begin sys c m as
  | .ret v => match c.waits with
    | x :: rest => finish sys c x rest v
    | [] => c
  | .fail => failAll c []

def runs : Nat → Cfg Val (Nat → List Nat) (List Cmd) → Cfg Val (Nat → List Nat) (List Cmd)
  | 0, c => c
  | n + 1, c => runs n (step1 c)

theorem steps_step1 {a : Cfg Val (Nat → List Nat) (List Cmd)} (c : Cfg Val (Nat → List Nat) (List Cmd)) (h : Steps sys a c) : Steps sys a (step1 c) := by
  unfold step1
  split
  · exact h
  · rename_i hc
    simp only [Bool.not_eq_true] at hc
    split
    · exact .tail h (.tau hc ‹_›)
    · exact .tail h (.call hc ‹_›)
    · split
      · exact .tail h (.ret hc ‹_› ‹_›)
      · exact h
    · exact .tail h (.fail [] hc ‹_›)

theorem steps_runs {a : Cfg Val (Nat → List Nat) (List Cmd)} (n : Nat) (c : Cfg Val (Nat → List Nat) (List Cmd)) (h : Steps sys a c) : Steps sys a (runs n c) := by
  induction n generalizing c with
  | zero => exact h
  | succ n ih => exact ih _ (steps_step1 c h)

/-- Integers are admissible: they do not change. -/
theorem frozen : Frozen sys (fun as => ∀ a ∈ as, ∃ n, a = .int n) (· = ·) := by
  have key : ∀ w (a b : List Val), (∀ x ∈ a, ∃ n, x = .int n) → (∀ x ∈ b, ∃ n, x = .int n) → (sameArgs sys w a b = true ↔ a = b) := by
    intro w a
    induction a with
    | nil => intro b _ _; cases b <;> simp [sameArgs]
    | cons x xs ih =>
      intro b ha hb
      cases b with
      | nil => simp [sameArgs]
      | cons y ys =>
        obtain ⟨n, rfl⟩ := ha x (by simp)
        obtain ⟨k, rfl⟩ := hb y (by simp)
        have := ih ys (fun z hz => ha z (by simp [hz])) (fun z hz => hb z (by simp [hz]))
        simp [sameArgs, sys, contents] at this ⊢
        intro _
        exact this
  refine ⟨fun w a b ha hb => key w a b ha hb, ?_, fun _ _ => rfl, fun _ _ _ _ h => h.symm, fun _ _ _ _ _ _ h h' => h.trans h'⟩
  intro w w' a b ha _ hab
  subst hab
  have : ∀ x ∈ a, contents w x = contents w' x := fun x hx => by obtain ⟨n, rfl⟩ := ha x hx; rfl
  simp only [sys]
  congr 1
  exact List.map_congr_left fun x hx => by rw [this x hx]

/-- The hypotheses are met: a failed computation, a nested one, and repeated ones. -/
example : (runs 30 (init [.call 2 [.int 5], .call 0 [.int 5], .call 2 [.int 5], .call 1 [.int 1]] w0)).log =
    [.start 0 2 [.int 5], .start 1 0 [.int 5], .done 1 0 [.int 5] (.int 0), .got 0 [.int 5] (.int 0), .done 0 2 [.int 5] (.int 0), .got 2 [.int 5] (.int 0),
     .got 0 [.int 5] (.int 0), .got 2 [.int 5] (.int 0), .start 2 1 [.int 1], .abort 2 1 [.int 1]] := by decide
example (l₁ l₂ : List (Event Val)) (i m : Nat) (args : List Val)
    (h : (runs 30 (init [.call 2 [.int 5], .call 0 [.int 5], .call 2 [.int 5], .call 1 [.int 1]] w0)).log = l₁ ++ .start i m args :: l₂) : Never (· = ·) l₁ m args :=
  C26_not_run_again_partial frozen (steps_runs 30 _ (.refl _)) (by
    intro e he a ha
    have : ∀ e ∈ (runs 30 (init [.call 2 [.int 5], .call 0 [.int 5], .call 2 [.int 5], .call 1 [.int 1]] w0)).log, ∀ a ∈ argsOf e, a = .int 5 ∨ a = .int 1 := by decide
    rcases this e he a ha with h | h <;> exact ⟨_, h⟩) l₁ l₂ i m args h

/-- C26 does not hold in general: an argument is a list that is changed after the call; then the body runs again for equal arguments, whose first computation was completed. -/
theorem C26_violation_mutation : ∃ c : Cfg Val (Nat → List Nat) (List Cmd), Steps sys (init [.call 0 [.list 0], .write 0 [1, 2], .call 0 [.list 1]] w0) c ∧
    sameArgs sys w0 [.list 0] [.list 1] = true ∧
    c.log = [.start 0 0 [.list 0], .done 0 0 [.list 0] (.int 0), .got 0 [.list 0] (.int 0), .start 1 0 [.list 1], .done 1 0 [.list 1] (.int 0), .got 0 [.list 1] (.int 0)] :=
  ⟨_, steps_runs 10 _ (.refl _), by decide, by decide⟩

/-- C26: a memoized function that is called with itself as argument (or a list with it) crashes the interpreter when the result is stored. -/
theorem C26_violation_self : ∃ c : Cfg Val (Nat → List Nat) (List Cmd), Steps sys (init [.call 0 [.fn 0]] w0) c ∧ c.crashed = true :=
  ⟨_, steps_runs 10 _ (.refl _), by decide⟩

end Example

/-- C26 does not hold where equal arguments have different hashes (sets and dicts in a different order, C11): after a completed computation for `a`, the body runs again for an equal `b`. -/
theorem C26_violation_hash (S : Sys V W P) (p : P) (w : W) (m : Nat) (a b : List V) (v : V) (hsame : sameArgs S w a b = true) (hhash : S.hash w a ≠ S.hash w b)
    (h1 : S.act p w = .call m a) (h2 : S.act (S.body w m a) w = .ret v) (ht : S.touches w m a = false) (h3 : S.act (S.resume p v) w = .call m b) :
    ∃ c, Steps S (init p w) c ∧ c.log = [.start 0 m a, .done 0 m a v, .got m a v, .start 1 m b] := by
  let c0 : Cfg V W P := init p w
  have e1 : begin S c0 m a = { c0 with cur := S.body w m a, waits := [⟨p, 0, m, a⟩], count := 1, log := [.start 0 m a] } := rfl
  have s1 : Steps S c0 (begin S c0 m a) := .tail (.refl _) (.call rfl h1)
  rw [e1] at s1
  have s2 := s1.tail (.ret (v := v) (x := ⟨p, 0, m, a⟩) (rest := []) rfl h2 rfl)
  simp only [finish, show S.touches c0.w m a = false from ht, Bool.false_eq_true, if_false] at s2
  have e2 : orInsert S c0.w (c0.caches m) a v = (v, [⟨S.hash w a, a, v⟩]) := rfl
  simp only [e2] at s2
  have s3 := s2.tail (.call (m := m) (args := b) rfl h3)
  refine ⟨_, s3, ?_⟩
  have hl : lookup S w [⟨S.hash w a, a, v⟩] b = none := by simp [lookup, hhash]
  simp [begin, c0, init, hl]

end Cordy.Memo
