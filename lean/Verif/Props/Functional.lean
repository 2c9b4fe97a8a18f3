import Verif.Model.Functional
import Verif.Lemmas.IndexMap
/-!
# C22-C25: functional primitives
-/
namespace Cordy
open Fun

/-! ## Specification: completed calls -/

/-- `Calls f get i s tr s'`: starting in state `s` at position `i`, `f` was called on the elements `tr.map (·.1)` - each read at
the next position, in the state the previous call left - returned `tr.map (·.2)`, and the last call left state `s'`. -/
inductive Calls {σ α γ : Type} (f : Fn1 σ α γ) (get : σ → Nat → Option α) : Nat → σ → List (α × γ) → σ → Prop
  | nil (i : Nat) (s : σ) : Calls f get i s [] s
  | cons {i : Nat} {s s1 s2 : σ} {x : α} {v : γ} {tr : List (α × γ)} :
      get s i = some x → f x s = (.ok v, s1) → Calls f get (i + 1) s1 tr s2 → Calls f get i s ((x, v) :: tr) s2

/-- `f` called on one more element fails. -/
def FailsNext {σ α γ : Type} (f : Fn1 σ α γ) (get : σ → Nat → Option α) (i : Nat) (s : σ) (e : Err) (s' : σ) : Prop :=
  ∃ x, get s i = some x ∧ f x s = (.error e, s')

section
variable {σ α β γ ρ : Type}

/-- A pure fold of a never-ending decision function along a trace. -/
def decFold (dec : β → α → γ → β) (acc : β) (tr : List (α × γ)) : β := tr.foldl (fun a p => dec a p.1 p.2) acc

/-- The accumulator with which a decision goes on, if it does. -/
def contOf : Res (β ⊕ ρ) → Option β
  | .ok (.inl a) => some a
  | _ => none

/-- General characterisation of loops that call, then decide. -/
theorem loop_iff (f : Fn1 σ α γ) (get : σ → Nat → Option α) (dec : β → α → γ → Res (β ⊕ ρ)) (acc : β) (i : Nat) (s s' : σ)
    (r : Res (β ⊕ ρ)) :
    (∃ n, forLoop get (callThen f dec) n acc i s = some (r, s')) ↔
    ∃ tr s1 acc1, Calls f get i s tr s1 ∧
      tr.foldlM (m := Option) (fun a p => contOf (dec a p.1 p.2)) acc = some acc1 ∧
      ((get s1 (i + tr.length) = none ∧ r = .ok (.inl acc1) ∧ s' = s1) ∨
       (∃ x e, get s1 (i + tr.length) = some x ∧ f x s1 = (.error e, s') ∧ r = .error e) ∨
       (∃ x v, get s1 (i + tr.length) = some x ∧ f x s1 = (.ok v, s') ∧ r = dec acc1 x v ∧ ∀ a, r ≠ .ok (.inl a))) := by
  constructor
  · rintro ⟨n, h⟩
    induction n generalizing acc i s with
    | zero => cases h
    | succ n ih =>
      rw [forLoop] at h
      cases hg : get s i with
      | none =>
        rw [hg] at h; cases h
        exact ⟨[], s', acc, .nil i s', rfl, .inl ⟨hg, rfl, rfl⟩⟩
      | some x =>
        rw [hg] at h
        simp only [callThen] at h
        rcases hf : f x s with ⟨rv, s1⟩
        rw [hf] at h
        cases rv with
        | error e =>
          cases h
          exact ⟨[], s, acc, .nil i s, rfl, .inr (.inl ⟨x, e, hg, hf, rfl⟩)⟩
        | ok v =>
          simp only at h
          cases hd : dec acc x v with
          | error e =>
            rw [hd] at h; cases h
            exact ⟨[], s, acc, .nil i s, rfl, .inr (.inr ⟨x, v, hg, hf, hd.symm, by simp⟩)⟩
          | ok o =>
            rw [hd] at h
            cases o with
            | inr q =>
              cases h
              exact ⟨[], s, acc, .nil i s, rfl, .inr (.inr ⟨x, v, hg, hf, hd.symm, by simp⟩)⟩
            | inl a =>
              obtain ⟨tr, s2, acc2, hc, hfold, hr⟩ := ih a (i + 1) s1 h
              refine ⟨(x, v) :: tr, s2, acc2, .cons hg hf hc, ?_, ?_⟩
              · simp only [List.foldlM_cons, hd]; exact hfold
              · rw [List.length_cons, show i + (tr.length + 1) = i + 1 + tr.length by omega]; exact hr
  · rintro ⟨tr, s1, acc1, hc, hfold, hr⟩
    induction hc generalizing acc with
    | nil i s =>
      cases hfold
      refine ⟨1, ?_⟩
      rw [forLoop]
      rcases hr with ⟨hg, rfl, rfl⟩ | ⟨x, e, hg, hf, rfl⟩ | ⟨x, v, hg, hf, hd, hn⟩
      · simp only [List.length_nil, Nat.add_zero] at hg; rw [hg]
      · simp only [List.length_nil, Nat.add_zero] at hg; rw [hg]; simp only [callThen, hf]
      · simp only [List.length_nil, Nat.add_zero] at hg; rw [hg]; simp only [callThen, hf, ← hd]
        cases r with
        | error e => rfl
        | ok o => cases o with
          | inr q => rfl
          | inl a => exact absurd rfl (hn a)
    | @cons i s s1' s2 x v tr hg hf hc ih =>
      simp only [List.foldlM_cons] at hfold
      cases hd : dec acc x v with
      | error e => rw [hd] at hfold; cases hfold
      | ok o =>
        rw [hd] at hfold
        cases o with
        | inr q => cases hfold
        | inl a =>
          rw [List.length_cons, show i + (tr.length + 1) = i + 1 + tr.length by omega] at hr
          obtain ⟨n, hn⟩ := ih a hfold hr
          refine ⟨n + 1, ?_⟩
          rw [forLoop, hg]; simp only [callThen, hf, hd]; exact hn

/-- Loops that never return early and never fail by themselves. -/
theorem loop_total_iff (f : Fn1 σ α γ) (get : σ → Nat → Option α) (dec : β → α → γ → β) (acc : β) (s s' : σ) (r : Res β) :
    (∃ n, finish (ρ := β) id (forLoop get (callThen f fun a x v => .ok (.inl (dec a x v))) n acc 0 s) = some (r, s')) ↔
    ∃ tr s1, Calls f get 0 s tr s1 ∧
      ((get s1 tr.length = none ∧ r = .ok (decFold dec acc tr) ∧ s' = s1) ∨
       (∃ e, FailsNext f get tr.length s1 e s' ∧ r = .error e)) := by
  have hfold : ∀ (tr : List (α × γ)) acc, tr.foldlM (m := Option) (fun a p => contOf
      (Except.ok (Sum.inl (dec a p.1 p.2)) : Res (β ⊕ β))) acc
      = some (decFold dec acc tr) := by
    intro tr
    induction tr with
    | nil => intro acc; rfl
    | cons p tr ih => intro acc; simp only [List.foldlM_cons, decFold, List.foldl_cons]; exact ih _
  constructor
  · rintro ⟨n, h⟩
    cases hl : forLoop (ρ := β) get (callThen f fun a x v => .ok (.inl (dec a x v))) n acc 0 s with
    | none => rw [hl] at h; cases h
    | some p =>
      obtain ⟨r1, s1⟩ := p
      rw [hl] at h
      obtain ⟨tr, s2, acc2, hc, hf, hr⟩ := (loop_iff f get _ acc 0 s s1 r1).1 ⟨n, hl⟩
      rw [hfold] at hf; cases hf
      simp only [Nat.zero_add] at hr
      refine ⟨tr, s2, hc, ?_⟩
      rcases hr with ⟨hg, rfl, rfl⟩ | ⟨x, e, hg, hf, rfl⟩ | ⟨x, v, hg, hf, hd, hn⟩
      · cases h; exact .inl ⟨hg, rfl, rfl⟩
      · cases h; exact .inr ⟨e, ⟨x, hg, hf⟩, rfl⟩
      · exact absurd hd (hn _)
  · rintro ⟨tr, s1, hc, ⟨hg, rfl, rfl⟩ | ⟨e, ⟨x, hg, hf⟩, rfl⟩⟩
    · obtain ⟨n, hn⟩ := (loop_iff (ρ := β) f get (fun a x v => .ok (.inl (dec a x v))) acc 0 s s'
        (.ok (.inl (decFold dec acc tr)))).2 ⟨tr, s', _, hc, hfold tr acc, .inl ⟨by simpa using hg, rfl, rfl⟩⟩
      exact ⟨n, by rw [hn]; rfl⟩
    · obtain ⟨n, hn⟩ := (loop_iff (ρ := β) f get (fun a x v => .ok (.inl (dec a x v))) acc 0 s s'
        (.error e)).2 ⟨tr, s1, _, hc, hfold tr acc, .inr (.inl ⟨x, e, by simpa using hg, hf, rfl⟩)⟩
      exact ⟨n, by rw [hn]; rfl⟩

theorem forLoop_mono (get : σ → Nat → Option α) (body : β → α → σ → Res (β ⊕ ρ) × σ) (n : Nat) (acc : β) (i : Nat) (s : σ)
    (r : Res (β ⊕ ρ) × σ) (h : forLoop get body n acc i s = some r) (m : Nat) (hm : n ≤ m) :
    forLoop get body m acc i s = some r := by
  induction n generalizing acc i s m with
  | zero => cases h
  | succ n ih =>
    obtain ⟨m, rfl⟩ : ∃ m', m = m' + 1 := ⟨m - 1, by omega⟩
    rw [forLoop] at h ⊢
    cases hg : get s i with
    | none => rw [hg] at h; exact h
    | some x =>
      rw [hg] at h
      simp only at h ⊢
      rcases hb : body acc x s with ⟨rv, s1⟩
      rw [hb] at h
      cases rv with
      | error e => exact h
      | ok o => cases o with
        | inr q => exact h
        | inl a => exact ih _ _ _ h _ (by omega)

/-! ## C22 -/

/-- C22 `map`: completes with `vs` in state `s'` exactly if the calls on the elements, in order, up to the end of the iterable, returned
`vs` and left `s'`; fails with `e` exactly if the first failing call, after the preceding elements' calls succeeded, failed with `e`.
Holds for callbacks that change the iterated collection. -/
theorem C22_map (f : Fn1 σ α γ) (get : σ → Nat → Option α) (s s' : σ) (r : Res (List γ)) :
    (∃ n, Fun.map f get n s = some (r, s')) ↔
    ∃ tr s1, Calls f get 0 s tr s1 ∧
      ((get s1 tr.length = none ∧ r = .ok (tr.map (·.2)) ∧ s' = s1) ∨
       (∃ e, FailsNext f get tr.length s1 e s' ∧ r = .error e)) := by
  have key : ∀ (tr : List (α × γ)) acc, decFold (fun a (_ : α) v => a ++ [v]) acc tr = acc ++ tr.map (·.2) := by
    intro tr
    induction tr with
    | nil => intro acc; simp [decFold]
    | cons p tr ih => intro acc; have := ih (acc ++ [p.2]); simp [decFold] at *; exact this
  rw [show (∃ n, Fun.map f get n s = some (r, s')) ↔ _ from loop_total_iff f get (fun a _ v => a ++ [v]) [] s s' r]
  simp only [key, List.nil_append]

/-- C22 `filter` -/
theorem C22_filter (truthy : γ → Bool) (f : Fn1 σ α γ) (get : σ → Nat → Option α) (s s' : σ) (r : Res (List α)) :
    (∃ n, Fun.filter truthy f get n s = some (r, s')) ↔
    ∃ tr s1, Calls f get 0 s tr s1 ∧
      ((get s1 tr.length = none ∧ r = .ok ((tr.filter (fun p => truthy p.2)).map (·.1)) ∧ s' = s1) ∨
       (∃ e, FailsNext f get tr.length s1 e s' ∧ r = .error e)) := by
  have key : ∀ (tr : List (α × γ)) acc, decFold (fun a x v => if truthy v then a ++ [x] else a) acc tr
      = acc ++ (tr.filter (fun p => truthy p.2)).map (·.1) := by
    intro tr
    induction tr with
    | nil => intro acc; simp [decFold]
    | cons p tr ih =>
      intro acc
      have := ih (if truthy p.2 then acc ++ [p.1] else acc)
      simp only [decFold, List.foldl_cons] at *
      rw [this]
      cases h : truthy p.2 <;> simp [h]
  rw [show (∃ n, Fun.filter truthy f get n s = some (r, s')) ↔ _ from
    loop_total_iff f get (fun a x v => if truthy v then a ++ [x] else a) [] s s' r]
  simp only [key, List.nil_append]

/-- The callback of `flat_map`: call, then take the elements of the result. -/
def thenItems (items : γ → σ → Res (List α)) (f : Fn1 σ α γ) : Fn1 σ α (List α) := fun x s =>
  match f x s with
  | (.error e, s') => (.error e, s')
  | (.ok v, s') => (items v s', s')

/-- C22 `flat_map`: the concatenation, in order, of the elements of the results; a result that is not iterable is an error at that point. -/
theorem C22_flat_map (items : γ → σ → Res (List α)) (f : Fn1 σ α γ) (get : σ → Nat → Option α) (s s' : σ) (r : Res (List α)) :
    (∃ n, Fun.flatMap items f get n s = some (r, s')) ↔
    ∃ tr s1, Calls (thenItems items f) get 0 s tr s1 ∧
      ((get s1 tr.length = none ∧ r = .ok (tr.flatMap (·.2)) ∧ s' = s1) ∨
       (∃ e, FailsNext (thenItems items f) get tr.length s1 e s' ∧ r = .error e)) := by
  have key : ∀ (tr : List (α × List α)) acc, decFold (fun a (_ : α) v => a ++ v) acc tr = acc ++ tr.flatMap (·.2) := by
    intro tr
    induction tr with
    | nil => intro acc; simp [decFold]
    | cons p tr ih => intro acc; have := ih (acc ++ p.2); simp [decFold] at *; exact this
  rw [show (∃ n, Fun.flatMap items f get n s = some (r, s')) ↔ _ from
    loop_total_iff (thenItems items f) get (fun a _ v => a ++ v) [] s s' r]
  simp only [key, List.nil_append]

theorem search_fold (P : γ → Bool) (q : Nat → α → γ → ρ) (tr : List (α × γ)) (i j : Nat) :
    tr.foldlM (m := Option) (fun (a : Nat) p => contOf (Except.ok (if P p.2 then Sum.inr (q a p.1 p.2) else Sum.inl (a + 1)) : Res (Nat ⊕ ρ))) i = some j ↔ (∀ p ∈ tr, P p.2 = false) ∧ j = i + tr.length := by
  induction tr generalizing i with
  | nil => exact ⟨fun h => by cases h; exact ⟨by simp, rfl⟩, fun h => by rw [h.2]; rfl⟩
  | cons p tr ih =>
    rw [List.foldlM_cons]
    cases hP : P p.2 with
    | true =>
      refine ⟨fun h => (by cases h), fun h => ?_⟩
      have := h.1 p (by simp); rw [hP] at this; cases this
    | false =>
      refine Iff.trans (ih (i + 1)) ?_
      rw [List.forall_mem_cons, List.length_cons]
      exact ⟨fun h => ⟨⟨hP, h.1⟩, by omega⟩, fun h => ⟨h.1.2, by omega⟩⟩

/-- Search loops: stop at the first element whose call satisfies `P`. -/
theorem search_iff (P : γ → Bool) (q : Nat → α → γ → ρ) (no : ρ) (f : Fn1 σ α γ) (get : σ → Nat → Option α) (s s' : σ) (r : Res ρ) :
    (∃ n, finish (fun (_ : Nat) => no) (forLoop get (callThen f fun i x v => .ok (if P v then .inr (q i x v) else .inl (i + 1))) n 0 0 s)
      = some (r, s')) ↔
    ∃ tr s1, Calls f get 0 s tr s1 ∧ (∀ p ∈ tr, P p.2 = false) ∧
      ((get s1 tr.length = none ∧ r = .ok no ∧ s' = s1) ∨
       (∃ e, FailsNext f get tr.length s1 e s' ∧ r = .error e) ∨
       (∃ x v, get s1 tr.length = some x ∧ f x s1 = (.ok v, s') ∧ P v = true ∧ r = .ok (q tr.length x v))) := by
  constructor
  · rintro ⟨n, h⟩
    cases hl : forLoop (ρ := ρ) get (callThen f fun (i : Nat) x v => .ok (if P v then .inr (q i x v) else .inl (i + 1))) n 0 0 s with
    | none => rw [hl] at h; cases h
    | some p =>
      obtain ⟨r1, s1⟩ := p
      rw [hl] at h
      obtain ⟨tr, s2, acc2, hc, hf, hr⟩ := (loop_iff f get _ 0 0 s s1 r1).1 ⟨n, hl⟩
      rw [search_fold] at hf
      obtain ⟨hall, rfl⟩ := hf
      simp only [Nat.zero_add] at hr
      refine ⟨tr, s2, hc, hall, ?_⟩
      rcases hr with ⟨hg, rfl, rfl⟩ | ⟨x, e, hg, hf, rfl⟩ | ⟨x, v, hg, hf, hd, hn⟩
      · cases h; exact .inl ⟨hg, rfl, rfl⟩
      · cases h; exact .inr (.inl ⟨e, ⟨x, hg, hf⟩, rfl⟩)
      · cases hP : P v with
        | false => rw [hP] at hd; exact absurd hd (by simpa using hn _)
        | true =>
          rw [hP] at hd; simp only [if_true] at hd; subst hd
          cases h; exact .inr (.inr ⟨x, v, hg, hf, hP, rfl⟩)
  · rintro ⟨tr, s1, hc, hall, hr⟩
    have hfold := (search_fold P q tr 0 tr.length).2 ⟨hall, by omega⟩
    rcases hr with ⟨hg, rfl, rfl⟩ | ⟨e, ⟨x, hg, hf⟩, rfl⟩ | ⟨x, v, hg, hf, hP, rfl⟩
    · obtain ⟨n, hn⟩ := (loop_iff (ρ := ρ) f get (fun i x v => .ok (if P v then .inr (q i x v) else .inl (i + 1))) 0 0 s s'
        (.ok (.inl tr.length))).2 ⟨tr, s', _, hc, hfold, .inl ⟨by simpa using hg, rfl, rfl⟩⟩
      exact ⟨n, by rw [hn]; rfl⟩
    · obtain ⟨n, hn⟩ := (loop_iff (ρ := ρ) f get (fun i x v => .ok (if P v then .inr (q i x v) else .inl (i + 1))) 0 0 s s'
        (.error e)).2 ⟨tr, s1, _, hc, hfold, .inr (.inl ⟨x, e, by simpa using hg, hf, rfl⟩)⟩
      exact ⟨n, by rw [hn]; rfl⟩
    · obtain ⟨n, hn⟩ := (loop_iff (ρ := ρ) f get (fun i x v => .ok (if P v then .inr (q i x v) else .inl (i + 1))) 0 0 s s'
        (.ok (.inr (q tr.length x v)))).2
        ⟨tr, s1, _, hc, hfold, .inr (.inr ⟨x, v, by simpa using hg, hf, by simp [hP], by simp⟩)⟩
      exact ⟨n, by rw [hn]; rfl⟩

/-- C22 `find` / `index_of` with a function: the first element (in call order) whose result is truthy, with its position; no element
after it is visited.  Not found only when all were visited and none was truthy. -/
theorem C22_find (truthy : γ → Bool) (f : Fn1 σ α γ) (get : σ → Nat → Option α) (s s' : σ) (r : Res (Option (Nat × α))) :
    (∃ n, Fun.leftFind truthy f get n s = some (r, s')) ↔
    ∃ tr s1, Calls f get 0 s tr s1 ∧ (∀ p ∈ tr, truthy p.2 = false) ∧
      ((get s1 tr.length = none ∧ r = .ok none ∧ s' = s1) ∨
       (∃ e, FailsNext f get tr.length s1 e s' ∧ r = .error e) ∨
       (∃ x v, get s1 tr.length = some x ∧ f x s1 = (.ok v, s') ∧ truthy v = true ∧ r = .ok (some (tr.length, x)))) :=
  search_iff truthy (fun i x _ => some (i, x)) none f get s s' r

/-- C22 `rfind` / `rindex_of` with a function: as `find`, from the right; the index counts from the left. -/
theorem C22_rfind (truthy : γ → Bool) (f : Fn1 σ α γ) (view : σ → List α) (s s' : σ) (r : Res (Option (Nat × α))) :
    (∃ n, Fun.rightFind truthy f view n s = some (r, s')) ↔
    ∃ tr s1, Calls f (rev view (view s).length) 0 s tr s1 ∧ (∀ p ∈ tr, truthy p.2 = false) ∧
      ((rev view (view s).length s1 tr.length = none ∧ r = .ok none ∧ s' = s1) ∨
       (∃ e, FailsNext f (rev view (view s).length) tr.length s1 e s' ∧ r = .error e) ∨
       (∃ x v, (view s1)[(view s).length - 1 - tr.length]? = some x ∧ tr.length < (view s).length ∧ f x s1 = (.ok v, s') ∧
         truthy v = true ∧ r = .ok (some ((view s).length - 1 - tr.length, x)))) := by
  rw [show (∃ n, Fun.rightFind truthy f view n s = some (r, s')) ↔ _ from
    search_iff truthy (fun i x _ => some ((view s).length - 1 - i, x)) none f (rev view (view s).length) s s' r]
  constructor
  · rintro ⟨tr, s1, hc, ha, h | h | ⟨x, v, hg, h⟩⟩
    · exact ⟨tr, s1, hc, ha, .inl h⟩
    · exact ⟨tr, s1, hc, ha, .inr (.inl h)⟩
    · rw [rev] at hg
      split at hg
      · exact ⟨tr, s1, hc, ha, .inr (.inr ⟨x, v, hg, by assumption, h⟩)⟩
      · cases hg
  · rintro ⟨tr, s1, hc, ha, h | h | ⟨x, v, hg, hl, h⟩⟩
    · exact ⟨tr, s1, hc, ha, .inl h⟩
    · exact ⟨tr, s1, hc, ha, .inr (.inl h)⟩
    · exact ⟨tr, s1, hc, ha, .inr (.inr ⟨x, v, by rw [rev, if_pos hl]; exact hg, h⟩)⟩

theorem unit_counter (P : γ → Bool) (b : ρ) (f : Fn1 σ α γ) (get : σ → Nat → Option α) (no : ρ) (n i j : Nat) (s : σ) :
    finish (fun (_ : Unit) => no) (forLoop get (callThen f fun _ _ v => .ok (if P v then .inr b else .inl ())) n () i s) =
    finish (fun (_ : Nat) => no) (forLoop get (callThen f fun i _ v => .ok (if P v then .inr b else .inl (i + 1))) n j i s) := by
  induction n generalizing i j s with
  | zero => rfl
  | succ n ih =>
    rw [forLoop, forLoop]
    cases get s i with
    | none => rfl
    | some x =>
      simp only [callThen]
      rcases f x s with ⟨rv, s1⟩
      cases rv with
      | error e => rfl
      | ok v =>
        simp only
        cases P v with
        | true => rfl
        | false => exact ih (i + 1) (j + 1) s1

/-- C22 `any`: true exactly if some call in order returned a truthy value, all before it falsy, none after it made; false exactly if all
elements were tried without success. -/
theorem C22_any (truthy : γ → Bool) (f : Fn1 σ α γ) (get : σ → Nat → Option α) (s s' : σ) (r : Res Bool) :
    (∃ n, Fun.predicate true truthy f get n s = some (r, s')) ↔
    ∃ tr s1, Calls f get 0 s tr s1 ∧ (∀ p ∈ tr, truthy p.2 = false) ∧
      ((get s1 tr.length = none ∧ r = .ok false ∧ s' = s1) ∨
       (∃ e, FailsNext f get tr.length s1 e s' ∧ r = .error e) ∨
       (∃ x v, get s1 tr.length = some x ∧ f x s1 = (.ok v, s') ∧ truthy v = true ∧ r = .ok true)) := by
  have : ∀ n, Fun.predicate true truthy f get n s = finish (fun (_ : Nat) => false)
      (forLoop get (callThen f fun i _ v => .ok (if truthy v then .inr true else .inl (i + 1))) n 0 0 s) := by
    intro n
    rw [← unit_counter truthy true f get false n 0 0 s]
    simp only [Fun.predicate, beq_true, Bool.not_true]
  simp only [this]
  exact search_iff truthy (fun _ _ _ => true) false f get s s' r

/-- C22 `all`: false exactly at the first falsy result; true exactly if all elements were tried and all truthy. -/
theorem C22_all (truthy : γ → Bool) (f : Fn1 σ α γ) (get : σ → Nat → Option α) (s s' : σ) (r : Res Bool) :
    (∃ n, Fun.predicate false truthy f get n s = some (r, s')) ↔
    ∃ tr s1, Calls f get 0 s tr s1 ∧ (∀ p ∈ tr, truthy p.2 = true) ∧
      ((get s1 tr.length = none ∧ r = .ok true ∧ s' = s1) ∨
       (∃ e, FailsNext f get tr.length s1 e s' ∧ r = .error e) ∨
       (∃ x v, get s1 tr.length = some x ∧ f x s1 = (.ok v, s') ∧ truthy v = false ∧ r = .ok false)) := by
  have : ∀ n, Fun.predicate false truthy f get n s = finish (fun (_ : Nat) => true)
      (forLoop get (callThen f fun i _ v => .ok (if !truthy v then .inr false else .inl (i + 1))) n 0 0 s) := by
    intro n
    rw [← unit_counter (fun v => !truthy v) false f get true n 0 0 s]
    simp only [Fun.predicate, beq_false, Bool.not_false]
  simp only [this]
  rw [search_iff (fun v => !truthy v) (fun _ _ _ => false) true f get s s' r]
  simp only [Bool.not_eq_false', Bool.not_eq_true']

/-- `Folds f get i s acc n acc' s'`: `n` calls `f(acc, x)` on the elements from position `i` on, threading the accumulator. -/
inductive Folds (f : Fn2 σ α α α) (get : σ → Nat → Option α) : Nat → σ → α → Nat → α → σ → Prop
  | nil (i : Nat) (s : σ) (acc : α) : Folds f get i s acc 0 acc s
  | cons {i n : Nat} {s s1 s2 : σ} {x v acc acc' : α} :
      get s i = some x → f acc x s = (.ok v, s1) → Folds f get (i + 1) s1 v n acc' s2 → Folds f get i s acc (n + 1) acc' s2

theorem reduce_loop (f : Fn2 σ α α α) (get : σ → Nat → Option α) (acc : α) (i : Nat) (s s' : σ) (r : Res α) :
    (∃ n, finish (ρ := α) id (forLoop get (reduceBody f) n acc i s) = some (r, s')) ↔
    ∃ m acc1 s1, Folds f get i s acc m acc1 s1 ∧
      ((get s1 (i + m) = none ∧ r = .ok acc1 ∧ s' = s1) ∨
       (∃ x e, get s1 (i + m) = some x ∧ f acc1 x s1 = (.error e, s') ∧ r = .error e)) := by
  constructor
  · rintro ⟨n, h⟩
    induction n generalizing acc i s with
    | zero => cases h
    | succ n ih =>
      rw [forLoop] at h
      cases hg : get s i with
      | none => rw [hg] at h; cases h; exact ⟨0, acc, s', .nil _ _ _, .inl ⟨hg, rfl, rfl⟩⟩
      | some x =>
        rw [hg] at h
        simp only [reduceBody] at h
        rcases hf : f acc x s with ⟨rv, s1⟩
        rw [hf] at h
        cases rv with
        | error e => cases h; exact ⟨0, acc, s, .nil _ _ _, .inr ⟨x, e, hg, hf, rfl⟩⟩
        | ok v =>
          obtain ⟨m, acc1, s2, hF, hr⟩ := ih v (i + 1) s1 h
          refine ⟨m + 1, acc1, s2, .cons hg hf hF, ?_⟩
          rw [show i + (m + 1) = i + 1 + m by omega]; exact hr
  · rintro ⟨m, acc1, s1, hF, hr⟩
    induction hF with
    | nil i s acc =>
      refine ⟨1, ?_⟩
      rw [forLoop]
      rcases hr with ⟨hg, rfl, rfl⟩ | ⟨x, e, hg, hf, rfl⟩
      · rw [Nat.add_zero] at hg; rw [hg]; rfl
      · rw [Nat.add_zero] at hg; rw [hg]; simp only [reduceBody, hf]; rfl
    | @cons i n s s1' s2 x v acc acc' hg hf _ ih =>
      obtain ⟨k, hk⟩ := ih (by rw [show i + 1 + n = i + (n + 1) by omega]; exact hr)
      refine ⟨k + 1, ?_⟩
      rw [forLoop, hg]; simp only [reduceBody, hf]; exact hk

/-- C22 `reduce`: error on empty input without calling `f`; otherwise the left fold of the calls starting from the first element, failing at the first failing call. -/
theorem C22_reduce (f : Fn2 σ α α α) (get : σ → Nat → Option α) (s s' : σ) (r : Res α) :
    (∃ n, Fun.reduce f get n s = some (r, s')) ↔
    (get s 0 = none ∧ r = .error .nonEmpty ∧ s' = s) ∨
    ∃ x0 m acc s1, get s 0 = some x0 ∧ Folds f get 1 s x0 m acc s1 ∧
      ((get s1 (m + 1) = none ∧ r = .ok acc ∧ s' = s1) ∨
       (∃ x e, get s1 (m + 1) = some x ∧ f acc x s1 = (.error e, s') ∧ r = .error e)) := by
  cases hg : get s 0 with
  | none =>
    simp only [Fun.reduce, hg]
    constructor
    · rintro ⟨_, h⟩; cases h; exact .inl ⟨trivial, rfl, rfl⟩
    · rintro (⟨_, rfl, rfl⟩ | ⟨_, _, _, _, h, _⟩)
      · exact ⟨0, rfl⟩
      · cases h
  | some x0 =>
    simp only [Fun.reduce, hg]
    rw [reduce_loop]
    constructor
    · rintro ⟨m, acc, s1, hF, hr⟩
      rw [Nat.add_comm 1 m] at hr
      exact .inr ⟨x0, m, acc, s1, rfl, hF, hr⟩
    · rintro (⟨h, _⟩ | ⟨x, m, acc, s1, hx, hF, hr⟩)
      · cases h
      · cases hx; rw [Nat.add_comm m 1] at hr; exact ⟨m, acc, s1, hF, hr⟩

/-! ### Callbacks that leave the collection alone -/

/-- A callback that does not change what `view` sees. -/
def LeavesAlone (view : σ → List α) (f : Fn1 σ α γ) : Prop := ∀ x s, view (f x s).2 = view s

theorem Calls.view_eq {view : σ → List α} {f : Fn1 σ α γ} (hf : LeavesAlone view f) {get : σ → Nat → Option α} {i : Nat} {s s' : σ}
    {tr : List (α × γ)} (h : Calls f get i s tr s') : view s' = view s := by
  induction h with
  | nil => rfl
  | @cons i s s1 s2 x v tr hg hx _ ih => rw [ih]; have := hf x s; rw [hx] at this; exact this

theorem Calls.elems {view : σ → List α} {f : Fn1 σ α γ} (hf : LeavesAlone view f) {i : Nat} {s s' : σ} {tr : List (α × γ)}
    (h : Calls f (fwd view) i s tr s') : tr.map (·.1) = ((view s).drop i).take tr.length := by
  induction h with
  | nil => simp
  | @cons i s s1 s2 x v tr hg hx hc ih =>
    have hv : view s1 = view s := by have := hf x s; rw [hx] at this; exact this
    rw [List.map_cons, ih, hv]
    have hlt : i < (view s).length := by
      rw [fwd] at hg; exact (List.getElem?_eq_some_iff.1 hg).1
    rw [List.length_cons, List.drop_eq_getElem_cons hlt, List.take_succ_cons]
    have : (view s)[i] = x := (List.getElem?_eq_some_iff.1 hg).2
    rw [this]

/-- C22. If the callback leaves the collection alone, every loop terminates: within one more step than there are elements. -/
theorem C22_terminates (view : σ → List α) (f : Fn1 σ α γ) (hf : LeavesAlone view f) (dec : β → α → γ → Res (β ⊕ ρ)) (acc : β)
    (s : σ) : (forLoop (fwd view) (callThen f dec) ((view s).length + 1) acc 0 s).isSome := by
  suffices h : ∀ n i acc s, (view s).length ≤ i + n → (forLoop (fwd view) (callThen f dec) (n + 1) acc i s).isSome from
    h _ _ _ _ (by omega)
  intro n
  induction n with
  | zero =>
    intro i acc s h
    rw [forLoop, fwd, List.getElem?_eq_none (by omega)]; rfl
  | succ n ih =>
    intro i acc s h
    rw [forLoop]
    cases hg : fwd view s i with
    | none => rfl
    | some x =>
      simp only [callThen]
      rcases hx : f x s with ⟨rv, s1⟩
      have hv : view s1 = view s := by have := hf x s; rw [hx] at this; exact this
      cases rv with
      | error e => rfl
      | ok v =>
        simp only
        cases dec acc x v with
        | error e => rfl
        | ok o => cases o with
          | inr q => rfl
          | inl a => exact ih _ _ _ (by rw [hv]; omega)

/-- C22 `map` on a collection the callback leaves alone: every element is passed to the function exactly once, in order. -/
theorem C22_map_all (view : σ → List α) (f : Fn1 σ α γ) (hf : LeavesAlone view f) (n : Nat) (s s' : σ) (vs : List γ)
    (h : Fun.map f (fwd view) n s = some (.ok vs, s')) :
    ∃ tr, Calls f (fwd view) 0 s tr s' ∧ tr.map (·.1) = view s ∧ tr.map (·.2) = vs := by
  obtain ⟨tr, s1, hc, ⟨hg, hr, rfl⟩ | ⟨e, _, hr⟩⟩ := (C22_map f (fwd view) s s' _).1 ⟨n, h⟩
  · cases hr
    refine ⟨tr, hc, ?_, rfl⟩
    rw [hc.elems hf, List.drop_zero]
    apply List.take_of_length_le
    rw [fwd, List.getElem?_eq_none_iff, hc.view_eq hf] at hg
    exact hg
  · cases hr

/-- C22 pure functions: `map` is `List.map`, `filter` is `List.filter`, `any`/`all` the quantifiers. -/
theorem C22_pure (g : α → γ) (truthy : γ → Bool) (view : σ → List α) (s : σ) :
    (∃ n, Fun.map (fun x s => (.ok (g x), s)) (fwd view) n s = some (.ok ((view s).map g), s)) ∧
    (∃ n, Fun.filter truthy (fun x s => (.ok (g x), s)) (fwd view) n s = some (.ok ((view s).filter (fun x => truthy (g x))), s)) := by
  have hc : ∀ n i, n = (view s).length - i →
      Calls (fun x s => (.ok (g x), s)) (fwd view) i s (((view s).drop i).map fun x => (x, g x)) s := by
    intro n
    induction n with
    | zero => intro i h; rw [List.drop_eq_nil_of_le (by omega)]; exact .nil _ _
    | succ n ih =>
      intro i h
      rw [List.drop_eq_getElem_cons (by omega : i < (view s).length)]
      exact .cons (List.getElem?_eq_getElem (by omega)) rfl (ih (i + 1) (by omega))
  have h0 := hc _ 0 rfl
  rw [List.drop_zero] at h0
  constructor
  · refine (C22_map _ _ _ _ _).2 ⟨_, s, h0, .inl ⟨?_, ?_, rfl⟩⟩
    · rw [fwd, List.getElem?_eq_none_iff]; simp
    · simp [Function.comp_def]
  · refine (C22_filter truthy _ _ _ _ _).2 ⟨_, s, h0, .inl ⟨?_, ?_, rfl⟩⟩
    · rw [fwd, List.getElem?_eq_none_iff]; simp
    · simp [List.filter_map, Function.comp_def]

-- non-vacuity: a callback that counts its calls and fails on 3; it is not called on 4
example : Fun.map (σ := Nat × List Nat) (fun x s => if x = 3 then (.error .divZero, (s.1 + 1, s.2)) else (.ok (x * 10), (s.1 + 1, s.2)))
    (fwd (·.2)) 5 (0, [1, 2, 3, 4]) = some (.error .divZero, (3, [1, 2, 3, 4])) := rfl
example : LeavesAlone (σ := Nat × List Nat) (·.2) (fun x s => (.ok (x + s.1), (s.1 + 1, s.2))) := fun _ _ => rfl
-- and one that appends to the collection while it is iterated: the new element is visited too
example : Fun.map (σ := List Nat) (fun x s => (.ok (x + 1), if x = 1 then s ++ [7] else s)) (fwd id) 5 [1, 2]
    = some (.ok [2, 3, 8], [1, 2, 7]) := rfl

end

/-! ## C22, plain values -/

/-- C22 `find`/`index_of` with a value: the first position holding an equal element. -/
theorem C22_find_value {α : Type} (eq : α → α → Bool) (y : α) (xs : List α) :
    (∀ i v, leftFindValue eq y xs = some (i, v) ↔
      xs[i]? = some v ∧ eq v y = true ∧ ∀ j, j < i → ∀ w, xs[j]? = some w → eq w y = false) ∧
    (leftFindValue eq y xs = none ↔ ∀ v ∈ xs, eq v y = false) := by
  have hn : leftFindValue eq y xs = none ↔ ∀ v ∈ xs, eq v y = false := by
    rw [leftFindValue]
    cases h : xs.findIdx? (fun v => eq v y) with
    | none => simpa using List.findIdx?_eq_none_iff.1 h
    | some i =>
      obtain ⟨hi, hp, _⟩ := List.findIdx?_eq_some_iff_getElem.1 h
      simp only [List.getElem?_eq_getElem hi, reduceCtorEq, false_iff]
      intro hall; have := hall _ (List.getElem_mem hi); rw [this] at hp; cases hp
  refine ⟨fun i v => ?_, hn⟩
  rw [leftFindValue]
  cases h : xs.findIdx? (fun v => eq v y) with
  | none =>
    simp only [reduceCtorEq, false_iff]
    rintro ⟨h1, h2, _⟩
    have := List.findIdx?_eq_none_iff.1 h v (List.mem_of_getElem? h1)
    rw [h2] at this; cases this
  | some k =>
    obtain ⟨hk, hp, hlt⟩ := List.findIdx?_eq_some_iff_getElem.1 h
    simp only [List.getElem?_eq_getElem hk, Option.some.injEq, Prod.mk.injEq]
    constructor
    · rintro ⟨rfl, rfl⟩
      refine ⟨List.getElem?_eq_getElem hk, hp, fun j hj w hw => ?_⟩
      have := hlt j hj
      obtain ⟨hjl, rfl⟩ := List.getElem?_eq_some_iff.1 hw
      simpa using this
    · rintro ⟨h1, h2, h3⟩
      have : k = i := by
        rcases Nat.lt_trichotomy k i with hki | rfl | hik
        · have := h3 k hki _ (List.getElem?_eq_getElem hk); rw [this] at hp; cases hp
        · rfl
        · obtain ⟨hil, rfl⟩ := List.getElem?_eq_some_iff.1 h1
          have := hlt i hik; rw [h2] at this; exact absurd rfl this
      subst this
      rw [List.getElem?_eq_getElem hk] at h1; cases h1; exact ⟨rfl, rfl⟩

/-- C22 `rfind`/`rindex_of` with a value: the last position holding an equal element. -/
theorem C22_rfind_value {α : Type} (eq : α → α → Bool) (y : α) (xs : List α) :
    (∀ i v, rightFindValue eq y xs = some (i, v) ↔
      xs[i]? = some v ∧ eq v y = true ∧ ∀ j, i < j → ∀ w, xs[j]? = some w → eq w y = false) ∧
    (rightFindValue eq y xs = none ↔ ∀ v ∈ xs, eq v y = false) := by
  obtain ⟨hs, hn⟩ := C22_find_value eq y xs.reverse
  constructor
  · intro i v
    rw [rightFindValue]
    have hrev : ∀ j, j < xs.length → xs.reverse[j]? = xs[xs.length - 1 - j]? := fun j hj => List.getElem?_reverse hj
    constructor
    · intro h
      cases hl : leftFindValue eq y xs.reverse with
      | none => rw [hl] at h; cases h
      | some p =>
        obtain ⟨k, w⟩ := p
        rw [hl] at h; cases h
        obtain ⟨h1, h2, h3⟩ := (hs k v).1 hl
        have hk : k < xs.length := by simpa using (List.getElem?_eq_some_iff.1 h1).1
        refine ⟨by rw [← hrev k hk]; exact h1, h2, fun j hj w hw => ?_⟩
        have hjl := (List.getElem?_eq_some_iff.1 hw).1
        refine h3 (xs.length - 1 - j) (by omega) w ?_
        rw [hrev _ (by omega), show xs.length - 1 - (xs.length - 1 - j) = j by omega]; exact hw
    · rintro ⟨h1, h2, h3⟩
      have hil := (List.getElem?_eq_some_iff.1 h1).1
      have : leftFindValue eq y xs.reverse = some (xs.length - 1 - i, v) := by
        refine (hs _ _).2 ⟨?_, h2, fun j hj w hw => ?_⟩
        · rw [hrev _ (by omega), show xs.length - 1 - (xs.length - 1 - i) = i by omega]; exact h1
        · rw [hrev j (by omega)] at hw
          exact h3 (xs.length - 1 - j) (by omega) w hw
      rw [this]; simp only [Option.some.injEq, Prod.mk.injEq, and_true]; omega
  · rw [rightFindValue]
    cases hl : leftFindValue eq y xs.reverse with
    | none => simpa using hn.1 hl
    | some p =>
      simp only [reduceCtorEq, false_iff]
      intro hall
      have := hn.2 (by simpa using hall); rw [this] at hl; cases hl

example : rightFindValue (· == ·) 2 [1, 2, 3, 2, 4] = some (3, 2) := rfl

end Cordy
