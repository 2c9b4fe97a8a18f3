import Verif.Props.Functional
import Mathlib.Data.List.Induction
/-!
# C23-C25: group_by, zip, enumerate, combinations, permutations
-/
namespace Cordy
open Fun

/-! ## C23 -/

/-- The English: consecutive groups of exactly `n`, the last possibly shorter but not empty. -/
def IsChunking {α : Type} (n : Nat) (xs : List α) (gs : List (List α)) : Prop :=
  gs.flatten = xs ∧ (∀ g ∈ gs, 0 < g.length ∧ g.length ≤ n) ∧ (∀ g ∈ gs.dropLast, g.length = n)

theorem chunksLoop_spec {α : Type} (n : Nat) (hn : 0 < n) (xs : List α) (gs : List (List α)) (g : List α)
    (hg : g.length < n) (hgs : ∀ x ∈ gs, x.length = n) :
    (chunksLoop n xs gs g).1.flatten ++ (chunksLoop n xs gs g).2 = gs.flatten ++ g ++ xs ∧
    (∀ x ∈ (chunksLoop n xs gs g).1, x.length = n) ∧ (chunksLoop n xs gs g).2.length < n := by
  induction xs generalizing gs g with
  | nil => exact ⟨by simp [chunksLoop], hgs, hg⟩
  | cons v vs ih =>
    rw [chunksLoop]
    split
    · next h =>
      obtain ⟨h1, h2, h3⟩ := ih (gs ++ [g ++ [v]]) [] hn (by
        intro x hx; rw [List.mem_append] at hx
        rcases hx with hx | hx
        · exact hgs x hx
        · simp at hx; subst hx; exact h)
      exact ⟨by rw [h1]; simp, h2, h3⟩
    · next h =>
      obtain ⟨h1, h2, h3⟩ := ih gs (g ++ [v]) (by
        rw [List.length_append] at *; simp at *; omega) hgs
      exact ⟨by rw [h1]; simp, h2, h3⟩

/-- C23. `group_by(n, xs)` for positive `n` is a chunking of `xs` into groups of `n`; otherwise it raises an error. -/
theorem C23_chunks {α : Type} (n : Int) (xs : List α) :
    (n ≤ 0 → chunks n xs = .error .mustBePositive) ∧
    (0 < n → ∃ gs, chunks n xs = .ok gs ∧ IsChunking n.toNat xs gs) := by
  constructor
  · intro h; rw [chunks, if_pos h]
  · intro h
    rw [chunks, if_neg (by omega)]
    obtain ⟨h1, h2, h3⟩ := chunksLoop_spec n.toNat (by omega) xs [] [] (by simp; omega) (by simp)
    simp only
    refine ⟨_, rfl, ?_⟩
    cases hr : (chunksLoop n.toNat xs [] []).2 with
    | nil =>
      rw [hr] at h1
      simp only [List.isEmpty_nil, if_true]
      refine ⟨by simpa using h1, ?_, ?_⟩
      · intro g hg; have := h2 g hg; omega
      · intro g hg; exact h2 g (List.dropLast_subset _ hg)
    | cons a as =>
      rw [hr] at h1 h3
      simp only [List.isEmpty_cons, Bool.false_eq_true, if_false]
      refine ⟨by simpa using h1, ?_, ?_⟩
      · intro g hg
        rw [List.mem_append] at hg
        rcases hg with hg | hg
        · have := h2 g hg; omega
        · simp at hg; subst hg; simp at *; omega
      · rw [List.dropLast_concat]; exact h2

/-- C23. There is only one chunking, so `C23_chunks` determines the result. -/
theorem C23_chunks_unique {α : Type} (n : Nat) (xs : List α) (gs gs' : List (List α)) (h : IsChunking n xs gs)
    (h' : IsChunking n xs gs') : gs = gs' := by
  induction gs generalizing xs gs' with
  | nil =>
    cases gs' with
    | nil => rfl
    | cons g' r' =>
      obtain ⟨e, _, _⟩ := h; simp at e; subst e
      obtain ⟨e', p', _⟩ := h'
      have := (p' g' (by simp)).1
      simp at e'; rw [e'.1] at this; simp at this
  | cons g r ih =>
    cases gs' with
    | nil =>
      obtain ⟨e', _, _⟩ := h'; simp at e'; subst e'
      obtain ⟨e, p, _⟩ := h
      have := (p g (by simp)).1
      simp at e; rw [e.1] at this; simp at this
    | cons g' r' =>
      obtain ⟨e, p, q⟩ := h
      obtain ⟨e', p', q'⟩ := h'
      simp only [List.flatten_cons] at e e'
      have hp := p g (by simp)
      have hp' := p' g' (by simp)
      have hlen : g.length = g'.length := by
        cases r with
        | nil =>
          cases r' with
          | nil => simp at e e'; rw [e, e']
          | cons b bs =>
            have hb := (p' b (by simp)).1
            have hq := q' g' (by simp)
            have := congrArg List.length (e.trans e'.symm)
            simp at this; omega
        | cons c cs =>
          have hq := q g (by simp)
          have hc := (p c (by simp)).1
          cases r' with
          | nil =>
            have := congrArg List.length (e.trans e'.symm)
            simp at this; omega
          | cons b bs => have hq' := q' g' (by simp); omega
      obtain ⟨rfl, e2⟩ := List.append_inj (e.trans e'.symm) hlen
      congr 1
      refine ih r.flatten r' ⟨rfl, fun x hx => p x (by simp [hx]), fun x hx => q x ?_⟩
        ⟨e2.symm, fun x hx => p' x (by simp [hx]), fun x hx => q' x ?_⟩
      · cases r with
        | nil => simp at hx
        | cons c cs => rw [List.dropLast_cons_cons]; simp [hx]
      · cases r' with
        | nil => simp at hx
        | cons c cs => rw [List.dropLast_cons_cons]; simp [hx]

example : chunks 2 [1, 2, 3, 4, 5] = .ok [[1, 2], [3, 4], [5]] := rfl

open IndexMap

section
variable {σ α γ : Type} [BEq γ] [EquivBEq γ]

/-- The first occurrence of each key, in order. -/
def firsts (ks : List γ) : List γ := match ks with
  | [] => []
  | k :: ks => k :: (firsts ks).filter (fun x => !(k == x))

/-- One step of `group_by(f)`. -/
def groupStep (acc : List (γ × List α)) (x : α) (k : γ) : List (γ × List α) :=
  match get? acc k with
  | some vs => insert acc k (vs ++ [x])
  | none => acc ++ [(k, [x])]

theorem groupStep_spec (acc : List (γ × List α)) (h : Distinct acc) (x : α) (k : γ) :
    Distinct (groupStep acc x k) ∧
    (groupStep acc x k).map (·.1) = (if contains acc k then acc.map (·.1) else acc.map (·.1) ++ [k]) ∧
    ∀ k', get? (groupStep acc x k) k' = if k == k' then some ((get? acc k).getD [] ++ [x]) else get? acc k' := by
  rw [groupStep]
  cases hg : get? acc k with
  | some vs =>
    refine ⟨h.insert k _, ?_, fun k' => ?_⟩
    · rw [keys_insert]
    · rw [get?_insert]; rfl
  | none =>
    have he : acc ++ [(k, [x])] = insert acc k [x] := (insert_eq_append hg).symm
    simp only [he]
    refine ⟨h.insert k _, ?_, fun k' => ?_⟩
    · rw [keys_insert]
    · rw [get?_insert]; rfl

theorem firsts_append (ks : List γ) (k : γ) :
    firsts (ks ++ [k]) = if ks.any (· == k) then firsts ks else firsts ks ++ [k] := by
  induction ks with
  | nil => rfl
  | cons a ks ih =>
    simp only [List.cons_append, firsts, ih, List.any_cons]
    by_cases h1 : a == k <;> by_cases h2 : ks.any (· == k) <;> simp [h1, h2, List.filter_append]

theorem group_fold (tr : List (α × γ)) :
    let g := decFold (fun acc x k => groupStep acc x k) [] tr
    Distinct g ∧ g.map (·.1) = firsts (tr.map (·.2)) ∧
    (∀ k, contains g k = (tr.map (·.2)).any (· == k)) ∧
    ∀ k, (get? g k).getD [] = (tr.filter (fun p => p.2 == k)).map (·.1) := by
  induction tr using List.reverseRecOn with
  | nil => exact ⟨List.Pairwise.nil, rfl, fun _ => rfl, fun _ => rfl⟩
  | append_singleton tr p ih =>
    simp only at ih ⊢
    obtain ⟨h1, h2, h3, h4⟩ := ih
    have hstep : decFold (fun acc x k => groupStep acc x k) [] (tr ++ [p])
        = groupStep (decFold (fun acc x k => groupStep acc x k) [] tr) p.1 p.2 := by
      simp [decFold, List.foldl_append]
    rw [hstep]
    obtain ⟨s1, s2, s3⟩ := groupStep_spec _ h1 p.1 p.2
    refine ⟨s1, ?_, fun k => ?_, fun k => ?_⟩
    · rw [s2, h3, h2, List.map_append, List.map_singleton, firsts_append]
    · rw [contains_iff, s3]
      cases hk : p.2 == k with
      | true => simp [hk]
      | false =>
        simp only [Bool.false_eq_true, if_false, List.map_append, List.any_append]
        rw [← contains_iff, h3]; simp [hk]
    · rw [s3]
      cases hk : p.2 == k with
      | true =>
        simp only [if_true, Option.getD_some]
        rw [get?_congr _ hk, h4]; simp [List.filter_append, hk]
      | false =>
        simp only [Bool.false_eq_true, if_false]
        rw [h4]; simp [List.filter_append, hk]

/-- C23 `group_by(f, xs)`: one call per element, in order; the dict's keys are the distinct results in order of first appearance, and each key
holds exactly the elements with an equal result, in their original order. -/
theorem C23_group_by (f : Fn1 σ α γ) (get : σ → Nat → Option α) (s s' : σ) (r : Res (List (γ × List α))) :
    (∃ n, Fun.groupBy f get n s = some (r, s')) ↔
    ∃ tr s1, Calls f get 0 s tr s1 ∧
      ((get s1 tr.length = none ∧ s' = s1 ∧ ∃ g, r = .ok g ∧ Distinct g ∧ g.map (·.1) = firsts (tr.map (·.2)) ∧
          ∀ k vs, get? g k = some vs ↔ vs = (tr.filter (fun p => p.2 == k)).map (·.1) ∧ vs ≠ []) ∨
       (∃ e, FailsNext f get tr.length s1 e s' ∧ r = .error e)) := by
  have hval : ∀ (tr : List (α × γ)) k vs, get? (decFold (fun acc x k => groupStep acc x k) [] tr) k = some vs ↔
      vs = (tr.filter (fun p => p.2 == k)).map (·.1) ∧ vs ≠ [] := by
    intro tr k vs
    obtain ⟨h1, h2, h3, h4⟩ := group_fold tr
    have h3 := h3 k; have h4 := h4 k
    rw [contains_iff] at h3
    cases hg : get? (decFold (fun acc x k => groupStep acc x k) [] tr) k with
    | none =>
      rw [hg] at h4
      simp only [reduceCtorEq, false_iff, not_and, not_not]
      intro h; rw [h, ← h4]; rfl
    | some ws =>
      rw [hg] at h3 h4
      simp only [Option.some.injEq]
      have hne : ws ≠ [] := by
        rw [Option.getD_some] at h4
        intro he
        rw [he] at h4
        have h5 : tr.filter (fun p => p.2 == k) = [] := by simpa using h4.symm
        rw [List.filter_eq_nil_iff] at h5
        simp only [Option.isSome_some] at h3
        have h3' := h3.symm
        rw [List.any_eq_true] at h3'
        obtain ⟨q, hq, hqk⟩ := h3'
        obtain ⟨p, hp, rfl⟩ := List.mem_map.1 hq
        exact absurd hqk (by simpa using h5 p hp)
      simp only [Option.getD_some] at h4
      constructor
      · rintro rfl; exact ⟨h4, hne⟩
      · rintro ⟨h, _⟩; rw [h, h4]
  rw [show (∃ n, Fun.groupBy f get n s = some (r, s')) ↔ _ from
    loop_total_iff f get (fun acc x k => groupStep acc x k) [] s s' r]
  constructor
  · rintro ⟨tr, s1, hc, ⟨hg, hr, hs⟩ | h⟩
    · obtain ⟨h1, h2, _, _⟩ := group_fold tr
      exact ⟨tr, s1, hc, .inl ⟨hg, hs, _, hr, h1, h2, hval tr⟩⟩
    · exact ⟨tr, s1, hc, .inr h⟩
  · rintro ⟨tr, s1, hc, ⟨hg, hs, g, hr, g1, g2, g3⟩ | h⟩
    · refine ⟨tr, s1, hc, .inl ⟨hg, ?_, hs⟩⟩
      rw [hr]; congr 1
      obtain ⟨h1, h2, _, _⟩ := group_fold tr
      -- a map is determined by its keys in order and its lookups
      have ext : ∀ (m m' : List (γ × List α)), Distinct m → Distinct m' → m.map (·.1) = m'.map (·.1) →
          (∀ e ∈ m, get? m' e.1 = some e.2) → m = m' := by
        intro m
        induction m with
        | nil => intro m' _ _ hk _; cases m' with
          | nil => rfl
          | cons _ _ => simp at hk
        | cons e m ih =>
          intro m' d d' hk hv
          cases m' with
          | nil => simp at hk
          | cons e' m' =>
            simp only [List.map_cons, List.cons.injEq] at hk
            have h0 := hv e (by simp)
            rw [get?_cons, hk.1, BEq.refl, if_pos rfl] at h0
            have : e = e' := Prod.ext hk.1 (Option.some.inj h0).symm
            subst this
            congr 1
            refine ih m' (List.Pairwise.of_cons d) (List.Pairwise.of_cons d') hk.2 (fun a ha => ?_)
            have := hv a (by simp [ha])
            rw [get?_cons, if_neg] at this
            · exact this
            · rw [(List.pairwise_cons.1 d).1 a ha]; simp
      refine ext g _ g1 h1 (g2.trans h2.symm) (fun e he => ?_)
      rw [hval tr]
      exact (g3 e.1 e.2).1 (get?_of_distinct_mem g1 he (BEq.refl e.1))
    · exact ⟨tr, s1, hc, .inr h⟩

end

example : Fun.groupBy (σ := Unit) (fun x s => (.ok (x % 3), s)) (fwd fun _ => [3, 1, 4, 1, 5, 9]) 9 ()
    = some (.ok [(0, [3, 9]), (1, [1, 4, 1]), (2, [5])], ()) := rfl

/-! ## C24 -/

theorem heads_none {α : Type} (its : List (List α)) : heads its = none ↔ [] ∈ its := by
  induction its with
  | nil => simp [heads]
  | cons it its ih =>
    cases it with
    | nil => simp [heads]
    | cons x xs =>
      rw [heads]
      cases h : heads its with
      | none => simp [ih.1 h]
      | some p => simp only [reduceCtorEq, List.mem_cons, false_or, false_iff]
                  intro hm; have := ih.2 hm; rw [h] at this; cases this

theorem heads_some {α : Type} (its : List (List α)) (hs : List α) (ts : List (List α)) :
    heads its = some (hs, ts) → hs.length = its.length ∧ ts.length = its.length ∧
      ∀ j (hj : j < its.length), ∃ x xs, its[j] = x :: xs ∧ hs[j]? = some x ∧ ts[j]? = some xs := by
  induction its generalizing hs ts with
  | nil => intro h; cases h; exact ⟨rfl, rfl, fun j hj => by simp at hj⟩
  | cons it its ih =>
    cases it with
    | nil => intro h; cases h
    | cons x xs =>
      rw [heads]
      cases h : heads its with
      | none => intro h; cases h
      | some p =>
        obtain ⟨hs', ts'⟩ := p
        intro e; cases e
        obtain ⟨h1, h2, h3⟩ := ih hs' ts' h
        refine ⟨by simp [h1], by simp [h2], fun j hj => ?_⟩
        cases j with
        | zero => exact ⟨x, xs, rfl, rfl, rfl⟩
        | succ j => simpa using h3 j (by simpa using hj)

theorem zipLoop_spec {α : Type} (fuel : Nat) (its : List (List α)) (hf : ∃ it ∈ its, it.length < fuel) :
    (∀ it ∈ its, (zipLoop fuel its).length ≤ it.length) ∧ (∃ it ∈ its, (zipLoop fuel its).length = it.length) ∧
    ∀ i (hi : i < (zipLoop fuel its).length), ((zipLoop fuel its)[i]).map some = its.map (·[i]?) := by
  induction fuel generalizing its with
  | zero => obtain ⟨it, _, h⟩ := hf; omega
  | succ fuel ih =>
    rw [zipLoop]
    cases hh : heads its with
    | none => exact ⟨by simp, ⟨[], (heads_none its).1 hh, rfl⟩, by simp⟩
    | some p =>
      obtain ⟨hs, ts⟩ := p
      obtain ⟨l1, l2, l3⟩ := heads_some its hs ts hh
      have hts : ∀ j (hj : j < its.length) (hj' : j < ts.length), its[j].tail = ts[j] ∧ its[j].length = ts[j].length + 1 := by
        intro j hj hj'
        obtain ⟨x, xs, e1, e2, e3⟩ := l3 j hj
        rw [List.getElem?_eq_getElem hj'] at e3
        cases e3; rw [e1]; exact ⟨rfl, rfl⟩
      obtain ⟨i1, i2, i3⟩ := ih ts (by
        obtain ⟨it, hit, hlt⟩ := hf
        obtain ⟨j, hj, rfl⟩ := List.getElem_of_mem hit
        refine ⟨ts[j], List.getElem_mem _, ?_⟩
        have := (hts j hj (by omega)).2; omega)
      refine ⟨?_, ?_, ?_⟩
      · intro it hit
        obtain ⟨j, hj, rfl⟩ := List.getElem_of_mem hit
        have h1 := (hts j hj (by omega)).2
        have h2 := i1 ts[j] (List.getElem_mem _)
        simp only [List.length_cons]; omega
      · obtain ⟨t, ht, he⟩ := i2
        obtain ⟨j, hj, rfl⟩ := List.getElem_of_mem ht
        refine ⟨its[j], List.getElem_mem _, ?_⟩
        have h1 := (hts j (by omega) hj).2
        simp only [List.length_cons]; omega
      · intro i hi
        cases i with
        | zero =>
          simp only [List.getElem_cons_zero]
          apply List.ext_getElem (by simp [l1])
          intro j h1 h2
          obtain ⟨x, xs, e1, e2, e3⟩ := l3 j (by simpa using h2)
          simp only [List.getElem_map, e1]
          rw [List.getElem?_eq_getElem (by simpa using h1)] at e2
          simpa using e2
        | succ i =>
          simp only [List.getElem_cons_succ]
          rw [i3 i (by simpa using hi)]
          apply List.ext_getElem (by simp [l2])
          intro j h1 h2
          simp only [List.getElem_map]
          obtain ⟨x, xs, e1, e2, e3⟩ := l3 j (by simpa using h2)
          rw [List.getElem?_eq_getElem (by simpa using h1)] at e3
          rw [e1]; cases e3; simp

/-- C24 `zip`: as long as the shortest argument (not longer than any, as long as some), and the `i`-th row consists of the `i`-th elements of all
arguments, in order.  With no arguments it raises an error. -/
theorem C24_zip {α : Type} (its : List (List α)) :
    (its = [] → Fun.zip its = .error .nonEmpty) ∧
    (its ≠ [] → ∃ rows, Fun.zip its = .ok rows ∧ (∀ it ∈ its, rows.length ≤ it.length) ∧ (∃ it ∈ its, rows.length = it.length) ∧
      ∀ i (hi : i < rows.length), rows[i].map some = its.map (·[i]?)) := by
  constructor
  · rintro rfl; rfl
  · intro h
    cases its with
    | nil => exact absurd rfl h
    | cons it its => exact ⟨_, rfl, zipLoop_spec (it.length + 1) (it :: its) ⟨it, by simp, by omega⟩⟩

example : Fun.zip [[1, 2, 3], [4, 5], [6, 7, 8]] = .ok [[1, 4, 6], [2, 5, 7]] := rfl

/-- C24 `enumerate`: position `i` holds `i` paired with the `i`-th element. -/
theorem C24_enumerate {α : Type} (xs : List α) (i : Nat) : (enumerate xs)[i]? = xs[i]?.map (fun x => (i, x)) := by
  have : ∀ (xs : List α) k i, (enumerateLoop k xs)[i]? = xs[i]?.map (fun x => (k + i, x)) := by
    intro xs
    induction xs with
    | nil => intro k i; simp [enumerateLoop]
    | cons x xs ih =>
      intro k i
      rw [enumerateLoop]
      cases i with
      | zero => simp
      | succ i => simp only [List.getElem?_cons_succ]; rw [ih, show k + 1 + i = k + (i + 1) by omega]
  rw [enumerate, this]; simp

/-- C24 `reverse` gives the same elements from the other end. -/
theorem C24_reverse {α : Type} (xs : List α) (i : Nat) (h : i < xs.length) :
    (Fun.reverse xs).length = xs.length ∧ (Fun.reverse xs)[i]? = xs[xs.length - 1 - i]? :=
  ⟨by simp [Fun.reverse], List.getElem?_reverse h⟩

/-! ## C25 -/

theorem combosOf_map {α β : Type} (g : α → β) (n : Nat) (xs : List α) :
    combosOf n (xs.map g) = (combosOf n xs).map (·.map g) := by
  induction xs generalizing n with
  | nil => cases n <;> simp [combosOf]
  | cons x xs ih => cases n <;> simp [combosOf, ih, Function.comp_def]

theorem picks_map {α β : Type} (g : α → β) (xs : List α) :
    picks (xs.map g) = (picks xs).map (fun p => (g p.1, p.2.map g)) := by
  induction xs with
  | nil => rfl
  | cons x xs ih => simp [picks, ih, Function.comp_def]

theorem permsOf_map {α β : Type} (g : α → β) (n : Nat) (xs : List α) :
    permsOf n (xs.map g) = (permsOf n xs).map (·.map g) := by
  induction n generalizing xs with
  | zero => simp [permsOf]
  | succ n ih => simp [permsOf, picks_map, List.flatMap_map, List.map_flatMap, ih, Function.comp_def]

theorem map_some_range {α : Type} (xs : List α) : xs.map some = (List.range xs.length).map (xs[·]?) := by
  apply List.ext_getElem (by simp)
  intro i h1 h2
  simp at h1
  simp [List.getElem?_eq_getElem h1]

theorem mem_combosOf {α : Type} (n : Nat) (xs p : List α) : p ∈ combosOf n xs ↔ p.Sublist xs ∧ p.length = n := by
  induction xs generalizing n p with
  | nil => cases n <;> cases p <;> simp [combosOf]
  | cons x xs ih =>
    cases n with
    | zero => cases p <;> simp [combosOf]
    | succ n =>
      simp only [combosOf, List.mem_append, List.mem_map, ih]
      constructor
      · rintro (⟨q, ⟨h1, h2⟩, rfl⟩ | ⟨h1, h2⟩)
        · exact ⟨h1.cons_cons x, by simp [h2]⟩
        · exact ⟨h1.cons x, h2⟩
      · rintro ⟨h1, h2⟩
        cases h1 with
        | cons _ h => exact .inr ⟨h, h2⟩
        | cons_cons _ h => exact .inl ⟨_, ⟨h, by simpa using h2⟩, rfl⟩

theorem nodup_combosOf {α : Type} (n : Nat) (xs : List α) (h : xs.Nodup) : (combosOf n xs).Nodup := by
  induction xs generalizing n with
  | nil => cases n <;> simp [combosOf]
  | cons x xs ih =>
    rw [List.nodup_cons] at h
    cases n with
    | zero => simp [combosOf]
    | succ n =>
      rw [combosOf, List.nodup_append]
      refine ⟨?_, ih _ h.2, ?_⟩
      · rw [List.Nodup, List.pairwise_map]
        exact List.Pairwise.imp (fun hab e => hab (List.cons.inj e).2) (ih n h.2)
      · rintro a ha b hb rfl
        obtain ⟨q, _, rfl⟩ := List.mem_map.1 ha
        have := ((mem_combosOf _ _ _).1 hb).1.subset (List.mem_cons_self)
        exact h.1 this

theorem sublist_of_increasing (l p : List Nat) (hl : l.Pairwise (· < ·)) (hp : p.Pairwise (· < ·)) (hs : ∀ x ∈ p, x ∈ l) :
    p.Sublist l := by
  induction l generalizing p with
  | nil => cases p with
    | nil => exact List.Sublist.slnil
    | cons b p => have := hs b (by simp); simp at this
  | cons a l ih =>
    rw [List.pairwise_cons] at hl
    cases p with
    | nil => exact List.nil_sublist _
    | cons b p =>
      rw [List.pairwise_cons] at hp
      by_cases hab : a = b
      · subst hab
        refine (ih p hl.2 hp.2 (fun x hx => ?_)).cons_cons a
        have h1 := hp.1 x hx
        rcases List.mem_cons.1 (hs x (by simp [hx])) with h | h
        · omega
        · exact h
      · have hb : b ∈ l := by
          rcases List.mem_cons.1 (hs b (by simp)) with h | h
          · exact absurd h.symm hab
          · exact h
        refine (ih (b :: p) hl.2 (List.pairwise_cons.2 hp) (fun x hx => ?_)).cons a
        rcases List.mem_cons.1 (hs x hx) with h | h
        · have h1 := hl.1 b hb
          rcases List.mem_cons.1 hx with h2 | h2
          · omega
          · have := hp.1 x h2; omega
        · exact h

/-- C25 `combinations(n, xs)`: the results are `xs` read at a list of selections of positions, in which every strictly increasing list of `n` valid
positions occurs exactly once and nothing else. -/
theorem C25_combinations {α : Type} (n : Int) (xs : List α) :
    (n ≤ 0 → combinations n xs = .error .argMustBeNonNegative) ∧
    (0 < n → ∃ (res : List (List α)) (sel : List (List Nat)), combinations n xs = .ok res ∧ res.map (·.map some) = sel.map (·.map (xs[·]?)) ∧ sel.Nodup ∧
      ∀ p : List Nat, p ∈ sel ↔ (p.length : Int) = n ∧ p.Pairwise (· < ·) ∧ ∀ i ∈ p, i < xs.length) := by
  constructor
  · intro h; rw [combinations, if_pos h]
  · intro h
    refine ⟨combosOf n.toNat xs, combosOf n.toNat (List.range xs.length), by rw [combinations, if_neg (by omega)], ?_,
      nodup_combosOf _ _ List.nodup_range, fun p => ?_⟩
    · rw [← combosOf_map, map_some_range, combosOf_map]
    · rw [mem_combosOf]
      constructor
      · rintro ⟨h1, h2⟩
        exact ⟨by omega, List.pairwise_lt_range.sublist h1, fun i hi => by simpa using h1.subset hi⟩
      · rintro ⟨h1, h2, h3⟩
        exact ⟨sublist_of_increasing _ _ List.pairwise_lt_range h2 (by simpa using h3), by omega⟩


theorem mem_picks {α : Type} (xs : List α) (a : α) (r : List α) :
    (a, r) ∈ picks xs ↔ ∃ l l', xs = l ++ a :: l' ∧ r = l ++ l' := by
  induction xs generalizing r with
  | nil => simp [picks]
  | cons x xs ih =>
    simp only [picks, List.mem_cons, Prod.mk.injEq, List.mem_map, Prod.exists]
    constructor
    · rintro (⟨rfl, rfl⟩ | ⟨b, q, hq, rfl, rfl⟩)
      · exact ⟨[], _, rfl, rfl⟩
      · obtain ⟨l, l', rfl, rfl⟩ := (ih q).1 hq
        exact ⟨x :: l, l', rfl, rfl⟩
    · rintro ⟨l, l', h1, h2⟩
      cases l with
      | nil => simp at h1; exact .inl ⟨h1.1.symm, by rw [h2, h1.2]; rfl⟩
      | cons y l =>
        simp at h1
        obtain ⟨rfl, rfl⟩ := h1
        exact .inr ⟨a, l ++ l', (ih _).2 ⟨l, l', rfl, rfl⟩, rfl, by rw [h2]; rfl⟩

theorem picks_fst {α : Type} (xs : List α) : (picks xs).map (·.1) = xs := by
  induction xs with
  | nil => rfl
  | cons x xs ih => simpa [picks, Function.comp_def] using ih

theorem nodup_of_pick {α : Type} {xs : List α} (h : xs.Nodup) {a : α} {r : List α} (hp : (a, r) ∈ picks xs) :
    r.Nodup ∧ a ∉ r ∧ ∀ y, y ∈ xs ↔ y = a ∨ y ∈ r := by
  obtain ⟨l, l', rfl, rfl⟩ := (mem_picks _ _ _).1 hp
  have hperm : (l ++ a :: l').Perm (a :: (l ++ l')) := List.perm_middle
  have h2 := hperm.nodup_iff.1 h
  rw [List.nodup_cons] at h2
  exact ⟨h2.2, h2.1, fun y => by rw [hperm.mem_iff, List.mem_cons]⟩

theorem mem_permsOf {α : Type} (n : Nat) (xs : List α) (h : xs.Nodup) (p : List α) :
    p ∈ permsOf n xs ↔ p.length = n ∧ p.Nodup ∧ ∀ x ∈ p, x ∈ xs := by
  induction n generalizing xs p with
  | zero => cases p <;> simp [permsOf]
  | succ n ih =>
    simp only [permsOf, List.mem_flatMap, List.mem_map, Prod.exists]
    constructor
    · rintro ⟨a, r, hp, q, hq, rfl⟩
      obtain ⟨h1, h2, h3⟩ := nodup_of_pick h hp
      obtain ⟨q1, q2, q3⟩ := (ih r h1 q).1 hq
      refine ⟨by simp [q1], List.nodup_cons.2 ⟨fun ha => h2 (q3 a ha), q2⟩, fun x hx => ?_⟩
      rw [h3]
      rcases List.mem_cons.1 hx with h | h
      · exact .inl h
      · exact .inr (q3 x h)
    · rintro ⟨h1, h2, h3⟩
      cases p with
      | nil => simp at h1
      | cons a q =>
        rw [List.nodup_cons] at h2
        have ha := h3 a (by simp)
        obtain ⟨l, l', e⟩ := List.append_of_mem ha
        have hp : (a, l ++ l') ∈ picks xs := (mem_picks _ _ _).2 ⟨l, l', e, rfl⟩
        obtain ⟨g1, g2, g3⟩ := nodup_of_pick h hp
        refine ⟨a, l ++ l', hp, q, (ih _ g1 q).2 ⟨by simpa using h1, h2.2, fun x hx => ?_⟩, rfl⟩
        rcases (g3 x).1 (h3 x (by simp [hx])) with h | h
        · subst h; exact absurd hx h2.1
        · exact h

theorem nodup_permsOf {α : Type} (n : Nat) (xs : List α) (h : xs.Nodup) : (permsOf n xs).Nodup := by
  induction n generalizing xs with
  | zero => simp [permsOf]
  | succ n ih =>
    rw [permsOf, List.Nodup, List.pairwise_flatMap]
    constructor
    · rintro ⟨a, r⟩ hp
      rw [List.pairwise_map]
      exact List.Pairwise.imp (fun hab e => hab (List.cons.inj e).2) (ih r (nodup_of_pick h hp).1)
    · have : ((picks xs).map (·.1)).Pairwise (· ≠ ·) := by rw [picks_fst]; exact h
      rw [List.pairwise_map] at this
      refine this.imp ?_
      intro p q hne x hx y hy e
      obtain ⟨x', _, rfl⟩ := List.mem_map.1 hx
      obtain ⟨y', _, rfl⟩ := List.mem_map.1 hy
      exact hne (List.cons.inj e).1

/-- C25 `permutations(n, xs)`: the results are `xs` read at a list of arrangements of positions, in which every list of `n` distinct valid positions
occurs exactly once and nothing else. -/
theorem C25_permutations {α : Type} (n : Int) (xs : List α) :
    (n ≤ 0 → permutations n xs = .error .argMustBeNonNegative) ∧
    (0 < n → ∃ (res : List (List α)) (sel : List (List Nat)), permutations n xs = .ok res ∧
      res.map (·.map some) = sel.map (·.map (xs[·]?)) ∧ sel.Nodup ∧
      ∀ p : List Nat, p ∈ sel ↔ (p.length : Int) = n ∧ p.Nodup ∧ ∀ i ∈ p, i < xs.length) := by
  constructor
  · intro h; rw [permutations, if_pos h]
  · intro h
    refine ⟨permsOf n.toNat xs, permsOf n.toNat (List.range xs.length), by rw [permutations, if_neg (by omega)], ?_,
      nodup_permsOf _ _ List.nodup_range, fun p => ?_⟩
    · rw [← permsOf_map, map_some_range, permsOf_map]
    · rw [mem_permsOf _ _ List.nodup_range]
      simp only [List.mem_range]
      constructor
      · rintro ⟨h1, h2, h3⟩; exact ⟨by omega, h2, h3⟩
      · rintro ⟨h1, h2, h3⟩; exact ⟨by omega, h2, h3⟩

example : combinations 2 [5, 6, 7] = .ok [[5, 6], [5, 7], [6, 7]] := rfl
example : permutations 2 [5, 6, 7] = .ok [[5, 6], [5, 7], [6, 5], [6, 7], [7, 5], [7, 6]] := rfl

end Cordy
