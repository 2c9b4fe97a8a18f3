import Verif.Model.Iter
import Verif.Props.Range
/-!
# C73: iteration

What traversing a value visits, forwards and backwards, also when the program changes the collection during the traversal.
-/
namespace Cordy.Iter
open Cordy.Range

/-! ## Specification -/

/-- The items of a collection: the elements; for a dict, a vector of key and value for each entry. -/
def entries : Coll → List Val
  | .list xs => xs
  | .set xs => xs
  | .dict es => es.map fun e => .vector [e.1, e.2]
  | .heap xs => xs
  | .vector xs => xs

/-- The items of a value when the collections are as `σ` says: the characters of a string, the items of a collection, the values of a
range (`C13_values`), the items of `v` paired with their positions for `enumerate(v)`.  `none`: not iterable. -/
def items (σ : Store) : Src → Option (List Val)
  | .str s => some (s.map fun c => .str [c])
  | .ref a => some (entries (σ a))
  | .range r => some (r.values.map .int)
  | .enumerate v => (items σ v).map fun xs => xs.zipIdx.map fun p => .vector [.int p.2, p.1]
  | .other => none

/-- Is it a heap? -/
def Coll.isHeap : Coll → Bool
  | .heap _ => true
  | _ => false

/-- A collection never changes its type. -/
def SameTypes (σ τ : Store) : Prop := ∀ a, (σ a).isHeap = (τ a).isHeap

/-- The item at position `n`, asked for when the collections are as `σ` says, of a traversal that began when they were as `σ0` says:
lists, sets, dicts and vectors are read as they are now, a heap as it was at the beginning. -/
def liveAt (σ0 σ : Store) (n : Nat) : Src → Option Val
  | .str s => s[n]?.map fun c => .str [c]
  | .ref a => if (σ0 a).isHeap then (entries (σ0 a))[n]? else (entries (σ a))[n]?
  | .range r => r.values[n]?.map .int
  | .enumerate v => (liveAt σ0 σ n v).map fun x => .vector [.int n, x]
  | .other => none

/-! ## Lemmas -/

theorem get_eq (c : Coll) (h : c.isHeap = false) (n : Nat) : get c n = .ok (entries c)[n]? := by
  cases c <;> simp_all [get, entries, Coll.isHeap]

theorem coll_len (c : Coll) : c.len = (entries c).length := by
  cases c <;> simp [Coll.len, entries]

theorem range_next (r : Range) (cur : Int) :
    match r.next cur with
    | none => r.drain cur = []
    | some (v, cur') => r.drain cur = v :: r.drain cur' := by
  unfold Range.next
  split
  · rename_i h
    split at h
    · rename_i hc; rw [drain.eq_def]; simp [hc]
    · split at h <;> cases h
  · rename_i v cur' h
    split at h
    · cases h
    · rename_i hc
      rw [drain.eq_def]
      simp only [hc, dite_false]
      split at h
      · rename_i hs; simp only [Option.some.injEq, Prod.mk.injEq] at h; obtain ⟨rfl, rfl⟩ := h; rw [if_pos hs]
      · rename_i hs; simp only [Option.some.injEq, Prod.mk.injEq] at h; obtain ⟨rfl, rfl⟩ := h; rw [if_neg hs]

/-- The state of a forward traversal after `n` steps. -/
def At (σ0 : Store) (n : Nat) : Src → It → Prop
  | .str s, it => it = .str s (s.drop n)
  | .ref a, it => it = if (σ0 a).isHeap then .raw n (entries (σ0 a)) else .coll n a
  | .range r, it => ∃ cur, it = .range cur r ∧ r.drain cur = r.values.drop n
  | .enumerate v, it => ∃ it', it = .enumerate n it' ∧ At σ0 n v it'
  | .other, _ => False

theorem toIter_at (σ : Store) (v : Src) :
    (∃ it, toIter σ v = .ok it ∧ At σ 0 v it ∧ (items σ v).isSome) ∨ (toIter σ v = .error .argIterable ∧ items σ v = none) := by
  induction v with
  | str s => left; exact ⟨_, rfl, by simp [At], rfl⟩
  | ref a =>
    left
    cases h : σ a <;> simp [toIter, At, items, h, Coll.isHeap, entries]
  | range r => left; exact ⟨_, rfl, ⟨_, rfl, by simp [values]⟩, rfl⟩
  | enumerate v ih =>
    rcases ih with ⟨it, h1, h2, h3⟩ | ⟨h1, h2⟩
    · left; exact ⟨.enumerate 0 it, by simp [toIter, h1], ⟨_, rfl, h2⟩, by simp [items, h3]⟩
    · right; simp [toIter, items, h1, h2]
  | other => right; exact ⟨rfl, rfl⟩

theorem next_at (σ0 σ : Store) (hk : SameTypes σ0 σ) (n : Nat) (v : Src) :
    ∀ it, At σ0 n v it → ∃ it', it.next σ = .ok (liveAt σ0 σ n v, it') ∧ At σ0 (n + 1) v it' := by
  induction v with
  | str s =>
    rintro it rfl
    cases h : s.drop n with
    | nil =>
      have h1 : s[n]? = none := by rw [List.getElem?_eq_none_iff]; simpa using h
      have h2 : s.drop (n + 1) = [] := by rw [List.drop_eq_nil_iff]; rw [List.drop_eq_nil_iff] at h; omega
      exact ⟨.str s [], by simp [It.next, liveAt, h1], by simp [At, h2]⟩
    | cons c cs =>
      have h1 : s[n]? = some c := by
        have := congrArg (·[0]?) h; simpa using this
      have h2 : s.drop (n + 1) = cs := by
        have := congrArg (List.drop 1) h; simpa [List.drop_drop, Nat.add_comm] using this
      exact ⟨.str s cs, by simp [It.next, liveAt, h1], by simp [At, h2]⟩
  | ref a =>
    rintro it rfl
    by_cases h : (σ0 a).isHeap = true
    · exact ⟨.raw (n + 1) (entries (σ0 a)), by simp [It.next, liveAt, h], by simp [At, h]⟩
    · refine ⟨.coll (n + 1) a, ?_, by simp [At, h]⟩
      have := get_eq (σ a) (by rw [← hk a]; simpa using h) n
      simp [It.next, liveAt, h, this]
  | range r =>
    rintro it ⟨cur, rfl, hd⟩
    have := range_next r cur
    cases h : r.next cur with
    | none =>
      rw [h] at this
      simp only [this] at hd
      have h1 : r.values[n]? = none := by rw [List.getElem?_eq_none_iff]; exact List.drop_eq_nil_iff.1 hd.symm
      have h2 : r.values.drop (n + 1) = [] := by
        rw [List.drop_eq_nil_iff]; have := List.drop_eq_nil_iff.1 hd.symm; omega
      exact ⟨.range cur r, by simp [It.next, liveAt, h, h1], cur, rfl, by rw [h2, this]⟩
    | some p =>
      obtain ⟨x, cur'⟩ := p
      rw [h] at this
      simp only [this] at hd
      have h1 : r.values[n]? = some x := by
        have := congrArg (·[0]?) hd; simpa using this.symm
      have h2 : r.values.drop (n + 1) = r.drain cur' := by
        have := congrArg (List.drop 1) hd; simpa [List.drop_drop, Nat.add_comm] using this.symm
      exact ⟨.range cur' r, by simp [It.next, liveAt, h, h1], cur', rfl, by rw [h2]⟩
  | enumerate v ih =>
    rintro it ⟨it', rfl, ha⟩
    obtain ⟨it'', h1, h2⟩ := ih it' ha
    exact ⟨.enumerate (n + 1) it'', by simp [It.next, liveAt, h1], it'', rfl, h2⟩
  | other => rintro it h; exact h.elim

theorem liveAt_same (σ : Store) (n : Nat) (v : Src) : ∀ xs, items σ v = some xs → liveAt σ σ n v = xs[n]? := by
  induction v with
  | str s => intro xs h; cases h; simp [liveAt]
  | ref a => intro xs h; cases h; simp [liveAt]
  | range r => intro xs h; cases h; simp [liveAt]
  | enumerate v ih =>
    intro xs h
    simp only [items, Option.map_eq_some_iff] at h
    obtain ⟨ys, h, rfl⟩ := h
    simp [liveAt, ih ys h, List.getElem?_zipIdx]
    cases ys[n]? <;> simp
  | other => intro xs h; cases h

theorem nth_of (step : Store → It → Res (Option Val × It)) (w : Nat → Store) (P : Nat → It → Prop) (out : Nat → Option Val)
    (hstep : ∀ k it, P k it → ∃ it', step (w k) it = .ok (out k, it') ∧ P (k + 1) it') :
    ∀ n k it, P k it → nth step w k n it = .ok (out (k + n)) := by
  intro n
  induction n with
  | zero => intro k it h; obtain ⟨it', h1, -⟩ := hstep k it h; simp [nth, h1]
  | succ n ih =>
    intro k it h
    obtain ⟨it', h1, h2⟩ := hstep k it h
    simp only [nth, h1]
    rw [ih _ _ h2, show k + 1 + n = k + (n + 1) by omega]

/-! ## Forward traversal -/

/-- C73. Traversing a value that does not change visits its items, in order, and then ends: the `n`-th step gives the `n`-th item.
A value without items is refused with an error. -/
theorem C73_items (σ : Store) (v : Src) :
    (∀ xs, items σ v = some xs → ∃ it, toIter σ v = .ok it ∧ ∀ n, nth It.next (fun _ => σ) 0 n it = .ok xs[n]?) ∧
    (items σ v = none → toIter σ v = .error .argIterable) := by
  rcases toIter_at σ v with ⟨it, h1, h2, h3⟩ | ⟨h1, h2⟩
  · refine ⟨fun xs hx => ⟨it, h1, fun n => ?_⟩, fun h => by simp [h] at h3⟩
    have := nth_of It.next (fun _ => σ) (fun k it => At σ k v it) (fun k => liveAt σ σ k v)
      (fun k it h => next_at σ σ (fun _ => rfl) k v it h) n 0 it h2
    rw [this, Nat.zero_add, liveAt_same σ n v xs hx]
  · exact ⟨fun xs hx => by simp [h2] at hx, fun _ => h1⟩

/-- A list with an entry, a set and a dict. -/
def sample : Store
  | 0 => .list [.int 7, .nil]
  | 1 => .dict [(.int 1, .bool true)]
  | 2 => .heap [.int 1, .int 5]
  | _ => .set []

example : items sample (.enumerate (.ref 0)) = some [.vector [.int 0, .int 7], .vector [.int 1, .nil]] := rfl
example : items sample (.ref 1) = some [.vector [.int 1, .bool true]] := rfl
example : items sample (.enumerate .other) = none := rfl

/-- C73. Traversing while the program changes the collections (`w k` is how they are when step `k` happens, in particular
`w 0` when the traversal begins): step `n` gives the item that is at position `n` at that time, or ends if there is none; no step
fails or panics.  A heap is visited as it was at the beginning. -/
theorem C73_changing (w : Nat → Store) (hw : ∀ k, SameTypes (w 0) (w k)) (v : Src) (it : It) (h : toIter (w 0) v = .ok it) (n : Nat) :
    nth It.next w 0 n it = .ok (liveAt (w 0) (w n) n v) := by
  rcases toIter_at (w 0) v with ⟨it', h1, h2, -⟩ | ⟨h1, -⟩
  · rw [h] at h1; cases h1
    have := nth_of It.next w (fun k it => At (w 0) k v it) (fun k => liveAt (w 0) (w k) k v)
      (fun k it h => next_at (w 0) (w k) (hw k) k v it h) n 0 it h2
    rw [this, Nat.zero_add]
  · rw [h] at h1; cases h1

/-- The list grows by one at each step. -/
def growing (k : Nat) : Store := fun _ => .list (List.replicate (k + 1) (.int k))

example : (∀ k, SameTypes (growing 0) (growing k)) ∧ toIter (growing 0) (.ref 0) = .ok (.coll 0 0) ∧
    ∀ n, liveAt (growing 0) (growing n) n (.ref 0) = some (.int n) := by
  refine ⟨fun k a => rfl, rfl, fun n => ?_⟩
  simp [liveAt, growing, Coll.isHeap, entries]

/-- C73, loops.  A `for` over a value, with any body, is the loop that reads the live position `i` in round `i`; in particular it
ends in the first round whose position does not exist then.  This justifies reading the iterables of C22 by position. -/
theorem C73_for {σ β ρ : Type} (store : σ → Store) (body : β → Val → σ → Res (β ⊕ ρ) × σ)
    (hb : ∀ acc x s, SameTypes (store s) (store (body acc x s).2)) (v : Src) (fuel : Nat) (acc : β) (s : σ) :
    (items (store s) v = none → forIn store body v fuel acc s = some (.error .argIterable, s)) ∧
    ((items (store s) v).isSome → forIn store body v fuel acc s =
      Fun.forLoop (fun s' i => liveAt (store s) (store s') i v) body fuel acc 0 s) := by
  rcases toIter_at (store s) v with ⟨it, h1, h2, h3⟩ | ⟨h1, h2⟩
  · refine ⟨fun h => by simp [h] at h3, fun _ => ?_⟩
    simp only [forIn, h1]
    suffices h : ∀ fuel acc n it s', SameTypes (store s) (store s') → At (store s) n v it →
        loop It.next store body fuel acc it s' = Fun.forLoop (fun s' i => liveAt (store s) (store s') i v) body fuel acc n s' from
      h _ _ _ _ _ (fun _ => rfl) h2
    intro fuel
    induction fuel with
    | zero => intros; rfl
    | succ fuel ih =>
      intro acc n it s' hs hat
      obtain ⟨it', hn, hat'⟩ := next_at (store s) (store s') hs n v it hat
      rw [loop, Fun.forLoop, hn]
      cases hl : liveAt (store s) (store s') n v with
      | none => rfl
      | some x =>
        simp only
        have := hb acc x s'
        rcases hbx : body acc x s' with ⟨r, s''⟩
        rw [hbx] at this
        match r with
        | .error e => rfl
        | .ok (.inr r) => rfl
        | .ok (.inl acc') => exact ih acc' _ it' s'' (fun a => (hs a).trans (this a)) hat'
  · exact ⟨fun _ => by simp only [forIn, h1], fun h => by simp [h2] at h⟩

example : forIn (ρ := Unit) (fun s : List Val => fun _ => Coll.list s)
    (fun (acc : Nat) _ s => (.ok (.inl (acc + 1)), s.tail)) (.ref 0) 10 0 [.nil, .nil, .nil, .nil] =
    some (.ok (.inl 2), [.nil, .nil]) := rfl

/-! ## Length -/

/-- What a chain of `enumerate`s encloses. -/
def Src.base : Src → Src
  | .enumerate v => v.base
  | v => v

/-- C73, length (partial: everything but ranges whose bounds are not a multiple of the step apart, see `C14_len_iff`). `len(v)` is
the number of items a traversal visits, and the iterator reports the same number at any time of the traversal. -/
theorem C73_len_partial (σ : Store) (v : Src) (xs : List Val) (h : items σ v = some xs)
    (hr : ∀ r, v.base = .range r → r.len = r.values.length) :
    len σ v = .ok xs.length ∧ ∀ it, toIter σ v = .ok it → it.len σ = xs.length ∧
      ∀ x it', it.next σ = .ok (x, it') → it'.len σ = xs.length := by
  have key : ∀ (v : Src) xs, items σ v = some xs → (∀ r, v.base = .range r → r.len = r.values.length) →
      len σ v = .ok xs.length ∧ ∀ n it, At σ n v it → it.len σ = xs.length := by
    intro v
    induction v with
    | str s => intro xs h _; cases h; simp [len, At, It.len]
    | ref a =>
      intro xs h _; cases h
      refine ⟨by simp [len, coll_len], ?_⟩
      rintro n it rfl
      by_cases h : (σ a).isHeap = true <;> simp [It.len, h, coll_len]
    | range r =>
      intro xs h hr; cases h
      have := hr r rfl
      refine ⟨by simp [len, this], ?_⟩
      rintro n it ⟨cur, rfl, -⟩
      simp [It.len, this]
    | enumerate v ih =>
      intro xs h hr
      simp only [items, Option.map_eq_some_iff] at h
      obtain ⟨ys, h, rfl⟩ := h
      obtain ⟨h1, h2⟩ := ih ys h hr
      refine ⟨by simp [len, h1], ?_⟩
      rintro n it ⟨it', rfl, ha⟩
      simp [It.len, h2 n it' ha]
    | other => intro xs h; cases h
  obtain ⟨h1, h2⟩ := key v xs h hr
  refine ⟨h1, fun it hit => ?_⟩
  rcases toIter_at σ v with ⟨it', h3, h4, -⟩ | ⟨h3, -⟩
  · rw [hit] at h3; cases h3
    refine ⟨h2 0 it h4, fun x it' hn => ?_⟩
    obtain ⟨it'', h5, h6⟩ := next_at σ σ (fun _ => rfl) 0 v it h4
    rw [hn] at h5; cases h5
    exact h2 1 it' h6
  · rw [hit] at h3; cases h3

example : (∀ r, (Src.enumerate (.ref 0)).base = .range r → r.len = r.values.length) ∧ len sample (.enumerate (.ref 0)) = .ok 2 :=
  ⟨fun _ h => (nomatch h), rfl⟩

/-! ## Reverse traversal -/

/-- The item of step `n` of a reversed traversal: positions count down from the length at the beginning, and are read as the
collection is now; a heap as it was at the beginning. -/
def liveRev (σ0 σ : Store) (n : Nat) : Src → Option Val
  | .str s => s.reverse[n]?.map fun c => .str [c]
  | .ref a =>
    let len := (entries (σ0 a)).length
    if n < len then (entries (if (σ0 a).isHeap then σ0 a else σ a))[len - 1 - n]? else none
  | .range r => r.revValues[n]?.map .int
  | _ => none

/-- A value that is traversed backwards by itself: not wrapped in `enumerate`. -/
def Src.plain : Src → Bool
  | .str _ | .ref _ | .range _ => true
  | _ => false

/-- The state of a reversed traversal after `n` steps. -/
def AtRev (σ0 : Store) (n : Nat) : Src → It → Prop
  | .str s, it => it = .str s (s.take (s.length - n))
  | .ref a, it => it = if (σ0 a).isHeap then .raw ((entries (σ0 a)).length - n) (entries (σ0 a))
      else .coll ((entries (σ0 a)).length - n) a
  | .range r, it => ∃ cur, it = .range cur r.reverse ∧ r.reverse.drain cur = r.reverse.values.drop n
  | _, _ => False

theorem reverse_at (σ : Store) (v : Src) (hp : v.plain) (it : It) (h : At σ 0 v it) : AtRev σ 0 v (it.reverse σ) := by
  match v, hp with
  | .str s, _ => simp only [At] at h; subst h; simp [It.reverse, AtRev]
  | .ref a, _ =>
    simp only [At] at h; subst h
    by_cases h : (σ a).isHeap = true <;> simp [It.reverse, AtRev, h, coll_len]
  | .range r, _ =>
    obtain ⟨cur, rfl, -⟩ := h
    exact ⟨_, rfl, by simp [values]⟩

theorem nextRev_at (σ0 σ : Store) (hk : SameTypes σ0 σ) (n : Nat) (v : Src) :
    ∀ it, AtRev σ0 n v it → ∃ it', it.nextRev σ = .ok (liveRev σ0 σ n v, it') ∧ AtRev σ0 (n + 1) v it' := by
  match v with
  | .str s =>
    rintro it rfl
    by_cases hn : n < s.length
    · have h1 : (s.take (s.length - n)).getLast? = s.reverse[n]? := by
        rw [List.getLast?_eq_getElem?, List.length_take, List.getElem?_reverse hn, List.getElem?_take,
          if_pos (by omega), show min (s.length - n) s.length - 1 = s.length - 1 - n by omega]
      obtain ⟨c, hc⟩ : ∃ c, s.reverse[n]? = some c := ⟨_, List.getElem?_eq_getElem (by simpa using hn)⟩
      refine ⟨.str s (s.take (s.length - (n + 1))), ?_, rfl⟩
      rw [hc] at h1
      have h2 : (s.take (s.length - n)).dropLast = s.take (s.length - (n + 1)) := by
        rw [List.dropLast_eq_take, List.length_take, List.take_take]; congr 1; omega
      rw [It.nextRev, h1]
      simp only [liveRev, hc, h2, Option.map_some]
    · have h0 : s.length - n = 0 := by omega
      have h1 : s.length - (n + 1) = 0 := by omega
      have h2 : s.reverse[n]? = none := by rw [List.getElem?_eq_none_iff]; simp; omega
      exact ⟨.str s [], by simp [It.nextRev, liveRev, h0, h2], by simp [AtRev, h1]⟩
  | .ref a =>
    rintro it rfl
    generalize hl : (entries (σ0 a)).length = l
    by_cases hn : n < l
    · obtain ⟨k, hk'⟩ : ∃ k, l - n = k + 1 := ⟨l - n - 1, by omega⟩
      have e1 : l - (n + 1) = k := by omega
      have e2 : l - 1 - n = k := by omega
      by_cases h : (σ0 a).isHeap = true
      · exact ⟨.raw k (entries (σ0 a)), by simp [It.nextRev, liveRev, h, hl, hk', hn, e2], by simp [AtRev, h, hl, e1]⟩
      · refine ⟨.coll k a, ?_, by simp [AtRev, h, hl, e1]⟩
        have := get_eq (σ a) (by rw [← hk a]; simpa using h) k
        simp [It.nextRev, liveRev, h, hl, hk', hn, e2, this]
    · have h0 : l - n = 0 := by omega
      have e1 : l - (n + 1) = 0 := by omega
      by_cases h : (σ0 a).isHeap = true
      · exact ⟨.raw 0 (entries (σ0 a)), by simp [It.nextRev, liveRev, h, hl, hn, h0], by simp [AtRev, h, hl, e1]⟩
      · exact ⟨.coll 0 a, by simp [It.nextRev, liveRev, h, hl, hn, h0], by simp [AtRev, h, hl, e1]⟩
  | .range r =>
    rintro it ⟨cur, rfl, hd⟩
    obtain ⟨it', h1, h2⟩ := next_at σ0 σ hk n (.range r.reverse) (.range cur r.reverse) ⟨cur, rfl, hd⟩
    refine ⟨it', ?_, h2⟩
    have : (It.range cur r.reverse).nextRev σ = (It.range cur r.reverse).next σ := rfl
    rw [this, h1]; rfl
  | .enumerate v => rintro it h; exact h.elim
  | .other => rintro it h; exact h.elim

/-- C73, reverse (partial: strings and collections; missing: ranges, whose reversed traversal is wrong by `C14_reverse_iff`, and
`enumerate`, see `C73_violation_enumerate`).  Reversed traversal of a value that does not change visits its items from the last to the
first. -/
theorem C73_reverse_partial (σ : Store) (v : Src) (xs : List Val) (h : items σ v = some xs) (hp : v.plain)
    (hr : ∀ r, v = .range r → r.revValues = r.values.reverse) (it : It) (hit : toIter σ v = .ok it) (n : Nat) :
    nth It.nextRev (fun _ => σ) 0 n (it.reverse σ) = .ok xs.reverse[n]? := by
  rcases toIter_at σ v with ⟨it', h1, h2, -⟩ | ⟨h1, -⟩
  · rw [hit] at h1; cases h1
    have := nth_of It.nextRev (fun _ => σ) (fun k it => AtRev σ k v it) (fun k => liveRev σ σ k v)
      (fun k it h => nextRev_at σ σ (fun _ => rfl) k v it h) n 0 _ (reverse_at σ v hp it h2)
    rw [this, Nat.zero_add]
    match v, hp with
    | .str s, _ => cases h; simp [liveRev, ← List.map_reverse]
    | .ref a, _ =>
      cases h
      simp only [liveRev]
      split
      · rename_i hn; rw [List.getElem?_reverse hn]; simp
      · rename_i hn; rw [List.getElem?_eq_none (by simp; omega)]
    | .range r, _ => cases h; simp [liveRev, hr r rfl, ← List.map_reverse]
  · rw [hit] at h1; cases h1

example : items sample (.ref 0) = some [.int 7, .nil] ∧ (Src.ref 0).plain ∧ toIter sample (.ref 0) = .ok (.coll 0 0) ∧
    nth It.nextRev (fun _ => sample) 0 0 (.coll 2 0) = .ok (some .nil) := ⟨rfl, rfl, rfl, rfl⟩

/-- C73, reversed traversal while the program changes the collections: step `n` gives the item that is then at position
`len - 1 - n`, for the length at the beginning; it ends at a position that does not exist any more, and after position 0.  No step
fails or panics. -/
theorem C73_reverse_changing_partial (w : Nat → Store) (hw : ∀ k, SameTypes (w 0) (w k)) (v : Src) (hp : v.plain) (it : It)
    (h : toIter (w 0) v = .ok it) (n : Nat) :
    nth It.nextRev w 0 n (it.reverse (w 0)) = .ok (liveRev (w 0) (w n) n v) := by
  rcases toIter_at (w 0) v with ⟨it', h1, h2, -⟩ | ⟨h1, -⟩
  · rw [h] at h1; cases h1
    have := nth_of It.nextRev w (fun k it => AtRev (w 0) k v it) (fun k => liveRev (w 0) (w k) k v)
      (fun k it h => nextRev_at (w 0) (w k) (hw k) k v it h) n 0 _ (reverse_at (w 0) v hp it h2)
    rw [this, Nat.zero_add]
  · rw [h] at h1; cases h1

/-! ## Searching from the right -/

/-- The items of a string or a collection at state `s'`, in a traversal that began at state `s`. -/
def liveView {σ : Type} (store : σ → Store) (s : σ) : Src → σ → List Val
  | .str cs, _ => cs.map fun c => .str [c]
  | .ref a, s' => entries (if (store s a).isHeap then store s a else store s' a)
  | _, _ => []

/-- C73, `rfind` / `rindex_of` with a function, over a string or a collection.  It is the search of C22 (`C22_rfind`) over the live
items: from the last position down, stopping at the first truthy result, whose position is the index. Partial: not for ranges and
`enumerate`. -/
theorem C73_rfind_partial {σ γ : Type} (truthy : γ → Bool) (store : σ → Store) (f : Fn1 σ Val γ)
    (hf : ∀ x s, SameTypes (store s) (store (f x s).2)) (v : Src) (hp : v.plain) (hv : ∀ r, v ≠ .range r) (fuel : Nat) (s : σ) :
    rightFind truthy store f v fuel s =
      (Fun.rightFind truthy f (liveView store s v) fuel s).map (fun p => (p.1.map (fun o => o.map fun q => ((q.1 : Int), q.2)), p.2)) := by
  rcases toIter_at (store s) v with ⟨it, h1, h2, -⟩ | ⟨h1, h2⟩
  · generalize hview : liveView store s v = view
    have hlen : It.len (store s) (it.reverse (store s)) = (view s).length := by
      match v, hp with
      | .str cs, _ => simp only [At] at h2; subst h2; subst hview; simp [It.reverse, It.len, liveView]
      | .ref a, _ =>
        simp only [At] at h2; subst h2; subst hview
        by_cases h : (store s a).isHeap = true <;> simp [It.reverse, It.len, h, coll_len, liveView]
      | .range r, _ => exact (hv r rfl).elim
    have hlive : ∀ n s', liveRev (store s) (store s') n v = Fun.rev view (view s).length s' n := by
      intro n s'
      match v, hp with
      | .str cs, _ =>
        subst hview
        simp only [liveRev, Fun.rev, liveView, List.length_map]
        split
        · rename_i hn; rw [List.getElem?_reverse hn, List.getElem?_map]
        · rename_i hn; rw [List.getElem?_eq_none (by simp; omega)]; rfl
      | .ref a, _ =>
        subst hview
        have : (liveView store s (.ref a) s).length = (entries (store s a)).length := by
          rw [liveView, ite_self]
        simp only [Fun.rev, this]
        rfl
      | .range r, _ => exact (hv r rfl).elim
    simp only [rightFind, h1, hlen]
    suffices h : ∀ fuel i n it s', SameTypes (store s) (store s') → AtRev (store s) n v it → i = n →
        (found (view s).length (loop It.nextRev store (findBody truthy f) fuel i it s') =
          (Fun.finish (fun (_ : Nat) => none) (Fun.forLoop (Fun.rev view (view s).length) (Fun.callThen f fun i x v =>
              .ok (if truthy v then .inr (some ((view s).length - 1 - i, x)) else .inl (i + 1))) fuel i n s')).map
            (fun p => (p.1.map (fun o => o.map fun q => ((q.1 : Int), q.2)), p.2))) from
      h _ _ _ _ _ (fun _ => rfl) (reverse_at (store s) v hp it h2) rfl
    intro fuel
    induction fuel with
    | zero => rintro i n it s' - - -; rfl
    | succ fuel ih =>
      rintro i n it s' hs hat rfl
      obtain ⟨it', hn, hat'⟩ := nextRev_at (store s) (store s') hs i v it hat
      rw [loop, Fun.forLoop, hn, hlive]
      cases hl : Fun.rev view (view s).length s' i with
      | none => rfl
      | some x =>
        have hi : i < (view s).length := by
          by_contra hc
          rw [Fun.rev, if_neg hc] at hl; cases hl
        have hfx := hf x s'
        simp only [findBody, Fun.callThen]
        rcases hbx : f x s' with ⟨r, s''⟩
        rw [hbx] at hfx
        match r with
        | .error e => rfl
        | .ok y =>
          by_cases ht : truthy y = true
          · simp only [ht, if_true, found, Fun.finish, Option.map_some, Except.map]
            have : ((view s).length : Int) - 1 - i = ((view s).length - 1 - i : Nat) := by omega
            rw [this]
          · simp only [ht, Bool.false_eq_true, if_false]
            exact ih (i + 1) (i + 1) it' s'' (fun a => (hs a).trans (hfx a)) hat' rfl
  · match v, hp with
    | .str _, _ => cases h1
    | .ref a, _ => cases h2
    | .range _, _ => cases h1

example : rightFind (σ := List Val) (γ := Bool) id (fun s _ => .list s) (fun x s => (.ok (x matches .nil), s)) (.ref 0) 5
    [.nil, .nil, .int 1] = some (.ok (some (1, .nil)), [.nil, .nil, .int 1]) := rfl

/-- C73 violated: `rfind` over `enumerate` of a collection never finds anything, and never calls the function. -/
theorem C73_violation_rfind_enumerate {σ γ : Type} (truthy : γ → Bool) (store : σ → Store) (f : Fn1 σ Val γ) (a : Nat) (fuel : Nat)
    (s : σ) : rightFind truthy store f (.enumerate (.ref a)) (fuel + 1) s = some (.ok none, s) := by
  cases h : store s a <;>
    simp [rightFind, toIter, h, It.reverse, It.len, Coll.len, loop, It.nextRev, It.next, get, found]

/-- C73 violated: the reversed traversal of `enumerate("ab")` visits the characters forwards, with the index second and counting up
from the length; that of `enumerate` of a list visits nothing. -/
theorem C73_violation_enumerate :
    items sample (.enumerate (.str ['a', 'b'])) = some [.vector [.int 0, .str ['a']], .vector [.int 1, .str ['b']]] ∧
    nth It.nextRev (fun _ => sample) 0 0 ((It.enumerate 0 (.str ['a', 'b'] ['a', 'b'])).reverse sample) =
      .ok (some (.vector [.str ['a'], .int 2])) ∧
    nth It.nextRev (fun _ => sample) 0 1 ((It.enumerate 0 (.str ['a', 'b'] ['a', 'b'])).reverse sample) =
      .ok (some (.vector [.str ['b'], .int 3])) ∧
    items sample (.enumerate (.ref 0)) = some [.vector [.int 0, .int 7], .vector [.int 1, .nil]] ∧
    nth It.nextRev (fun _ => sample) 0 0 ((It.enumerate 0 (.coll 0 0)).reverse sample) = .ok none := by
  refine ⟨rfl, rfl, rfl, rfl, rfl⟩

/-- C73 violated: `range(10).rindex_of(fn(x) -> true)` is 8 and the value found is 10, which is not in the range. -/
theorem C73_violation_range (truthy : Val → Bool) (h : truthy (.int 10) = true) :
    rightFind (σ := Unit) truthy (fun _ => sample) (fun x s => (.ok x, s)) (.range ⟨0, 10, 1⟩) 5 () =
      some (.ok (some (8, .int 10)), ()) := by
  have hr : Range.reverse ⟨0, 10, 1⟩ = ⟨10, 1, -1⟩ := by decide
  have hl : Range.len ⟨10, 1, -1⟩ = 9 := by decide
  have hn : Range.next ⟨10, 1, -1⟩ 10 = some (10, 9) := by decide
  simp [rightFind, toIter, It.reverse, It.len, loop, It.nextRev, findBody, found, hr, hl, hn, h]

end Cordy.Iter
