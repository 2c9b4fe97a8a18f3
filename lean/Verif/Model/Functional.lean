import Verif.Model.Err
import Verif.Model.IndexMap
/-!
# The functional library primitives (core/collections.rs)

`σ` is the machine state (heap, stack, outputs ...), which a callback may change arbitrarily, including the collection that is
being iterated.  An iterable is read through `get s i`, the `i`-th element it yields if the machine state is `s` at that moment: the
collection iterators of Cordy hold an index and re-read the live collection at each step.
-/
namespace Cordy

/-- models: core/mod.rs:547-600 `InvokeArg1::invoke`: calling a function value on one argument. -/
abbrev Fn1 (σ α β : Type) := α → σ → Res β × σ
/-- models: core/mod.rs:570-600 `InvokeArg2::invoke`. -/
abbrev Fn2 (σ α β γ : Type) := α → β → σ → Res γ × σ

namespace Fun
variable {σ α β γ ρ : Type}

/-- models: value/mod.rs:907-932 `Iterable::Collection` (`next` reads index `i` of the live collection `view s`, then increments). -/
def fwd (view : σ → List α) (s : σ) (i : Nat) : Option α := (view s)[i]?

/-- models: value/mod.rs:882-886 and 955-961: reverse iteration starts at the length `len` and reads live positions downwards. -/
def rev (view : σ → List α) (len : Nat) (s : σ) (i : Nat) : Option α :=
  if i < len then (view s)[len - 1 - i]? else none

/-- A Rust `for x in iter { body }` with early `return`.  `none`: more than `fuel` iterations. `Sum.inl`: ran to the end with this
accumulator; `Sum.inr`: `return`ed. -/
def forLoop (get : σ → Nat → Option α) (body : β → α → σ → Res (β ⊕ ρ) × σ) : Nat → β → Nat → σ → Option (Res (β ⊕ ρ) × σ)
  | 0, _, _, _ => none
  | fuel + 1, acc, i, s =>
    match get s i with
    | none => some (.ok (.inl acc), s)
    | some x =>
      match body acc x s with
      | (.error e, s') => some (.error e, s')
      | (.ok (.inr r), s') => some (.ok (.inr r), s')
      | (.ok (.inl acc'), s') => forLoop get body fuel acc' (i + 1) s'

/-- A loop body that calls `f` on the element, propagates its error with `?`, then decides. -/
def callThen (f : Fn1 σ α γ) (dec : β → α → γ → Res (β ⊕ ρ)) (acc : β) (x : α) (s : σ) : Res (β ⊕ ρ) × σ :=
  match f x s with
  | (.error e, s') => (.error e, s')
  | (.ok v, s') => (dec acc x v, s')

/-- Result of a loop that never `return`s early, or whose `return` value has the same type. -/
def finish (k : β → ρ) : Option (Res (β ⊕ ρ) × σ) → Option (Res ρ × σ)
  | none => none
  | some (.error e, s) => some (.error e, s)
  | some (.ok (.inr r), s) => some (.ok r, s)
  | some (.ok (.inl b), s) => some (.ok (k b), s)

/-- models: collections.rs:355-363 `map` -/
def map (f : Fn1 σ α γ) (get : σ → Nat → Option α) (fuel : Nat) (s : σ) : Option (Res (List γ) × σ) :=
  finish (ρ := List γ) id (forLoop get (callThen f fun acc _ v => .ok (.inl (acc ++ [v]))) fuel [] 0 s)

/-- models: collections.rs:365-376 `filter` (`truthy` is `to_bool`) -/
def filter (truthy : γ → Bool) (f : Fn1 σ α γ) (get : σ → Nat → Option α) (fuel : Nat) (s : σ) : Option (Res (List α) × σ) :=
  finish (ρ := List α) id
    (forLoop get (callThen f fun acc x v => .ok (.inl (if truthy v then acc ++ [x] else acc))) fuel [] 0 s)

/-- models: collections.rs:378-395 `flat_map` with a function.  `items v s` are the elements of the iterable `v`, or the error of
`to_iter` (line 390); the inner loop runs no callback, so the state does not change during it. -/
def flatMap (items : γ → σ → Res (List α)) (f : Fn1 σ α γ) (get : σ → Nat → Option α) (fuel : Nat) (s : σ) :
    Option (Res (List α) × σ) :=
  finish (ρ := List α) id (forLoop get
    (callThen (fun x s => match f x s with
        | (.error e, s') => (.error e, s')
        | (.ok v, s') => (items v s', s'))
      fun acc _ vs => .ok (.inl (acc ++ vs))) fuel [] 0 s)

/-- models: collections.rs:344-352 `predicate`; 333-335 `any` is `isAny = true`, 337-339 `all` is `isAny = false` -/
def predicate (isAny : Bool) (truthy : γ → Bool) (f : Fn1 σ α γ) (get : σ → Nat → Option α) (fuel : Nat) (s : σ) :
    Option (Res Bool × σ) :=
  finish (fun (_ : Unit) => !isAny)
    (forLoop get (callThen f fun _ _ v => .ok (if truthy v == isAny then .inr isAny else .inl ())) fuel () 0 s)

/-- models: collections.rs:593-601 `left_find` with a function; the accumulator is the `enumerate()` counter; `some (i, v)` is the
found index and value, `none` is not found (`-1` or `nil`). -/
def leftFind (truthy : γ → Bool) (f : Fn1 σ α γ) (get : σ → Nat → Option α) (fuel : Nat) (s : σ) :
    Option (Res (Option (Nat × α)) × σ) :=
  finish (fun (_ : Nat) => none)
    (forLoop get (callThen f fun i x v => .ok (if truthy v then .inr (some (i, x)) else .inl (i + 1))) fuel 0 0 s)

/-- models: collections.rs:612-624 `right_find` with a function: as `left_find` on the reversed iterator, the index subtracted
from `len - 1` (`len` read at the start). -/
def rightFind (truthy : γ → Bool) (f : Fn1 σ α γ) (view : σ → List α) (fuel : Nat) (s : σ) :
    Option (Res (Option (Nat × α)) × σ) :=
  let len := (view s).length
  finish (fun (_ : Nat) => none)
    (forLoop (rev view len) (callThen f fun i x v => .ok (if truthy v then .inr (some (len - 1 - i, x)) else .inl (i + 1))) fuel 0 0 s)

/-- models: collections.rs:602-609 `left_find` with a plain value: first element `==` to it (no callback, so the contents are fixed). -/
def leftFindValue (eq : α → α → Bool) (finder : α) (xs : List α) : Option (Nat × α) :=
  match xs.findIdx? (fun v => eq v finder) with
  | none => none
  | some i => match xs[i]? with | some v => some (i, v) | none => none

/-- models: collections.rs:625-632 `right_find` with a plain value. -/
def rightFindValue (eq : α → α → Bool) (finder : α) (xs : List α) : Option (Nat × α) :=
  match leftFindValue eq finder xs.reverse with
  | none => none
  | some (i, v) => some (xs.length - 1 - i, v)

/-- models: collections.rs:430, the body of the loop of `reduce` -/
def reduceBody (f : Fn2 σ α α α) (acc x : α) (s : σ) : Res (α ⊕ α) × σ :=
  match f acc x s with
  | (.error e, s') => (.error e, s')
  | (.ok v, s') => (.ok (.inl v), s')

/-- models: collections.rs:421-433 `reduce`: takes the first element, then folds over the rest of the same iterator. -/
def reduce (f : Fn2 σ α α α) (get : σ → Nat → Option α) (fuel : Nat) (s : σ) : Option (Res α × σ) :=
  match get s 0 with
  | none => some (.error .nonEmpty, s)
  | some x =>
    finish (ρ := α) id (forLoop get (reduceBody f) fuel x 1 s)

open IndexMap in
/-- models: collections.rs:284-299 `group_by` with a function: `entry(key).or_insert_with(empty).push(value)`. -/
def groupBy [BEq γ] (f : Fn1 σ α γ) (get : σ → Nat → Option α) (fuel : Nat) (s : σ) :
    Option (Res (List (γ × List α)) × σ) :=
  finish (ρ := List (γ × List α)) id (forLoop get (callThen f fun acc x k =>
    .ok (.inl (match get? acc k with
      | some vs => insert acc k (vs ++ [x])
      | none => acc ++ [(k, [x])]))) fuel [] 0 s)

/-- models: collections.rs:272-282, the loop of `group_by(n, ..)`: `groups`, and `group` the current one. -/
def chunksLoop (size : Nat) : List α → List (List α) → List α → List (List α) × List α
  | [], groups, group => (groups, group)
  | v :: vs, groups, group =>
    let group := group ++ [v]
    if group.length = size then chunksLoop size vs (groups ++ [group]) [] else chunksLoop size vs groups group

/-- models: collections.rs:263-283 `group_by` with an int -/
def chunks (n : Int) (xs : List α) : Res (List (List α)) :=
  if n ≤ 0 then .error .mustBePositive
  else
    let r := chunksLoop n.toNat xs [] []
    .ok (if r.2.isEmpty then r.1 else r.1 ++ [r.2])

/-- One round of the inner loop of `zip` (collections.rs:410-416): `next` on each iterator in turn. -/
def heads : List (List α) → Option (List α × List (List α))
  | [] => some ([], [])
  | [] :: _ => none
  | (x :: xs) :: rest =>
    match heads rest with
    | none => none
    | some (hs, ts) => some (x :: hs, xs :: ts)

/-- models: collections.rs:409-418; `fuel` bounds the rounds and is the length of the first iterable plus one. -/
def zipLoop : Nat → List (List α) → List (List α)
  | 0, _ => []
  | fuel + 1, iters =>
    match heads iters with
    | none => []
    | some (hs, ts) => hs :: zipLoop fuel ts

/-- models: collections.rs:397-419 `zip` (iterables already evaluated to their elements; the loop stops at the latest when the first is
exhausted, so that length bounds it). -/
def zip (iters : List (List α)) : Res (List (List α)) :=
  match iters with
  | [] => .error .nonEmpty
  | it :: rest => .ok (zipLoop (it.length + 1) (it :: rest))

/-- models: value/mod.rs:939-943 `Iterable::Enumerate`: pairs the running index with each element. -/
def enumerateLoop : Nat → List α → List (Nat × α)
  | _, [] => []
  | i, x :: xs => (i, x) :: enumerateLoop (i + 1) xs

/-- models: `enumerate(xs)` iterated from the start -/
def enumerate (xs : List α) : List (Nat × α) := enumerateLoop 0 xs

/-- models: collections.rs:303-307 `reverse` -/
def reverse (xs : List α) : List α := xs.reverse

/-- The selections `itertools::combinations` yields: by position, in lexicographic order (library code, not in the repository). -/
def combosOf : Nat → List α → List (List α)
  | 0, _ => [[]]
  | _ + 1, [] => []
  | n + 1, x :: xs => (combosOf n xs).map (x :: ·) ++ combosOf (n + 1) xs

/-- models: collections.rs:321-331 `combinations` -/
def combinations (n : Int) (xs : List α) : Res (List (List α)) :=
  if n ≤ 0 then .error .argMustBeNonNegative else .ok (combosOf n.toNat xs)

/-- Every way to take one element out of a list: the element and the others, in order of position. -/
def picks : List α → List (α × List α)
  | [] => []
  | x :: xs => (x, xs) :: (picks xs).map fun p => (p.1, x :: p.2)

/-- The selections `itertools::permutations` yields, in lexicographic order of positions (library code). -/
def permsOf : Nat → List α → List (List α)
  | 0, _ => [[]]
  | n + 1, xs => (picks xs).flatMap fun p => (permsOf n p.2).map (p.1 :: ·)

/-- models: collections.rs:309-319 `permutations` -/
def permutations (n : Int) (xs : List α) : Res (List (List α)) :=
  if n ≤ 0 then .error .argMustBeNonNegative else .ok (permsOf n.toNat xs)

end Fun
end Cordy
