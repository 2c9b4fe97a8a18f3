import Verif.Model.Range
import Verif.Model.Functional
/-!
# Iterators

Models `vm/value/mod.rs:331-348` (`to_iter`), `402-414` (`len`), `859-976` (`Iterable`, `IterableRev`), the iterators of
`vm/value/str.rs:15-77` and `vm/value/range.rs:107-109, 152-154`, and the loops that drive them: a Rust `for` over an `Iterable`,
which is also what the opcodes `InitIterable` / `TestIterable` (`vm/mod.rs:434-450`) do for a Cordy `for`, and
`core/collections.rs:587-637` (`left_find`, `right_find`).

Collections are mutable and shared, so an iterator holds a reference, and each step reads the collection as it is then: `Store` gives
the contents of every collection at one moment.
-/
namespace Cordy.Iter

/-- The contents of one mutable collection (`Type::List`, `Set`, `Dict`, `Heap`, `Vector`): the entries in order; for a heap, the
internal array. -/
inductive Coll where
  | list (xs : List Val)
  | set (xs : List Val)
  | dict (es : List (Val × Val))
  | heap (xs : List Val)
  | vector (xs : List Val)

/-- What every collection contains at one moment, by reference. -/
abbrev Store := Nat → Coll

/-- A value as far as iteration looks at it: a string, (a reference to) a collection, a range, `enumerate(..)` of a value, or
something that is not iterable. -/
inductive Src where
  | str (s : List Char)
  | ref (a : Nat)
  | range (r : Range)
  | enumerate (v : Src)
  | other

/-- models: mod.rs:859-866 `Iterable`.  `str all rest`: the whole string and the characters not yet yielded (`IterStr`, str.rs:15-23). -/
inductive It where
  | str (all rest : List Char)
  | unit (v : Option Val)
  | coll (index : Nat) (a : Nat)
  | raw (index : Nat) (xs : List Val)
  | range (cur : Int) (r : Range)
  | enumerate (index : Nat) (inner : It)

/-- models: mod.rs:403-409, the lengths of the collections (`Value::len`). -/
def Coll.len : Coll → Nat
  | .list xs => xs.length
  | .set xs => xs.length
  | .dict es => es.length
  | .heap xs => xs.length
  | .vector xs => xs.length

/-- models: mod.rs:402-414 `len`, the native function `len` -/
def len (σ : Store) : Src → Res Nat
  | .str s => .ok s.length
  | .ref a => .ok (σ a).len
  | .range r => .ok r.len
  | .enumerate v => len σ v
  | .other => .error .argIterable

/-- models: mod.rs:331-348 `to_iter`, with range.rs:107-109 and 152-154, str.rs:116-129 -/
def toIter (σ : Store) : Src → Res It
  | .str s => .ok (.str s s)
  | .ref a =>
    match σ a with
    | .heap xs => .ok (.raw 0 xs)
    | _ => .ok (.coll 0 a)
  | .range r => .ok (.range r.start r)
  | .enumerate v =>
    match toIter σ v with
    | .ok it => .ok (.enumerate 0 it)
    | .error e => .error e
  | .other => .error .argIterable

/-- models: mod.rs:871-880 `Iterable::len` -/
def It.len (σ : Store) : It → Nat
  | .str all _ => all.length
  | .unit v => if v.isSome then 1 else 0
  | .coll _ a => (σ a).len
  | .raw _ xs => xs.length
  | .range _ r => r.len
  | .enumerate _ it => it.len σ

/-- models: mod.rs:882-891 `Iterable::reverse` -/
def It.reverse (σ : Store) : It → It
  | .range _ r => .range r.reverse.start r.reverse
  | .coll _ a => .coll (σ a).len a
  | .raw _ xs => .raw xs.length xs
  | .enumerate _ it => .enumerate (it.len σ) (it.reverse σ)
  | .str all rest => .str all rest
  | .unit v => .unit v

/-- models: mod.rs:908-917 `Iterable::get`; a dict entry becomes the vector of key and value; `unreachable!()` for a heap. -/
def get (c : Coll) (index : Nat) : Res (Option Val) :=
  match c with
  | .list xs => .ok xs[index]?
  | .set xs => .ok xs[index]?
  | .dict es => .ok (es[index]?.map fun e => .vector [e.1, e.2])
  | .vector xs => .ok xs[index]?
  | .heap _ => .error .panic

/-- models: mod.rs:921-947 `Iterator for Iterable` -/
def It.next (σ : Store) : It → Res (Option Val × It)
  | .str all [] => .ok (none, .str all [])
  | .str all (c :: cs) => .ok (some (.str [c]), .str all cs)
  | .unit v => .ok (v, .unit none)
  | .coll index a =>
    match get (σ a) index with
    | .ok v => .ok (v, .coll (index + 1) a)
    | .error e => .error e
  | .raw index xs => .ok (xs[index]?, .raw (index + 1) xs)
  | .range cur r =>
    match r.next cur with
    | none => .ok (none, .range cur r)
    | some (v, cur') => .ok (some (.int v), .range cur' r)
  | .enumerate index it =>
    match it.next σ with
    | .ok (v, it') => .ok (v.map (fun u => .vector [.int index, u]), .enumerate (index + 1) it')
    | .error e => .error e

/-- models: mod.rs:949-976 `Iterator for IterableRev`.  Under `Enumerate` the inner iterator is asked with the *forward* `next`
(mod.rs:971), and the pair is the other way round. -/
def It.nextRev (σ : Store) : It → Res (Option Val × It)
  | .str all rest =>
    match rest.getLast? with
    | none => .ok (none, .str all rest)
    | some c => .ok (some (.str [c]), .str all rest.dropLast)
  | .unit v => .ok (v, .unit none)
  | .coll 0 a => .ok (none, .coll 0 a)
  | .coll (index + 1) a =>
    match get (σ a) index with
    | .ok v => .ok (v, .coll index a)
    | .error e => .error e
  | .raw 0 xs => .ok (none, .raw 0 xs)
  | .raw (index + 1) xs => .ok (xs[index]?, .raw index xs)
  | .range cur r =>
    match r.next cur with
    | none => .ok (none, .range cur r)
    | some (v, cur') => .ok (some (.int v), .range cur' r)
  | .enumerate index it =>
    match it.next σ with
    | .ok (v, it') => .ok (v.map (fun u => .vector [u, .int index]), .enumerate (index + 1) it')
    | .error e => .error e

/-- The `n`-th call (from 0) of a stepping function, when the collections are as `w k` says at the time of call `k`. -/
def nth (step : Store → It → Res (Option Val × It)) (w : Nat → Store) : Nat → Nat → It → Res (Option Val)
  | k, 0, it =>
    match step (w k) it with
    | .ok (v, _) => .ok v
    | .error e => .error e
  | k, n + 1, it =>
    match step (w k) it with
    | .ok (_, it') => nth step w (k + 1) n it'
    | .error e => .error e

variable {σ β ρ : Type}

/-- models: a Rust `for x in iter { body }` with early `return`, as in collections.rs:346, 359, 369, 385; and the loop of
`TestIterable` (vm/mod.rs:439-450) with the body of a Cordy `for`.  The body may change the state in any way.
`store` reads the collections off the state.  `none`: more than `fuel` rounds. -/
def loop (step : Store → It → Res (Option Val × It)) (store : σ → Store) (body : β → Val → σ → Res (β ⊕ ρ) × σ) :
    Nat → β → It → σ → Option (Res (β ⊕ ρ) × σ)
  | 0, _, _, _ => none
  | fuel + 1, acc, it, s =>
    match step (store s) it with
    | .error e => some (.error e, s)
    | .ok (none, _) => some (.ok (.inl acc), s)
    | .ok (some x, it') =>
      match body acc x s with
      | (.error e, s') => some (.error e, s')
      | (.ok (.inr r), s') => some (.ok (.inr r), s')
      | (.ok (.inl acc'), s') => loop step store body fuel acc' it' s'

/-- models: the same `for` over a value: `for r in args.to_iter()? { .. }`. -/
def forIn (store : σ → Store) (body : β → Val → σ → Res (β ⊕ ρ) × σ) (v : Src) (fuel : Nat) (acc : β) (s : σ) :
    Option (Res (β ⊕ ρ) × σ) :=
  match toIter (store s) v with
  | .error e => some (.error e, s)
  | .ok it => loop It.next store body fuel acc it s

/-- models: collections.rs:594-600 and 616-622, the body of the loop of `left_find` / `right_find` with a function: call it, and return the index
(counted by `enumerate()`) and value if the result is truthy. -/
def findBody {γ : Type} (truthy : γ → Bool) (f : Fn1 σ Val γ) (i : Nat) (x : Val) (s : σ) : Res (Nat ⊕ (Nat × Val)) × σ :=
  match f x s with
  | (.error e, s') => (.error e, s')
  | (.ok v, s') => (.ok (if truthy v then .inr (i, x) else .inl (i + 1)), s')

/-- models: collections.rs:620 and 623, the result of `right_find` from that of its loop. -/
def found (len : Int) : Option (Res (Nat ⊕ (Nat × Val)) × σ) → Option (Res (Option (Int × Val)) × σ)
  | none => none
  | some (.error e, s') => some (.error e, s')
  | some (.ok (.inl _), s') => some (.ok none, s')
  | some (.ok (.inr (i, x)), s') => some (.ok (some (len - 1 - i, x)), s')

/-- models: collections.rs:612-624 `right_find` with a function: `some (index, value)` found, `none` not found.  The index is
`(len - 1 - i) as i64`, in a release build, where the subtraction wraps. -/
def rightFind {γ : Type} (truthy : γ → Bool) (store : σ → Store) (f : Fn1 σ Val γ) (v : Src) (fuel : Nat) (s : σ) :
    Option (Res (Option (Int × Val)) × σ) :=
  match toIter (store s) v with
  | .error e => some (.error e, s)
  | .ok it =>
    let it := it.reverse (store s)
    let len : Int := it.len (store s)
    found len (loop It.nextRev store (findBody truthy f) fuel 0 it s)

end Cordy.Iter
