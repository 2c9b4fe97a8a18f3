import Verif.Model.IndexMap
import Verif.Model.Err
/-! # Dicts, sets and lists as state machines over the library operations -/
namespace Cordy
open IndexMap

/-- models: core/mod.rs:527-531 `InvokeArg0` as stored by `dict_set_default` (collections.rs:559-567):
a constant, or a function to be called. -/
inductive Default (ν : Type) where
  | const (v : ν)
  | call

/-- models: value/collections.rs:135-138 `Dict` -/
structure Dict (κ ν : Type) where
  entries : List (κ × ν)
  default : Option (Default ν)

namespace Dict
variable {κ ν : Type} [BEq κ]

/-- models: core/collections.rs:27-62 `get_dict_index`.  `callback` is what calling the default function does: it may
change the dict's entries, then returns a value or an error. -/
def getIndex (callback : List (κ × ν) → Res ν × List (κ × ν)) (d : Dict κ ν) (k : κ) : Res ν × Dict κ ν :=
  match d.default with
  | none =>
    match get? d.entries k with
    | some v => (.ok v, d)
    | none => (.error .keyNotPresent, d)
  | some df =>
    match get? d.entries k with
    | some v => (.ok v, d)
    | none =>
      let re : Res ν × List (κ × ν) := match df with
        | .const v => (.ok v, d.entries)
        | .call => callback d.entries
      match re.1 with
      | .error e => (.error e, { d with entries := re.2 })
      | .ok v =>
        let we := entryOrInsert re.2 k v
        (.ok we.1, { d with entries := we.2 })

/-- Library operations on a dict. -/
inductive Op (κ ν : Type) where
  /-- `d[k] = v` and `d . insert(k, v)` -/
  | set (k : κ) (v : ν)
  /-- `d[k]`; `r` is what the default function would return if called -/
  | get (k : κ) (r : Res ν)
  | contains (k : κ)
  | remove (k : κ)
  | pop
  | peek
  | clear
  | setDefault (d : Default ν)
  | len

/-- Results of the operations. -/
inductive Out (κ ν : Type) where
  | unit
  | val (v : ν)
  | pair (k : κ) (v : ν)
  | bool (b : Bool)
  | nat (n : Nat)
  | err (e : Err)

/-- models: core/collections.rs:64-68 `set_index` and 504-510 `insert`; 27-62 lookup; operator.rs:316 `in`;
534 `remove`; 453 `pop`; 439 `peek`; 543 `clear`; 559-567 `default`; mod.rs:407 `len`. -/
def step (d : Dict κ ν) : Op κ ν → Dict κ ν × Out κ ν
  | .set k v => ({ d with entries := insert d.entries k v }, .unit)
  | .get k r =>
    match getIndex (fun es => (r, es)) d k with
    | (.ok v, d') => (d', .val v)
    | (.error e, d') => (d', .err e)
  | .contains k => (d, .bool (contains d.entries k))
  | .remove k => ({ d with entries := shiftRemove d.entries k }, .bool (contains d.entries k))
  | .pop =>
    match IndexMap.pop d.entries with
    | some (e, es) => ({ d with entries := es }, .pair e.1 e.2)
    | none => (d, .err .nonEmpty)
  | .peek =>
    match d.entries.head? with
    | some e => (d, .pair e.1 e.2)
    | none => (d, .err .nonEmpty)
  | .clear => ({ d with entries := [] }, .unit)
  | .setDefault df => ({ d with default := some df }, .unit)
  | .len => (d, .nat d.entries.length)

/-- A history: the final state and all outputs. -/
def run (d : Dict κ ν) : List (Op κ ν) → Dict κ ν × List (Out κ ν)
  | [] => (d, [])
  | op :: ops =>
    let (d1, o) := step d op
    let (d2, os) := run d1 ops
    (d2, o :: os)

/-- models: collections.rs:687-698 `counter` -/
def counter (xs : List κ) : List (κ × Nat) :=
  xs.foldl (fun m k => match get? m k with | some n => insert m k (n + 1) | none => m ++ [(k, 1)]) []

/-- models: collections.rs:551-557 `collect_into_dict`: `dict(xs)`; every element is first made a pair (`to_pair`, the parameter), then they are inserted in order -/
def ofPairs {τ : Type} (toPair : τ → Res (κ × ν)) (xs : List τ) : Res (Dict κ ν) :=
  match xs.mapM toPair with
  | .error e => .error e
  | .ok es => .ok ⟨IndexMap.extend [] es, none⟩

end Dict

namespace SetM
variable {κ : Type} [BEq κ]
open IndexSet

/-- Library operations on a set. -/
inductive Op (κ : Type) where
  | push (k : κ)
  | remove (k : κ)
  | contains (k : κ)
  | pop
  | peek
  | clear
  | union (ks : List κ)
  | intersect (ks : List κ)
  | difference (ks : List κ)
  | len

/-- Results. -/
inductive Out (κ : Type) where
  | unit
  | val (k : κ)
  | bool (b : Bool)
  | nat (n : Nat)
  | err (e : Err)

/-- models: collections.rs:472 push, 533 remove, operator.rs:315 `in`, 452 pop, 438 peek, 542 clear, 642-685, mod.rs:406.
`union` etc. take the elements of another iterable (passing the set to itself is treated in Model/Borrow). -/
def step (s : T κ) : Op κ → T κ × Out κ
  | .push k => (push s k, .unit)
  | .remove k => (shiftRemove s k, .bool (contains s k))
  | .contains k => (s, .bool (contains s k))
  | .pop =>
    match IndexMap.pop s with
    | some (e, s') => (s', .val e.1)
    | none => (s, .err .nonEmpty)
  | .peek =>
    match s.head? with
    | some e => (s, .val e.1)
    | none => (s, .err .nonEmpty)
  | .clear => ([], .unit)
  | .union ks => (union s ks, .unit)
  | .intersect ks => (intersect s ks, .unit)
  | .difference ks => (difference s ks, .unit)
  | .len => (s, .nat s.length)

/-- A history. -/
def run (s : T κ) : List (Op κ) → T κ × List (Out κ)
  | [] => (s, [])
  | op :: ops =>
    let (s1, o) := step s op
    let (s2, os) := run s1 ops
    (s2, o :: os)

end SetM

namespace ListM
/-- Library operations on a list. -/
inductive Op (α : Type) where
  | push (v : α) | pushFront (v : α) | pop | popFront | peek
  | insert (i : Int) (v : α) | remove (i : Int) | clear | len

/-- Results. -/
inductive Out (α : Type) where
  | unit | val (v : α) | nat (n : Nat) | err (e : Err)

/-- models: collections.rs:471 push, 482-485 push_front, 451 pop, 462-467 pop_front, 437 peek, 489-503 insert,
517-528 remove, 541 clear, mod.rs:405 len. -/
def step {α : Type} (xs : List α) : Op α → List α × Out α
  | .push v => (xs ++ [v], .unit)
  | .pushFront v => (v :: xs, .unit)
  | .pop =>
    match xs.getLast? with
    | some v => (xs.dropLast, .val v)
    | none => (xs, .err .nonEmpty)
  | .popFront =>
    match xs with
    | v :: xs' => (xs', .val v)
    | [] => (xs, .err .nonEmpty)
  | .peek =>
    match xs.head? with
    | some v => (xs, .val v)
    | none => (xs, .err .nonEmpty)
  | .insert i v =>
    if 0 ≤ i ∧ i < xs.length then (xs.insertIdx i.toNat v, .unit)
    else if i = xs.length then (xs ++ [v], .unit)
    else (xs, .err .indexOutOfBounds)
  | .remove i =>
    if 0 ≤ i ∧ i < xs.length then
      match xs[i.toNat]? with
      | some v => (xs.eraseIdx i.toNat, .val v)
      | none => (xs, .err .panic)
    else (xs, .err .indexOutOfBounds)
  | .clear => ([], .unit)
  | .len => (xs, .nat xs.length)

/-- A history. -/
def run {α : Type} (s : List α) : List (Op α) → List α × List (Out α)
  | [] => (s, [])
  | op :: ops =>
    let (s1, o) := step s op
    let (s2, os) := run s1 ops
    (s2, o :: os)
end ListM
end Cordy
