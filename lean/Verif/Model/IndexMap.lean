import Verif.Lemmas.Value
/-! # Insertion ordered maps and sets

`indexmap::IndexMap` / `IndexSet` (2.0.0) as Cordy's `dict` and `set` use them: a vector of entries, found by hash and `==`.
The key comparison is `==` of a `BEq` instance; for Cordy values it is the lookup relation of `Model/Value.lean`
(hash alike and equal), on well-formed values (`KeyVal`). Keys are treated as immutable: mutating a list after using
it as a key is outside the model. -/
namespace Cordy

/-- Well-formed values compared the way a hash lookup does. -/
def KeyVal := {v : Val // Val.WF v}

instance : BEq KeyVal := ⟨fun a b => decide (Val.feed a.1 = Val.feed b.1) && Val.eqv a.1 b.1⟩

theorem KeyVal.beq_iff {a b : KeyVal} : (a == b) = true ↔ Val.sim a.1 b.1 := by
  simp [BEq.beq, Val.sim]

instance : EquivBEq KeyVal where
  rfl := by intro a; exact KeyVal.beq_iff.2 ⟨rfl, Val.eqv_refl _⟩
  symm := by
    intro a b h
    have := KeyVal.beq_iff.1 h
    exact KeyVal.beq_iff.2 ⟨this.1.symm, Val.eqv_symm _ a.2 _ b.2 this.2⟩
  trans := by
    intro a b c h1 h2
    have h1 := KeyVal.beq_iff.1 h1
    have h2 := KeyVal.beq_iff.1 h2
    exact KeyVal.beq_iff.2 ⟨h1.1.trans h2.1, Val.eqv_trans _ _ _ h1.2 h2.2⟩

namespace IndexMap
variable {κ ν : Type} [BEq κ]

/-- `IndexMap::get`, used at collections.rs:39, 46 -/
def get? (m : List (κ × ν)) (k : κ) : Option ν := (m.find? (fun e => e.1 == k)).map (·.2)

/-- `IndexMap::contains_key`, operator.rs:316; `IndexSet::contains`, operator.rs:315 -/
def contains (m : List (κ × ν)) (k : κ) : Bool := m.any (fun e => e.1 == k)

/-- `IndexMap::insert` (collections.rs:146): an existing entry keeps its place and its key and gets the new value,
otherwise the entry is appended. -/
def insert : List (κ × ν) → κ → ν → List (κ × ν)
  | [], k, v => [(k, v)]
  | (k', v') :: m, k, v => if k' == k then (k', v) :: m else (k', v') :: insert m k v

/-- `entry(k).or_insert(v)` (collections.rs:58-60): the value now stored, and the map. -/
def entryOrInsert (m : List (κ × ν)) (k : κ) (v : ν) : ν × List (κ × ν) :=
  match get? m k with
  | some w => (w, m)
  | none => (v, m ++ [(k, v)])

/-- `shift_remove` (collections.rs:533-534): removes the entry, later entries move up. -/
def shiftRemove (m : List (κ × ν)) (k : κ) : List (κ × ν) := m.eraseP (fun e => e.1 == k)

/-- `IndexSet::remove` = `swap_remove` (collections.rs:678): the last entry moves into the hole. -/
def swapRemove : List (κ × ν) → κ → List (κ × ν)
  | [], _ => []
  | e :: m, k =>
    if e.1 == k then
      match m.getLast? with
      | none => []
      | some l => l :: m.dropLast
    else e :: swapRemove m k

/-- `IndexMap::pop` (collections.rs:452-453) -/
def pop (m : List (κ × ν)) : Option ((κ × ν) × List (κ × ν)) :=
  match m.getLast? with
  | none => none
  | some e => some (e, m.dropLast)

/-- `collect::<IndexMap>()` / `extend`: insert one after the other (mod.rs:664, 679). -/
def extend (m : List (κ × ν)) (es : List (κ × ν)) : List (κ × ν) := es.foldl (fun m e => insert m e.1 e.2) m

end IndexMap

namespace IndexSet
variable {κ : Type} [BEq κ]
open IndexMap

/-- An `IndexSet` is an `IndexMap` to `()`; `IndexSet::insert` keeps an existing entry. -/
abbrev T (κ : Type) := List (κ × Unit)

/-- The members in order. -/
def elems (s : T κ) : List κ := s.map (·.1)

/-- models: collections.rs:470-480 `push` on a set (79-84 `insert_checked`; see Model/Borrow for the recursive case) -/
def push (s : T κ) (k : κ) : T κ := insert s k ()

/-- `collect::<IndexSet>()` -/
def ofList (ks : List κ) : T κ := ks.foldl push []

/-- models: collections.rs:642-655 `set_union` -/
def union (s : T κ) (ks : List κ) : T κ := ks.foldl push s

/-- models: collections.rs:657-670 `set_intersect` -/
def intersect (s : T κ) (ks : List κ) : T κ :=
  let other := ofList ks
  s.filter (fun e => contains other e.1)

/-- models: collections.rs:672-685 `set_difference` -/
def difference (s : T κ) (ks : List κ) : T κ := ks.foldl swapRemove s

/-- models: operator.rs:417-421 `|`: `IndexSet::union` yields `self` then the elements of `other` not in `self`, collected. -/
def opUnion (a b : T κ) : T κ := ofList (elems a ++ (elems b).filter (fun k => !contains a k))

/-- models: operator.rs:401-405 `&` -/
def opInter (a b : T κ) : T κ := ofList ((elems a).filter (fun k => contains b k))

/-- models: operator.rs:352-356 `-` -/
def opDiff (a b : T κ) : T κ := ofList ((elems a).filter (fun k => !contains b k))

/-- models: operator.rs:433-437 `^` -/
def opSymDiff (a b : T κ) : T κ :=
  ofList ((elems a).filter (fun k => !contains b k) ++ (elems b).filter (fun k => !contains a k))

end IndexSet
end Cordy
