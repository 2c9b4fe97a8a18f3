/-!
# Reference counts and borrows

Models `Prefix` of `vm/value/ptr.rs`: the counter of references (u32) and the lock (u16), with wrapping arithmetic (release profile; `inc`, `dec` wrap at 2^32).

Simplified: dropping an object drops the values it holds with a list of pending drops, where Rust uses recursion; memory is a list of the objects that are not freed.
-/
namespace Cordy.Refs

/-! ## Borrows -/

/-- The lock, and (not in the code) the shared and mutable borrows that exist. -/
structure Lock where
  lock : Nat := 1
  shared : Nat := 0
  muts : Nat := 0
  deriving DecidableEq, Repr

inductive LockOp where
  | borrow | borrowMut | releaseShared | releaseMut
  deriving DecidableEq, Repr

/-- models: ptr.rs:705-745, 801-807, 827-832. `none`: refused (`borrow`, `borrow_mut` panic then), or there is no such borrow to release. -/
def lockStep (l : Lock) : LockOp → Option Lock
  | .borrow => if l.lock = 0 then none else some { l with lock := (l.lock + 1) % 65536, shared := l.shared + 1 }
  | .borrowMut => if l.lock = 1 then some { l with lock := 0, muts := l.muts + 1 } else none
  | .releaseShared => if l.shared = 0 then none else some { l with lock := (l.lock + 65535) % 65536, shared := l.shared - 1 }
  | .releaseMut => if l.muts = 0 then none else some { l with lock := 1, muts := l.muts - 1 }

/-- A history: what is refused changes nothing. -/
def lockRun (l : Lock) (ops : List LockOp) : Lock := ops.foldl (fun l op => (lockStep l op).getD l) l

/-! ## References -/

structure Obj where
  id : Nat
  refs : Nat
  /-- the shared values it holds -/
  kids : List Nat
  deriving DecidableEq, Repr

structure Heap where
  objs : List Obj
  /-- references outside of the objects: the stack, constants, local variables of native functions -/
  roots : List Nat
  next : Nat
  /-- not in the code: which objects were freed, the newest first -/
  freed : List Nat
  deriving DecidableEq, Repr

/-- The object with that address, and the others. -/
def take (x : Nat) : List Obj → Option (Obj × List Obj)
  | [] => none
  | o :: os => if o.id = x then some (o, os) else (take x os).map fun p => (p.1, o :: p.2)

def u32 : Nat := 4294967296

/-- models: ptr.rs:735-739 `inc_strong` -/
def inc (o : Obj) : Obj := { o with refs := if o.refs + 1 = u32 then 0 else o.refs + 1 }
/-- models: ptr.rs:741-743 `dec_strong` -/
def dec (o : Obj) : Obj := { o with refs := if o.refs = 0 then u32 - 1 else o.refs - 1 }

/-- models: ptr.rs:498-510 `Clone`: one more reference to `x`, for the caller. A reference to a freed object: `none` (undefined behavior). -/
def clone (x : Nat) (h : Heap) : Option Heap :=
  match take x h.objs with
  | some (o, rest) => some { h with objs := inc o :: rest, roots := x :: h.roots }
  | none => none

/-- models: ptr.rs:513-549 `Drop`, 314-316 `drop_value`: the references in the list are dropped, one after the other; an object without references is freed after what it holds was dropped. -/
def dropAll : Nat → List Nat → Heap → Option Heap
  | 0, [], h => some h
  | 0, _ :: _, _ => none
  | _ + 1, [], h => some h
  | n + 1, x :: xs, h =>
    match take x h.objs with
    | none => none
    | some (o, rest) =>
      if (dec o).refs = 0 then dropAll n (o.kids ++ xs) { h with objs := rest, freed := x :: h.freed }
      else dropAll n xs { h with objs := dec o :: rest }

/-- All references inside of objects. -/
def inner (h : Heap) : List Nat := h.objs.flatMap (·.kids)

/-- Dropping cannot need more steps than there are references. -/
def drops (xs : List Nat) (h : Heap) : Option Heap := dropAll (xs.length + (inner h).length) xs h

inductive Op where
  /-- a new object that takes over references -/
  | new (kids : List Nat)
  | clone (x : Nat)
  /-- a copy of the `i`th value of `x` -/
  | get (x i : Nat)
  | drop (x : Nat)
  /-- the reference `v` is put at the end of `x` -/
  | push (x v : Nat)
  /-- the `i`th value of `x` is taken out -/
  | takeOut (x i : Nat)
  /-- the `i`th value of `x` is replaced by the reference `v`, and dropped -/
  | set (x i v : Nat)
  deriving DecidableEq, Repr

/-- The references `xs` are taken out of the list. -/
def takeAll : List Nat → List Nat → Option (List Nat)
  | [], l => some l
  | x :: xs, l => if x ∈ l then takeAll xs (l.erase x) else none

/-- `impossible`: the program has no such reference; `ub`: undefined behavior, the use of freed memory. -/
inductive Res where
  | ok (h : Heap)
  | impossible
  | ub
  deriving DecidableEq, Repr

def ofOption : Option Heap → Res
  | some h => .ok h
  | none => .ub

/-- The program uses its reference to `x`. -/
def access (x : Nat) (h : Heap) (f : Obj → List Obj → Res) : Res :=
  if x ∈ h.roots then
    match take x h.objs with
    | some (o, rest) => f o rest
    | none => .ub
  else .impossible

/-- What the operations of values (lists, dicts, structs, closures, ...) do with references. All start with references the program has. -/
def step (h : Heap) : Op → Res
  | .new kids =>
    match takeAll kids h.roots with
    | some roots => .ok { h with objs := ⟨h.next, 1, kids⟩ :: h.objs, roots := h.next :: roots, next := h.next + 1 }
    | none => .impossible
  | .clone x => if x ∈ h.roots then ofOption (clone x h) else .impossible
  | .get x i => access x h fun o _ =>
    match o.kids[i]? with
    | some k => ofOption (clone k h)
    | none => .impossible
  | .drop x => if x ∈ h.roots then ofOption (drops [x] { h with roots := h.roots.erase x }) else .impossible
  | .push x v =>
    if v ∈ h.roots then access x h fun o rest => .ok { h with objs := { o with kids := o.kids ++ [v] } :: rest, roots := h.roots.erase v }
    else .impossible
  | .takeOut x i => access x h fun o rest =>
    match o.kids[i]? with
    | some k => .ok { h with objs := { o with kids := o.kids.eraseIdx i } :: rest, roots := k :: h.roots }
    | none => .impossible
  | .set x i v =>
    if v ∈ h.roots then access x h fun o rest =>
      match o.kids[i]? with
      | some k => ofOption (drops [k] { h with objs := { o with kids := o.kids.set i v } :: rest, roots := h.roots.erase v })
      | none => .impossible
    else .impossible

/-- A history; what is impossible changes nothing. -/
def run : Heap → List Op → Res
  | h, [] => .ok h
  | h, op :: ops =>
    match step h op with
    | .ok h' => run h' ops
    | .impossible => run h ops
    | .ub => .ub

def empty : Heap := ⟨[], [], 0, []⟩

end Cordy.Refs
