import Verif.Model.Range
/-!
# Destructuring

Models `core/pattern.rs` and `LValue::do_build_pattern` (`compiler/parser/semantic.rs:571-622`) with `ExecPattern` (`vm/mod.rs:451-470`).

Simplified: local, global and captured variables are one kind of numbered variable, where a global may be not declared yet. Operand expressions of array and field targets (`a[i]`, `s->f`) are represented by
their values; the code emits them, from left to right, before the value that is destructured. Values other than strings, lists, vectors, dicts and structs are opaque, with a length or without. The default of a dict, and
borrow errors, are left out.
-/
namespace Cordy.Pattern

/-- Values: immutable ones, and references to mutable ones. -/
inductive HV where
  | int (i : Int)
  | str (s : List Char)
  | ref (a : Nat)
  /-- other values, with their length -/
  | other (n : Nat) (len : Option Nat)
  deriving DecidableEq, Repr

inductive Obj where
  | list (xs : List HV)
  | vector (xs : List HV)
  | dict (es : List (HV × HV))
  | struct (fs : List (Nat × HV))
  deriving DecidableEq, Repr

structure St where
  heap : List Obj
  vars : Nat → HV
  /-- the variable is declared (not needed for locals) -/
  declared : Nat → Bool

/-! ## Patterns in the source -/

mutual
/-- models: semantic.rs:313-345 `LValue`, after names are resolved. `arr`, `field` come with the values of their operands. -/
inductive LV where
  | empty
  | starEmpty
  | var (x : Nat)
  | star (x : Nat)
  | arr (a i : HV)
  | field (a : HV) (f : Nat)
  | terms (ts : LVs)
inductive LVs where
  | nil
  | cons (t : LV) (ts : LVs)
end

/-- models: semantic.rs:402-405 `is_variadic` -/
def LV.isStar : LV → Bool
  | .starEmpty | .star _ => true
  | _ => false

def LVs.anyStar : LVs → Bool
  | .nil => false
  | .cons t ts => t.isStar || ts.anyStar

def LVs.length : LVs → Nat
  | .nil => 0
  | .cons _ ts => ts.length + 1

/-! ## Compiled patterns -/

mutual
/-- models: pattern.rs:10-23 -/
inductive Pat where
  | mk (len : Nat) (variadic : Bool) (terms : Terms)
inductive Term where
  | index (i : Int) (x : Nat)
  | array (i : Int)
  | field (i : Int) (f : Nat)
  | slice (low high : Int) (x : Nat)
  | pattern (i : Int) (p : Pat)
inductive Terms where
  | nil
  | cons (t : Term) (ts : Terms)
end

/-- models: semantic.rs:577-578, the length of a pattern -/
def LVs.patLen (ts : LVs) : Nat := if ts.anyStar then ts.length - 1 else ts.length

mutual
/-- models: semantic.rs:585-619, the term for one target, if it needs one -/
def buildTerm (len : Nat) (index : Int) : LV → Option Term
  | .empty => none
  | .starEmpty => none
  | .arr _ _ => some (.array index)
  | .field _ f => some (.field index f)
  | .var x => some (.index index x)
  | .star x => some (.slice index (-(len - index)) x)
  | .terms ts => some (.pattern index (.mk ts.patLen ts.anyStar (buildTerms ts.patLen 0 ts)))
/-- models: semantic.rs:584-620, with the index of the next target -/
def buildTerms (len : Nat) (index : Int) : LVs → Terms
  | .nil => .nil
  | .cons t ts =>
    let next := if t.isStar then -(len - index) else index + 1
    match buildTerm len index t with
    | some u => .cons u (buildTerms len next ts)
    | none => buildTerms len next ts
end

/-- models: semantic.rs:571-581 `do_build_pattern` -/
def build (ts : LVs) : Pat := .mk ts.patLen ts.anyStar (buildTerms ts.patLen 0 ts)

mutual
/-- models: semantic.rs:595-603: the operands the code emits, in that order -/
def LV.operands : LV → List HV
  | .arr a i => [a, i]
  | .field a _ => [a]
  | .terms ts => ts.operands
  | _ => []
def LVs.operands : LVs → List HV
  | .nil => []
  | .cons t ts => t.operands ++ ts.operands
end

/-! ## Reading and storing -/

/-- models: mod.rs:402-414 `len` -/
def len (h : List Obj) : HV → Res Nat
  | .str s => .ok s.length
  | .int _ => .error .argIterable
  | .other _ (some n) => .ok n
  | .other _ none => .error .argIterable
  | .ref a => match h[a]? with
    | some (.list xs) | some (.vector xs) => .ok xs.length
    | some (.dict es) => .ok es.length
    | _ => .error .argIterable

def lookup (k : HV) : List (HV × HV) → Option HV
  | [] => none
  | (k', v) :: es => if k' = k then some v else lookup k es

/-- models: core/collections.rs:16-61 `get_index` with an int -/
def getIndex (h : List Obj) (v : HV) (i : Int) : Res HV :=
  match v with
  | .str s => do
    let k ← checkIndex (byteLen s) (.int i)
    match s[k]? with
    | some c => .ok (.str [c])
    | none => .error .panic
  | .ref a => match h[a]? with
    | some (.list xs) | some (.vector xs) => do
      let k ← checkIndex xs.length (.int i)
      match xs[k]? with
      | some e => .ok e
      | none => .error .panic
    | some (.dict es) => match lookup (.int i) es with
      | some e => .ok e
      | none => .error .keyNotPresent
    | _ => .error .argIndexable
  | _ => .error .argIndexable

/-- The operand of a slice: 0 stands for no upper bound (pattern.rs:93). -/
def highOf (high : Int) : Val := if high = 0 then .nil else .int high

/-- models: core/collections.rs:81-121 `get_slice` with step 1: a new object of the same kind -/
def getSlice (h : List Obj) (v : HV) (low high : Int) : Res (HV × List Obj) :=
  match v with
  | .str s => do let r ← sliceCore (byteLen s) s (.int low) (highOf high) (.int 1); .ok (.str r, h)
  | .ref a => match h[a]? with
    | some (.list xs) => do let r ← sliceCore xs.length xs (.int low) (highOf high) (.int 1); .ok (.ref h.length, h ++ [.list r])
    | some (.vector xs) => do let r ← sliceCore xs.length xs (.int low) (highOf high) (.int 1); .ok (.ref h.length, h ++ [.vector r])
    | _ => .error .argSliceable
  | _ => .error .argSliceable

/-- An operation that can fail; what was done before an error stays. -/
inductive Out where
  | ok (st : St) (stack : List HV)
  | err (e : Err) (st : St)

/-- models: vm/mod.rs:652-686 `store_local`, `store_global`, `store_upvalue` -/
def storeVar (x : Nat) (v : HV) (st : St) (stack : List HV) : Out :=
  if st.declared x then .ok { st with vars := fun y => if y = x then v else st.vars y } stack else .err .notDeclaredYet st

def insertEntry (k v : HV) : List (HV × HV) → List (HV × HV)
  | [] => [(k, v)]
  | (k', v') :: es => if k' = k then (k', v) :: es else (k', v') :: insertEntry k v es

/-- models: core/collections.rs:64-75 `set_index`: the new heap -/
def setIndex (h : List Obj) (a i v : HV) : Res (List Obj) :=
  let idx : Val := match i with
    | .int i => .int i
    | _ => .nil
  match a with
  | .ref a => match h[a]? with
    | some (.dict es) => .ok (h.set a (.dict (insertEntry i v es)))
    | some (.list xs) => do let k ← checkIndex xs.length idx; .ok (h.set a (.list (xs.set k v)))
    | some (.vector xs) => do let k ← checkIndex xs.length idx; .ok (h.set a (.vector (xs.set k v)))
    | _ => .error .argIndexable
  | .str s => do let _ ← checkIndex (byteLen s) idx; .error .argIndexable
  | _ => .error .argIndexable

/-- models: mod.rs:455-470 `set_field` -/
def setField (h : List Obj) (a : HV) (f : Nat) (v : HV) : Res (List Obj) :=
  match a with
  | .ref a => match h[a]? with
    | some (.struct fs) => if f ∈ fs.map (·.1) then .ok (h.set a (.struct (fs.map fun p => if p.1 = f then (f, v) else p))) else .error .fieldNotPresent
    | _ => .error .fieldNotPresent
  | _ => .error .fieldNotPresent

def withHeap (r : Res (List Obj)) (st : St) (stack : List HV) : Out :=
  match r with
  | .ok h => .ok { st with heap := h } stack
  | .error e => .err e st

/-- models: vm/mod.rs:688-692 `store_array` (an empty stack is a panic) -/
def storeArray (v : HV) (st : St) : List HV → Out
  | i :: a :: stack => withHeap (setIndex st.heap a i v) st stack
  | _ => .err .panic st

/-- models: vm/mod.rs:694-698 `store_field` -/
def storeField (f : Nat) (v : HV) (st : St) : List HV → Out
  | a :: stack => withHeap (setField st.heap a f v) st stack
  | _ => .err .panic st

def Out.bind (o : Out) (k : St → List HV → Out) : Out :=
  match o with
  | .ok st stack => k st stack
  | .err e st => .err e st

def reading {α : Type} (r : Res α) (st : St) (k : α → Out) : Out :=
  match r with
  | .ok v => k v
  | .error e => .err e st

/-- models: pattern.rs:109-116 `check_length` -/
def checkLength (patLen : Nat) (variadic : Bool) (h : List Obj) (v : HV) : Res Unit :=
  match len h v with
  | .error e => .error e
  | .ok n =>
    if variadic then (if patLen > n then .error .unpackGreater else .ok ())
    else (if patLen ≠ n then .error .unpackEqual else .ok ())

mutual
/-- models: pattern.rs:77-106 `apply` -/
def exec (v : HV) (st : St) (stack : List HV) : Pat → Out
  | .mk patLen variadic ts => reading (checkLength patLen variadic st.heap v) st fun _ => execTerms v st stack ts
/-- models: pattern.rs:80-104: the last term first -/
def execTerms (v : HV) (st : St) (stack : List HV) : Terms → Out
  | .nil => .ok st stack
  | .cons t ts => (execTerms v st stack ts).bind fun st stack => execTerm v st stack t
/-- models: pattern.rs:83-103 -/
def execTerm (v : HV) (st : St) (stack : List HV) : Term → Out
  | .index i x => reading (getIndex st.heap v i) st fun e => storeVar x e st stack
  | .array i => reading (getIndex st.heap v i) st fun e => storeArray e st stack
  | .field i f => reading (getIndex st.heap v i) st fun e => storeField f e st stack
  | .slice low high x => reading (getSlice st.heap v low high) st fun p => storeVar x p.1 { st with heap := p.2 } stack
  | .pattern i p => reading (getIndex st.heap v i) st fun e => exec e st stack p
end

end Cordy.Pattern
