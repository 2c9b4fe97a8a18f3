import Verif.Model.Graph
/-!
# The virtual machine: variables, the operand stack and closures

Models the parts of `vm/mod.rs` and `vm/value/func.rs` that move values between the operand stack, local and global variables and the
cells of closures.  Everything else a value can be is an abstract `atom`; everything else the machine owns (heap objects, input and
output, literal stack, unroll counters) is an abstract `world`.
-/
namespace Cordy.VM

/-- A value, as far as the machine looks at it. models: vm/value/ptr.rs:57-95 `Type` (the types the VM distinguishes itself); a closure is
a reference to a mutable object. -/
inductive Val (A : Type) where
  | atom (a : A)
  | func (id : Nat)
  | closure (addr : Nat)

/-- models: vm/value/func.rs:269-273 `UpValue` -/
inductive UpVal (A : Type) where
  | opened (index : Nat)
  | closed (v : Val A)

/-- models: vm/value/func.rs:205-214 `Closure`: the function, and the addresses of its cells -/
structure Closure where
  func : Nat
  env : List Nat

/-- models: vm/mod.rs:50-85 `VirtualMachine`. `stack` has the bottom first; `fp` is the `frame_pointer` of the top call frame;
`cells` are the allocated `Rc<Cell<UpValue>>`, `opens` is `open_upvalues`. -/
structure St (A W : Type) where
  stack : List (Val A)
  fp : Nat
  globals : Nat
  opens : Nat → Option Nat
  cells : List (UpVal A)
  closures : List Closure
  world : W

/-- The outcome of an operation: an error value, or a Rust panic (an index out of bounds or an `unwrap` of nothing). The state in which
an error is raised is kept. -/
inductive Res (E S : Type) where
  | ok (s : S)
  | err (e : E) (s : S)
  | panic

namespace Res
variable {E S : Type}
/-- models: Rust's `?` -/
def bind (r : Res E S) (f : S → Res E S) : Res E S :=
  match r with
  | ok s => f s
  | err e s => err e s
  | panic => panic
end Res

variable {A W E : Type}

/-- models: vm/mod.rs:1001-1007 `pop` -/
def pop (s : St A W) : Res E (St A W) := if s.stack = [] then .panic else .ok { s with stack := s.stack.dropLast }

/-- models: vm/mod.rs `push` -/
def push (s : St A W) (v : Val A) : St A W := { s with stack := s.stack ++ [v] }

/-- models: vm/mod.rs:321-325 `PopN`. In the release profile `len - n` wraps below zero, and then `truncate` does nothing. -/
def popN (n : Nat) (s : St A W) : Res E (St A W) := .ok { s with stack := if n ≤ s.stack.length then s.stack.take (s.stack.length - n) else s.stack }

/-- models: vm/mod.rs:328-332 `Swap` -/
def swap (s : St A W) : Res E (St A W) :=
  match s.stack[s.stack.length - 1]?, s.stack[s.stack.length - 2]? with
  | some a, some b => if 2 ≤ s.stack.length then .ok { s with stack := (s.stack.set (s.stack.length - 1) b).set (s.stack.length - 2) a } else .panic
  | _, _ => .panic

/-- models: `self.push(self.stack[i].clone())` -/
def pushAt (i : Nat) (s : St A W) : Res E (St A W) :=
  match s.stack[i]? with
  | some v => .ok (push s v)
  | none => .panic

/-- models: `self.stack[i] = v` -/
def storeAt (i : Nat) (v : Val A) (s : St A W) : Res E (St A W) :=
  if i < s.stack.length then .ok { s with stack := s.stack.set i v } else .panic

/-- models: vm/mod.rs:334-339 `PushLocal` -/
def pushLocal (i : Nat) (s : St A W) : Res E (St A W) := pushAt (s.fp + i) s

/-- models: vm/mod.rs:343, 363: the operand of a store: popped, or left where it is -/
def operand (p : Bool) (s : St A W) : Option (Val A × St A W) :=
  match s.stack.getLast? with
  | none => none
  | some v => some (v, if p then { s with stack := s.stack.dropLast } else s)

/-- models: vm/mod.rs:340-344 `StoreLocal`, 651-655 `store_local` -/
def storeLocal (i : Nat) (p : Bool) (s : St A W) : Res E (St A W) :=
  match operand p s with
  | none => .panic
  | some (v, s) => storeAt (s.fp + i) v s

/-- models: vm/mod.rs:345-354 `PushGlobal`; `e` is `ValueErrorVariableNotDeclaredYet` -/
def pushGlobal (e : Nat → E) (i : Nat) (s : St A W) : Res E (St A W) := if i < s.globals then pushAt i s else .err (e i) s

/-- models: vm/mod.rs:355-359 `StoreGlobal`, 657-665 `store_global` -/
def storeGlobal (e : Nat → E) (i : Nat) (p : Bool) (s : St A W) : Res E (St A W) :=
  match operand p s with
  | none => .panic
  | some (v, s) => if i < s.globals then storeAt i v s else .err (e i) s

/-- models: vm/mod.rs:361-362, 668-669: cell number `index` of the running closure (the value below the frame) -/
def cellOf (index : Nat) (s : St A W) : Option Nat :=
  match s.stack[s.fp - 1]? with
  | some (.closure a) =>
    match s.closures[a]? with
    | some c => c.env[index]?
    | none => none
  | _ => none

/-- models: vm/mod.rs:360-373 `PushUpValue` -/
def pushUp (index : Nat) (s : St A W) : Res E (St A W) :=
  match cellOf index s with
  | none => .panic
  | some c =>
    match s.cells[c]? with
    | some (.opened i) => pushAt i s
    | some (.closed v) => .ok (push s v)
    | none => .panic

/-- models: vm/mod.rs:374-378 `StoreUpValue`, 667-684 `store_upvalue` -/
def storeUp (index : Nat) (s : St A W) : Res E (St A W) :=
  match s.stack.getLast? with
  | none => .panic
  | some v =>
    match cellOf index s with
    | none => .panic
    | some c =>
      match s.cells[c]? with
      | some (.opened i) => storeAt i v s
      | some (.closed _) => .ok { s with cells := s.cells.set c (.closed v) }
      | none => .panic

/-- models: vm/mod.rs:388-390 `InitGlobal` -/
def initGlobal (s : St A W) : Res E (St A W) := .ok { s with globals := s.globals + 1 }

/-- models: vm/mod.rs:392-395 `Closure`: a new closure object without cells replaces the function on the stack -/
def mkClosure (s : St A W) : Res E (St A W) :=
  match s.stack.getLast? with
  | some (.func f) => .ok { s with stack := s.stack.dropLast ++ [.closure s.closures.length], closures := s.closures ++ [⟨f, []⟩] }
  | _ => .panic

/-- models: vm/value/func.rs:221-223 `Closure::push`, on the closure on top of the stack -/
def addCell (c : Nat) (s : St A W) : Res E (St A W) :=
  match s.stack.getLast? with
  | some (.closure a) =>
    if a < s.closures.length then .ok { s with closures := s.closures.modify a (fun k => { k with env := k.env ++ [c] }) } else .panic
  | _ => .panic

/-- models: vm/mod.rs:397-407 `CloseLocal` -/
def closeLocal (index : Nat) (s : St A W) : Res E (St A W) :=
  let slot := s.fp + index
  match s.opens slot with
  | some c => addCell c s
  | none =>
    addCell s.cells.length { s with cells := s.cells ++ [.opened slot], opens := fun i => if i = slot then some s.cells.length else s.opens i }

/-- models: vm/mod.rs:408-419 `CloseUpValue` -/
def closeUp (index : Nat) (s : St A W) : Res E (St A W) :=
  match cellOf index s with
  | some c => addCell c s
  | none => .panic

/-- models: vm/mod.rs:421-432 `LiftUpValue` -/
def lift (index : Nat) (s : St A W) : Res E (St A W) :=
  let slot := s.fp + index
  match s.opens slot with
  | none => .ok s
  | some c =>
    match s.stack[slot]?, s.cells[c]? with
    | some v, some (.opened _) => .ok { s with opens := fun i => if i = slot then none else s.opens i, cells := s.cells.set c (.closed v) }
    | _, _ => .panic

/-- models: vm/mod.rs:311 `Vec::swap_remove` -/
def swapRemove (xs : List (Val A)) (i : Nat) : List (Val A) :=
  match xs.getLast? with
  | none => []
  | some v => if i + 1 = xs.length then xs.dropLast else xs.dropLast.set i v

/-- models: vm/mod.rs:300-318 `Return`, as far as the stack is concerned; `fp` is the frame pointer of the frame returned to -/
def ret (fp : Nat) (s : St A W) : Res E (St A W) :=
  if s.fp = 0 ∨ s.stack.length < s.fp then .panic
  else .ok { s with stack := (swapRemove s.stack (s.fp - 1)).take s.fp, fp := fp }

/-- The operations on variables. `frame` is the part of a call that sets the frame pointer (vm/mod.rs:866-877 `call_function`). -/
inductive VOp (A : Type) where
  | push (v : Val A)
  | pop
  | swap
  | pushLocal (i : Nat)
  | storeLocal (i : Nat) (pop : Bool)
  | pushGlobal (i : Nat)
  | storeGlobal (i : Nat) (pop : Bool)
  | pushUp (i : Nat)
  | storeUp (i : Nat)
  | initGlobal
  | mkClosure
  | closeLocal (i : Nat)
  | closeUp (i : Nat)
  | lift (i : Nat)
  | frame (fp : Nat)
  | ret (fp : Nat)

/-- models: vm/mod.rs:300-480: one opcode -/
def cstep (e : Nat → E) : VOp A → St A W → Res E (St A W)
  | .push v, s => .ok (push s v)
  | .pop, s => pop s
  | .swap, s => swap s
  | .pushLocal i, s => pushLocal i s
  | .storeLocal i p, s => storeLocal i p s
  | .pushGlobal i, s => pushGlobal e i s
  | .storeGlobal i p, s => storeGlobal e i p s
  | .pushUp i, s => pushUp i s
  | .storeUp i, s => storeUp i s
  | .initGlobal, s => initGlobal s
  | .mkClosure, s => mkClosure s
  | .closeLocal i, s => closeLocal i s
  | .closeUp i, s => closeUp i s
  | .lift i, s => lift i s
  | .frame fp, s => .ok { s with fp := fp }
  | .ret fp, s => ret fp s

end Cordy.VM
