import Verif.Model.VM
/-!
# The block optimiser

Models `compiler/parser/core/optimizer.rs`.  The cursor of the source (a pointer into the block's opcodes) is the split of the list into
what has been passed and what remains; `next` moves on by one opcode, `at`, `peek`, `set` and `remove` look at what remains.
-/
namespace Cordy.VM

/-- models: vm/opcode.rs:12-145: the opcodes the optimiser looks at; all others are `other`. -/
inductive Op (O : Type) where
  | pop
  | popN (n : Nat)
  | pushLocal (i : Nat)
  | storeLocal (i : Nat) (pop : Bool)
  | pushGlobal (i : Nat)
  | storeGlobal (i : Nat) (pop : Bool)
  | pushUp (i : Nat)
  | storeUp (i : Nat)
  | other (o : O)
deriving DecidableEq

variable {O L : Type}

/-- models: optimizer.rs:40-50 `merge_store_pop_load`: a store, a `Pop` and a load of the same variable become the store -/
def mergeStorePopLoad : List (L × Op O) → List (L × Op O)
  | (l, .storeGlobal i false) :: (l1, .pop) :: (l2, .pushGlobal j) :: rest =>
    if i = j then (l, .storeGlobal i false) :: mergeStorePopLoad rest
    else (l, .storeGlobal i false) :: mergeStorePopLoad ((l1, .pop) :: (l2, .pushGlobal j) :: rest)
  | (l, .storeLocal i false) :: (l1, .pop) :: (l2, .pushLocal j) :: rest =>
    if i = j then (l, .storeLocal i false) :: mergeStorePopLoad rest
    else (l, .storeLocal i false) :: mergeStorePopLoad ((l1, .pop) :: (l2, .pushLocal j) :: rest)
  | (l, .storeUp i) :: (l1, .pop) :: (l2, .pushUp j) :: rest =>
    if i = j then (l, .storeUp i) :: mergeStorePopLoad rest
    else (l, .storeUp i) :: mergeStorePopLoad ((l1, .pop) :: (l2, .pushUp j) :: rest)
  | x :: rest => x :: mergeStorePopLoad rest
  | [] => []
termination_by l => l.length

/-- models: optimizer.rs:53-67 `merge_store_global_pop`: a store and a `Pop` become a store that pops -/
def mergeStorePop : List (L × Op O) → List (L × Op O)
  | (l, .storeGlobal i false) :: (_, .pop) :: rest => (l, .storeGlobal i true) :: mergeStorePop rest
  | (l, .storeLocal i false) :: (_, .pop) :: rest => (l, .storeLocal i true) :: mergeStorePop rest
  | x :: rest => x :: mergeStorePop rest
  | [] => []

/-- models: optimizer.rs:75-78: how many `Pop` follow, and what is after them -/
def takePops : List (L × Op O) → Nat × List (L × Op O)
  | (_, .pop) :: rest => ((takePops rest).1 + 1, (takePops rest).2)
  | rest => (0, rest)

theorem takePops_length : ∀ l : List (L × Op O), (takePops l).2.length ≤ l.length
  | [] => by simp [takePops]
  | (_, .pop) :: rest => by have := takePops_length rest; simp [takePops]; omega
  | (_, .popN _) :: rest => by simp [takePops]
  | (_, .pushLocal _) :: rest => by simp [takePops]
  | (_, .storeLocal _ _) :: rest => by simp [takePops]
  | (_, .pushGlobal _) :: rest => by simp [takePops]
  | (_, .storeGlobal _ _) :: rest => by simp [takePops]
  | (_, .pushUp _) :: rest => by simp [takePops]
  | (_, .storeUp _) :: rest => by simp [takePops]
  | (_, .other _) :: rest => by simp [takePops]

/-- models: optimizer.rs:70-85 `merge_pops` -/
def mergePops : List (L × Op O) → List (L × Op O)
  | (l, .pop) :: rest =>
    have := takePops_length rest
    if (takePops rest).1 + 1 > 1 then (l, .popN ((takePops rest).1 + 1)) :: mergePops (takePops rest).2
    else (l, .pop) :: mergePops rest
  | x :: rest => x :: mergePops rest
  | [] => []
termination_by l => l.length
decreasing_by all_goals simp_all <;> omega

/-- models: optimizer.rs:12-32 `optimize`, one block -/
def optBlock (b : List (L × Op O)) : List (L × Op O) := mergePops (mergeStorePop (mergeStorePopLoad b))

/-- models: optimizer.rs:12-32 `optimize` -/
def optimize {T : Type} (g : Graph.Code (Op O) T L) : Graph.Code (Op O) T L := g.map (fun b => { b with code := optBlock b.code })

/-! ## Running blocks, graphs and programs -/

variable {A W E T : Type}

/-- What any other opcode does: it ends with an outcome, or first runs a function of the program from one of its blocks (a call, `map`
calling its callback, ...) and goes on with the state that run leaves; an error of the run is an error of the opcode (Rust's `?`). -/
inductive Comp (A W E : Type) where
  | ret (r : Res E (St A W))
  | run (f blk : Nat) (s : St A W) (k : St A W → Comp A W E)

/-- The parts of the machine that are not fixed here: other opcodes, the tests of branches, the error of a variable that is not declared
yet. -/
structure Prims (A W E O T : Type) where
  other : O → St A W → Comp A W E
  test : T → St A W → Res E (St A W) × Bool
  undeclared : Nat → E

/-- models: vm/mod.rs:318-378: an opcode that is not `other` -/
def step (P : Prims A W E O T) : Op O → St A W → Comp A W E
  | .pop, s => .ret (pop s)
  | .popN n, s => .ret (popN n s)
  | .pushLocal i, s => .ret (pushLocal i s)
  | .storeLocal i p, s => .ret (storeLocal i p s)
  | .pushGlobal i, s => .ret (pushGlobal P.undeclared i s)
  | .storeGlobal i p, s => .ret (storeGlobal P.undeclared i p s)
  | .pushUp i, s => .ret (pushUp i s)
  | .storeUp i, s => .ret (storeUp i s)
  | .other o, s => P.other o s

/-- Go on after an opcode of a block. -/
def runCode (runComp : Comp A W E → Option (Res E (St A W))) (step : Op O → St A W → Comp A W E) : List (L × Op O) → St A W → Option (Res E (St A W))
  | [], s => some (.ok s)
  | (_, o) :: rest, s =>
    match runComp (step o s) with
    | some (.ok s') => runCode runComp step rest s'
    | r => r

/-- Run the functions an opcode asks for. -/
def runComp (runFn : Nat → Nat → St A W → Option (Res E (St A W))) : Comp A W E → Option (Res E (St A W))
  | .ret r => some r
  | .run f blk s k =>
    match runFn f blk s with
    | some (.ok s') => runComp runFn (k s')
    | r => r

/-- What follows a block. -/
def runEnd (runFn : Nat → St A W → Option (Res E (St A W))) (test : T → St A W → Res E (St A W) × Bool) (s : St A W) : Graph.End T → Option (Res E (St A W))
  | .exit => some (.ok s)
  | .next n => runFn n s
  | .branch ty d br =>
    match test ty s with
    | (.ok s', t) => runFn (if t then br else d) s'
    | (r, _) => some r

/-- Run function `f` of the program from block `blk`; `none` when the given number of blocks does not suffice. -/
def runFn (step : Op O → St A W → Comp A W E) (test : T → St A W → Res E (St A W) × Bool) (prog : List (Graph.Code (Op O) T L)) :
    Nat → Nat → Nat → St A W → Option (Res E (St A W))
  | 0, _, _, _ => none
  | n + 1, f, blk, s =>
    match (prog.getD f [])[blk]? with
    | none => some .panic
    | some b =>
      match runCode (runComp (runFn step test prog n)) step b.code s with
      | some (.ok s') => runEnd (runFn step test prog n f) test s' b.fin
      | r => r

end Cordy.VM
