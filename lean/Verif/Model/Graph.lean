import Verif.Model.Err
/-!
# The control flow graph and its linearisation

Models `compiler/parser/core/graph.rs`.  Straight-line opcodes are an abstract type `O`, branch kinds an abstract type `T`
(`BranchType` without `Jump`, which graph.rs turns into `BlockEnd::Next`), source locations an abstract type `L`.
The names kept for disassembly (`locals`) are not modelled here.
-/
namespace Cordy.Graph

variable {O T L : Type}

/-- models: graph.rs:40-58 `BlockEnd` -/
inductive End (T : Type) where
  | exit
  | next (n : Nat)
  | branch (ty : T) (default branch : Nat)

/-- models: graph.rs:29-37 `Block` (the opcode ids are modelled in `Model/LateBinding.lean`) -/
structure Block (O T L : Type) where
  code : List (L × O)
  fin : End T

/-- models: vm/opcode.rs:12-25: an opcode of the linear code: straight-line, `Jump(offset)`, or a conditional jump. -/
inductive Instr (O T : Type) where
  | op (o : O)
  | jump (off : Int)
  | cjump (ty : T) (off : Int)
deriving DecidableEq

/-- models: graph.rs:60-63 `BranchType`: `none` is `Jump`. -/
abbrev BranchType (T : Type) := Option T

/-- models: graph.rs:331-338 `BlockEnd::branch` -/
def mkBranch (ty : BranchType T) (default branch : Nat) : End T :=
  match ty with
  | none => .next branch
  | some t => .branch t default branch

/-! ## Building the graph -/

/-- models: graph.rs:16-20 `Code` -/
abbrev Code (O T L : Type) := List (Block O T L)

/-- models: graph.rs:138-143 `Code::new` -/
def new : Code O T L := [⟨[], .exit⟩]

/-- models: graph.rs:217-225 `push`: to the last block -/
def push (g : Code O T L) (l : L) (o : O) : Code O T L := g.modify (g.length - 1) (fun b => { b with code := b.code ++ [(l, o)] })

/-- models: graph.rs:322-326 `Block::end` -/
def setEnd (g : Code O T L) (i : Nat) (e : End T) : Code O T L := g.modify i (fun b => { b with fin := e })

/-- models: graph.rs:234-238 `branch_forward`: the new code, and the block whose end is filled in later -/
def branchForward (g : Code O T L) : Code O T L × Nat := (g ++ [⟨[], .exit⟩], g.length - 1)

/-- models: graph.rs:241-248 `join_forward` -/
def joinForward (g : Code O T L) (i : Nat) (ty : BranchType T) : Code O T L :=
  setEnd (setEnd g (g.length - 1) (.next g.length)) i (mkBranch ty (i + 1) g.length) ++ [⟨[], .exit⟩]

/-- models: graph.rs:256-261 `branch_reverse` -/
def branchReverse (g : Code O T L) : Code O T L × Nat := (setEnd g (g.length - 1) (.next g.length) ++ [⟨[], .exit⟩], g.length)

/-- models: graph.rs:264-270 `join_reverse` -/
def joinReverse (g : Code O T L) (i : Nat) (ty : BranchType T) : Code O T L :=
  setEnd g (g.length - 1) (mkBranch ty g.length i) ++ [⟨[], .exit⟩]

/-! ## Emitting -/

/-- models: graph.rs:150-152: the state of the first loop of `emit` -/
structure Emit (O T L : Type) where
  code : List (Instr O T)
  locs : List L
  starts : List Nat
  branches : List (Nat × Nat × BranchType T)

/-- models: graph.rs:170-174: record a branch and push a placeholder (`Opcode::placeholder()`, here `ph`) -/
def hole (ph : O) (noLoc : L) (e : Emit O T L) (target : Nat) (ty : BranchType T) : Emit O T L :=
  { e with branches := e.branches ++ [(e.code.length, target, ty)], code := e.code ++ [.op ph], locs := e.locs ++ [noLoc] }

/-- models: graph.rs:156-166: the opcodes of a block -/
def emitOps (e : Emit O T L) (b : Block O T L) : Emit O T L :=
  { e with starts := e.starts ++ [e.code.length], code := e.code ++ b.code.map (fun p => .op p.2), locs := e.locs ++ b.code.map Prod.fst }

/-- models: graph.rs:169-190: the end of block `id` -/
def emitEnd (ph : O) (noLoc : L) (e : Emit O T L) (id : Nat) : End T → Emit O T L
  | .exit => e
  | .next n => if id + 1 ≠ n then hole ph noLoc e n none else e
  | .branch ty default branch =>
    let e := hole ph noLoc e branch (some ty)
    if id + 1 ≠ default then hole ph noLoc e default none else e

/-- models: graph.rs:154-191: the first loop, from block `id` -/
def emitBlocks (ph : O) (noLoc : L) : Nat → Emit O T L → Code O T L → Emit O T L
  | _, e, [] => e
  | id, e, b :: bs => emitBlocks ph noLoc (id + 1) (emitEnd ph noLoc (emitOps e b) id b.fin) bs

/-- A signed 32-bit number. -/
def i32 (i : Int) : Int := (i + 2 ^ 31) % 2 ^ 32 - 2 ^ 31

/-- models: graph.rs:194-209: the opcode for a branch at `index` to position `start` -/
def patchInstr (start index : Nat) (ty : BranchType T) : Instr O T :=
  let off := i32 (i32 (i32 start - i32 index) - 1)
  match ty with
  | none => .jump off
  | some t => .cjump t off

/-- models: graph.rs:193-210: the second loop -/
def patch (starts : List Nat) : List (Nat × Nat × BranchType T) → List (Instr O T) → List (Instr O T)
  | [], code => code
  | (index, target, ty) :: bs, code => patch starts bs (code.set index (patchInstr (starts.getD target 0) index ty))

/-- models: graph.rs:149-214 `emit`: appends to the code and locations, and returns the start of every block -/
def emit (ph : O) (noLoc : L) (g : Code O T L) (code : List (Instr O T)) (locs : List L) : List (Instr O T) × List L × List Nat :=
  let e := emitBlocks ph noLoc 0 ⟨code, locs, [], []⟩ g
  (patch e.starts e.branches e.code, e.locs, e.starts)

/-! ## Running -/

/-- The meaning of the opcodes on machine states: an opcode gives the next state or stops with a result (`Return`, `Exit`, an error);
a branch kind tells whether to jump, and the next state, or stops. -/
structure Sem (O T S R : Type) where
  op : O → S → Except R S
  test : T → S → Except R (Bool × S)

/-- What is seen of a run. -/
inductive Event (O T S : Type) where
  | op (o : O) (before : S)
  | test (ty : T) (before : S)

variable {S R : Type}

/-- models: vm/mod.rs:295-330 (the fetch of the interpreter loop, and its jumps): one step of the linear code at `ip`. `none` when `ip`
is outside of the code. -/
def lstep (sem : Sem O T S R) (code : List (Instr O T)) (ip : Nat) (s : S) : Option (List (Event O T S) × Except R (Int × S)) :=
  match code[ip]? with
  | none => none
  | some (.op o) => some ([.op o s], (sem.op o s).map (fun s' => ((ip : Int) + 1, s')))
  | some (.jump off) => some ([], .ok ((ip : Int) + 1 + off, s))
  | some (.cjump ty off) => some ([.test ty s], (sem.test ty s).map (fun p => (if p.1 then (ip : Int) + 1 + off else (ip : Int) + 1, p.2)))

end Cordy.Graph
