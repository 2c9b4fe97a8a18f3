import Verif.Model.Program
/-!
# The block optimiser on whole programs

Models `compiler/parser/core/optimizer.rs` on the opcodes of `Model/Program.lean`, as `teardown` (parser/mod.rs:230-255) uses it with `--optimize`: on the blocks of the main program and of each function,
before they are laid out. (`Model/Peephole.lean`, C34, has the same passes on single opcodes of a more concrete machine.)

Simplified: the `Pop` at the beginning of the right side of `and` and `or` is an opcode of its own here, which is not merged; in Rust it never is, as it is the first one of its block, with the code of an expression after it.
-/
namespace Cordy.Program
open Cordy.Full (sig)
open Cordy.Stmts (Block Op Br emitProgram)
open Cordy.Graph (Instr)
variable {Γ : Codegen.Sig} {L : Type}

/-- Which opcodes variables have: `slot x = some i`: variable `x` is the `i`-th of the function that runs (`PushLocal(i)`, or `PushGlobal(i)` in the main program); `up x`: it is captured (`PushUpValue`, `StoreUpValue`). -/
structure Access (Γ : Codegen.Sig) where
  slot : Γ.X → Option Nat
  up : Γ.X → Bool

/-- models: optimizer.rs:44-46: a store and a load of the same variable. A variable in an expression is one of those in scope (`i < k`), and in the code of one block two expressions next to each other have the same ones (`k = k'`). -/
def sameVar [DecidableEq Γ.X] (A : Access Γ) : Op (sig Γ) → Op (sig Γ) → Bool
  | .store i, .load j => i == j
  | .store i, .x (k, .load x) => A.slot x == some i && decide (i < k)
  | .x (k, .store x), .load j => A.slot x == some j && decide (j < k)
  | .x (k, .store x), .x (k', .load y) => x == y && k == k'
  | _, _ => false

/-- models: optimizer.rs:40-50 `merge_store_pop_load` -/
def mergeStorePopLoad [DecidableEq Γ.X] (A : Access Γ) : List (L × Op (sig Γ)) → List (L × Op (sig Γ))
  | (l, a) :: (l1, .pop) :: (l2, b) :: rest =>
    if sameVar A a b then (l, a) :: mergeStorePopLoad A rest else (l, a) :: mergeStorePopLoad A ((l1, .pop) :: (l2, b) :: rest)
  | x :: rest => x :: mergeStorePopLoad A rest
  | [] => []
termination_by l => l.length

/-- models: optimizer.rs:53-67 `merge_store_global_pop` -/
def mergeStorePop (A : Access Γ) : List (L × Op (sig Γ)) → List (L × Op (sig Γ))
  | (l, .store i) :: (_, .pop) :: rest => (l, .storePop i) :: mergeStorePop A rest
  | (l, .x (k, .store x)) :: (l1, .pop) :: rest =>
    if A.up x then (l, .x (k, .store x)) :: mergeStorePop A ((l1, .pop) :: rest) else (l, .xPop (k, .store x)) :: mergeStorePop A rest
  | x :: rest => x :: mergeStorePop A rest
  | [] => []
termination_by l => l.length

/-- models: optimizer.rs:75-78: how many `Pop` follow, and what is after them -/
def takePops : List (L × Op (sig Γ)) → Nat × List (L × Op (sig Γ))
  | (_, .pop) :: rest => ((takePops rest).1 + 1, (takePops rest).2)
  | rest => (0, rest)

theorem takePops_length : ∀ l : List (L × Op (sig Γ)), (takePops l).2.length ≤ l.length
  | [] => by simp [takePops]
  | (_, o) :: rest => by
    have := takePops_length rest
    cases o <;> simp [takePops]
    omega

/-- models: optimizer.rs:70-85 `merge_pops` -/
def mergePops : List (L × Op (sig Γ)) → List (L × Op (sig Γ))
  | (l, .pop) :: rest =>
    have := takePops_length rest
    if (takePops rest).1 + 1 > 1 then (l, .popN ((takePops rest).1 + 1)) :: mergePops (takePops rest).2
    else (l, .pop) :: mergePops rest
  | x :: rest => x :: mergePops rest
  | [] => []
termination_by l => l.length
decreasing_by all_goals simp_all <;> omega

/-- models: optimizer.rs:12-32 `optimize`, one block -/
def optBlock [DecidableEq Γ.X] (A : Access Γ) (b : List (L × Op (sig Γ))) : List (L × Op (sig Γ)) := mergePops (mergeStorePop A (mergeStorePopLoad A b))

/-- models: optimizer.rs:12-32 `optimize` -/
def optGraph [DecidableEq Γ.X] (A : Access Γ) (g : Graph.Code (Op (sig Γ)) (Br (sig Γ)) L) : Graph.Code (Op (sig Γ)) (Br (sig Γ)) L := g.map fun b => { b with code := optBlock A b.code }

/-- models: parser/mod.rs:240-255 the loop of `teardown`, with `--optimize` -/
def linkFnsOpt [DecidableEq Γ.X] (A : Access Γ) (ph : Op (sig Γ)) (emit : Stmts.Em (sig Γ)) : List (Fn Γ) → List (Instr (Op (sig Γ)) (Br (sig Γ))) → List Unit → List (Instr (Op (sig Γ)) (Br (sig Γ))) × List (List Nat)
  | [], code, _ => (code, [])
  | F :: fs, code, locs =>
    let q := emitFn emit F.required F.defaults F.patterns F.body
    let out := Graph.emit ph () (optGraph A q.1.b.graph) code locs
    let rest := linkFnsOpt A ph emit fs out.1 out.2.1
    (rest.1, q.2.map (fun i => out.2.2.getD i 0) :: rest.2)

/-- models: parser/mod.rs:230-255 `teardown`, with `--optimize` -/
def linkOpt [DecidableEq Γ.X] (A : Access Γ) (ph : Op (sig Γ)) (emit : Stmts.Em (sig Γ)) (fns : List (Fn Γ)) (main : Block (sig Γ)) (pre : List (Instr (Op (sig Γ)) (Br (sig Γ)))) (locs : List Unit) : Linked Γ :=
  let out := Graph.emit ph () (optGraph A (emitProgram emit main).b.graph) pre locs
  let rest := linkFnsOpt A ph emit fns out.1 out.2.1
  ⟨rest.1, out.2.2.getD 0 0, rest.2⟩

end Cordy.Program
