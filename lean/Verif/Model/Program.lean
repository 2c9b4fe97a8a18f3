import Verif.Spec.Calls
/-!
# Programs with functions: one code, one machine with frames

Puts together the code of statements and expressions (`Model/Full.lean`), the layout of the functions of a program (parser/mod.rs:230-255), and the frames of
the virtual machine (vm/mod.rs:700-860): a call of a function of the program pushes a frame and goes on at the first opcode of the function; `Return` goes back.

Simplified: the stack of the machine is in pieces: the variables of the function that runs with its operands (`Mach.st`), the variables of its callers (`World`), their operands
(`Frame.rest`). A native function that calls functions (Rust: a nested `run_frame`) is a process (`Proc`) that goes on when the function returns. How arguments are matched to
parameters is C40 (`ask` gives at most as many as there are parameters, the surplus of a variadic function collected). The destructuring of a pattern is one opcode (C39).
-/
namespace Cordy.Program
open Cordy.Codegen (Out Prims LitTy)
open Cordy.Full (Runtime Vars sig St decode encode machine em)
open Cordy.Stmts (Block Op Br emitBody emitProgram)
open Cordy.Graph (Instr)
open Cordy.Builder (Bld)
variable {Γ : Codegen.Sig} {E S : Type}

/-! ## Layout -/

/-- models: parser/mod.rs:620-624: the default values, each followed by a new block, at which a call with one more argument enters; the first has `k` parameters before it -/
def emitDefaults {Δ : Stmts.Sig} (emit : Stmts.Em Δ) : Nat → List Δ.X → Bld (Op Δ) (Br Δ) → Bld (Op Δ) (Br Δ) × List Nat
  | _, [], b => (b, [])
  | k, e :: es, b =>
    let b := emit k e b
    let rest := emitDefaults emit (k + 1) es b.branchReverse
    (rest.1, (b.done.length + 1) :: rest.2)

/-- models: parser/mod.rs:649-655: the arguments are destructured -/
def emitPatterns {Δ : Stmts.Sig} : List (Nat × Option (Nat × Δ.P)) → Stmts.PS Δ → Stmts.PS Δ
  | [], ps => ps
  | (i, none) :: pats, ps => emitPatterns pats ((ps.push (.load i)).push .pop)
  | (i, some (_, p)) :: pats, ps => emitPatterns pats (((ps.push (.load i)).push (.pattern p)).push .pop)

/-- models: parser/mod.rs:616-655: the part of the code of a function before its body, and the blocks at which calls enter: with as few arguments as possible, with one more, and so on (semantic.rs:676-689, func.rs:80-88 `jump_offset`). The names of patterns are variables after the parameters, `nil` at first. -/
def emitParams {Δ : Stmts.Sig} (emit : Stmts.Em Δ) (required : Nat) (defaults : List Δ.X) (pats : List (Nat × Option (Nat × Δ.P))) : Stmts.PS Δ × List Nat :=
  let d := emitDefaults emit required defaults .empty
  (emitPatterns pats (Stmts.PS.nils ⟨d.1, List.replicate (required + defaults.length + names pats) 1, 2, false, []⟩ (names pats)), 0 :: d.2)

/-- models: parser/mod.rs:606-700 `parse_function_body`: the code of a function, and the blocks at which calls enter -/
def emitFn {Δ : Stmts.Sig} (emit : Stmts.Em Δ) (required : Nat) (defaults : List Δ.X) (pats : List (Nat × Option (Nat × Δ.P))) (body : Block Δ) : Stmts.PS Δ × List Nat :=
  let q := emitParams emit required defaults pats
  let ps := Stmts.emitB emit body q.1
  let ps := if ps.flag then ps else ps.push .nil
  (ps.push .ret, q.2)

/-- models: parser/mod.rs:243-255 the loop of `teardown`: the code of the functions, each after the others; and where calls of each enter -/
def linkFns (ph : Op (sig Γ)) (emit : Stmts.Em (sig Γ)) : List (Fn Γ) → List (Instr (Op (sig Γ)) (Br (sig Γ))) → List Unit → List (Instr (Op (sig Γ)) (Br (sig Γ))) × List (List Nat)
  | [], code, _ => (code, [])
  | F :: fs, code, locs =>
    let q := emitFn emit F.required F.defaults F.patterns F.body
    let out := Graph.emit ph () q.1.b.graph code locs
    let rest := linkFns ph emit fs out.1 out.2.1
    (rest.1, q.2.map (fun i => out.2.2.getD i 0) :: rest.2)

/-- The code of a program: where the main program begins, where calls of the functions enter. -/
structure Linked (Γ : Codegen.Sig) where
  code : List (Instr (Op (sig Γ)) (Br (sig Γ)))
  main : Nat
  fns : List (List Nat)

/-- models: parser/mod.rs:230-255 `teardown`: the main program, then the functions, after the code that is there already -/
def link (ph : Op (sig Γ)) (emit : Stmts.Em (sig Γ)) (fns : List (Fn Γ)) (main : Block (sig Γ)) (pre : List (Instr (Op (sig Γ)) (Br (sig Γ)))) (locs : List Unit) : Linked Γ :=
  let out := Graph.emit ph () (emitProgram emit main).b.graph pre locs
  let rest := linkFns ph emit fns out.1 out.2.1
  ⟨rest.1, out.2.2.getD 0 0, rest.2⟩

/-! ## The machine -/

/-- models: vm/mod.rs:85-95 `CallFrame`: where to go on, how many variables the caller has, its operands (without the function and its arguments), and what is done with the result -/
structure Frame (Γ : Codegen.Sig) (E S : Type) where
  ip : Nat
  k : Nat
  rest : List Γ.V
  next : Γ.V → World Γ.V S → Proc Γ.V E (World Γ.V S)

/-- models: vm/mod.rs:60-83 `VirtualMachine`: the next opcode, the frame of the function that runs, the frames of its callers -/
structure Config (Γ : Codegen.Sig) (E S : Type) where
  ip : Nat
  m : Stmts.Mach (sig Γ) (St Γ (World Γ.V S))
  frames : List (Frame Γ E S)

/-- The machine runs, or has stopped. -/
inductive State (Γ : Codegen.Sig) (E S : Type) where
  | run (c : Config Γ E S)
  | stop (r : Stmts.Stop (sig Γ) (St Γ (World Γ.V S)) (Full.Bad Γ.V E (World Γ.V S)))

/-- The opcodes that may need the code of a function (vm/mod.rs: `Call`, `OpIndex`, `OpIndexPeek`): what they ask for, what is left on the stack, and the counters of spread arguments. -/
def asks {W : Type} : Codegen.Op Γ → Codegen.Mach Γ W → Option (Ask Γ.V × List Γ.V × List Int)
  | .call n any, m =>
    match (if any then match m.unroll with | k :: us => some (((n : Int) + k).toNat, us) | [] => none else some (n, m.unroll)) with
    | some (k, us) =>
      match m.stack.drop k with
      | f :: st => if k ≤ m.stack.length then some (.call f (m.stack.take k).reverse, st, us) else none
      | [] => none
    | none => none
  | .index, m => match m.stack with
    | i :: a :: st => some (.index a i, st, m.unroll)
    | _ => none
  | .indexPeek, m => match m.stack with
    | i :: a :: st => some (.index a i, i :: a :: st, m.unroll)
    | _ => none
  | _, _ => none

/-- How many variables the main program has, if the function that runs has `k`. -/
def bottom (k : Nat) : List (Frame Γ E S) → Nat
  | [] => k
  | fr :: frames => bottom fr.k frames

/-- What is known of the variables of the main program after an error in a call: they are in the world. -/
def botOf (P : Prog Γ E S) (k : Nat) (frames : List (Frame Γ E S)) (w : World Γ.V S) : List Γ.V := P.base.bot (nils (bottom k frames) P.base.nil).1 w

/-- An error of a native function, called by a function with `k` variables. -/
def bad (P : Prog Γ E S) (k : Nat) (frames : List (Frame Γ E S)) (r : Codegen.Stop E) (w : World Γ.V S) : State Γ E S := .stop (.err (r, w, botOf P k frames w))

/-- An error of an opcode: in a function, the variables of the main program are in the world. -/
def unwind (P : Prog Γ E S) : List (Frame Γ E S) → Stmts.Stop (sig Γ) (St Γ (World Γ.V S)) (Full.Bad Γ.V E (World Γ.V S)) → Stmts.Stop (sig Γ) (St Γ (World Γ.V S)) (Full.Bad Γ.V E (World Γ.V S))
  | fr :: frames, .err (r, w, _) => .err (r, w, botOf P fr.k frames w)
  | _, r => r

/-- models: vm/mod.rs:700-860 `invoke`: the result is pushed, or a frame is -/
def proceed (P : Prog Γ E S) (starts : List (List Nat)) (ip k : Nat) (rest : List Γ.V) (lits : List (LitTy × List Γ.V)) (unroll : List Int) (frames : List (Frame Γ E S)) : Proc Γ.V E (World Γ.V S) → State Γ E S
  | .done (.ok v (vs :: ws, s)) => if vs.length = k then .run ⟨ip, ⟨vs ++ rest ++ [v], ⟨lits, unroll, (ws, s)⟩⟩, frames⟩ else bad P k frames .panic (vs :: ws, s)
  | .done (.ok _ ([], s)) => bad P k frames .panic ([], s)
  | .done (.stop r w) => bad P k frames r w
  | .enter fn args w next =>
    match P.fns[fn]?, starts[fn]? with
    | some F, some ips =>
      if F.required ≤ args.length then
        match ips[args.length - F.required]? with
        | some ip' => .run ⟨ip', ⟨args, ⟨lits, unroll, w⟩⟩, ⟨ip, k, rest, next⟩ :: frames⟩
        | none => bad P k frames .panic w
      else bad P k frames .panic w
    | _, _ => bad P k frames .panic w

/-- models: vm/mod.rs:308-316 `Return`: back to the caller (in the main program there is none) -/
def resume (P : Prog Γ E S) (starts : List (List Nat)) (v : Γ.V) (t : St Γ (World Γ.V S)) : List (Frame Γ E S) → State Γ E S
  | [] => .stop (.ret v t)
  | fr :: frames => proceed P starts fr.ip fr.k fr.rest t.lits t.unroll frames (fr.next v t.s)

/-- An opcode that concerns only the frame of the function that runs. -/
def ownStep (P : Prog Γ E S) (code : List (Instr (Op (sig Γ)) (Br (sig Γ)))) (c : Config Γ E S) : State Γ E S :=
  match Graph.lstep (Stmts.sem (machine P.base id)) code c.ip c.m with
  | some (_, .ok (.ofNat ip, m)) => .run ⟨ip, m, c.frames⟩
  | some (_, .ok (.negSucc _, _)) => .stop .crash
  | some (_, .error r) => .stop (unwind P c.frames r)
  | none => .stop .crash

/-- models: vm/mod.rs:262-645: one opcode -/
def step (P : Prog Γ E S) (code : List (Instr (Op (sig Γ)) (Br (sig Γ)))) (starts : List (List Nat)) (c : Config Γ E S) : State Γ E S :=
  match code[c.ip]? with
  | some (.op (.x (k, o))) =>
    match decode k c.m with
    | some d =>
      match asks o d with
      | some (a, st, us) => proceed P starts (c.ip + 1) k st.reverse c.m.s.lits us c.frames (P.ask a (d.s.1.1 :: d.s.2.1, d.s.2.2))
      | none => ownStep P code c
    | none => ownStep P code c
  | some (.op .ret) =>
    match c.m.st.getLast? with
    | some v => resume P starts v c.m.s c.frames
    | none => .stop .crash
  | _ => ownStep P code c

/-- `n` opcodes, or less if it stops. -/
def steps (P : Prog Γ E S) (code : List (Instr (Op (sig Γ)) (Br (sig Γ)))) (starts : List (List Nat)) : Nat → State Γ E S → State Γ E S
  | 0, x => x
  | n + 1, .run c => steps P code starts n (step P code starts c)
  | _ + 1, .stop r => .stop r

/-- The machine, started at the main program with an empty stack, stops with `r`. -/
def Stops (P : Prog Γ E S) (L : Linked Γ) (s : S) (r : Stmts.Stop (sig Γ) (St Γ (World Γ.V S)) (Full.Bad Γ.V E (World Γ.V S))) : Prop :=
  ∃ n, steps P L.code L.fns n (.run ⟨L.main, ⟨[], ⟨[], [], ([], s)⟩⟩, []⟩) = .stop r

end Cordy.Program
