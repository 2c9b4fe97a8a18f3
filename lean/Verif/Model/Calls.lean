/-!
# Calling functions

Models `vm/value/func.rs` (`Function`, `PartialFunction`), the parameter lists of `compiler/parser/mod.rs` and `invoke`, `call_function`, `Return`, `run` and
the callbacks of `vm/mod.rs`.

Values, the heap with everything else outside of the operand stack (`S`) and what native functions compute (`N`) are parameters.
-/
namespace Cordy.Calls

/-- models: func.rs:20-46 `Function`: the address of its code, the number of parameters (`args.len()`), the offset in its code of the end of each default
argument, and whether the last parameter is variadic. -/
structure Func where
  head : Nat
  nparams : Nat
  defaults : List Nat
  variadic : Bool
  deriving DecidableEq, Repr

namespace Func
/-- models: func.rs:54-56 `min_args`. `(a - b) as u32` with `a : usize`: in the release profile the subtraction wraps. -/
def min (f : Func) : Nat :=
  if f.defaults.length ≤ f.nparams then f.nparams - f.defaults.length else 4294967296 - (f.defaults.length - f.nparams)
/-- models: func.rs:59-61 `max_args` -/
def max (f : Func) : Nat := f.nparams
/-- models: func.rs:63-65 `in_range` -/
def inRange (f : Func) (n : Nat) : Bool := decide (f.min ≤ n) && (f.variadic || decide (n ≤ f.max))
/-- models: func.rs:68-74 `num_var_args` -/
def numVarArgs (f : Func) (n : Nat) : Option Nat :=
  if f.variadic && decide (f.max ≤ n) then some (n + 1 - f.max) else none
/-- models: func.rs:79-87 `jump_offset`; `none` is a panic -/
def jumpOffset (f : Func) (n : Nat) : Option Nat :=
  if n = f.min then some (f.head + 0)
  else if f.variadic && decide (f.max ≤ n) then (f.defaults.getLast?).map (f.head + ·)
  else (f.defaults[n - f.min - 1]?).map (f.head + ·)
end Func

/-! ## Parameter lists -/

/-- One parameter as it is written: `a` (or a pattern), `a = e`, `a?` (that is `a = nil`), `*a`, `*a = e`. -/
inductive Param (E : Type) where
  | plain
  | default (e : E)
  | star
  | starDefault (e : E)
  deriving DecidableEq, Repr

/-- models: compiler/parser/mod.rs `ParserFunctionParameters`: how many there are, the default expressions and whether it is variadic. An `E` which is `none` is the empty
vector, the default of a variadic parameter. `ok` is false when a semantic error was reported. -/
structure Params (E : Type) where
  count : Nat := 0
  defaults : List (Option E) := []
  variadic : Bool := false
  ok : Bool := true
  deriving DecidableEq, Repr

/-- models: mod.rs:549-590, the part of the loop of `parse_function_parameters` for one parameter, not restricted: first the target, then its default -/
def addParam {E : Type} (q : Params E) (p : Param E) : Params E :=
  match p with
  | .star => { q with count := q.count + 1, defaults := q.defaults ++ [none], variadic := true }
  | .starDefault e => { q with count := q.count + 1, defaults := q.defaults ++ [none, some e], variadic := true }
  | .plain => { q with
      count := q.count + 1
      ok := q.ok && !q.variadic && (q.variadic || q.defaults.isEmpty) }
  | .default e => { q with
      count := q.count + 1
      defaults := q.defaults ++ [some e]
      ok := q.ok && !q.variadic }

/-- models: mod.rs:512-600 `parse_function_parameters` -/
def parseParams {E : Type} (ps : List (Param E)) : Params E := ps.foldl addParam {}

/-- models: mod.rs:228-258 (`teardown`: the offsets), 619-625: the code of a function is that of its default arguments and then that of its body; the offset for a default argument is
that of the block after it. -/
def mkFunc {E I : Type} (head : Nat) (q : Params E) (code : Option E → List I) : Func where
  head := head
  nparams := q.count
  defaults := (List.range q.defaults.length).map fun j => ((q.defaults.take (j + 1)).flatMap code).length
  variadic := q.variadic

/-! ## The machine -/

/-- What calling a value does: a user function or closure, a partial user function, a native function or memoized function (which may call back;
`keeps` says whether the function value stays on the stack meanwhile), or a value whose evaluation needs no further calls (`List`, `Slice`, `StructType`, `GetField`, native
functions without callbacks; `none` for an error). -/
inductive Callee (V S N : Type) where
  | user (f : Func)
  | part (fv : V) (f : Func) (args : List V)
  | native (keeps : Bool) (start : List V → N)
  | prim (run : List V → S → Option (V × S))

/-- One instruction. `op` stands for all that do not call or return: it knows its address, reads the whole stack (below the frame, the frame's own part), replaces the frame's own part, and may write single
slots below it (global variables and open captured variables). -/
inductive Instr (V S : Type) where
  | op (run : Nat → List V → List V → S → Option (Nat × List V × List (Nat × V) × S))
  | call (n : S → Nat)
  | ret

/-- What a native function does next: give its result, fail, go on, call a function with arguments and wait for its value, run code that was compiled by `eval`. -/
inductive Action (V S N : Type) where
  | done (v : V)
  | fail
  | tau (n : N) (s : S)
  | callback (f : V) (args : List V)
  | eval (head : Nat)

structure Machine (V S N : Type) where
  callee : V → Callee V S N
  vector : List V → V
  nil : V
  /-- `to_partial`, func.rs:172 -/
  mkPartial : V → List V → V
  callee_partial : ∀ fv f args, callee fv = .user f → callee (mkPartial fv args) = .part fv f args
  code : S → Nat → Option (Instr V S)
  act : N → S → Action V S N
  /-- the native function after a callback or `eval` gave a value -/
  resume : N → V → N

/-- models: vm/mod.rs `CallFrame` -/
structure Frame where
  ret : Nat
  fp : Nat
  deriving DecidableEq, Repr

/-- The activations of the interpreter on the host's stack: the loop of `run` with its `drop_frame` (vm/mod.rs:239), or a native function;
`evals` says that it is waiting for `eval`'s code. -/
inductive Host (N : Type) where
  | loop (drop : Nat)
  | native (keeps evals : Bool) (n : N)

/-- The operand stack has its bottom first; the frames and the activations have the newest first. -/
structure Cfg (V S N : Type) where
  ip : Nat
  stack : List V
  frames : List Frame
  hosts : List (Host N)
  st : S

variable {V S N : Type}

/-- models: vm/mod.rs:1031-1035 `splice` of the topmost `n`: what is left, what is taken -/
def splice (stack : List V) (n : Nat) : List V × List V :=
  (stack.take (stack.length - n), stack.drop (stack.length - n))

/-- models: vm/mod.rs:1044-1048 `insert` -/
def insert (stack args : List V) (n : Nat) : List V :=
  stack.take (stack.length - n) ++ args ++ stack.drop (stack.length - n)

/-- models: vm/mod.rs:866-877 `call_function`: the new frame and stack -/
def callFunction (M : Machine V S N) (ip : Nat) (stack : List V) (nargs : Nat) (va : Option Nat) : Frame × List V :=
  (⟨ip, stack.length - nargs⟩,
    match va with
    | some k => (splice stack k).1 ++ [M.vector (splice stack k).2]
    | none => stack)

/-- The outcome of `invoke`: a frame was entered at an address; it is complete; a native function starts; an error; a panic. -/
inductive Invoked (V S N : Type) where
  | user (ip : Nat) (frame : Frame) (stack : List V)
  | done (stack : List V) (s : S)
  | native (keeps : Bool) (n : N) (stack : List V)
  | arity (nargs : Nat)
  | error
  | panic

def enter (f : Func) (nargs : Nat) (p : Frame × List V) : Invoked V S N :=
  match f.jumpOffset nargs with
  | some ip => .user ip p.1 p.2
  | none => .panic

/-- models: vm/mod.rs:727-744 `invoke`, a function or closure -/
def invokeUser (M : Machine V S N) (ip : Nat) (s : S) (stack : List V) (f : Func) (n : Nat) : Invoked V S N :=
  if f.inRange n then enter f n (callFunction M ip stack n (f.numVarArgs n))
  else if n < f.min then
    if 0 < n then
      match (splice stack n).1.getLast? with
      | some fv => .done ((splice stack n).1.dropLast ++ [M.mkPartial fv (splice stack n).2]) s
      | none => .panic
    else .done stack s
  else .arity n

/-- models: vm/mod.rs:745-777 `invoke`, a partial function. The number of variadic arguments is computed from `nargs`, the number of arguments of this call (line 766). -/
def invokePartial (M : Machine V S N) (ip : Nat) (s : S) (stack : List V) (fv : V) (f : Func) (args : List V) (n : Nat) : Invoked V S N :=
  let i := stack.length - n - 1
  let total := args.length + n
  if total < f.min then .done ((splice stack n).1.dropLast ++ [M.mkPartial fv (args ++ (splice stack n).2)]) s
  else if f.inRange total then
    let stack := insert (stack.set i fv) args n
    enter f total (callFunction M ip stack total (f.numVarArgs n))
  else .arity total

/-- models: vm/mod.rs:720-862 `invoke` -/
def invoke (M : Machine V S N) (ip : Nat) (s : S) (stack : List V) (n : Nat) : Invoked V S N :=
  match (splice stack n).1.getLast? with
  | none => .panic
  | some f =>
    match M.callee f with
    | .user fn => invokeUser M ip s stack fn n
    | .part fv fn args => invokePartial M ip s stack fv fn args n
    | .native keeps start =>
      .native keeps (start (splice stack n).2) (if keeps then (splice stack n).1 else (splice stack n).1.dropLast)
    | .prim run =>
      match run (splice stack n).2 s with
      | some (v, s') => .done ((splice stack n).1.dropLast ++ [v]) s'
      | none => .error

/-- Writes to single slots. -/
def writeAll (stack : List V) (ws : List (Nat × V)) : List V := ws.foldl (fun st w => st.set w.1 w.2) stack

/-- models: vm/mod.rs:300-318 `Return`, on the stack: `swap_remove(fp - 1)`, `truncate(fp)`. `none` is a panic: nothing above the frame pointer, or no function below it (the code of
a function leaves its result on the stack: C36). -/
def popFrame (stack : List V) (fp : Nat) : Option (List V) :=
  match stack.getLast? with
  | some v => if 0 < fp ∧ fp < stack.length then some ((stack.dropLast.set (fp - 1) v).take fp) else none
  | none => none

/-- The activation below a finished one takes the value from the top of the stack: the loop leaves it there (vm/mod.rs `Call`); `invoke_and_spin` (697-703) pops it for a native function;
`invoke_eval` (924-933) pops it and pushes `nil`. -/
def deliver (M : Machine V S N) (c : Cfg V S N) : Option (Cfg V S N) :=
  match c.hosts with
  | .native keeps evals n :: hs =>
    match c.stack.getLast? with
    | some v => some { c with
        stack := if evals then c.stack.dropLast ++ [M.nil] else c.stack.dropLast
        hosts := .native keeps false (M.resume n v) :: hs }
    | none => none
  | _ => some c

/-- After `invoke`: `Call` in the loop (spin false: the loop just goes on) or `invoke_and_spin` for a callback (spin true: it runs a new loop). -/
def afterInvoke (M : Machine V S N) (c : Cfg V S N) (spin : Bool) : Invoked V S N → Option (Cfg V S N)
  | .user ip fr stack => some { c with
      ip := ip, frames := fr :: c.frames, stack := stack
      hosts := if spin then .loop c.frames.length :: c.hosts else c.hosts }
  | .done stack s => deliver M { c with stack := stack, st := s }
  | .native keeps n stack => some { c with hosts := .native keeps false n :: c.hosts, stack := stack }
  | .arity _ | .error | .panic => none

/-- One step; with it the slots outside of the frame it wrote. `none` is an error or an abort (then the whole run ends), or the end. The function and arguments of a call are
in the part of the stack of the caller's frame (C36).
models: vm/mod.rs:236-645 `run`, 697-703, 885-933 -/
def step (M : Machine V S N) (c : Cfg V S N) : Option (List Nat × Cfg V S N) :=
  match c.hosts with
  | [] => none
  | .loop drop :: hs =>
    match c.frames, M.code c.st c.ip with
    | fr :: _, some (.op run) =>
      match run c.ip (c.stack.take fr.fp) (c.stack.drop fr.fp) c.st with
      | some (ip, win, ws, s) =>
        some (ws.map (·.1), { c with ip := ip, stack := writeAll (c.stack.take fr.fp) ws ++ win, st := s })
      | none => none
    | fr :: _, some (.call n) =>
      if fr.fp + n c.st + 1 ≤ c.stack.length then
        (afterInvoke M { c with ip := c.ip + 1 } false (invoke M (c.ip + 1) c.st c.stack (n c.st))).map ([], ·)
      else none
    | fr :: frs, some .ret =>
      match popFrame c.stack fr.fp with
      | some stack =>
        let c := { c with ip := fr.ret, stack := stack, frames := frs }
        if drop = frs.length then (deliver M { c with hosts := hs }).map ([], ·) else some ([], c)
      | none => none
    | _, _ => none
  | .native keeps evals n :: hs =>
    match M.act n c.st with
    | .done v =>
      (deliver M { c with
        hosts := hs
        stack := (if keeps then c.stack.dropLast else c.stack) ++ [v] }).map ([], ·)
    | .fail => none
    | .tau n' s => some ([], { c with hosts := .native keeps evals n' :: hs, st := s })
    | .callback f args =>
      (afterInvoke M c true (invoke M c.ip c.st (c.stack ++ f :: args) args.length)).map ([], ·)
    | .eval head =>
      if keeps then
        some ([], { c with
          ip := head
          frames := ⟨c.ip, c.stack.length⟩ :: c.frames
          hosts := .loop c.frames.length :: .native keeps true n :: hs })
      else none

/-- Runs of any length, with all slots written outside of frames. -/
inductive Run (M : Machine V S N) : Cfg V S N → List Nat → Cfg V S N → Prop where
  | refl (c) : Run M c [] c
  | head {a b c w ws} : step M a = some (w, b) → Run M b ws c → Run M a (w ++ ws) c

end Cordy.Calls
