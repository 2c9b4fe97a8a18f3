import Mathlib.Data.List.Basic
/-!
# Names that are used before they are declared

Models the insertion of opcodes into finished blocks (`compiler/parser/core/graph.rs`) and the late bindings of
`compiler/parser/semantic.rs`.  The front end is a sequence of events: a function is opened, an opcode is emitted, a block ends, a name is
used, a name is declared.  Which names are local variables, upvalues, natives or fields is decided earlier (`Model/Resolve`): the names
here are the ones that get as far as steps 4 and 5 of `resolve_reference`.  Source locations travel with the opcodes and are not shown.
Modules cannot be nested (`parse_struct_or_module` only accepts functions), so a use is in at most one module.
-/
namespace Cordy.Late

variable {O : Type}

/-- models: vm/opcode.rs: the opcodes that load and store names; every other opcode is an `O`. -/
inductive Op (O : Type) where
  | op (o : O)
  | pushGlobal (i : Nat)
  | storeGlobal (i : Nat)
  | constant (i : Nat)
  | pushLocal (i : Nat)
  | pushUpValue (i : Nat)
  | getMethod (i : Nat)
deriving DecidableEq

/-! ## Blocks with ids -/

/-- models: graph.rs:29-37 `Block::code`: opcodes with their ids -/
abbrev Block (O : Type) := List (Nat × Op O)

/-- models: graph.rs:286-290 `Block::push` -/
def Block.push (b : Block O) (o : Op O) : Block O := b ++ [(b.length, o)]

/-- models: graph.rs:292-303 `Block::insert`, without the debug assertion that `b` is empty in the last case -/
def Block.insert (b : Block O) (id : Nat) (o : Op O) : Block O :=
  match b.findIdx? (fun e => e.1 == id) with
  | some i => b.insertIdx i (b.length, o)
  | none => b ++ [(0, o)]

/-- The opcodes of a block: what is left of it when code is emitted. -/
def Block.ops (b : Block O) : List (Op O) := b.map Prod.snd

/-! ## State of the parser -/

/-- models: graph.rs:65-83 `CodeId`, `OpcodeId` -/
structure OpcodeId where
  fn : Nat
  block : Nat
  opcode : Nat
deriving DecidableEq

/-- models: semantic.rs:237-240: the result of `resolve_reference(LateThis)` kept in a late binding -/
inductive This where
  | invalid
  | local (i : Nat)
  | upvalue (i : Nat)
deriving DecidableEq

/-- models: semantic.rs `ReferenceType` (without `Invalid`, the value before `update`) -/
inductive Kind where
  | load (pos : OpcodeId)
  | store (pos : OpcodeId)
  | pattern (p : Nat)
deriving DecidableEq

/-- models: semantic.rs:234-250 `LateBinding`, for a parser that is not in error recovery (`error` is true) -/
structure Binding where
  index : Nat
  name : String
  this : This
  kind : Kind
  fallback : Option Nat
deriving DecidableEq

/-- models: semantic.rs `LateBound` -/
inductive Bound where
  | global (i : Nat)
  | method (id : Nat) (inst : Bool)
deriving DecidableEq

/-- models: semantic.rs:664-669 `ParserStoreOp` (of globals) -/
inductive PStore where
  | bound (i : Nat)
  | late (index : Nat)
deriving DecidableEq

/-- models: compiler/parser/errors.rs: the errors about names -/
inductive Err where
  | undeclaredIdentifier (name : String)
  | undeclaredSelf
  | assignmentTargetInvalid
deriving DecidableEq

/-- models: the part of `Parser` that is written when late bindings are resolved.  A pattern is the list of its store operations, in the
order in which `Pattern::visit` visits them. -/
structure Code (O : Type) where
  fns : List (List (Block O))
  patterns : List (List PStore)
  errors : List Err

/-- models: semantic.rs: a method of a module -/
structure Method where
  module : Nat
  name : String
  id : Nat
  inst : Bool
deriving DecidableEq

/-- models: semantic.rs `Local` for a true global: its index and whether it is `initialized` -/
structure Global where
  name : String
  index : Nat
  init : Bool
deriving DecidableEq

/-- models: the part of `Parser` (compiler/parser/mod.rs) that this file is about -/
structure State (O : Type) where
  code : Code O
  late : List Binding
  next : Nat
  methods : List Method
  globals : List Global

def init : State O := ⟨⟨[], [], []⟩, [], 0, [], []⟩

/-! ## Functions and blocks -/

/-- models: graph.rs:138-143 `Code::new`, semantic.rs:935-953 `declare_function` -/
def Code.openFn (c : Code O) : Code O := { c with fns := c.fns ++ [[[]]] }

/-- models: graph.rs:217-225 `push`: to the last block of function `f` -/
def Code.push (c : Code O) (f : Nat) (o : Op O) : Code O :=
  { c with fns := c.fns.modify f (fun bs => bs.modify (bs.length - 1) (fun b => b.push o)) }

/-- models: graph.rs:234-270: whichever way a block ends, a new empty one follows it -/
def Code.branch (c : Code O) (f : Nat) : Code O := { c with fns := c.fns.modify f (fun bs => bs ++ [[]]) }

/-- models: graph.rs:108-118 `next_opcode` -/
def Code.nextOpcode (c : Code O) (f : Nat) : OpcodeId :=
  let bs := c.fns.getD f []
  ⟨f, bs.length - 1, (bs.getD (bs.length - 1) []).length⟩

/-- models: graph.rs:120-127 `do_insert` -/
def Code.insert (c : Code O) (pos : OpcodeId) (o : Op O) : Code O :=
  { c with fns := c.fns.modify pos.fn (fun bs => bs.modify pos.block (fun b => b.insert pos.opcode o)) }

def Code.error (c : Code O) (e : Err) : Code O := { c with errors := c.errors ++ [e] }

/-! ## Resolving late bindings -/

/-- models: semantic.rs:1040-1045: the closure given to `Pattern::visit` -/
def PStore.bind (index i : Nat) : PStore → PStore
  | .late j => if j = index then .bound i else .late j
  | .bound j => .bound j

/-- models: semantic.rs:1037-1047 -/
def Code.bindPattern (c : Code O) (p index i : Nat) : Code O :=
  { c with patterns := c.patterns.modify p (fun l => l.map (PStore.bind index i)) }

/-- models: semantic.rs:1049-1068: a late use of a `self` method -/
def loadSelfMethod (c : Code O) (this : This) (pos : OpcodeId) (id : Nat) : Code O :=
  match this with
  | .invalid => c.error .undeclaredSelf
  | .local i => (c.insert pos (.getMethod id)).insert pos (.pushLocal i)
  | .upvalue i => (c.insert pos (.getMethod id)).insert pos (.pushUpValue i)

/-- models: semantic.rs:1034-1076: one binding; `none` is the panic of line 1075 -/
def resolveOne (c : Code O) (b : Binding) (r : Bound) : Option (Code O) :=
  match b.kind, r with
  | .load pos, .global i => some (c.insert pos (.pushGlobal i))
  | .store pos, .global i => some (c.insert pos (.storeGlobal i))
  | .pattern p, .global i => some (c.bindPattern p b.index i)
  | .load pos, .method id true => some (loadSelfMethod c b.this pos id)
  | .load pos, .method id false => some (c.insert pos (.constant id))
  | .store _, .method _ _ => some (c.error .assignmentTargetInvalid)
  | .pattern _, .method _ _ => none

/-- models: `Vec::swap_remove`, the vector afterwards -/
def swapRemove {α : Type} (l : List α) (i : Nat) : List α :=
  match l.getLast? with
  | some x => (l.set i x).dropLast
  | none => l

theorem swapRemove_length {α : Type} (l : List α) (i : Nat) : (swapRemove l i).length = l.length - 1 := by
  unfold swapRemove
  cases h : l.getLast? with
  | none => simp [List.getLast?_eq_none_iff.1 h]
  | some x => simp

/-- models: semantic.rs:1023-1082 `resolve_late_bindings`: the loop, from index `i` -/
def resolveLoop (name : String) (r : Bound) (c : Code O) (late : List Binding) (i : Nat) : Option (Code O × List Binding) :=
  if h : i < late.length then
    if late[i].name = name then
      match resolveOne c late[i] r with
      | some c' => resolveLoop name r c' (swapRemove late i) i
      | none => none
    else resolveLoop name r c late (i + 1)
  else some (c, late)
termination_by late.length - i
decreasing_by
  · rw [swapRemove_length]; omega
  · omega

/-- models: semantic.rs:1023-1082 `resolve_late_bindings` -/
def State.resolveLate (s : State O) (name : String) (r : Bound) : Option (State O) :=
  match resolveLoop name r s.code s.late 0 with
  | some (c, late) => some { s with code := c, late := late }
  | none => none

/-- models: semantic.rs:1087-1097: one outstanding binding at teardown; `none` is the panic of line 1093 -/
def resolveRemainingOne (c : Code O) (b : Binding) : Option (Code O) :=
  match b.fallback, b.kind with
  | some g, .load pos => some (c.insert pos (.pushGlobal g))
  | some g, .store pos => some (c.insert pos (.storeGlobal g))
  | some _, .pattern _ => none
  | none, _ => some (c.error (.undeclaredIdentifier b.name))

/-- models: semantic.rs:1085-1098 `resolve_remaining_late_bindings` -/
def resolveRemaining : Code O → List Binding → Option (Code O)
  | c, [] => some c
  | c, b :: bs =>
    match resolveRemainingOne c b with
    | some c' => resolveRemaining c' bs
    | none => none

/-! ## Using names -/

/-- models: semantic.rs:1205-1335 `resolve_reference`: the results of steps 4 and 5 -/
inductive Found where
  | global (i : Nat)
  | method (id : Nat) (inst : Bool)
  | late (fallback : Option Nat)

/-- models: semantic.rs:1270-1308: the methods of the module the use is in -/
def State.findMethod (s : State O) (mod : Option Nat) (name : String) : Option Method :=
  match mod with
  | some m => s.methods.find? (fun d => d.module = m ∧ d.name = name)
  | none => none

/-- models: semantic.rs:1312-1314: the last initialised global of that name -/
def State.findGlobal (s : State O) (name : String) : Option Nat :=
  (s.globals.reverse.find? (fun g => g.name = name ∧ g.init = true)).map Global.index

/-- models: semantic.rs:1247-1327 `resolve_reference`, steps 4 and 5, in a function -/
def State.resolve (s : State O) (mod : Option Nat) (name : String) : Found :=
  match s.findMethod mod name with
  | some d => .method d.id d.inst
  | none =>
    match mod, s.findGlobal name with
    | none, some i => .global i
    | some _, some i => .late (some i)
    | _, none => .late none

/-- models: core/mod.rs:211-220 `push_load_lvalue` and semantic.rs:1280-1289: the opcodes of a name that is found at once; an instance
method without `self` is an error -/
def Code.loadFound (c : Code O) (f : Nat) (this : This) : Bound → Code O
  | .global i => c.push f (.pushGlobal i)
  | .method id false => c.push f (.constant id)
  | .method id true =>
    match this with
    | .invalid => c.error .undeclaredSelf
    | .local i => (c.push f (.pushLocal i)).push f (.getMethod id)
    | .upvalue i => (c.push f (.pushUpValue i)).push f (.getMethod id)

/-- models: core/mod.rs:248-275 `push_store_lvalue` -/
def Code.storeFound (c : Code O) (f : Nat) (this : This) : Bound → Code O
  | .global i => c.push f (.storeGlobal i)
  | .method _ false => c.error .assignmentTargetInvalid
  | .method _ true => c.error (if this = .invalid then .undeclaredSelf else .assignmentTargetInvalid)

/-- models: semantic.rs:256-270 `LateBinding::new`, core/mod.rs:229-232, 268-271: a late binding for the next opcode of `f`.  Here its
index is assigned when it is recorded. -/
def State.addLate (s : State O) (name : String) (this : This) (kind : Kind) (fallback : Option Nat) : State O :=
  { s with late := s.late ++ [⟨s.next, name, this, kind, fallback⟩], next := s.next + 1 }

/-- models: core/mod.rs:211-275 `push_load_lvalue`, `push_store_lvalue` after `resolve_reference` -/
def State.use (s : State O) (f : Nat) (store : Bool) (name : String) (mod : Option Nat) (this : This) : State O :=
  match s.resolve mod name with
  | .global i => { s with code := if store then s.code.storeFound f this (.global i) else s.code.loadFound f this (.global i) }
  | .method id inst =>
    { s with code := if store then s.code.storeFound f this (.method id inst) else s.code.loadFound f this (.method id inst) }
  | .late fb => s.addLate name this (if store then .store (s.code.nextOpcode f) else .load (s.code.nextOpcode f)) fb

/-- models: semantic.rs:640-661 `as_store_op` for one target of the pattern with index `p`; `none` is the panic of line 658 -/
def State.target (s : State O) (p : Nat) (name : String) (mod : Option Nat) (this : This) : Option (State O × PStore) :=
  match s.resolve mod name with
  | .global i => some (s, .bound i)
  | .method _ _ => none
  | .late fb => some (s.addLate name this (.pattern p) fb, .late s.next)

/-- models: semantic.rs:562-623 `build_pattern`: the targets that are names, from left to right -/
def State.targets (s : State O) (p : Nat) (mod : Option Nat) (this : This) : List String → Option (State O × List PStore)
  | [] => some (s, [])
  | n :: ns =>
    match s.target p n mod this with
    | none => none
    | some (s', st) =>
      match s'.targets p mod this ns with
      | none => none
      | some (s'', sts) => some (s'', st :: sts)

/-! ## Histories -/

/-- What the parser does, in order. -/
inductive Ev (O : Type) where
  /-- a function (expression, declaration, method) is opened; it gets the next index -/
  | openFn
  /-- an opcode that is not a late name is emitted to function `f` -/
  | emit (f : Nat) (o : O)
  /-- the current block of `f` ends -/
  | branch (f : Nat)
  /-- the code of `f`, in module `mod`, loads or stores `name` -/
  | use (f : Nat) (store : Bool) (name : String) (mod : Option Nat) (this : This)
  /-- a pattern assignment to `names` in a function in module `mod` -/
  | pattern (names : List String) (mod : Option Nat) (this : This)
  /-- a global is declared; its initialiser is not yet compiled -/
  | global (name : String) (i : Nat)
  /-- the initialiser of a global is compiled -/
  | initialised (name : String)
  /-- a method of module `mod` is declared -/
  | method (mod : Nat) (name : String) (id : Nat) (inst : Bool)

/-- models: semantic.rs:545-552: the pattern, and `declare_pattern` 956-960 -/
def State.pattern (s : State O) (names : List String) (mod : Option Nat) (this : This) : Option (State O) :=
  match s.targets s.code.patterns.length mod this names with
  | none => none
  | some (s', l) => some { s' with code := { s'.code with patterns := s'.code.patterns ++ [l] } }

/-- models: semantic.rs:964-994 `declare_local` for a global, of a name that is not taken -/
def State.declareGlobal (s : State O) (name : String) (i : Nat) : Option (State O) :=
  State.resolveLate { s with globals := s.globals ++ [⟨name, i, false⟩] } name (.global i)

/-- models: semantic.rs `init_local` -/
def State.initialise (s : State O) (name : String) : State O :=
  { s with globals := s.globals.map (fun g => if g.name = name then { g with init := true } else g) }

/-- models: semantic.rs:1417-1447 `declare_method` -/
def State.declareMethod (s : State O) (mod : Nat) (name : String) (id : Nat) (inst : Bool) : Option (State O) :=
  State.resolveLate { s with methods := s.methods ++ [⟨mod, name, id, inst⟩] } name (.method id inst)

def step (s : State O) : Ev O → Option (State O)
  | .openFn => some { s with code := s.code.openFn }
  | .emit f o => some { s with code := s.code.push f (.op o) }
  | .branch f => some { s with code := s.code.branch f }
  | .use f store name mod this => some (s.use f store name mod this)
  | .pattern names mod this => s.pattern names mod this
  | .global name i => s.declareGlobal name i
  | .initialised name => some (s.initialise name)
  | .method mod name id inst => s.declareMethod mod name id inst

def run (s : State O) : List (Ev O) → Option (State O)
  | [] => some s
  | e :: es =>
    match step s e with
    | some s' => run s' es
    | none => none

/-- models: compiler/parser/mod.rs:201-235: the statements, then `resolve_remaining_late_bindings` at teardown; `none` is a panic of the
compiler -/
def compile (h : List (Ev O)) : Option (Code O) :=
  match run init h with
  | some s => resolveRemaining s.code s.late
  | none => none

end Cordy.Late
