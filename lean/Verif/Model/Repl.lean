import Verif.Model.VM
/-!
# Incremental compilation and the REPL

Models `compiler/mod.rs` (the incremental entry points), the effects of `compiler/parser` on the state that outlives a compilation,
`repl.rs` and the recovery of the machine after an error (`vm/mod.rs:223-234`).
-/
namespace Cordy.Repl

abbrev Name := List Char
abbrev Text := List Char

/-- models: semantic.rs:121-126 `FieldReference`: `loc` is the place of the first use while the field is not declared. -/
structure FieldRef where
  index : Nat
  loc : Option Nat
  deriving DecidableEq, Repr

/-- models: semantic.rs:104-117 `Fields` -/
structure FieldTab where
  names : List (Name × FieldRef)
  lookup : List ((Nat × Nat) × Nat)
  types : Nat
  deriving DecidableEq, Repr

/-- models: compiler/mod.rs:124-139 `CompileParameters`: the state a compilation reads and changes. `K` constants, `O` opcodes, `P`
patterns, `M` native methods, `L` the table of local variables. The view is kept by the REPL below. -/
structure CState (O K P M L : Type) where
  code : List O
  locations : List Nat
  constants : List K
  patterns : List P
  globals : List Name
  fields : FieldTab
  modules : List Name
  methods : List M
  locals : L
  deriving DecidableEq

variable {O K P M L : Type}

/-- models: compiler/mod.rs:146-158 `CompileState` -/
structure Saved (L : Type) where
  code : Nat
  locations : Nat
  constants : Nat
  patterns : Nat
  globals : Nat
  fields : FieldTab
  functions : Nat × Nat
  locals : L

/-- models: compiler/mod.rs:176-187 `save`, semantic.rs:781-783 `FunctionLibrary::len` -/
def CState.save (c : CState O K P M L) : Saved L :=
  ⟨c.code.length, c.locations.length, c.constants.length, c.patterns.length, c.globals.length, c.fields, (c.modules.length, c.methods.length), c.locals⟩

/-- models: compiler/mod.rs:189-198 `restore`, semantic.rs:785-788 `FunctionLibrary::truncate` -/
def CState.restore (c : CState O K P M L) (s : Saved L) : CState O K P M L :=
  { code := c.code.take s.code
    locations := c.locations.take s.locations
    constants := c.constants.take s.constants
    patterns := c.patterns.take s.patterns
    globals := c.globals.take s.globals
    fields := s.fields
    modules := c.modules.take s.functions.1
    methods := c.methods.take s.functions.2
    locals := s.locals }

/-- models: semantic.rs:1469-1481 `resolve_field` -/
def FieldTab.resolve (F : FieldTab) (x : Name) (loc : Nat) : FieldTab :=
  match F.names.lookup x with
  | some _ => F
  | none => { F with names := F.names ++ [(x, ⟨F.names.length, some loc⟩)] }

/-- models: semantic.rs:153-170 `declare_field_offset` -/
def FieldTab.declare (F : FieldTab) (x : Name) (ty off : Nat) : FieldTab :=
  match F.names.lookup x with
  | some r => { F with names := F.names.map (fun e => if e.1 = x then (x, ⟨e.2.index, none⟩) else e), lookup := ((ty, r.index), off) :: F.lookup }
  | none => { F with names := F.names ++ [(x, ⟨F.names.length, none⟩)], lookup := ((ty, F.names.length), off) :: F.lookup }

/-- The parser: the shared state and the constants of the functions it declared itself (`Parser.functions`, mod.rs:127). -/
structure Parser (O K P M L : Type) where
  st : CState O K P M L
  own : List Nat

/-- What the parser does to the shared state, in any order, any number of times. The order is not modelled: everything the parser can do
is a sequence of these. `nil` is the placeholder constant. -/
inductive Step (nil : K) : Parser O K P M L → Parser O K P M L → Prop where
  /-- models: graph.rs `emit` called from mod.rs:235, 247: appends opcodes and their locations -/
  | emit (p) (ops : List O) (locs : List Nat) : Step nil p { p with st := { p.st with code := p.st.code ++ ops, locations := p.st.locations ++ locs } }
  /-- models: semantic.rs:883-890 `declare_const` (when the constant is new) -/
  | const (p) (k : K) : Step nil p { p with st := { p.st with constants := p.st.constants ++ [k] } }
  /-- models: semantic.rs:935-949 `declare_function` -/
  | function (p) : Step nil p { st := { p.st with constants := p.st.constants ++ [nil] }, own := p.own ++ [p.st.constants.length] }
  /-- models: mod.rs:254 with semantic.rs:708-710 `bake` -/
  | bake (p) (i : Nat) (k : K) (h : i ∈ p.own) : Step nil p { p with st := { p.st with constants := p.st.constants.set i k } }
  /-- models: mod.rs:258-266 -/
  | pattern (p) (q : P) : Step nil p { p with st := { p.st with patterns := p.st.patterns ++ [q] } }
  /-- models: semantic.rs:988 -/
  | global (p) (x : Name) : Step nil p { p with st := { p.st with globals := p.st.globals ++ [x] } }
  /-- models: semantic.rs:1469-1481 -/
  | useField (p) (x : Name) (loc : Nat) : Step nil p { p with st := { p.st with fields := p.st.fields.resolve x loc } }
  /-- models: semantic.rs:153-170 -/
  | field (p) (x : Name) (ty off : Nat) : Step nil p { p with st := { p.st with fields := p.st.fields.declare x ty off } }
  /-- models: semantic.rs:173-176 `declare_type` -/
  | type (p) : Step nil p { p with st := { p.st with fields := { p.st.fields with types := p.st.fields.types + 1 } } }
  /-- models: semantic.rs:1453-1464 `declare_module_method` (a new module, or a known one) -/
  | module (p) (x : Name) : Step nil p { p with st := { p.st with modules := p.st.modules ++ [x] } }
  | method (p) (m : M) : Step nil p { p with st := { p.st with methods := p.st.methods ++ [m] } }
  /-- models: every change of `self.locals` (declaring, initialising, capturing, scopes, functions) -/
  | locals (p) (l : L) : Step nil p { p with st := { p.st with locals := l } }

/-- Any number of steps. -/
inductive Steps (nil : K) : Parser O K P M L → Parser O K P M L → Prop where
  | refl (p) : Steps nil p p
  | step {p q r} : Step nil p q → Steps nil q r → Steps nil p r

/-- An error: its message, and whether it is due to the end of the input (scanner.rs:45-47, errors.rs:21-50). -/
structure Error where
  msg : Text
  eof : Bool
  deriving DecidableEq, Repr

/-- models: compiler/mod.rs:300-330 `IncrementalCompileResult` -/
inductive Outcome where
  | success
  | errors (es : List Text)
  | aborted
  deriving DecidableEq, Repr

/-- models: compiler/mod.rs:101-106, 113-118: the loop over the errors -/
def classify (abort : Bool) : List Error → List Text → Outcome
  | [], acc => .errors acc
  | e :: es, acc => if e.eof && abort && acc.isEmpty then .aborted else classify abort es (acc ++ [e.msg])

/-- A scanner and a parser. The parser gives the state it leaves and the errors it found. -/
structure Compiler (O K P M L T : Type) where
  scan : Text → List Error ⊕ T
  parse : T → CState O K P M L → CState O K P M L × List Error

variable {T : Type}

/-- models: compiler/mod.rs:93-122 `try_incremental_compile` -/
def tryCompile (C : Compiler O K P M L T) (abort : Bool) (text : Text) (c : CState O K P M L) : CState O K P M L × Outcome :=
  match C.scan text with
  | .inl es => (c, classify abort es [])
  | .inr t =>
    let r := C.parse t c
    if r.2.isEmpty then (r.1, .success) else (r.1, classify abort r.2 [])

/-- models: compiler/mod.rs:66-78 `incremental_compile` -/
def incrementalCompile (C : Compiler O K P M L T) (text : Text) (c : CState O K P M L) : CState O K P M L × Outcome :=
  let state := c.save
  let r := tryCompile C true text c
  if r.2 = .success then r else (r.1.restore state, r.2)

/-- models: compiler/mod.rs:86-90 `eval_compile`, with vm/mod.rs:214-217: the local variables of an `eval` are its own -/
def evalCompile (C : Compiler O K P M L T) (empty : L) (text : Text) (c : CState O K P M L) : CState O K P M L × Outcome :=
  let r := tryCompile C false text { c with locals := empty }
  ({ r.1 with locals := c.locals }, r.2)

/-- How a run of the machine ends (vm/mod.rs:90-120 `ExitType`). -/
inductive Exit where
  | exit
  | yield
  | error (msg : Text)
  deriving DecidableEq, Repr

/-- The machine: `run` executes the code from where it stopped (it may compile more, by `eval`), `recover n` is `run_recovery`. -/
structure Machine (V C : Type) where
  run : V → C → (V × C) × Exit
  recover : V → C → V
  out : V → Text → V

/-- models: repl.rs:21-25 `Repl` with the parts of the machine it uses; `views` are the texts entered, the last one is the buffer. -/
structure Session (V C : Type) where
  continuation : Bool
  views : List Text
  c : C
  vm : V

/-- models: repl.rs:37-41 `RunResult` (reading errors are not modelled: they end the session) -/
inductive RunResult where
  | ok
  | exit
  deriving DecidableEq, Repr

/-- models: `view_mut().text_mut()` and `push_str`, `push` on it (repl.rs:85-88) -/
def addLine (views : List Text) (line : Text) : List Text := views.dropLast ++ [views.getLast?.getD [] ++ line ++ ['\n']]

/-- models: repl.rs:74-118 `Repl::run` on a line -/
def Session.line {V : Type} (C : Compiler O K P M L T) (m : Machine V (CState O K P M L)) (s : Session V (CState O K P M L)) (line : Text) :
    Session V (CState O K P M L) × RunResult :=
  if line = [] ∧ s.continuation = false then (s, .ok)
  else
    let views := addLine s.views line
    let r := incrementalCompile C (views.getLast?.getD []) s.c
    match r.2 with
    | .errors es => ({ continuation := false, views := views ++ [[]], c := r.1, vm := es.foldl m.out s.vm }, .ok)
    | .aborted => ({ s with continuation := true, views := views, c := r.1 }, .ok)
    | .success =>
      let x := m.run s.vm r.1
      match x.2 with
      | .exit => ({ continuation := false, views := views, c := x.1.2, vm := x.1.1 }, .exit)
      | .yield => ({ continuation := false, views := views ++ [[]], c := x.1.2, vm := m.recover x.1.1 x.1.2 }, .ok)
      | .error e => ({ continuation := false, views := views ++ [[]], c := x.1.2, vm := m.recover (m.out x.1.1 e) x.1.2 }, .ok)

/-- Several lines, until the session ends. -/
def Session.lines {V : Type} (C : Compiler O K P M L T) (m : Machine V (CState O K P M L)) :
    Session V (CState O K P M L) → List Text → Session V (CState O K P M L) × RunResult
  | s, [] => (s, .ok)
  | s, l :: ls =>
    let r := s.line C m l
    match r.2 with
    | .ok => Session.lines C m r.1 ls
    | .exit => r

/-! ## Recovery of the machine -/

/-- models: vm/mod.rs:50-85 `VirtualMachine`, with the parts `VM.St` leaves out: the call stack below the top frame (frame pointer and
return address), the literals under construction, the counters of spread arguments, the instruction pointer. -/
structure Full (A W Lit : Type) where
  vm : VM.St A W
  frames : List (Nat × Nat)
  literals : List Lit
  unroll : List Int
  ip : Nat
  codeLen : Nat

/-- models: vm/mod.rs:229-234 `run_recovery`. The frame pointer is that of the top frame. -/
def Full.recover {A W Lit : Type} (m : Full A W Lit) (n : Nat) : Full A W Lit :=
  { m with
    frames := m.frames.take 1
    vm := { m.vm with stack := m.vm.stack.take n, fp := (m.frames.take 1).getLast?.elim m.vm.fp (·.1) }
    literals := []
    ip := m.codeLen }

/-- The opcodes that use the counters of spread arguments: `begin k` is `Unroll(true)` on an argument of `k` elements, `more k` is
`Unroll(false)`, `call n` is `Call(n, true)`. -/
inductive UOp where
  | begin (k : Nat)
  | more (k : Nat)
  | call (n : Nat)
  deriving DecidableEq, Repr

/-- models: vm/mod.rs:496-513: the counters, and the number of arguments of every call made. `none`: a panic. -/
def ustep (u : List Int × List Int) : UOp → Option (List Int × List Int)
  | .begin k => some (u.1 ++ [(k : Int) - 1], u.2)
  | .more k => match u.1.getLast? with
    | some x => some (u.1.dropLast ++ [x + ((k : Int) - 1)], u.2)
    | none => none
  | .call n => match u.1.getLast? with
    | some x => some (u.1.dropLast, u.2 ++ [(n : Int) + x])
    | none => none

def urun (u : List Int × List Int) : List UOp → Option (List Int × List Int)
  | [] => some u
  | o :: os => (ustep u o).bind (fun u => urun u os)

/-- Lines of a session as far as variables are concerned: an operation of the machine, or one that raises an error (`nil + 1`). -/
inductive ROp (A : Type) where
  | op (o : VM.VOp A)
  | fail

/-- A line: it stops at the first error, then the machine is recovered with `n` global variables declared (repl.rs:104-116). The
values printed are those on top of the stack at the end, as in the REPL. -/
def runLine {A W : Type} (n : Nat) (os : List (ROp A)) (s : VM.St A W) : VM.St A W × Option (VM.Val A) :=
  let rec go : List (ROp A) → VM.St A W → Bool × VM.St A W
    | [], s => (true, s)
    | .fail :: _, s => (false, s)
    | .op o :: os, s =>
      match VM.cstep (E := Nat) id o s with
      | .ok s => go os s
      | .err _ s => (false, s)
      | .panic => (false, s)
  let r := go os s
  ({ r.2 with stack := r.2.stack.take n, fp := 0 }, if r.1 then r.2.stack.getLast? else none)

end Cordy.Repl
