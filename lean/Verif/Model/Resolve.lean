/-!
# Name resolution

Models the tables of local variables of `compiler/parser/semantic.rs`: declaring, initializing, the scopes of blocks and functions, `resolve_reference` and `resolve_upvalue`.

Simplified: fields and methods of structs and modules (semantic.rs:1256-1316) are left out (`module_depth` = 0); the opcodes that are emitted are left out; errors are results, not a list. The vector `locals` of the parser, one entry for each function being parsed, is `cur` (the last entry) and `encl` (the others, last one first); `function_depth` is the length of `encl`.
-/
namespace Cordy.Resolve

/-- models: semantic.rs:815-850. `synthetic` is a name such as `$1` that no program can write; `LateThis` is not modelled. -/
inductive Ref where
  | named (s : String)
  | this
  | synthetic
  deriving DecidableEq, Repr

/-- models: semantic.rs:197-215. `id` is not in the code: it numbers the declarations of the program. -/
structure Local where
  name : Ref
  index : Nat
  scopeDepth : Nat
  functionDepth : Nat
  initialized : Bool
  captured : Bool
  id : Nat
  deriving DecidableEq, Repr

/-- models: semantic.rs:217-219. -/
def Local.isGlobal (l : Local) : Bool := l.functionDepth == 0 && l.scopeDepth == 0

/-- models: semantic.rs:179-192. -/
structure UpValue where
  isLocal : Bool
  index : Nat
  deriving DecidableEq, Repr

/-- models: `Locals` (semantic.rs:62-80). -/
structure Fn where
  locals : List Local := []
  ups : List UpValue := []
  deriving DecidableEq, Repr

structure St where
  cur : Fn := {}
  encl : List Fn := []
  scopeDepth : Nat := 0
  next : Nat := 0
  deriving DecidableEq, Repr

/-- models: semantic.rs:1012-1016. -/
def declareInternal (s : St) (nm : Ref) : St :=
  { s with cur := { s.cur with locals := s.cur.locals ++
    [⟨nm, s.cur.locals.length, s.scopeDepth, s.encl.length, false, false, s.next⟩] } }

/-- models: semantic.rs:1392-1398, without the `InitGlobal` opcode. -/
def initLocal (s : St) (i : Nat) : St :=
  { s with cur := { s.cur with locals := s.cur.locals.modify i (fun l => { l with initialized := true }) } }

/-- models: semantic.rs:964-996. `native`: the names of native functions. The late bindings that a new global resolves are not modelled here. -/
def declareLocal (native : String → Bool) (s : St) (nm : String) (init : Bool) : St :=
  if native nm then s
  else if s.cur.locals.any (fun l => l.scopeDepth == s.scopeDepth && l.name == .named nm) then s
  else
    let s' := declareInternal s (.named nm)
    if init then initLocal s' s.cur.locals.length else s'

/-- models: semantic.rs:999-1002. -/
def declareSelf (s : St) : St := initLocal (declareInternal s .this) s.cur.locals.length

/-- models: semantic.rs:1006-1009. -/
def declareSynthetic (s : St) : St := declareInternal s .synthetic

/-- models: semantic.rs:1151-1156 - the last upvalue, if it is the one of local `i`, is removed. -/
def popUp (ups : List UpValue) (i : Nat) : List UpValue :=
  match ups.getLast? with
  | some u => if u.index == i && u.isLocal then ups.dropLast else ups
  | none => ups

/-- models: semantic.rs:1131-1160 with `modify_lvt`: the loop over `(0..len).rev()`. -/
def popLoop (min : Nat) : Nat → Fn → Fn
  | 0, f => f
  | i + 1, f =>
    match f.locals[i]? with
    | none => f
    | some l =>
      if min ≤ l.scopeDepth then popLoop min i { locals := f.locals.dropLast, ups := popUp f.ups i }
      else popLoop min i f

/-- models: semantic.rs:1131, `pop_locals(Some(min), true, _, _)`. -/
def popLocals (f : Fn) (min : Nat) : Fn := popLoop min f.locals.length f

/-- models: `LValueReference` (semantic.rs:262-300), the part that name resolution gives. -/
inductive Res where
  | native
  | loc (i : Nat)
  | global (i : Nat)
  | upvalue (i : Nat)
  /-- bound when a global of this name is declared -/
  | late
  /-- an error has been raised -/
  | invalid
  deriving DecidableEq, Repr

/-- models: semantic.rs:221-229; `LocalThis` is `loc` here. -/
def Local.asReference (l : Local) : Res := if l.isGlobal then .global l.index else .loc l.index

/-- models: semantic.rs:1222-1226 - the last one that matches. -/
def findLocal (f : Fn) (p : Local → Bool) : Option Local := f.locals.reverse.find? p

/-- models: semantic.rs:1346-1361 - the position of the entry `u`, which is added if there is none. -/
def findOrAdd (ups : List UpValue) (u : UpValue) : List UpValue × Nat :=
  match ups.findIdx? (· == u) with
  | some p => (ups, p)
  | none => (ups ++ [u], ups.length)

/-- models: semantic.rs:1366-1384 - one turn of the loop. An entry that is found gives `index = upvalue.index`, which is `i` again, not the position of the entry. With `fix`, its position (which the code does not do). -/
def bubble (fix : Bool) (ups : List UpValue) (i : Nat) : List UpValue × Nat :=
  match ups.findIdx? (· == ⟨false, i⟩) with
  | some p => (ups, if fix then p else i)
  | none => (ups ++ [⟨false, i⟩], ups.length)

/-- models: semantic.rs:1230-1241, 1341-1386. The search goes from the enclosing function outwards; the loop of `resolve_upvalue` from the function that declares the variable inwards, which is the way back of the recursion. -/
def capture (fix : Bool) (nm : Ref) : List Fn → Option (List Fn × Nat)
  | [] => none
  | f :: fs =>
    match findLocal f (fun l => l.name == nm && l.initialized && !l.isGlobal) with
    | some l =>
      let r := findOrAdd f.ups ⟨true, l.index⟩
      some ({ locals := f.locals.modify l.index (fun l => { l with captured := true }), ups := r.1 } :: fs, r.2)
    | none =>
      match capture fix nm fs with
      | none => none
      | some (fs', i) =>
        let r := bubble fix f.ups i
        some ({ f with ups := r.1 } :: fs', r.2)

/-- models: semantic.rs:1319-1333 - a true global; otherwise late binding. -/
def resolveGlobal (s : St) (nm : Ref) : Res :=
  match s.encl.getLast? with
  | none => .invalid
  | some g =>
    match nm with
    | .named _ =>
      match findLocal g (fun l => l.name == nm && l.initialized && l.isGlobal) with
      | some l => .global l.index
      | none => .late
    | _ => .invalid

/-- models: semantic.rs:1206-1210. -/
def isNative (native : String → Bool) : Ref → Bool
  | .named n => native n
  | _ => false

/-- models: semantic.rs:1205-1336. -/
def resolve (fix : Bool) (native : String → Bool) (s : St) (nm : Ref) : St × Res :=
  if isNative native nm then (s, .native)
  else
    match findLocal s.cur (fun l => l.name == nm && l.initialized) with
    | some l => (s, l.asReference)
    | none =>
      match capture fix nm s.encl with
      | some (encl', i) => ({ s with encl := encl' }, .upvalue i)
      | none => (s, resolveGlobal s nm)

/-! ## Histories -/

/-- What the parser does, in the order of the source. -/
inductive Op where
  /-- a variable is declared; visible at once (`fn f`, a module) or not (`let`) -/
  | declare (nm : String) (init : Bool)
  | declareSelf
  | declareSynthetic
  /-- declaration number `id` becomes visible (after `let x = ...`) -/
  | init (id : Nat)
  | openBlock
  | closeBlock
  | openFn
  | closeFn
  | ref (nm : Ref)
  deriving DecidableEq, Repr

/-- The parser holds the index that `declare_local` returned; here it is found from the number of the declaration. -/
def initId (s : St) (id : Nat) : St :=
  match s.cur.locals.findIdx? (fun l => l.id == id) with
  | some i => initLocal s i
  | none => s

/-- models: mod.rs:690-697 - the end of a function. -/
def closeFn (s : St) : St :=
  match s.encl with
  | [] => s
  | f :: fs => { s with cur := f, encl := fs, scopeDepth := s.scopeDepth - 1 }

/-- models: mod.rs:304-312 (blocks), 614-616, 657, 687-697 (functions: the parameters have their own scope; the body is a block in it). -/
def step (fix : Bool) (native : String → Bool) (s : St) : Op → St
  | .declare nm init => { declareLocal native s nm init with next := s.next + 1 }
  | .declareSelf => { declareSelf s with next := s.next + 1 }
  | .declareSynthetic => { declareSynthetic s with next := s.next + 1 }
  | .init id => initId s id
  | .openBlock => { s with scopeDepth := s.scopeDepth + 1 }
  | .closeBlock => { s with cur := popLocals s.cur s.scopeDepth, scopeDepth := s.scopeDepth - 1 }
  | .openFn => { s with cur := {}, encl := s.cur :: s.encl, scopeDepth := s.scopeDepth + 1 }
  | .closeFn => closeFn { s with cur := popLocals s.cur s.scopeDepth }
  | .ref nm => (resolve fix native s nm).1

/-- The parser after the history `ops`. -/
def run (fix : Bool) (native : String → Bool) (ops : List Op) : St := ops.foldl (step fix native) {}

/-! ## What a reference means when the program runs -/

/-- An upvalue of a function being parsed whose enclosing functions are `fs`: the closure holds what the table `ups` of the enclosing function lists (mod.rs:699-702; `CloseLocal`, `CloseUpValue`), in that order. -/
def chain : List Fn → Nat → Option Nat
  | [], _ => none
  | f :: fs, i =>
    match f.ups[i]? with
    | none => none
    | some ⟨true, j⟩ => f.locals[j]?.map (·.id)
    | some ⟨false, j⟩ => chain fs j

/-- The declaration that the reference reads and writes. -/
def meaning (s : St) : Res → Option Nat
  | .loc i => s.cur.locals[i]?.map (·.id)
  | .upvalue i => chain s.encl i
  | .global i => (s.cur :: s.encl).getLast?.bind (fun g => g.locals[i]?.map (·.id))
  | _ => none

end Cordy.Resolve
