import Verif.Model.Value
/-!
# Constants, fields and structs

Models the constant pool (`compiler/parser/semantic.rs:883-949`), the field tables (`semantic.rs:104-180`, `1400-1481`), struct and
module declarations (`compiler/parser/mod.rs:316-412`) and field access (`vm/value/mod.rs:416-472`, `687-817`, `vm/mod.rs:825-855`).
-/
namespace Cordy.Decls

/-! ## Constants -/

/-- What the compiler puts in the constant pool.  A module is its two type numbers and everything else it holds (`body`). -/
inductive Const where
  | int (i : Int)
  | complex (re im : Int)
  | str (s : List Char)
  | nil
  | func (id : Nat)
  | module (inst ctor body : Nat)
  deriving DecidableEq, Repr

/-- The runtime value; modules compare by `instance_type` alone (vm/value/mod.rs:791-795). -/
def Const.toVal : Const → Val
  | .int i => .int i
  | .complex re im => .complex re im
  | .str s => .str s
  | .nil => .nil
  | .func id => .func id
  | .module inst _ _ => .structType inst

/-- models: semantic.rs:883-890 `declare_const`: the first equal constant, else a new one. -/
def declareConst (pool : List Const) (c : Const) : List Const × Nat :=
  match pool.findIdx? (fun d => Val.eqv d.toVal c.toVal) with
  | some i => (pool, i)
  | none => (pool ++ [c], pool.length)

/-- models: semantic.rs:935-949 `declare_function` pushes a placeholder -/
def declareFunction (pool : List Const) : List Const × Nat := (pool ++ [.nil], pool.length)

/-- models: semantic.rs:708-710 `bake` -/
def bake (pool : List Const) (slot id : Nat) : List Const := pool.set slot (.func id)

/-- One action of the compiler on the pool. -/
inductive Act where
  /-- a literal, or the end of a module (semantic.rs:922-930) -/
  | const (c : Const)
  | function
  /-- at teardown, the placeholder made by the `k`-th `function` action is filled (mod.rs:239-255) -/
  | bake (k id : Nat)

/-- The pool, the slots of functions, and for each constant declared the slot the code refers to. -/
structure Pool where
  pool : List Const
  slots : List Nat
  refs : List (Const × Nat)

def Pool.act (p : Pool) : Act → Pool
  | .const c => let r := declareConst p.pool c; { p with pool := r.1, refs := p.refs ++ [(c, r.2)] }
  | .function => let r := declareFunction p.pool; { p with pool := r.1, slots := p.slots ++ [r.2] }
  | .bake k id => match p.slots[k]? with
    | some s => { p with pool := Decls.bake p.pool s id }
    | none => p

/-! ## Fields and structs -/

abbrev Name := List Char

/-- models: semantic.rs:104-117 `Fields`: the hash maps are association lists, newest first (an insertion shadows).  The location of a
reference to a field that is not declared yet is omitted. -/
structure Fields where
  names : List (Name × Nat)
  lookup : List ((Nat × Nat) × Nat)
  types : Nat

/-- models: semantic.rs:128-134 `Fields::new` -/
def Fields.new : Fields := ⟨[], [], 0⟩
def Fields.index (F : Fields) (x : Name) : Option Nat := F.names.lookup x
/-- models: semantic.rs:136-138 `get_offset` -/
def Fields.offset (F : Fields) (ty fi : Nat) : Option Nat := F.lookup.lookup (ty, fi)

/-- models: semantic.rs:1469-1481 `resolve_field`: a use of a field name. -/
def Fields.resolve (F : Fields) (x : Name) : Fields × Nat :=
  match F.index x with
  | some i => (F, i)
  | none => ({ F with names := (x, F.names.length) :: F.names }, F.names.length)

/-- models: semantic.rs:153-170 `declare_field_offset` -/
def Fields.declare (F : Fields) (x : Name) (ty off : Nat) : Fields :=
  let r := F.resolve x
  { r.1 with lookup := ((ty, r.2), off) :: r.1.lookup }

/-- models: semantic.rs:173-176 `declare_type` -/
def Fields.newType (F : Fields) : Fields × Nat := ({ F with types := F.types + 1 }, F.types)

/-- A method: its name, the constant holding its function, and whether it has a `self` parameter (`Method`, vm/value/mod.rs:805-817). -/
structure Method where
  name : Name
  fn : Nat
  instance_ : Bool
  deriving DecidableEq, Repr

/-- models: vm/value/mod.rs:739-757 `StructTypeImpl` (the name is omitted) -/
structure StructTy where
  fields : List Name
  methods : List Method
  inst : Nat
  ctor : Nat
  isModule : Bool
  deriving DecidableEq, Repr, Inhabited

/-- models: mod.rs:331-352 with semantic.rs:1401-1411 `declare_field`: the offsets are the positions. -/
def declareFields (F : Fields) (ty : Nat) : Nat → List Name → Fields
  | _, [] => F
  | k, x :: xs => declareFields (F.declare x ty k) ty (k + 1) xs

/-- Uses of field names. -/
def resolveAll (F : Fields) : List Name → Fields
  | [] => F
  | x :: xs => resolveAll (F.resolve x).1 xs

/-- models: mod.rs:356-380 with semantic.rs:1416-1447 `declare_method`; every method comes with the field names its body uses. -/
def declareMethods (F : Fields) (ty : Nat) : Nat → List (Method × List Name) → Fields
  | _, [] => F
  | k, (m, uses) :: ms => declareMethods (resolveAll (F.declare m.name ty k) uses) ty (k + 1) ms

/-- Top level parts of a program as far as fields are concerned. -/
inductive Decl where
  | use (x : Name)
  | struct (isModule : Bool) (fields : List Name) (methods : List (Method × List Name))
  | native (methods : List (Method × List Name))

/-- `u32::MAX`, the instance type of native modules (mod.rs:411). -/
def noType : Nat := 4294967295

/-- models: mod.rs:316-382 `parse_struct_or_module`, 384-412 `parse_native_module`.  `none`: a duplicate name is a compile error
(semantic.rs:1403, 1435), and a module has no fields. -/
def declare1 (s : Fields × List StructTy) : Decl → Option (Fields × List StructTy)
  | .use x => some ((s.1.resolve x).1, s.2)
  | .struct isModule fields methods =>
    if (fields ++ methods.map (·.1.name)).Nodup ∧ (isModule = true → fields = []) then
      let i := s.1.newType
      let c := i.1.newType
      some (declareMethods (declareFields c.1 i.2 0 fields) c.2 0 methods, s.2 ++ [⟨fields, methods.map (·.1), i.2, c.2, isModule⟩])
    else none
  | .native methods =>
    if (methods.map (·.1.name)).Nodup then
      let c := s.1.newType
      some (declareMethods c.1 c.2 0 methods, s.2 ++ [⟨[], methods.map (·.1), noType, c.2, true⟩])
    else none

/-- A whole program (or REPL session). -/
def declareAll (s : Fields × List StructTy) : List Decl → Option (Fields × List StructTy)
  | [] => some s
  | d :: ds => (declare1 s d).bind (fun s => declareAll s ds)

/-! ## Access -/

/-- models: vm/value/mod.rs:687-692 `StructImpl` -/
structure Obj (α : Type) where
  owner : StructTy
  values : List α

/-- Result of an operation: a value, a method bound to the instance, a new instance, an error, or an abort of the process. -/
inductive Got (α : Type) where
  | value (v : α)
  | bound (fn : Nat)
  | made (o : Nat)
  | err
  | panic
  deriving DecidableEq, Repr

/-- models: vm/value/mod.rs:416-437 `get_field` on an instance -/
def getField {α : Type} (F : Fields) (o : Obj α) (fi : Nat) : Got α :=
  match F.offset o.owner.inst fi with
  | some off => match o.values[off]? with
    | some v => .value v
    | none => .panic
  | none => match F.offset o.owner.ctor fi with
    | some off => match o.owner.methods[off]? with
      | some m => if m.instance_ then .bound m.fn else .err
      | none => .panic
    | none => .err

/-- models: vm/value/mod.rs:456-466 `set_field` on an instance: the new object, or an error (`none`), or an abort. -/
def setField {α : Type} (F : Fields) (o : Obj α) (fi : Nat) (v : α) : Option (Option (Obj α)) :=
  match F.offset o.owner.inst fi with
  | some off => if off < o.values.length then some (some { o with values := o.values.set off v }) else none
  | none => some none

/-- Result of a field access on a constructor or module: a method, the accessor function of a field, or an error. -/
inductive GotTy where
  | method (fn : Nat)
  | accessor (fi : Nat)
  | err
  | panic
  deriving DecidableEq, Repr

/-- models: vm/value/mod.rs:438-451 `get_field` on a struct type or module -/
def getTypeField (F : Fields) (t : StructTy) (fi : Nat) : GotTy :=
  match F.offset t.ctor fi with
  | some off => match t.methods[off]? with
    | some m => .method m.fn
    | none => .panic
  | none => match F.offset t.inst fi with
    | some _ => .accessor fi
    | none => .err

/-- models: vm/mod.rs:825-841 calling a struct type: `none` is an error. -/
def construct {α : Type} (t : StructTy) (args : List α) : Option (Obj α) :=
  if t.isModule then none else if args.length ≠ t.fields.length then none else some ⟨t, args⟩

/-- A store of instances and the operations of a program on it; instances are named by their position. -/
inductive Op (α : Type) where
  | new (t : StructTy) (args : List α)
  | get (o : Nat) (fi : Nat)
  | set (o : Nat) (fi : Nat) (v : α)

/-- One operation: the new store and what it gives. -/
def exec {α : Type} (F : Fields) (st : List (Obj α)) : Op α → List (Obj α) × Got α
  | .new t args => match construct t args with
    | some o => (st ++ [o], .made st.length)
    | none => (st, .err)
  | .get o fi => match st[o]? with
    | some ob => (st, getField F ob fi)
    | none => (st, .err)
  | .set o fi v => match st[o]? with
    | some ob => match setField F ob fi v with
      | some (some ob') => (st.set o ob', .value v)
      | some none => (st, .err)
      | none => (st, .panic)
    | none => (st, .err)

end Cordy.Decls
