import Verif.Model.Repr
/-!
# Native modules: the interface to C libraries

Models `cordy/src/ffi.rs` (values to and from C, loading of libraries), the table of native functions (`FunctionLibrary`, `declare_native` of
`compiler/parser/semantic.rs`, `save` / `restore` of `compiler/mod.rs`) and the opcode `CallNative` (`vm/mod.rs`).

The memory shared with C is a list of cells addressed by index. A cell is freed at most once: using a freed or absent cell is `none` (undefined behaviour).
Simplified: the capacity of arrays is left out; texts of error messages are an enumeration; the array that holds the arguments during the call is the list of
its elements.
-/
namespace Cordy.Ffi
open Cordy.Repr

/-- Values of Cordy as far as the interface tells them apart; `other`: all types but nil, bool, int, str, vector, list. `int` holds what `as_precise_int` gives -/
inductive V where
  | nil
  | bool (b : Bool)
  | int (i : I64)
  | str (s : List Char)
  | vec (vs : List V)
  | list (vs : List V)
  | other (n : Nat)

/-- models: ffi.rs:19-49 `CordyValue`: the type with the member of the union it selects -/
inductive CVal where
  | err (p : Nat)
  | nil
  | bool (i : I64)
  | int (i : I64)
  | str (p : Nat)
  | arr (p : Nat) (len : Nat)
  deriving DecidableEq

/-- Memory: bytes of a string up to its end, elements of an array; `fixed`: static strings of the library, never freed -/
inductive Cell where
  | bytes (b : ByteArray)
  | vals (vs : List CVal)
  | fixed (b : ByteArray)

abbrev Heap := List (Option Cell)

/-- models: `CString::new` / `Vec::into_raw_parts`: fresh memory -/
def alloc (h : Heap) (c : Cell) : Nat × Heap := (h.length, h ++ [some c])

/-- UTF-8, as `as_str_slice` gives it -/
def encode (s : List Char) : ByteArray := (s.flatMap String.utf8EncodeChar).toByteArray

mutual
/-- models: ffi.rs:131-147 `to_value`, 149-151 `to_value_int`, 153-155 `to_value_str`, 157-161 `to_value_array`. What was allocated before an error stays allocated -/
def toValue : V → Heap → Option CVal × Heap
  | .nil, h => (some .nil, h)
  | .bool b, h => (some (.bool (if b then 1 else 0)), h)
  | .int i, h => (some (.int i), h)
  | .str s, h =>
    let b := encode s
    if b.data.contains 0 then (none, h) else
    let a := alloc h (.bytes b)
    (some (.str a.1), a.2)
  | .vec vs, h => toArray (toValues vs h)
  | .list vs, h => toArray (toValues vs h)
  | .other _, h => (none, h)
/-- models: ffi.rs:158 `iter.map(to_value).collect::<Result<_, _>>()`: stops at the first error -/
def toValues : List V → Heap → Option (List CVal) × Heap
  | [], h => (some [], h)
  | v :: vs, h => match toValue v h with
    | (none, h) => (none, h)
    | (some c, h) => match toValues vs h with
      | (none, h) => (none, h)
      | (some cs, h) => (some (c :: cs), h)
/-- models: ffi.rs:159-160 -/
def toArray : Option (List CVal) × Heap → Option CVal × Heap
  | (none, h) => (none, h)
  | (some cs, h) => (some (.arr (alloc h (.vals cs)).1 cs.length), (alloc h (.vals cs)).2)
end

/-- Errors, all `OSError` -/
inductive Error where
  | incompatible
  | native (msg : List Char)
  | invalidText
  | noLink
  | noLibrary
  | noInit
  | noSymbol
  deriving DecidableEq

def cellAt (h : Heap) (p : Nat) : Option Cell := (h[p]?).join

def free (h : Heap) (p : Nat) : Heap := h.set p none

/-- models: `CStr::to_str` -/
def decode (b : ByteArray) : Option (List Char) := b.utf8Decode?.map Array.toList

/-- models: `ValuePtr::from(i64)`: what is read of the stored word -/
def ofC (i : I64) : I64 := asPreciseInt (fromI64 i)

mutual
/-- models: ffi.rs:163-195 `from_value`. `none`: undefined behaviour (or no fuel: the recursion of the code follows pointers) -/
def fromValue : Nat → CVal → Heap → Option (Except Error V × Heap)
  | 0, _, _ => none
  | fuel + 1, c, h => match c with
    | .err p => match cellAt h p with
      | some (.fixed b) => some (.error (match decode b with | some s => .native s | none => .invalidText), h)
      | _ => none
    | .nil => some (.ok .nil, h)
    | .bool i => some (.ok (.bool (i ≠ 0)), h)
    | .int i => some (.ok (.int (ofC i)), h)
    | .str p => match cellAt h p with
      | some (.bytes b) => some (match decode b with | some s => .ok (.str s) | none => .error .invalidText, free h p)
      | _ => none
    | .arr p len => match cellAt h p with
      | some (.vals cs) => if cs.length < len then none else
        (fromValues fuel (cs.take len) h).map fun x => (x.1.map .vec, free x.2 p)
      | _ => none
/-- models: ffi.rs:188-191: the loop over the elements -/
def fromValues : Nat → List CVal → Heap → Option (Except Error (List V) × Heap)
  | 0, _, _ => none
  | fuel + 1, cs, h => match cs with
    | [] => some (.ok [], h)
    | c :: cs => match fromValue fuel c h with
      | none => none
      | some (.error e, h) => some (.error e, h)
      | some (.ok v, h) => (fromValues fuel cs h).map fun x => (x.1.map (v :: ·), x.2)
end

/-- A function of a library: given its arguments and the memory, a result and what the memory is then -/
abbrev ExternFunc := List CVal → Heap → CVal × Heap

/-! ## Libraries -/

/-- A library on disk: whether it has `_cordy_api_init`, and its other symbols -/
structure Lib where
  init : Bool
  sym : List Char → Option ExternFunc

/-- models: semantic.rs:793-800 `FunctionLibraryEntry` -/
structure Entry where
  moduleId : Nat
  moduleName : List Char
  nargs : Nat
  method : List Char
  deriving DecidableEq

/-- models: semantic.rs:766-769 `FunctionLibrary` -/
structure FunctionLibrary where
  modules : List (List Char)
  methods : List Entry
  deriving DecidableEq

/-- models: semantic.rs:1454-1464 `declare_native` -/
def declareNative (l : FunctionLibrary) (m method : List Char) (nargs : Nat) : FunctionLibrary × Nat :=
  let found := l.modules.findIdx? (· == m)
  let modules := match found with | some _ => l.modules | none => l.modules ++ [m]
  let index := match found with | some i => i | none => modules.length - 1
  ({ modules := modules, methods := l.methods ++ [⟨index, m, nargs, method⟩] }, l.methods.length)

/-- models: semantic.rs:785-788 `truncate` with the lengths of compiler/mod.rs:186, 195 -/
def truncate (l : FunctionLibrary) (len : Nat × Nat) : FunctionLibrary :=
  { modules := l.modules.take len.1, methods := l.methods.take len.2 }

/-- What C code is run, in order: the initialisation of a module's library and functions of it with their arguments and the memory at that time -/
inductive Event where
  | init (m file : List Char) (lib : Lib)
  | call (m file sym : List Char) (args : List CVal) (heap : Heap)

/-- models: ffi.rs:53-58 `ExternalLibraryInterface` (without `links`, which never change); a loaded library is what was in the file when it was loaded -/
structure St where
  libraries : Nat → Option (List Char × Lib)
  heap : Heap
  trace : List Event

/-- models: ffi.rs:118-129 `call` -/
def call (fuel : Nat) (m file sym : List Char) (f : ExternFunc) (args : List V) (st : St) : Option (Except Error V × St) :=
  match toValues args st.heap with
  | (none, h) => some (.error .incompatible, { st with heap := h })
  | (some cs, h) =>
    let r := f cs h
    let trace := st.trace ++ [.call m file sym cs h]
    (fromValue fuel r.1 r.2).map fun x => (x.1, { st with heap := x.2, trace := trace })

/-- models: ffi.rs:67-104 `handle`, from the symbol on -/
def callSymbol (fuel : Nat) (e : Entry) (file : List Char) (lib : Lib) (args : List V) (st : St) : Option (Except Error V × St) :=
  match lib.sym e.method with
  | none => some (.error .noSymbol, st)
  | some f => call fuel e.moduleName file e.method f args st

/-- models: ffi.rs:67-104 `handle`; `disk`: the libraries there are at this moment -/
def handle (fuel : Nat) (links : List Char → Option (List Char)) (disk : List Char → Option Lib) (e : Entry) (args : List V) (st : St) :
    Option (Except Error V × St) :=
  match st.libraries e.moduleId with
  | some (file, lib) => callSymbol fuel e file lib args st
  | none => match links e.moduleName with
    | none => some (.error .noLink, st)
    | some file => match disk file with
      | none => some (.error .noLibrary, st)
      | some lib =>
        if lib.init then
          callSymbol fuel e file lib args
            { st with
              libraries := fun i => if i = e.moduleId then some (file, lib) else st.libraries i
              trace := st.trace ++ [.init e.moduleName file lib] }
        else some (.error .noInit, st)

/-- models: vm/mod.rs:516-521 `CallNative` (`popn`: 1012-1016); the stack has its top at the end. `none`: undefined behaviour of C, or a panic -/
def callNative (fuel : Nat) (links : List Char → Option (List Char)) (disk : List Char → Option Lib) (l : FunctionLibrary) (id : Nat) (stack : List V) (st : St) :
    Option (Except Error (List V) × St) :=
  match l.methods[id]? with
  | none => none
  | some e =>
    if stack.length < e.nargs then none else
    let args := stack.drop (stack.length - e.nargs)
    let rest := stack.take (stack.length - e.nargs)
    (handle fuel links disk e args st).map fun x => (x.1.map fun v => rest ++ [v], x.2)

/-! ## Sessions: a program, or lines of the REPL and evals, one after the other -/

inductive Step where
  /-- a compilation declaring native functions (module, name, number of parameters); whether it is kept: a line of the REPL with errors is undone, an eval
  with errors is not -/
  | compile (decls : List (List Char × List Char × Nat)) (kept : Bool)
  /-- a native function is called, with what is then on the stack and on disk -/
  | call (fuel : Nat) (disk : List Char → Option Lib) (id : Nat) (stack : List V)

def declareAll (l : FunctionLibrary) (ds : List (List Char × List Char × Nat)) : FunctionLibrary :=
  ds.foldl (fun l d => (declareNative l d.1 d.2.1 d.2.2).1) l

/-- models: compiler/mod.rs:68-80 `incremental_compile` (a failed compilation is undone: `save`, `restore`), 86-90 `eval_compile` (it is not) -/
def compile (l : FunctionLibrary) (ds : List (List Char × List Char × Nat)) (kept : Bool) : FunctionLibrary :=
  let r := declareAll l ds
  if kept then r else truncate r (l.modules.length, l.methods.length)

def step (links : List Char → Option (List Char)) (s : FunctionLibrary × St) : Step → Option (FunctionLibrary × St)
  | .compile ds kept => some (compile s.1 ds kept, s.2)
  | .call fuel disk id stack => (callNative fuel links disk s.1 id stack s.2).map fun x => (s.1, x.2)

def run (links : List Char → Option (List Char)) : List Step → FunctionLibrary × St → Option (FunctionLibrary × St)
  | [], s => some s
  | x :: xs, s => (step links s x).bind (run links xs)

/-- models: ffi.rs:60-64 `new`; semantic.rs:772-774 `new` -/
def start : FunctionLibrary × St := (⟨[], []⟩, ⟨fun _ => none, [], []⟩)

end Cordy.Ffi
