import Verif.Model.Resolve
/-!
# Specification of scopes

The functions that are open, each with the blocks that are open in it, each with its declarations; innermost and latest first. A name refers to the first visible declaration of it.
-/
namespace Cordy.Resolve

structure Decl where
  name : Ref
  id : Nat
  visible : Bool
  deriving DecidableEq, Repr

abbrev Block := List Decl
/-- the open blocks of a function -/
abbrev Blocks := List Block
/-- the open functions -/
abbrev Env := List Blocks

/-- The declaration that a name refers to. -/
def lookup (e : Env) (nm : Ref) : Option Nat :=
  (e.flatten.flatten.find? (fun d => d.visible && d.name == nm)).map (·.id)

structure Spec where
  env : Env := [[[]]]
  next : Nat := 0
  deriving DecidableEq, Repr

/-- A new declaration in the innermost block. -/
def addDecl (e : Env) (d : Decl) : Env :=
  match e with
  | (b :: bs) :: fs => ((d :: b) :: bs) :: fs
  | e => e

/-- Is the name declared in the innermost block? -/
def declaredHere (e : Env) (nm : Ref) : Bool :=
  match e with
  | (b :: _) :: _ => b.any (fun d => d.name == nm)
  | _ => false

/-- The declaration `id` of the innermost function becomes visible. -/
def reveal (e : Env) (id : Nat) : Env :=
  match e with
  | f :: fs => f.map (fun b => b.map (fun d => if d.id = id then { d with visible := true } else d)) :: fs
  | [] => []

/-- `none`: there is nothing to close, or `self` is not in a function. Names of native functions cannot be declared, nor names that the same block declares. -/
def specStep (native : String → Bool) (s : Spec) : Op → Option Spec
  | .declare nm init =>
    some { env := if native nm || declaredHere s.env (.named nm) then s.env else addDecl s.env ⟨.named nm, s.next, init⟩,
           next := s.next + 1 }
  | .declareSelf => if s.env.length ≤ 1 then none else some { env := addDecl s.env ⟨.this, s.next, true⟩, next := s.next + 1 }
  | .declareSynthetic => some { env := addDecl s.env ⟨.synthetic, s.next, false⟩, next := s.next + 1 }
  | .init id => some { s with env := reveal s.env id }
  | .openBlock =>
    match s.env with
    | f :: fs => some { s with env := ([] :: f) :: fs }
    | [] => none
  | .closeBlock =>
    match s.env with
    | (_ :: b :: bs) :: fs => some { s with env := (b :: bs) :: fs }
    | _ => none
  | .openFn => some { s with env := [[]] :: s.env }
  | .closeFn =>
    match s.env with
    | [_] :: f :: fs => some { s with env := f :: fs }
    | _ => none
  | .ref _ => some s

def specRunFrom (native : String → Bool) : Spec → List Op → Option Spec
  | s, [] => some s
  | s, op :: ops => (specStep native s op).bind (fun s' => specRunFrom native s' ops)

/-- The scopes after the history `ops`; `none` if it is not properly nested. -/
def specRun (native : String → Bool) (ops : List Op) : Option Spec := specRunFrom native {} ops

/-- The scopes without the global variables. -/
def withoutGlobals : Env → Env
  | [] => []
  | [bs] => [bs.dropLast]
  | f :: g :: fs => f :: withoutGlobals (g :: fs)

/-- The reference `r` is what the scopes `e` say: it reads and writes the declaration that `nm` refers to; if there is none, `nm` is a native function, or is bound later (only in a function), or is an error. -/
def Right (native : String → Bool) (e : Env) (nm : Ref) (s : St) (r : Res) : Prop :=
  match lookup e nm with
  | some id => meaning s r = some id
  | none =>
    if isNative native nm then r = .native
    else r = .invalid ∨ (r = .late ∧ 2 ≤ e.length)

end Cordy.Resolve
