import Verif.Model.LateBinding
/-!
# Specification of late binding (C65)

The meaning of a program does not depend on the order of its declarations: a name means the method of that name of the module it is used
in, if that module has one anywhere in the program, and otherwise the global of that name, declared anywhere in the program.
-/
namespace Cordy.LateSpec
open Cordy.Late

variable {O : Type}

/-- A declaration of `name`, of whatever sort -/
def declares (name : String) : Ev O → Option Bound
  | .global n i => if n = name then some (.global i) else none
  | .method _ n id inst => if n = name then some (.method id inst) else none
  | _ => none

/-- the declaration of the global `name` -/
def declaresGlobal (name : String) : Ev O → Option Bound
  | .global n i => if n = name then some (.global i) else none
  | _ => none

/-- the declaration of the method `name` of module `m` -/
def declaresMethod (m : Nat) (name : String) : Ev O → Option Bound
  | .method m' n id inst => if m' = m ∧ n = name then some (.method id inst) else none
  | _ => none

/-- What `name` means when it is used in module `mod` (or in none) of the program `h`. -/
def means (h : List (Ev O)) (mod : Option Nat) (name : String) : Option Bound :=
  match mod.bind (fun m => h.findSome? (declaresMethod m name)) with
  | some r => some r
  | none => h.findSome? (declaresGlobal name)

/-- The opcodes of a use of something; `none` if it is an error. -/
def useCode (store : Bool) (this : This) : Option Bound → Option (List (Op O))
  | some (.global i) => some [if store then .storeGlobal i else .pushGlobal i]
  | some (.method id false) => if store then none else some [.constant id]
  | some (.method id true) =>
    if store then none else
    match this with
    | .invalid => none
    | .local i => some [.pushLocal i, .getMethod id]
    | .upvalue i => some [.pushUpValue i, .getMethod id]
  | none => none

/-- Block `b` of function `f` of the program `h`, with every name compiled as what it means; `cur` counts the blocks of `f`. -/
def blockCodeFrom (h : List (Ev O)) (f b : Nat) : Nat → List (Ev O) → Option (List (Op O))
  | _, [] => some []
  | cur, .emit f' o :: r =>
    if f' = f ∧ cur = b then (blockCodeFrom h f b cur r).map (.op o :: ·) else blockCodeFrom h f b cur r
  | cur, .branch f' :: r => blockCodeFrom h f b (if f' = f then cur + 1 else cur) r
  | cur, .use f' store name mod this :: r =>
    if f' = f ∧ cur = b then
      match useCode store this (means h mod name), blockCodeFrom h f b cur r with
      | some code, some rest => some (code ++ rest)
      | _, _ => none
    else blockCodeFrom h f b cur r
  | cur, _ :: r => blockCodeFrom h f b cur r

/-- Block `b` of function `f` of the program `h`, with every name compiled as what it means. -/
def blockCode (h : List (Ev O)) (f b : Nat) : Option (List (Op O)) := blockCodeFrom h f b 0 h

/-! ## When a name is late, and which declaration settles it -/

/-- The initialiser of `name` is compiled. -/
def initialises (name : String) : Ev O → Bool
  | .initialised n => n = name
  | _ => false

/-- A global of that name is declared and initialised in `past`. -/
def globalReady (name : String) : List (Ev O) → Option Nat
  | [] => none
  | .global n i :: r => if n = name ∧ r.any (initialises name) then some i else globalReady name r
  | _ :: r => globalReady name r

/-- A use that comes after `past` is late, unless the method or (outside modules) the global is there already. -/
def isLate (past : List (Ev O)) (mod : Option Nat) (name : String) : Bool :=
  (mod.bind (fun m => past.findSome? (declaresMethod m name))).isNone && (mod.isSome || (globalReady name past).isNone)

/-- A late use in a block: the opcodes that its meaning asks for, those of the declaration that settles it (the first later declaration of
that name, else, in a module, a global that was there already), and how many events come before that declaration. -/
structure LateUse (O : Type) where
  wanted : Option (List (Op O))
  settled : Option (List (Op O))
  when : Nat

/-- A block as it is written: opcodes and late uses. -/
inductive Item (O : Type) where
  | op (o : Op O)
  | late (u : LateUse O)

/-- the declaration that settles a late use between `past` and `future` -/
def settledBy (past future : List (Ev O)) (mod : Option Nat) (name : String) : Option Bound :=
  match future.findSome? (declares name) with
  | some r => some r
  | none => if mod.isSome then (globalReady name past).map .global else none

/-- Block `b` of function `f` as it is written -/
def itemsFrom (h : List (Ev O)) (f b : Nat) : List (Ev O) → Nat → List (Ev O) → List (Item O)
  | _, _, [] => []
  | past, cur, .emit f' o :: r =>
    (if f' = f ∧ cur = b then [.op (.op o)] else []) ++ itemsFrom h f b (past ++ [.emit f' o]) cur r
  | past, cur, .branch f' :: r => itemsFrom h f b (past ++ [.branch f']) (if f' = f then cur + 1 else cur) r
  | past, cur, .use f' store name mod this :: r =>
    (if f' = f ∧ cur = b then
      if isLate past mod name then
        [.late ⟨useCode store this (means h mod name), useCode store this (settledBy past r mod name),
          past.length + 1 + r.findIdx (fun e => (declares name e).isSome)⟩]
      else ((useCode store this (means h mod name)).getD []).map .op
    else []) ++ itemsFrom h f b (past ++ [.use f' store name mod this]) cur r
  | past, cur, e :: r => itemsFrom h f b (past ++ [e]) cur r

def items (h : List (Ev O)) (f b : Nat) : List (Item O) := itemsFrom h f b [] 0 h

/-- Block `b` of function `f` is *regular*: each of its late uses is settled by what it means and is one opcode; two late uses with no
opcode in between have the same opcode, or the declaration that settles the first comes before the one that settles the second; and a late
use at the end of the block is the only late use of the block. -/
structure Regular (h : List (Ev O)) (f b : Nat) : Prop where
  settled : ∀ u, .late u ∈ items h f b → u.settled = u.wanted ∧ ∃ o, u.wanted = some [o]
  order : ∀ l₁ u₁ l₂ u₂ l₃, items h f b = l₁ ++ .late u₁ :: l₂ ++ .late u₂ :: l₃ → (∀ o, .op o ∉ l₂) →
    u₁.wanted = u₂.wanted ∨ u₁.when < u₂.when
  last : ∀ l u, items h f b = l ++ [.late u] → ∀ v, .late v ∉ l

/-- The targets of a pattern assignment in module `mod`, between `past` and `fut`, that do not make the compiler panic: a late target is settled
by a later global, or by nothing at all; no target is a method. -/
def TargetsFine (past fut : List (Ev O)) (mod : Option Nat) (names : List String) : Prop :=
  ∀ n ∈ names, if isLate past mod n = true then
      (∃ i, fut.findSome? (declares n) = some (.global i)) ∨
        (fut.findSome? (declares n) = none ∧ ¬ (mod.isSome ∧ (globalReady n past).isSome))
    else mod.bind (fun m => past.findSome? (declaresMethod m n)) = none

/-! ## What there is in a history -/

def isOpen : Ev O → Bool
  | .openFn => true
  | _ => false

def isBranch (f : Nat) : Ev O → Bool
  | .branch f' => f' = f
  | _ => false

def isPattern : Ev O → Bool
  | .pattern _ _ _ => true
  | _ => false

/-! ## Well-formed histories -/

/-- `opened` functions are opened; those below `closed` were opened before the last declaration of a global or method, which only happens
outside functions, so that nothing more is emitted to them. -/
def WellFormedFrom : Nat → Nat → List (Ev O) → Prop
  | _, _, [] => True
  | opened, closed, .openFn :: r => WellFormedFrom (opened + 1) closed r
  | opened, closed, .emit f _ :: r => closed ≤ f ∧ f < opened ∧ WellFormedFrom opened closed r
  | opened, closed, .branch f :: r => closed ≤ f ∧ f < opened ∧ WellFormedFrom opened closed r
  | opened, closed, .use f _ _ _ _ :: r => closed ≤ f ∧ f < opened ∧ WellFormedFrom opened closed r
  | opened, closed, .pattern _ _ _ :: r => WellFormedFrom opened closed r
  | opened, closed, .initialised _ :: r => WellFormedFrom opened closed r
  | opened, _, .global _ _ :: r => WellFormedFrom opened opened r
  | opened, _, .method _ _ _ _ :: r => WellFormedFrom opened opened r

/-- No global is declared twice (that is an error of its own, C54). -/
def DistinctGlobals (h : List (Ev O)) : Prop := (h.filterMap (fun | .global n _ => some n | _ => none)).Nodup

structure WellFormed (h : List (Ev O)) : Prop where
  order : WellFormedFrom 0 0 h
  distinct : DistinctGlobals h

end Cordy.LateSpec
