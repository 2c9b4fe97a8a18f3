import Verif.Model.ExprOpt
/-!
# What the optimiser relies on

`Laws` collects the facts about operators, variables and functions that the rewriting of expressions uses.  The state is what a program can
observe of variables, objects, input and output: creating a new list, string or partial function does not change it.
-/
namespace Cordy.Codegen
variable {Γ : Sig} {E S : Type}

/-- Equal results and effects; or both stop (with an error or `exit`). -/
def Same {α : Type} (a b : Out E S α) : Prop :=
  match a, b with
  | .ok v s, .ok w t => v = w ∧ s = t
  | .stop _ _, .stop _ _ => True
  | _, _ => False

/-- A state in which `s` may result after evaluating some expression, or none. -/
inductive After (P : Prims Γ E S) (s : S) : S → Prop
  | refl : After P s s
  | eval {e v s'} : eval P e s = .ok v s' → After P s s'

/-- An action that does not change the state, when it gives a value. -/
def ReadOnly (f : S → Out E S Γ.V) : Prop := ∀ s, (∃ v, f s = .ok v s) ∨ ∃ r t, f s = .stop r t

/-- An action that gives the same in all states. -/
def Fixed (Imm : Γ.V → Prop) (f : S → Out E S Γ.V) : Prop := (∃ v, Imm v ∧ ∀ s, f s = .ok v s) ∨ ∀ s, ∃ r t, f s = .stop r t

structure Laws (c : Consts Γ) (P : Prims Γ E S) where
  /-- folding computes what the operators do -/
  foldU : ∀ op v s, c.foldable v = true → P.unary op v s = match c.foldU op v with | .ok w => .ok w s | .error f => .stop (.err (P.raise f)) s
  foldB : ∀ op v w s, c.foldable v = true → c.foldable w = true →
    P.binary op v w s = match c.foldB op v w with | .ok x => .ok x s | .error f => .stop (.err (P.raise f)) s
  truthy : ∀ v s, c.foldable v = true → P.truthy v s = c.truthy v
  /-- calling an operator with two arguments (see `C35_tables`) -/
  call_bin : ∀ v op a b s, c.binOp v = some op → P.call v [a, b] s = P.binary op a b s
  call_swap : ∀ v op a b s, c.binOp v = none → c.swapOp v = some op → P.call v [a, b] s = P.binary op b a s
  op_nargs : ∀ v, (c.binOp v).isSome ∨ (c.swapOp v).isSome → c.minNargs v = 2
  /-- a native function with too few arguments is a partial function, and collects arguments -/
  partial_call : ∀ v vs, vs.length < c.minNargs v → ∃ p, ∀ s, P.call v vs s = .ok p s ∧ ∀ ws, P.call p ws s = P.call v (vs ++ ws) s
  /-- `min(int)`, `max(int)` -/
  min_int : ∀ v w s, c.isMin v = true → c.isInt w = true → P.call v [w] s = .ok c.minInt s
  max_int : ∀ v w s, c.isMax v = true → c.isInt w = true → P.call v [w] s = .ok c.maxInt s
  /-- `[i](x)` is `x[i]`, other lists cannot be called -/
  list_call : ∀ i x s, ((P.mkLit .list [i] s).bind fun l s => P.call l [x] s) = P.index x i s
  list_bad : ∀ vs x s, vs.length ≠ 1 → ∃ r t, ((P.mkLit .list vs s).bind fun l s => P.call l [x] s) = .stop r t
  /-- `[a:b](x)` is `x[a:b]`, up to which error is raised -/
  slice_call : ∀ a b x s, Same ((P.slice2 a b s).bind fun l s => P.call l [x] s) (P.slice x a b s)
  slice3_call : ∀ a b d x s, Same ((P.slice3 a b d s).bind fun l s => P.call l [x] s) (P.sliceStep x a b d s)
  /-- reading -/
  load : ∀ x, ReadOnly (P.load x)
  load_total : ∀ x s, c.total x = true → ∃ v, P.load x s = .ok v s
  getField : ∀ v fi, ReadOnly (P.getField v fi)
  bindMethod : ∀ v m, ReadOnly (P.bindMethod v m)
  unary : ∀ op v, ReadOnly (P.unary op v)
  binary : ∀ op v w, ReadOnly (P.binary op v w)
  mkLit : ∀ ty vs, ReadOnly (P.mkLit ty vs)
  mkList : ∀ vs s, ∃ v, P.mkLit .list vs s = .ok v s
  /-- immutable values: constants, functions, and what operators make of them -/
  Imm : Γ.V → Prop
  imm_const : ∀ v, 2 ≤ c.cpurity v → Imm v
  imm_unary : ∀ op v, Imm v → Fixed Imm (P.unary op v)
  imm_binary : ∀ op v w, Imm v → Imm w → Fixed Imm (P.binary op v w)
  imm_truthy : ∀ v s s', Imm v → P.truthy v s = P.truthy v s'
  imm_partial : ∀ v vs, Imm v → (∀ w ∈ vs, Imm w) → vs.length < c.minNargs v → ∃ p, Imm p ∧ ∀ s, P.call v vs s = .ok p s
  /-- creating a function is possible at any time, and gives the same function before and after the evaluation of an expression -/
  function : ∀ v caps s, ∃ w, Imm w ∧ ∀ s', After P s s' → eval P (.function v caps) s' = .ok w s'

end Cordy.Codegen
