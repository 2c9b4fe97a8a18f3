import Verif.Model.Stmt
import Verif.Spec.Eval
/-!
# Statements with the code of their expressions

Puts the code of expressions (`Model/Expr.lean`) into that of statements (`Model/Stmt.lean`): one code, one machine, whose stack has the variables of the function, then what the statements keep there, then the operands of the expression that is being evaluated.

Simplified: an opcode of an expression is marked with the number `k` of variables that are in scope where it stands (in Rust only the slots of the variables it uses are in the code): the first `k` values of the frame are the variables, the others are operands to it. So what an operation can do to the frame beside taking its operands and giving its result is: changing these variables.
-/
namespace Cordy.Full
open Cordy.Codegen (Prims LitTy Out)
open Cordy.Builder (Bld)

/-- `k` variables, oldest first. -/
abbrev Vars (V : Type) (k : Nat) := {vs : List V // vs.length = k}

/-- What operators, functions, patterns, loops and assertions do. `S`: everything beside the variables of the function that runs. -/
structure Runtime (Γ : Codegen.Sig) (E S : Type) where
  /-- operations in expressions, on `k` variables and the rest -/
  prims : ∀ k, Prims Γ E (Vars Γ.V k × S)
  nil : Γ.V
  /-- `to_bool` (vm/value/mod.rs:312-327) and comparisons do not depend on variables -/
  truthy : Γ.V → S → Bool
  cmp : Γ.C → Γ.V → Γ.V → S → Bool
  truthy_eq : ∀ k v p, (prims k).truthy v p = truthy v p.2
  cmp_eq : ∀ k c l r p, (prims k).cmp c l r p = cmp c l r p.2
  /-- the iterator of a value, for a `for` loop -/
  iter : Γ.V → S → Out E S Γ.V
  next : Γ.V → S → Option (Γ.V × Γ.V)
  cmpMsg : Γ.C → Γ.V → Γ.V → S → Γ.V
  failed : Γ.V → Γ.V → S → E
  /-- what is still known of the variables after an error (the REPL goes on then) -/
  bot : List Γ.V → S → List Γ.V := fun vs _ => vs

/-- An error, or `exit`; the state in which it happens; what is known of the variables. -/
abbrev Bad (V E S : Type) := Codegen.Stop E × S × List V

variable {Γ : Codegen.Sig} {E S : Type}

/-- What statements are made of: the expressions and patterns of `Model/Expr.lean` and their opcodes, each marked with the number of variables. -/
abbrev sig (Γ : Codegen.Sig) : Stmts.Sig := ⟨Γ.V, Codegen.Expr Γ, Γ.P, Γ.C, Nat × Codegen.Op Γ, Nat × Codegen.Br Γ⟩

/-- The outcome of an operation on variables. -/
def ofOut {α : Type} {k : Nat} (bot : List Γ.V → S → List Γ.V) : Out E (Vars Γ.V k × S) α → Except (Bad Γ.V E S) (α × List Γ.V × S)
  | .ok a p => .ok (a, p.1.1, p.2)
  | .stop r p => .error (r, p.2, bot p.1.1 p.2)

/-- The language: expressions mean what `Spec/Eval.lean` says; `fc`: what `a->x .= f` does; `f`: what is done to an expression before. -/
def lang (Ρ : Runtime Γ E S) (f : Codegen.Expr Γ → Codegen.Expr Γ) (fc : ∀ k, Γ.V → Γ.V → Vars Γ.V k × S → Out E (Vars Γ.V k × S) Γ.V) : Stmts.Lang (sig Γ) S (Bad Γ.V E S) where
  nil := Ρ.nil
  truthy := Ρ.truthy
  eval e vs s := ofOut Ρ.bot (Codegen.evalW (Ρ.prims vs.length) (fc vs.length) (f e) (⟨vs, rfl⟩, s))
  destr p v vs s :=
    match ofOut Ρ.bot ((Ρ.prims vs.length).pattern p [] v (⟨vs, rfl⟩, s)) with
    | .ok (_, vs, s) => .ok (vs, s)
    | .error r => .error r
  iter v vs s :=
    match Ρ.iter v s with
    | .ok it s => .ok (it, s)
    | .stop r s => .error (r, s, Ρ.bot vs s)
  next := Ρ.next
  cmp := Ρ.cmp
  cmpMsg := Ρ.cmpMsg
  failed msg c vs s := (.err (Ρ.failed msg c s), s, Ρ.bot vs s)
  eval_len := by
    intro e vs s v vs' s' h
    unfold ofOut at h
    split at h
    · rename_i a p _
      injection h with h
      injection h with h1 h2
      injection h2 with h2 h3
      rw [← h2]; exact p.1.2
    · cases h
  destr_len := by
    intro p v vs s vs' s' h
    unfold ofOut at h
    split at h
    · rename_i h'
      split at h'
      · rename_i a q _
        injection h' with h'
        injection h' with h1 h2
        injection h2 with h2 h3
        injection h with h
        injection h with h4 h5
        rw [← h4, ← h2]; exact q.1.2
      · cases h'
    · cases h

/-- As documented. -/
abbrev langDoc (Ρ : Runtime Γ E S) : Stmts.Lang (sig Γ) S (Bad Γ.V E S) := lang Ρ id (fun k => Codegen.fcDoc (Ρ.prims k))
/-- As it is compiled (C36), with `f` done to expressions. -/
abbrev langCode (Ρ : Runtime Γ E S) (f : Codegen.Expr Γ → Codegen.Expr Γ) : Stmts.Lang (sig Γ) S (Bad Γ.V E S) := lang Ρ f (fun k => Codegen.fcCode (Ρ.prims k))

/-! ## The machine -/

/-- models: vm/mod.rs:60-100 `VirtualMachine`: literals under construction, counters of spread arguments (innermost first), and the rest. -/
structure St (Γ : Codegen.Sig) (S : Type) where
  lits : List (LitTy × List Γ.V)
  unroll : List Int
  s : S

/-- The machine as it appears to the code of an expression: `k` variables, the operands. There are always that many variables; if not, Rust would panic. -/
def decode (k : Nat) (m : Stmts.Mach (sig Γ) (St Γ S)) : Option (Codegen.Mach Γ (Vars Γ.V k × S)) :=
  if h : k ≤ m.st.length then
    some ⟨(m.st.drop k).reverse, m.s.lits, m.s.unroll, (⟨m.st.take k, by simp [h]⟩, m.s.s)⟩
  else none

/-- The frame: the variables and the operands. -/
def encode {k : Nat} (m : Codegen.Mach Γ (Vars Γ.V k × S)) : Stmts.Mach (sig Γ) (St Γ S) :=
  ⟨m.s.1.1 ++ m.stack.reverse, ⟨m.lits, m.unroll, m.s.2⟩⟩

def halt (Ρ : Runtime Γ E S) {k : Nat} (h : Codegen.Halt E (Vars Γ.V k × S)) : Stmts.Stop (sig Γ) (St Γ S) (Bad Γ.V E S) := .err (h.1, h.2.2, Ρ.bot h.2.1.1 h.2.2)

/-- Nothing in the code of statements looks at literals and counters. -/
def lift (L : Stmts.Lang (sig Γ) S (Bad Γ.V E S)) : Stmts.Lang (sig Γ) (St Γ S) (Bad Γ.V E S) where
  nil := L.nil
  truthy v t := L.truthy v t.s
  eval e vs t :=
    match L.eval e vs t.s with
    | .ok (v, vs, s) => .ok (v, vs, { t with s := s })
    | .error r => .error r
  destr p v vs t :=
    match L.destr p v vs t.s with
    | .ok (vs, s) => .ok (vs, { t with s := s })
    | .error r => .error r
  iter v vs t :=
    match L.iter v vs t.s with
    | .ok (it, s) => .ok (it, { t with s := s })
    | .error r => .error r
  next v t := L.next v t.s
  cmp c l r t := L.cmp c l r t.s
  cmpMsg c l r t := L.cmpMsg c l r t.s
  failed a b vs t := L.failed a b vs t.s
  eval_len := by
    intro e vs t v vs' t' h
    split at h
    · rename_i h'
      injection h with h
      injection h with h1 h2
      injection h2 with h2 h3
      subst h2
      exact L.eval_len _ _ _ _ _ _ h'
    · cases h
  destr_len := by
    intro p v vs t vs' t' h
    split at h
    · rename_i h'
      injection h with h
      injection h with h1 h2
      subst h1
      exact L.destr_len _ _ _ _ _ _ h'
    · cases h

/-- models: vm/mod.rs:262-645: the opcodes of statements as in `Model/Stmt.lean`, those of expressions as in `Model/Expr.lean`. (`f` is not used by any opcode: it is part of the meaning of expressions, to which C64 compares their code.) -/
def machine (Ρ : Runtime Γ E S) (f : Codegen.Expr Γ → Codegen.Expr Γ) : Stmts.Machine (sig Γ) (St Γ S) (Bad Γ.V E S) :=
  { lift (langCode Ρ f) with
    xop := fun (k, o) m =>
      match decode k m with
      | some c =>
        match Codegen.exec (Ρ.prims k) o c with
        | .ok c => .ok (encode c)
        | .error h => .error (halt Ρ h)
      | none => .error .crash
    xtest := fun (k, t) m =>
      match decode k m with
      | some c =>
        match Codegen.execTest (Ρ.prims k) t c with
        | .ok (j, c) => .ok (j, encode c)
        | .error h => .error (halt Ρ h)
      | none => .error .crash
    xpop := fun (k, o) m =>
      match decode k m with
      | some c =>
        match o, c.stack with
        | .store x, v :: st =>
          match Codegen.doOut c st ((Ρ.prims k).store x v c.s) with
          | .ok c => .ok (encode c)
          | .error h => .error (halt Ρ h)
        | .store _, [] => .error (halt Ρ (.panic, c.s))
        | _, _ => .error .crash
      | none => .error .crash }

/-- models: codegen.rs:69-276 `emit_expr` in the code of a function. -/
def target (Ρ : Runtime Γ E S) (k : Nat) : Codegen.Target Γ (Stmts.Op (sig Γ)) (Stmts.Br (sig Γ)) :=
  ⟨fun o => .x (k, o), fun t => .x (k, t), (Ρ.prims k).ofCmp, (Ρ.prims k).ne⟩

/-- models: codegen.rs:47-67 `emit_optimized_expr`: `f` is the optimiser, or nothing. -/
def em (Ρ : Runtime Γ E S) (f : Codegen.Expr Γ → Codegen.Expr Γ) : Stmts.Em (sig Γ) := fun k e b => Codegen.emitExpr (target Ρ k) (f e) b

end Cordy.Full
