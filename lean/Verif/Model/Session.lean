import Verif.Spec.Session
import Verif.Model.Program
/-!
# Sessions

The interactive interpreter (repl.rs:78-118): each line is compiled, its code goes after the code of the lines before it (compiler/mod.rs:68-80), and the machine runs it, with the stack as the lines before it have left it.

Lines that do not compile are C48, lines that go on are C69. Simplified: where in the text an opcode comes from (`locations`) is no part of it.
-/
namespace Cordy.Session
open Cordy.Full (sig St em)
open Cordy.Stmts (Block Op Br PS)
open Cordy.Graph (Instr)
open Cordy.Program (Fn Prog World State Config steps linkFns)
variable {Γ : Codegen.Sig} {E S : Type}

/-- models: parser/mod.rs:210-222 `parse_incremental_repl`: the code of a line, after lines that declared `k` variables; if it ends with an expression its value is printed -/
def emitLine (emit : Stmts.Em (sig Γ)) (print : Γ.V) (k : Nat) (body : Block (sig Γ)) : PS (sig Γ) :=
  let ps := Stmts.emitB emit body ⟨.empty, List.replicate k 0, 0, false, []⟩
  let ps := if ps.flag then (((ps.push (.x (ps.locals.length, .const print))).push .swap).push (.x (ps.locals.length, .call 1 false))).push .pop else ps
  -- `Yield`
  ps.push .exit

/-- models: vm/mod.rs:60-83, repl.rs:20-45: what the compiler has made of the lines so far: the code, where calls of the functions enter, the functions, the number of variables (`self.locals[0].len()`) -/
structure Image (Γ : Codegen.Sig) where
  code : List (Instr (Op (sig Γ)) (Br (sig Γ)))
  starts : List (List Nat)
  fns : List (Fn Γ)
  k : Nat

/-- models: compiler/mod.rs:68-80 `incremental_compile`, parser/mod.rs:230-255 `teardown`: one more line, and where it starts (vm/mod.rs:237: at the end of the code before it) -/
def Image.add (ph : Op (sig Γ)) (emit : Stmts.Em (sig Γ)) (print : Γ.V) (I : Image Γ) (l : Line Γ) : Image Γ × Nat :=
  let ps := emitLine emit print I.k l.body
  let out := Graph.emit ph () ps.b.graph I.code (List.replicate I.code.length ())
  let rest := linkFns ph emit l.fns out.1 out.2.1
  (⟨rest.1, I.starts ++ rest.2, I.fns ++ l.fns, ps.locals.length⟩, I.code.length)

/-- All lines. -/
def Image.all (ph : Op (sig Γ)) (emit : Stmts.Em (sig Γ)) (print : Γ.V) : Image Γ → List (Line Γ) → Image Γ
  | I, [] => I
  | I, l :: ls => Image.all ph emit print (I.add ph emit print l).1 ls

/-- Before the first line. -/
def Image.empty : Image Γ := ⟨[], [], [], 0⟩

/-- The machine runs the line at `ip`, with the stack `vs`, and stops with `r`. -/
def Stops (P : Prog Γ E S) (I : Image Γ) (ip : Nat) (vs : List Γ.V) (us : List Int) (s : S) (r : Stmts.Stop (sig Γ) (St Γ (World Γ.V S)) (Full.Bad Γ.V E (World Γ.V S))) : Prop :=
  ∃ n, steps (here P I.fns) I.code I.starts n (.run ⟨ip, ⟨vs, ⟨[], us, ([], s)⟩⟩, []⟩) = .stop r

/-- models: repl.rs:78-118 `run`, vm/mod.rs:229-238 `run_recovery`: what the interpreter does with lines. After an error the stack begins with the variables in scope (`b`), then come operands (and the frames of calls); it is cut to the number of variables. The counters of spread arguments are left as they are. -/
inductive Runs (P : Prog Γ E S) (ph : Op (sig Γ)) (print : Γ.V) (report : E → S → S) : Image Γ → List Γ.V → List Int → S → List (Line Γ) → End Γ S → Prop
  | done {I vs us s} : Runs P ph print report I vs us s [] (.ready vs s)
  | next {I vs us s l ls st t x} : Stops P (I.add ph (em P.base id) print l).1 (I.add ph (em P.base id) print l).2 vs us s (.exit st t) →
      Runs P ph print report (I.add ph (em P.base id) print l).1 (st.take (I.add ph (em P.base id) print l).1.k) t.unroll t.s.2 ls x → Runs P ph print report I vs us s (l :: ls) x
  | failed {I vs us s l ls e w b vs' us' x} : Stops P (I.add ph (em P.base id) print l).1 (I.add ph (em P.base id) print l).2 vs us s (.err (.err e, w, b)) → e ≠ P.diverge →
      vs'.length ≤ (I.add ph (em P.base id) print l).1.k → b.take (I.add ph (em P.base id) print l).1.k <+: vs' →
      Runs P ph print report (I.add ph (em P.base id) print l).1 vs' us' (report e w.2) ls x → Runs P ph print report I vs us s (l :: ls) x
  | quit {I vs us s l ls w b} : Stops P (I.add ph (em P.base id) print l).1 (I.add ph (em P.base id) print l).2 vs us s (.err (.exit, w, b)) → Runs P ph print report I vs us s (l :: ls) (.quit w.2)
  | panic {I vs us s l ls w b} : Stops P (I.add ph (em P.base id) print l).1 (I.add ph (em P.base id) print l).2 vs us s (.err (.panic, w, b)) → Runs P ph print report I vs us s (l :: ls) .panic
  /-- `Return` in the frame of the program panics (C64) -/
  | ret {I vs us s l ls v t} : Stops P (I.add ph (em P.base id) print l).1 (I.add ph (em P.base id) print l).2 vs us s (.ret v t) → Runs P ph print report I vs us s (l :: ls) .crash
  | crash {I vs us s l ls} : Stops P (I.add ph (em P.base id) print l).1 (I.add ph (em P.base id) print l).2 vs us s .crash → Runs P ph print report I vs us s (l :: ls) .crash

end Cordy.Session
