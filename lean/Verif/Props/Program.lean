import Verif.Lemmas.ProgramLayout
/-!
# C76: programs with functions

`Spec/Calls.lean` are the rules. The code is that of the whole program, laid out as `teardown` does; the machine has one stack with frames (`Model/Program.lean`).
-/
namespace Cordy.Program
open Cordy.Codegen (Out Prims LitTy Ap)
open Cordy.Full (Runtime Vars sig St decode encode machine em langDoc)
open Cordy.Stmts (Block Op Br emitBody emitProgram callBody linear entry Ends)
open Cordy.Graph (Instr LRun LHalts LRunN lstep)
variable {Γ : Codegen.Sig} {E S : Type}

/-! ## Layout -/

theorem linkFns_laid (P : Prog Γ E S) (f) (ph : Op (sig Γ)) : ∀ (fns : List (Fn Γ)) (code : Code Γ) (locs : List Unit),
    code <+: (linkFns ph (em P.base f) fns code locs).1 ∧ Laid P (linkFns ph (em P.base f) fns code locs).1 (linkFns ph (em P.base f) fns code locs).2 f ph fns
  | [], code, locs => ⟨List.prefix_rfl, rfl, fun _ _ h => by simp at h⟩
  | F :: fs, code, locs => by
    simp only [linkFns]
    obtain ⟨h1, h2, h3⟩ := linkFns_laid P f ph fs (Graph.emit ph () (emitFn (em P.base f) F.required F.defaults F.patterns F.body).1.b.graph code locs).1 (Graph.emit ph () (emitFn (em P.base f) F.required F.defaults F.patterns F.body).1.b.graph code locs).2.1
    refine ⟨List.IsPrefix.trans ?_ h1, by simp [h2], ?_⟩
    · rw [Graph.emit_eq]
      exact List.prefix_append _ _
    · intro fn F' hb
      cases fn with
      | zero =>
        simp only [List.getElem?_cons_zero, Option.some.injEq] at hb
        subst hb
        exact ⟨code, locs, h1, rfl⟩
      | succ fn =>
        simp only [List.getElem?_cons_succ] at hb ⊢
        exact h3 fn F' hb

theorem le_sum : ∀ {xs : List Nat} {x : Nat}, x ∈ xs → x ≤ xs.sum
  | y :: ys, x, h => by
    simp only [List.sum_cons]
    rcases List.mem_cons.1 h with rfl | h
    · omega
    · have := le_sum h; omega

/-! ## The main program -/

section
variable (P : Prog Γ E S) {f : Codegen.Expr Γ → Codegen.Expr Γ} {G : Codegen.Expr Γ → Prop} (hG : Agrees P f G) (ph : Op (sig Γ)) (main : Block (sig Γ)) (pre : Code Γ) (locs : List Unit) (s : S)

/-- The start of the machine. -/
abbrev start (L : Linked Γ) (s : S) : State Γ E S := .run ⟨L.main, ⟨[], ⟨[], [], ([], s)⟩⟩, []⟩

theorem reaches_det {code : Code Γ} {starts : List (List Nat)} {x : State Γ E S} {r r'} (h : Reaches P code starts x (.stop r)) (h' : Reaches P code starts x (.stop r')) : r = r' := by
  obtain ⟨n, h⟩ := h
  obtain ⟨m, h'⟩ := h'
  rcases Nat.le_total n m with hle | hle
  · obtain ⟨k, rfl⟩ : ∃ k, m = n + k := ⟨m - n, by omega⟩
    rw [steps_add, h, steps_stop] at h'
    injection h'
  · obtain ⟨k, rfl⟩ : ∃ k, n = m + k := ⟨n - m, by omega⟩
    rw [steps_add, h', steps_stop] at h
    injection h with h
    exact h.symm

/-- How the main program ends. -/
def endOf : Stmts.Top (sig Γ) (World Γ.V S) (Full.Bad Γ.V E (World Γ.V S)) → Stmts.Stop (sig Γ) (St Γ (World Γ.V S)) (Full.Bad Γ.V E (World Γ.V S))
  | .fin w => .exit [] ⟨[], [], w⟩
  | .ret v w => .ret v ⟨[], [], w⟩
  | .stop r => .err r

include hG in
theorem topLevel_at (n : Nat) (hb : main.each G) :
    (Stmts.topLevel (atomicF P f n).toLang n main ⟨[], [], ([], s)⟩).map Stmts.programEnd = (Stmts.topLevel (lang P n) n main ([], s)).map endOf := by
  have h := Full.runB_at [] [] (hG n) n main hb [] ([], s)
  unfold Stmts.topLevel
  rw [show Stmts.runB (atomicF P f n).toLang n main [] ⟨[], [], ([], s)⟩ = _ from h]
  rcases Stmts.runB (lang P n) n main [] ([], s) with _ | (_ | _ | _ | _ | _) <;> rfl

include hG in
theorem main_key (hok : main.ok none false) (hb : main.each G) (hoks : ∀ F ∈ P.fns, F.ok ∧ F.each G)
    (hsz : (link ph (em P.base f) P.fns main pre locs).code.length < 2 ^ 31) :
    ∃ B, 0 < B ∧ ∀ n,
      (∀ t, Stmts.topLevel (lang P n) n main ([], s) = some t → (∀ w, t ≠ .stop (.err P.diverge, w)) → Reaches P (link ph (em P.base f) P.fns main pre locs).code (link ph (em P.base f) P.fns main pre locs).fns (start (link ph (em P.base f) P.fns main pre locs) s) (.stop (endOf t))) ∧
      ((Stmts.topLevel (lang P n) n main ([], s) = none ∨ ∃ w, Stmts.topLevel (lang P n) n main ([], s) = some (.stop (.err P.diverge, w))) →
        Late P (link ph (em P.base f) P.fns main pre locs).code (link ph (em P.base f) P.fns main pre locs).fns (n / B) (start (link ph (em P.base f) P.fns main pre locs) s)) := by
  obtain ⟨hpre, hL⟩ := linkFns_laid P f ph P.fns (Graph.emit ph () (emitProgram (em P.base f) main).b.graph pre locs).1 (Graph.emit ph () (emitProgram (em P.base f) main).b.graph pre locs).2.1
  change linear ph (emitProgram (em P.base f) main) pre locs <+: (link ph (em P.base f) P.fns main pre locs).code at hpre
  change Laid P (link ph (em P.base f) P.fns main pre locs).code (link ph (em P.base f) P.fns main pre locs).fns f ph P.fns at hL
  have hentry : (link ph (em P.base f) P.fns main pre locs).main = entry ph (emitProgram (em P.base f) main) pre locs := rfl
  unfold start
  rw [hentry]
  generalize (link ph (em P.base f) P.fns main pre locs).code = code at *
  generalize (link ph (em P.base f) P.fns main pre locs).fns = starts at *
  have hcd : (linear ph (emitProgram (em P.base f) main) pre locs).length < 2 ^ 31 := Nat.lt_of_le_of_lt hpre.length_le hsz
  have hwf : Graph.WF (emitProgram (em P.base f) main).b.graph := Stmts.program_wf _ _
  have h0 : 0 < (emitProgram (em P.base f) main).b.graph.length := by rw [Builder.graph_length]; omega
  have hmem : ∀ F ∈ P.fns, (emitFn (em P.base f) F.required F.defaults F.patterns F.body).1.b.graph.length ≤ (P.fns.map fun F => (emitFn (em P.base f) F.required F.defaults F.patterns F.body).1.b.graph.length).sum := fun F h =>
    le_sum (List.mem_map.2 ⟨F, h, rfl⟩)
  refine ⟨(emitProgram (em P.base f) main).b.graph.length + (P.fns.map fun F => (emitFn (em P.base f) F.required F.defaults F.patterns F.body).1.b.graph.length).sum, by omega, fun n => ?_⟩
  generalize hB : (emitProgram (em P.base f) main).b.graph.length + (P.fns.map fun F => (emitFn (em P.base f) F.required F.defaults F.patterns F.body).1.b.graph.length).sum = B
  have hB0 : 0 < B := by omega
  have hg := good hG hL hsz (B := B) (fun F h => by have := hmem F h; omega) hB0 (fun _ h => (hoks _ h).1) (fun _ h => (hoks _ h).2) n
  have hj0 : n = 0 → (n - 1) / B = 0 := by rintro rfl; simp
  have hd := Stmts.program_out (atomicF P f n) (em P.base f) n main hok ⟨[], [], ([], s)⟩
  have ht := topLevel_at P hG main s n hb
  have hstep : (n - 1) / B + 1 ≥ n / B := by
    cases n with
    | zero => simp
    | succ n =>
      simp only [Nat.add_sub_cancel]
      rw [← Nat.add_div_right n hB0]
      exact Nat.div_le_div_right (by omega)
  cases hr : Stmts.topLevel (atomicF P f n).toLang n main ⟨[], [], ([], s)⟩ with
  | none =>
    rw [hr] at hd
    obtain ⟨l, ip', m', hl, hrun⟩ := Graph.long_code (Graph.emitted_block ph () _ pre locs) hwf hcd h0 hd
    obtain ⟨i, hi, hsteps⟩ := run_sim hL.fits hg hj0 hpre hrun []
    have htop : Stmts.topLevel (lang P n) n main ([], s) = none := by
      rw [hr] at ht
      cases htop : Stmts.topLevel (lang P n) n main ([], s) with
      | none => rfl
      | some t' => rw [htop] at ht; cases ht
    refine ⟨fun t h => by (rw [htop] at h; cases h), fun _ => (Late.of_steps hsteps).le ?_⟩
    have : n < (l + 1) * B := Nat.lt_of_lt_of_le hl (Nat.mul_le_mul_left _ (by omega))
    have := (Nat.div_lt_iff_lt_mul hB0).2 this
    omega
  | some t =>
    rw [hr] at hd ht
    obtain ⟨es, hd⟩ := (Stmts.ends_iff (atomicF P f n) ph hwf pre locs hcd [] ⟨[], [], ([], s)⟩ _).2 hd
    have hf := halt_sim hL.fits hg hj0 hpre hd []
    cases htop : Stmts.topLevel (lang P n) n main ([], s) with
    | none => rw [htop] at ht; cases ht
    | some t' =>
      rw [htop] at ht
      injection ht with ht
      rw [ht] at hf
      refine ⟨fun t h hne => ?_, fun h => ?_⟩
      · injection h with h
        subst h
        cases t' with
        | fin w => exact hf
        | ret v w => exact hf
        | stop r =>
          obtain ⟨r, w⟩ := r
          exact hf.1 fun hr => hne w (by rw [hr])
      · rcases h with h | ⟨w, h⟩
        · cases h
        · injection h with h
          subst h
          exact (hf.2 rfl).le hstep

/-- `result` and `topLevel`. -/
theorem result_ok (n : Nat) (w) : result P n main s = some (.ok w) ↔ Stmts.topLevel (lang P n) n main ([], s) = some (.fin w) := by
  unfold result Stmts.topLevel
  rcases Stmts.runB (lang P n) n main [] ([], s) with _ | (_ | _ | _ | _ | _) <;> simp
theorem result_err (n : Nat) (r) : result P n main s = some (.error r) ↔ Stmts.topLevel (lang P n) n main ([], s) = some (.stop r) := by
  unfold result Stmts.topLevel
  rcases Stmts.runB (lang P n) n main [] ([], s) with _ | (_ | _ | _ | _ | _) <;> simp
end

/-! ## C76 -/

/-- **C76** the rules are not ambiguous: which bound is allowed does not matter, if it is enough. -/
theorem C76_rules (P : Prog Γ E S) (main : Block (sig Γ)) (s : S) (n m : Nat) (r r') (h : result P n main s = some r) (h' : result P m main s = some r')
    (hr : ∀ w, r ≠ .error (.err P.diverge, w)) (hr' : ∀ w, r' ≠ .error (.err P.diverge, w)) : r = r' := by
  have key : ∀ {n m : Nat} {r}, n ≤ m → result P n main s = some r → (∀ w, r ≠ .error (.err P.diverge, w)) → result P m main s = some r := by
    intro n m r hnm h hr
    have h1 := Stmts.runB_ap (lang_ap P (callFn_mono P hnm)) n main [] ([], s)
    have hrun : ∃ x, Stmts.runB (lang P n) n main [] ([], s) = some x ∧ Stmts.runB (lang P m) n main [] ([], s) = some x := by
      cases hx : Stmts.runB (lang P n) n main [] ([], s) with
      | none => simp [result, hx] at h
      | some x =>
        rw [hx] at h1
        rcases h1 with h1 | ⟨d, h1, hd⟩
        · exact ⟨x, rfl, h1.symm⟩
        · injection h1 with h1
          subst h1
          obtain ⟨q, w⟩ := d
          have hq : q = .err P.diverge := hd
          subst hq
          simp only [result, hx, Option.some.injEq] at h
          exact absurd h.symm (hr w)
    obtain ⟨x, hx1, hx2⟩ := hrun
    have hx3 := Stmts.runB_le (lang P m) hnm main [] ([], s) x hx2
    unfold result at h ⊢
    rw [hx1] at h
    rw [hx3]
    exact h
  have h1 := key (Nat.le_max_left n m) h hr
  have h2 := key (Nat.le_max_right n m) h' hr'
  rw [h1] at h2
  exact Option.some.inj h2

theorem program_of (P : Prog Γ E S) {f : Codegen.Expr Γ → Codegen.Expr Γ} {G : Codegen.Expr Γ → Prop} (hG : Agrees P f G) (ph : Op (sig Γ)) (main : Block (sig Γ)) (pre : Code Γ) (locs : List Unit) (s : S) (hok : main.ok none false) (hb : main.each G)
    (hfns : ∀ F ∈ P.fns, F.ok ∧ F.each G)
    (hsz : (link ph (em P.base f) P.fns main pre locs).code.length < 2 ^ 31) :
    (∀ st t, Stops P (link ph (em P.base f) P.fns main pre locs) s (.exit st t) ↔ st = [] ∧ t.lits = [] ∧ t.unroll = [] ∧ ∃ n, result P n main s = some (.ok t.s)) ∧
    (∀ r w, r ≠ .err P.diverge → (Stops P (link ph (em P.base f) P.fns main pre locs) s (.err (r, w)) ↔ ∃ n, result P n main s = some (.error (r, w)))) ∧
    ¬ Stops P (link ph (em P.base f) P.fns main pre locs) s .crash := by
  obtain ⟨B, hB, key⟩ := main_key P hG ph main pre locs s hok hb hfns hsz
  generalize (link ph (em P.base f) P.fns main pre locs) = L at *
  have back : ∀ r, Stops P L s r → (∃ w, r = .err (.err P.diverge, w)) ∨ ∃ n t, Stmts.topLevel (lang P n) n main ([], s) = some t ∧ (∀ w, t ≠ .stop (.err P.diverge, w)) ∧ r = endOf t := by
    rintro r ⟨N, hN⟩
    obtain ⟨k1, k2⟩ := key ((N + 1) * B)
    have late : Late P L.code L.fns ((N + 1) * B / B) (start L s) → ∃ w, r = .err (.err P.diverge, w) := by
      rw [Nat.mul_div_cancel _ hB]
      rintro (⟨w, hw⟩ | hw)
      · exact ⟨w, reaches_det P ⟨N, hN⟩ hw⟩
      · obtain ⟨c, hc⟩ := hw N (by omega)
        rw [show steps P L.code L.fns N (start L s) = _ from hN] at hc
        cases hc
    cases ht : Stmts.topLevel (lang P ((N + 1) * B)) ((N + 1) * B) main ([], s) with
    | none => exact .inl (late (k2 (.inl ht)))
    | some t =>
      by_cases hd : ∃ w, t = .stop (.err P.diverge, w)
      · obtain ⟨w, rfl⟩ := hd
        exact .inl (late (k2 (.inr ⟨w, ht⟩)))
      · exact .inr ⟨_, t, ht, fun w h => hd ⟨w, h⟩, reaches_det P ⟨N, hN⟩ (k1 t ht fun w h => hd ⟨w, h⟩)⟩
  refine ⟨fun st t => ⟨fun h => ?_, ?_⟩, fun r w hr => ⟨fun h => ?_, ?_⟩, fun h => ?_⟩
  · rcases back _ h with ⟨w, hw⟩ | ⟨n, t', h1, _, h2⟩
    · cases hw
    · cases t' with
      | fin w =>
        injection h2 with h2 h3
        subst h2 h3
        exact ⟨rfl, rfl, rfl, n, (result_ok P main s n w).2 h1⟩
      | ret v w => cases h2
      | stop q => cases h2
  · rintro ⟨rfl, h1, h2, n, hn⟩
    obtain ⟨lits, us, w⟩ := t
    subst h1 h2
    exact (key n).1 _ ((result_ok P main s n w).1 hn) (fun w h => by cases h)
  · rcases back _ h with ⟨w', hw⟩ | ⟨n, t', h1, _, h2⟩
    · injection hw with hw
      injection hw with hw _
      exact absurd hw hr
    · cases t' with
      | fin w => cases h2
      | ret v w => cases h2
      | stop q =>
        injection h2 with h2
        subst h2
        exact ⟨n, (result_err P main s n _).2 h1⟩
  · rintro ⟨n, hn⟩
    refine (key n).1 _ ((result_err P main s n _).1 hn) (fun w' h => ?_)
    injection h with h
    injection h with h _
    exact hr h
  · rcases back _ h with ⟨w', hw⟩ | ⟨n, t', h1, _, h2⟩
    · cases hw
    · cases t' <;> cases h2

theorem agrees_plain (P : Prog Γ E S) : Agrees P id Codegen.Expr.NoFieldCompose := fun n => Full.same_plain (withCalls P (callFn P n))

/-- **C76** a program with functions, each function compiled once, runs as the rules say: the machine comes to the end of the program if and only if by the rules the program ends, with the same state, and nothing is left on its stack; it stops with an error
(or `exit`) if and only if by the rules the program does, with the same error in the same state; and it never crashes: it never runs out of the code of a function, finds too few values, or mixes up the frames of two calls. So it is also exactly the programs that do not end by the rules that run forever.

Functions may have default values, which are evaluated at the time of a call that needs them.

Missing: what C74 misses; a `return` outside of functions that is reached (C64). -/
theorem C76_program_partial (P : Prog Γ E S) (ph : Op (sig Γ)) (main : Block (sig Γ)) (pre : Code Γ) (locs : List Unit) (s : S) (hok : main.ok none false) (hb : main.each Codegen.Expr.NoFieldCompose)
    (hfns : ∀ F ∈ P.fns, F.ok ∧ F.each Codegen.Expr.NoFieldCompose)
    (hsz : (link ph (em P.base id) P.fns main pre locs).code.length < 2 ^ 31) :
    (∀ st t, Stops P (link ph (em P.base id) P.fns main pre locs) s (.exit st t) ↔ st = [] ∧ t.lits = [] ∧ t.unroll = [] ∧ ∃ n, result P n main s = some (.ok t.s)) ∧
    (∀ r w, r ≠ .err P.diverge → (Stops P (link ph (em P.base id) P.fns main pre locs) s (.err (r, w)) ↔ ∃ n, result P n main s = some (.error (r, w)))) ∧
    ¬ Stops P (link ph (em P.base id) P.fns main pre locs) s .crash :=
  program_of P (agrees_plain P) ph main pre locs s hok hb hfns hsz

/-- **C76** with the optimiser (`--optimize`): the program, whose expressions are all optimised first, in the main program, the functions and their default values, still runs as the rules say of the program that was written.

`L`: the operators, and the native functions that the optimiser knows, do what it takes them to do (C35), whatever the functions of the program do. Missing: what is missing without the optimiser, and expressions that it changes (`OptExact`, C35). -/
theorem C76_optimised_partial (P : Prog Γ E S) (c : Codegen.Consts Γ) (L : ∀ run k, Codegen.Laws c ((withCalls P run).prims k)) (ph : Op (sig Γ)) (main : Block (sig Γ)) (pre : Code Γ) (locs : List Unit) (s : S)
    (hok : main.ok none false) (hb : main.each (Full.OptExact c)) (hfns : ∀ F ∈ P.fns, F.ok ∧ F.each (Full.OptExact c))
    (hsz : (link ph (em P.base (Codegen.opt c (Codegen.actual c))) P.fns main pre locs).code.length < 2 ^ 31) :
    (∀ st t, Stops P (link ph (em P.base (Codegen.opt c (Codegen.actual c))) P.fns main pre locs) s (.exit st t) ↔ st = [] ∧ t.lits = [] ∧ t.unroll = [] ∧ ∃ n, result P n main s = some (.ok t.s)) ∧
    (∀ r w, r ≠ .err P.diverge → (Stops P (link ph (em P.base (Codegen.opt c (Codegen.actual c))) P.fns main pre locs) s (.err (r, w)) ↔ ∃ n, result P n main s = some (.error (r, w)))) ∧
    ¬ Stops P (link ph (em P.base (Codegen.opt c (Codegen.actual c))) P.fns main pre locs) s .crash :=
  program_of P (fun n => Full.same_opt (withCalls P (callFn P n)) c (L (callFn P n))) ph main pre locs s hok hb hfns hsz

/-- **C76**: the code with the block optimiser stops exactly as the code without it, whatever the emitter of expressions: in the same way, with the same values and changes, and so runs forever exactly if that one does. `hA`: variables are variables. Missing: nothing but what makes the code without it crash (`hc`; `C76_program_partial` and `C76_optimised_partial` have it). -/
theorem C76_blocks (P : Prog Γ E S) [DecidableEq Γ.X] (A : Access Γ) (hA : AccessLaws A P) (ph : Op (sig Γ)) (emit : Stmts.Em (sig Γ)) [Stmts.EmOk emit] (main : Block (sig Γ)) (pre : Code Γ) (locs : List Unit) (s : S)
    (hsz : (link ph emit P.fns main pre locs).code.length < 2 ^ 31) (hc : ¬ Stops P (link ph emit P.fns main pre locs) s .crash) (r) :
    Stops P (linkOpt A ph emit P.fns main pre locs) s r ↔ Stops P (link ph emit P.fns main pre locs) s r :=
  stops_opt hA ph emit main pre locs s hsz hc r

/-- **C76** with all that `--optimize` does: the expressions of the program are optimised, and the blocks of its code, then the code is laid out. It runs as the rules say of the program that was written.

Missing: what `C76_optimised_partial` misses. The bound on the size is that of the code before the blocks are optimised. -/
theorem C76_compiled_partial (P : Prog Γ E S) [DecidableEq Γ.X] (A : Access Γ) (hA : AccessLaws A P) (c : Codegen.Consts Γ) (L : ∀ run k, Codegen.Laws c ((withCalls P run).prims k)) (ph : Op (sig Γ)) (main : Block (sig Γ)) (pre : Code Γ) (locs : List Unit) (s : S)
    (hok : main.ok none false) (hb : main.each (Full.OptExact c)) (hfns : ∀ F ∈ P.fns, F.ok ∧ F.each (Full.OptExact c))
    (hsz : (link ph (em P.base (Codegen.opt c (Codegen.actual c))) P.fns main pre locs).code.length < 2 ^ 31) :
    (∀ st t, Stops P (linkOpt A ph (em P.base (Codegen.opt c (Codegen.actual c))) P.fns main pre locs) s (.exit st t) ↔ st = [] ∧ t.lits = [] ∧ t.unroll = [] ∧ ∃ n, result P n main s = some (.ok t.s)) ∧
    (∀ r w, r ≠ .err P.diverge → (Stops P (linkOpt A ph (em P.base (Codegen.opt c (Codegen.actual c))) P.fns main pre locs) s (.err (r, w)) ↔ ∃ n, result P n main s = some (.error (r, w)))) ∧
    ¬ Stops P (linkOpt A ph (em P.base (Codegen.opt c (Codegen.actual c))) P.fns main pre locs) s .crash := by
  obtain ⟨h1, h2, h3⟩ := C76_optimised_partial P c L ph main pre locs s hok hb hfns hsz
  have h := stops_opt hA ph (em P.base (Codegen.opt c (Codegen.actual c))) main pre locs s hsz h3
  exact ⟨fun st t => (h _).trans (h1 st t), fun r w hr => (h _).trans (h2 r w hr), fun hx => h3 ((h _).1 hx)⟩

/-! ## A concrete program -/

namespace Example
open Cordy.Codegen (Expr Args)

/-- Values: numbers, lists of numbers, the functions of the program, `map` and `print`. -/
inductive Val where
  | num (n : Int)
  | list (xs : List Int)
  | fn (i : Nat)
  | map
  | print
  deriving DecidableEq

def Val.toInt : Val → Int
  | .num n => n
  | _ => 0

/-- Variables of the function, and of the main program, from a function. -/
inductive Var where
  | own (i : Nat)
  | main (i : Nat)
  deriving DecidableEq

/-- Binary operators `+`, `-`, `*`; comparison `<`, as an operator too. -/
inductive Bin where
  | add | sub | mul | lt

abbrev Γ₃ : Codegen.Sig := ⟨Val, Unit, Bin, Unit, Var, Unit, Nat, Unit⟩
abbrev W := World Val (List Int)

def bin : Bin → Int → Int → Int
  | .add, a, b => a + b
  | .sub, a, b => a - b
  | .mul, a, b => a * b
  | .lt, a, b => if a < b then 1 else 0

/-- Pattern `i` is `(a, b)` for the variables `i` and `i + 1`. `none`: the mark for missing fuel. The last list of variables is that of the main program. -/
def prims (k : Nat) : Prims Γ₃ (Option String) (Vars Val k × W) where
  bool b := .num (if b then 1 else 0)
  raise _ := some "raised"
  truthy v _ := decide (Val.toInt v ≠ 0)
  unary _ v s := .ok (.num (-(Val.toInt v))) s
  binary op l r s := .ok (.num (bin op (Val.toInt l) (Val.toInt r))) s
  cmp _ l r _ := decide (Val.toInt l < Val.toInt r)
  ofCmp _ := .lt
  ne := .sub
  ofCmp_spec := by intro c l r s; simp [bin]
  load x s :=
    match (x : Var) with
    | .own i => match s.1.1[i]? with | some v => .ok v s | none => .stop (.err (some "no variable")) s
    | .main i => match (s.2.1.getLastD [])[i]? with | some v => .ok v s | none => .stop (.err (some "no variable")) s
  store x v s :=
    match (x : Var) with
    | .own i => if i < s.1.1.length then .ok () (⟨s.1.1.set i v, by rw [List.length_set]; exact s.1.2⟩, s.2) else .stop (.err (some "no variable")) s
    | .main i => if i < (s.2.1.getLastD []).length then .ok () (s.1, (s.2.1.dropLast ++ [(s.2.1.getLastD []).set i v], s.2.2)) else .stop (.err (some "no variable")) s
  toClosure v s := .ok v s
  capture _ v s := .ok v s
  iter v s := match (v : Val) with | .list xs => .ok (xs.map Val.num) s | _ => .stop (.err (some "not iterable")) s
  spread _ v s := match (v : Val) with | .list xs => .ok (xs.map Val.num) s | _ => .stop (.err (some "not iterable")) s
  mkLit _ vs s := .ok (.list (vs.map Val.toInt)) s
  slice2 _ _ s := .stop (.err (some "slice")) s
  slice3 _ _ _ s := .stop (.err (some "slice")) s
  index _ _ s := .ok (.num 0) s
  slice _ _ _ s := .stop (.err (some "slice")) s
  sliceStep _ _ _ _ s := .stop (.err (some "slice")) s
  getField a _ s := .ok a s
  setField _ _ v s := .ok v s
  bindMethod a _ s := .ok a s
  setIndex _ _ _ s := .ok () s
  pattern i _ v s :=
    match (v : Val) with
    | .list [a, b] => .ok () (⟨(s.1.1.set i (.num a)).set (i + 1) (.num b), by rw [List.length_set, List.length_set]; exact s.1.2⟩, s.2)
    | _ => .stop (.err (some "wrong number of elements")) s
  call _ _ s := .stop (.err (some "call")) s

def base : Runtime Γ₃ (Option String) W where
  prims := prims
  nil := .num 0
  truthy v _ := decide (Val.toInt v ≠ 0)
  cmp _ l r _ := decide (Val.toInt l < Val.toInt r)
  truthy_eq := fun _ _ _ => rfl
  cmp_eq := fun _ _ _ _ _ => rfl
  iter v s := match (v : Val) with | .list xs => .ok (.list xs) s | _ => .stop (.err (some "not iterable")) s
  next v _ := match (v : Val) with | .list (x :: xs) => some (.list xs, .num x) | _ => none
  cmpMsg _ _ _ _ := .num 7
  failed _ _ _ := some "assertion failed"
  bot vs w := w.1.getLastD vs

/-- `map`: calls the function with each element, then gives the list of the results. -/
def mapProc (fn : Nat) : List Int → List Int → W → Proc Val (Option String) W
  | [], ys, w => .done (.ok (.list ys) w)
  | x :: xs, ys, w => .enter fn [.num x] w fun v w => mapProc fn xs (ys ++ [v.toInt]) w

/-- The numbers of arguments that a function takes. -/
def takes : Nat → Nat → Bool
  | 0, n => n == 1
  | 1, n => n ≤ 2
  | _, n => n == 3

def ask : Ask Val → W → Proc Val (Option String) W
  | .call (.fn i) args, w => if takes i args.length then .enter i args w fun v w => .done (.ok v w) else .done (.stop (.err (some "wrong number of arguments")) w)
  | .call .map [.list xs, .fn i], w => if takes i 1 then mapProc i xs [] w else .done (.stop (.err (some "wrong number of arguments")) w)
  | .call .print [.num x], w => .done (.ok (.num 0) (w.1, w.2 ++ [x]))
  | .call .print [.list xs], w => .done (.ok (.num 0) (w.1, w.2 ++ xs))
  | _, w => .done (.stop (.err (some "bad call")) w)

def n (i : Int) : Expr Γ₃ := .const (.num i)
def x (i : Nat) : Expr Γ₃ := .load (.var (.own i))
def call (f : Val) (args : List (Expr Γ₃)) : Expr Γ₃ := .call (.const f) (args.foldr (fun e r => .plain e r) .nil)
def blk : List (Stmts.Stmt (sig Γ₃)) → Block (sig Γ₃)
  | [] => .nil
  | s :: b => .cons s (blk b)

/-- `fn fact(n) { t = t + 1; if n < 1 { return 1 } n * fact(n - 1) }` where `t` is a variable of the main program -/
def fact : Block (sig Γ₃) := blk [.expr (.assign (.var (.main 0)) (.binary .add (.load (.var (.main 0))) (n 1) false)),
  .ite (.compare (x 0) (.last () (n 1))) (blk [.ret (some (n 1))]) .none,
  .expr (.binary .mul (x 0) (call (.fn 0) [.binary .sub (x 0) (n 1) false]) false)]

/-- `fn ack(m = 1 + 1, n = fact(m) - 1) { if m < 1 { return n + 1 } if n < 1 { return ack(m - 1, 1) } ack(m - 1, ack(m, n - 1)) }` -/
def ack : Block (sig Γ₃) := blk [
  .ite (.compare (x 0) (.last () (n 1))) (blk [.ret (some (.binary .add (x 1) (n 1) false))]) .none,
  .ite (.compare (x 1) (.last () (n 1))) (blk [.ret (some (call (.fn 1) [.binary .sub (x 0) (n 1) false, n 1]))]) .none,
  .expr (call (.fn 1) [.binary .sub (x 0) (n 1) false, call (.fn 1) [x 0, .binary .sub (x 1) (n 1) false]])]

/-- `fn dot((a, b), _, (c, d)) { a * c - b * d }` -/
def dot : Block (sig Γ₃) := blk [.expr (.binary .sub (.binary .mul (x 3) (x 5) false) (.binary .mul (x 4) (x 6) false) false)]

def pair (a b : Int) : Expr Γ₃ := .literal .list (.plain (n a) (.plain (n b) .nil))

def P₃ : Prog Γ₃ (Option String) (List Int) where
  base := base
  ask := ask
  fns := [⟨1, [], [], fact⟩, ⟨0, [.binary .add (n 1) (n 1) false, .binary .sub (call (.fn 0) [x 0]) (n 1) false], [], ack⟩, ⟨3, [], [(0, some (2, 3)), (1, none), (2, some (2, 5))], dot⟩]
  diverge := none

/-- `let t = 0; for i in map([3, 0, 5], fact) { print(i) } print(t); print(ack(2, 1)); print(ack()); print(ack(1)); print(t); print(dot([7, 2], 0, [9, 4])); t = 17; if t < 20 { print(t) } print(fact(1, 2))` -/
def main : Block (sig Γ₃) := blk [.letIn .named (n 0),
  .for .named (call .map [.literal .list (.plain (n 3) (.plain (n 0) (.plain (n 5) .nil))), .const (.fn 0)]) (blk [.expr (call .print [x 1])]) .nil,
  .expr (call .print [x 0]), .expr (call .print [call (.fn 1) [n 2, n 1]]), .expr (call .print [call (.fn 1) []]), .expr (call .print [call (.fn 1) [n 1]]), .expr (call .print [x 0]), .expr (call .print [call (.fn 2) [pair 7 2, n 0, pair 9 4]]), .expr (.assign (.var (.own 0)) (n 17)), .ite (.compare (x 0) (.last () (n 20))) (blk [.expr (call .print [x 0])]) .none, .expr (call .print [call (.fn 0) [n 1, n 2]])]

instance : DecidableEq (sig Γ₃).V := inferInstanceAs (DecidableEq Val)

/-- By the rules it prints 6, 1, 120, then that there were 11 calls of `fact`, then 5, 5 again with the default values (`n` is `fact(2) - 1`), 2 with one default value; 5 more calls of `fact` were made for these; 7 * 9 - 2 * 4; 17; then it stops with an error; `t` is 17 then. -/
theorem main_result : (result P₃ 12 main []).map (fun r => match r with | .error (.err e, w) => (e, w.1.2, w.2) | _ => (none, [], [])) = some (some "wrong number of arguments", [6, 1, 120, 11, 5, 5, 2, 16, 55, 17], [Val.num 17]) := by decide +kernel

theorem main_ok : main.ok none false ∧ main.each Expr.NoFieldCompose := by
  simp [main, blk, n, x, call, pair, Block.ok, Stmts.Stmt.ok, Stmts.Else.ok, Block.each, Stmts.Stmt.each, Stmts.Else.each, Expr.NoFieldCompose, Args.NoFieldCompose, Codegen.Chain.NoFieldCompose]

theorem fns_ok : ∀ F ∈ P₃.fns, F.ok ∧ F.each Expr.NoFieldCompose := by
  intro F h
  simp only [P₃, List.mem_cons, List.not_mem_nil, or_false] at h
  rcases h with rfl | rfl | rfl
  · simp [Fn.ok, Fn.each, fact, blk, n, x, call, Block.ok, Stmts.Stmt.ok, Stmts.Else.ok, Block.each, Stmts.Stmt.each, Stmts.Else.each, Stmts.Test.each, Expr.NoFieldCompose, Args.NoFieldCompose, Codegen.Chain.NoFieldCompose]
  · simp [Fn.ok, Fn.each, ack, blk, n, x, call, Block.ok, Stmts.Stmt.ok, Stmts.Else.ok, Block.each, Stmts.Stmt.each, Stmts.Else.each, Stmts.Test.each, Expr.NoFieldCompose, Args.NoFieldCompose, Codegen.Chain.NoFieldCompose]
  · simp [Fn.ok, Fn.each, dot, blk, n, x, call, Block.ok, Stmts.Stmt.ok, Stmts.Else.ok, Block.each, Stmts.Stmt.each, Stmts.Else.each, Stmts.Test.each, Expr.NoFieldCompose, Args.NoFieldCompose, Codegen.Chain.NoFieldCompose]

/-- So does the machine: the code of the main program and the functions, after an opcode that is there already, stops with this error when this has been printed; and in no other way. -/
example : (∃ w : W × List Val, w.1.2 = [6, 1, 120, 11, 5, 5, 2, 16, 55, 17] ∧ w.2 = [.num 17] ∧ Stops P₃ (link .nil (em P₃.base id) P₃.fns main [.op .exit] [()]) [] (.err (.err (some "wrong number of arguments"), w))) ∧
    ∀ st t, ¬ Stops P₃ (link .nil (em P₃.base id) P₃.fns main [.op .exit] [()]) [] (.exit st t) := by
  have hsz : (link .nil (em P₃.base id) P₃.fns main [.op .exit] [()]).code.length < 2 ^ 31 := by decide +kernel
  obtain ⟨h1, h2, _⟩ := C76_program_partial P₃ .nil main [.op .exit] [()] [] main_ok.1 main_ok.2 fns_ok hsz
  have hm := main_result
  obtain ⟨w, hw, hw', hr⟩ : ∃ w : W × List Val, w.1.2 = [6, 1, 120, 11, 5, 5, 2, 16, 55, 17] ∧ w.2 = [.num 17] ∧ result P₃ 12 main [] = some (.error (.err (some "wrong number of arguments"), w)) := by
    revert hm
    rcases result P₃ 12 main [] with _ | (⟨_ | e, w⟩ | w)
    · exact fun h => by cases h
    all_goals (intro hm; simp only [Option.map_some, Option.some.injEq, Prod.mk.injEq] at hm)
    · obtain ⟨rfl, hw, hw'⟩ := hm
      exact ⟨w, hw, hw', rfl⟩
    all_goals cases hm.1
  refine ⟨⟨w, hw, hw', (h2 _ _ (by simp [P₃])).2 ⟨12, hr⟩⟩, fun st t h => ?_⟩
  obtain ⟨_, _, _, k, hk⟩ := (h1 st t).1 h
  have := C76_rules P₃ main [] _ _ _ _ hk hr (fun w h => by cases h) (fun w h => by simp [P₃] at h)
  cases this

/-! ### The optimiser -/

open Cordy.Codegen (Consts Laws opt actual)

/-- Numbers are folded. -/
def c₃ : Consts Γ₃ where
  foldable v := match (v : Val) with | .num _ => true | _ => false
  cpurity v := match (v : Val) with | .num _ => 2 | _ => 0
  truthy v := decide (Val.toInt v ≠ 0)
  foldU _ v := .ok (.num (-(Val.toInt v)))
  foldB op l r := .ok (.num (bin op (Val.toInt l) (Val.toInt r)))
  binOp _ := none
  swapOp _ := none
  isOperator _ := false
  minNargs _ := 0
  isMin _ := false
  isMax _ := false
  isInt _ := false
  minInt := .num 0
  maxInt := .num 0
  badList _ := ()
  total _ := false

theorem captureAll_ok (run) (k : Nat) (caps : List Unit) (v : Val) (s) : Codegen.captureAll ((withCalls P₃ run).prims k) caps v s = .ok v s := by
  induction caps with
  | nil => rfl
  | cons q qs ih => simp only [Codegen.captureAll]; exact ih

/-- The laws hold, whatever the functions do. -/
def L₃ (run) (k : Nat) : Laws c₃ ((withCalls P₃ run).prims k) where
  foldU := fun _ _ _ _ => rfl
  foldB := fun _ _ _ _ _ _ => rfl
  truthy := fun _ _ _ => rfl
  call_bin := fun _ _ _ _ _ h => by cases h
  call_swap := fun _ _ _ _ _ _ h => by cases h
  op_nargs := fun _ h => by simp [c₃] at h
  partial_call := fun _ _ h => by simp [c₃] at h
  min_int := fun _ _ _ h => by simp [c₃] at h
  max_int := fun _ _ _ h => by simp [c₃] at h
  list_call := fun _ _ _ => rfl
  list_bad := fun _ _ _ _ => ⟨_, _, rfl⟩
  slice_call := fun _ _ _ _ => trivial
  slice3_call := fun _ _ _ _ _ => trivial
  load := fun y s => by
    show (∃ v, (prims k).load y s = .ok v s) ∨ ∃ q t, (prims k).load y s = .stop q t
    cases y with
    | own i =>
      simp only [prims]
      cases s.1.1[i]? with
      | some v => exact .inl ⟨v, rfl⟩
      | none => exact .inr ⟨_, _, rfl⟩
    | main i =>
      simp only [prims]
      cases (s.2.1.getLastD [])[i]? with
      | some v => exact .inl ⟨v, rfl⟩
      | none => exact .inr ⟨_, _, rfl⟩
  load_total := fun _ _ h => by simp [c₃] at h
  getField := fun _ _ _ => .inl ⟨_, rfl⟩
  bindMethod := fun _ _ _ => .inl ⟨_, rfl⟩
  unary := fun _ _ _ => .inl ⟨_, rfl⟩
  binary := fun _ _ _ _ => .inl ⟨_, rfl⟩
  mkLit := fun _ _ _ => .inl ⟨_, rfl⟩
  mkList := fun _ _ => ⟨_, rfl⟩
  Imm := fun _ => True
  imm_const := fun _ _ => trivial
  imm_unary := fun _ _ _ => .inl ⟨_, trivial, fun _ => rfl⟩
  imm_binary := fun _ _ _ _ _ => .inl ⟨_, trivial, fun _ => rfl⟩
  imm_truthy := fun _ _ _ _ => rfl
  imm_partial := fun _ _ _ _ h => by simp [c₃] at h
  function := fun v caps s => ⟨v, trivial, fun s' _ => by
    simp only [Codegen.eval, Codegen.evalW]
    split
    · rfl
    · show (Out.ok v s').bind _ = _
      rw [Codegen.Out.ok_bind]; exact captureAll_ok run k caps v s'⟩

/-- The first default value of `ack` is folded. -/
example : opt c₃ (actual c₃) (.binary .add (n 1) (n 1) false) = n 2 := rfl

theorem main_opt : main.each (Full.OptExact c₃) := by
  simp only [main, blk, Block.each, Stmts.Stmt.each]
  exact ⟨⟨rfl, trivial⟩, ⟨⟨rfl, by repeat' (first | exact True.intro | refine And.intro ?_ ?_)⟩, ⟨⟨rfl, ⟨trivial, ⟨trivial, trivial⟩⟩⟩, trivial⟩, trivial⟩, ⟨rfl, ⟨trivial, trivial, trivial⟩⟩,
    ⟨rfl, ⟨trivial, ⟨trivial, trivial, trivial, trivial⟩, trivial⟩⟩, ⟨rfl, ⟨trivial, ⟨trivial, trivial⟩, trivial⟩⟩, ⟨rfl, ⟨trivial, ⟨trivial, trivial, trivial⟩, trivial⟩⟩, ⟨rfl, ⟨trivial, trivial, trivial⟩⟩,
    ⟨rfl, by repeat' (first | exact True.intro | refine And.intro ?_ ?_)⟩, ⟨rfl, trivial⟩, ⟨⟨rfl, by trivial⟩, ⟨⟨rfl, ⟨trivial, trivial, trivial⟩⟩, trivial⟩, trivial⟩, ⟨rfl, ⟨trivial, ⟨trivial, trivial, trivial, trivial⟩, trivial⟩⟩, trivial⟩

theorem fns_opt : ∀ F ∈ P₃.fns, F.ok ∧ F.each (Full.OptExact c₃) := by
  intro F h
  refine ⟨(fns_ok F h).1, ?_⟩
  simp only [P₃, List.mem_cons, List.not_mem_nil, or_false] at h
  rcases h with rfl | rfl | rfl
  · refine ⟨by simp, ?_⟩
    simp only [fact, blk, Block.each, Stmts.Stmt.each, Stmts.Else.each]
    exact ⟨⟨rfl, ⟨trivial, trivial⟩⟩, ⟨⟨rfl, by trivial⟩, ⟨fun x h => by (injection h with h; subst h; exact ⟨rfl, trivial⟩), trivial⟩, trivial⟩,
      ⟨rfl, ⟨trivial, ⟨trivial, ⟨trivial, trivial⟩, trivial⟩⟩⟩, trivial⟩
  · refine ⟨fun e h => ?_, ?_⟩
    · simp only [List.mem_cons, List.not_mem_nil, or_false] at h
      rcases h with rfl | rfl
      · exact ⟨rfl, trivial⟩
      · exact ⟨rfl, ⟨⟨trivial, trivial, trivial⟩, trivial⟩⟩
    · simp only [ack, blk, Block.each, Stmts.Stmt.each, Stmts.Else.each]
      exact ⟨⟨⟨rfl, by trivial⟩, ⟨fun x h => by (injection h with h; subst h; exact ⟨rfl, ⟨trivial, trivial⟩⟩), trivial⟩, trivial⟩,
        ⟨⟨rfl, by trivial⟩, ⟨fun x h => by (injection h with h; subst h; exact ⟨rfl, ⟨trivial, ⟨trivial, trivial⟩, trivial, trivial⟩⟩), trivial⟩, trivial⟩,
        ⟨rfl, ⟨trivial, ⟨trivial, trivial⟩, ⟨trivial, trivial, ⟨trivial, trivial⟩, trivial⟩, trivial⟩⟩, trivial⟩
  · refine ⟨by simp, ?_⟩
    simp only [dot, blk, Block.each, Stmts.Stmt.each, Stmts.Else.each]
    exact ⟨⟨rfl, by repeat' (first | exact True.intro | refine And.intro ?_ ?_)⟩, trivial⟩

/-- The optimised program does the same. -/
example : ∃ w : W × List Val, w.1.2 = [6, 1, 120, 11, 5, 5, 2, 16, 55, 17] ∧ w.2 = [.num 17] ∧ Stops P₃ (link .nil (em P₃.base (opt c₃ (actual c₃))) P₃.fns main [.op .exit] [()]) [] (.err (.err (some "wrong number of arguments"), w)) := by
  have hsz : (link .nil (em P₃.base (opt c₃ (actual c₃))) P₃.fns main [.op .exit] [()]).code.length < 2 ^ 31 := by decide +kernel
  obtain ⟨_, h2, _⟩ := C76_optimised_partial P₃ c₃ L₃ .nil main [.op .exit] [()] [] main_ok.1 main_opt fns_opt hsz
  have hm := main_result
  obtain ⟨w, hw, hw', hr⟩ : ∃ w : W × List Val, w.1.2 = [6, 1, 120, 11, 5, 5, 2, 16, 55, 17] ∧ w.2 = [.num 17] ∧ result P₃ 12 main [] = some (.error (.err (some "wrong number of arguments"), w)) := by
    revert hm
    rcases result P₃ 12 main [] with _ | (⟨_ | e, w⟩ | w)
    · exact fun h => by cases h
    all_goals (intro hm; simp only [Option.map_some, Option.some.injEq, Prod.mk.injEq] at hm)
    · obtain ⟨rfl, hw, hw'⟩ := hm
      exact ⟨w, hw, hw', rfl⟩
    all_goals cases hm.1
  exact ⟨w, hw, hw', (h2 _ _ (by simp [P₃])).2 ⟨12, hr⟩⟩

/-! ### The block optimiser -/

def A₃ : Access Γ₃ := ⟨fun x => match (x : Var) with | .own i => some i | .main _ => none, fun _ => false⟩

instance : DecidableEq Γ₃.X := inferInstanceAs (DecidableEq Var)

theorem laws₃ : AccessLaws A₃ P₃ where
  load_slot := by
    intro y i h k p v hv
    cases y with
    | main j => simp [A₃] at h
    | own j =>
      simp only [A₃, Option.some.injEq] at h
      subst h
      show (prims k).load (.own j) p = _
      simp only [prims, hv]
  store_slot := by
    intro y i h k p v hi
    cases y with
    | main j => simp [A₃] at h
    | own j =>
      simp only [A₃, Option.some.injEq] at h
      subst h
      have hl : j < p.1.1.length := by rw [p.1.2]; exact hi
      refine ⟨(⟨p.1.1.set j v, by rw [List.length_set]; exact p.1.2⟩, p.2), ?_, rfl, rfl⟩
      show (prims k).store (.own j) v p = _
      simp only [prims, hl, if_true]
  store_load := by
    intro y k p p' v h
    change (prims k).store y v p = _ at h
    show (prims k).load y p' = _
    cases y with
    | own j =>
      simp only [prims] at h
      split at h
      · rename_i hl
        injection h with h1 h2
        subst h2
        simp [prims, hl]
      · cases h
    | main j =>
      simp only [prims] at h
      split at h
      · rename_i hl
        injection h with h1 h2
        subst h2
        have hv : ((p.2.1.getLastD []).set j v)[j]? = some v := by simp only [List.getElem?_set_self hl]
        have hd : (p.2.1.dropLast ++ [(p.2.1.getLastD []).set j v]).getLastD [] = (p.2.1.getLastD []).set j v := by simp
        simp only [prims, hd, hv]
      · cases h

/-- The blocks are shorter: stores and loads are merged. -/
example : (linkOpt A₃ .nil (em P₃.base (opt c₃ (actual c₃))) P₃.fns main [.op .exit] [()]).code.length + 5 ≤ (link .nil (em P₃.base (opt c₃ (actual c₃))) P₃.fns main [.op .exit] [()]).code.length := by decide +kernel

/-- The program with all optimisations does the same. -/
example : ∃ w : W × List Val, w.1.2 = [6, 1, 120, 11, 5, 5, 2, 16, 55, 17] ∧ w.2 = [.num 17] ∧ Stops P₃ (linkOpt A₃ .nil (em P₃.base (opt c₃ (actual c₃))) P₃.fns main [.op .exit] [()]) [] (.err (.err (some "wrong number of arguments"), w)) := by
  have hsz : (link .nil (em P₃.base (opt c₃ (actual c₃))) P₃.fns main [.op .exit] [()]).code.length < 2 ^ 31 := by decide +kernel
  obtain ⟨_, h2, _⟩ := C76_compiled_partial P₃ A₃ laws₃ c₃ L₃ .nil main [.op .exit] [()] [] main_ok.1 main_opt fns_opt hsz
  have hm := main_result
  obtain ⟨w, hw, hw', hr⟩ : ∃ w : W × List Val, w.1.2 = [6, 1, 120, 11, 5, 5, 2, 16, 55, 17] ∧ w.2 = [.num 17] ∧ result P₃ 12 main [] = some (.error (.err (some "wrong number of arguments"), w)) := by
    revert hm
    rcases result P₃ 12 main [] with _ | (⟨_ | e, w⟩ | w)
    · exact fun h => by cases h
    all_goals (intro hm; simp only [Option.map_some, Option.some.injEq, Prod.mk.injEq] at hm)
    · obtain ⟨rfl, hw, hw'⟩ := hm
      exact ⟨w, hw, hw', rfl⟩
    all_goals cases hm.1
  exact ⟨w, hw, hw', (h2 _ _ (by simp [P₃])).2 ⟨12, hr⟩⟩

end Example
end Cordy.Program
