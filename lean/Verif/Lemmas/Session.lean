import Verif.Model.Session
import Verif.Props.Program
/-!
# Sessions: a line (for C79)
-/
namespace Cordy.Stmts
open Cordy.Builder
open Cordy.Graph (Place Code Instr LHalts GHalts WF Sem)
variable {Γ : Sig} {S R : Type}

/-! ## How many variables a line declares -/

/-- `n` variables more. -/
def Adds (n : Nat) (a b : PS Γ) : Prop := b.scope = a.scope ∧ b.locals = a.locals ++ List.replicate n a.scope
def Low (a : PS Γ) : Prop := ∀ d ∈ a.locals, d ≤ a.scope

theorem Adds.low {n : Nat} {a b : PS Γ} (h : Adds n a b) (ha : Low a) : Low b := by
  intro d hd
  rw [h.2] at hd
  rw [h.1]
  rcases List.mem_append.1 hd with hd | hd
  · exact ha d hd
  · exact Nat.le_of_eq (List.eq_of_mem_replicate hd)

theorem Adds.trans {n m : Nat} {a b c : PS Γ} (h : Adds n a b) (h' : Adds m b c) : Adds (n + m) a c :=
  ⟨h'.1.trans h.1, by rw [h'.2, h.2, h.1, List.append_assoc, List.replicate_append_replicate]⟩

theorem adds_block {a : PS Γ} (ha : Low a) (f : PS Γ → PS Γ) (hf : ∀ q, Low q → ∃ n, Adds n q (f q)) : (a.block f).scope = a.scope ∧ (a.block f).locals = a.locals := by
  rw [block_eq]
  obtain ⟨n, h1, h2⟩ := hf a.enter (fun d hd => by have := ha d (by simpa using hd); simp; omega)
  have hsc : (f a.enter).scope = a.scope + 1 := by rw [h1]; simp
  simp only [enter_locals, enter_scope] at h2
  obtain ⟨_, hl⟩ := leave_locals ha hsc h2
  exact ⟨by rw [dp_scope, leave_scope, hsc]; omega, by rw [dp_locals, hl]⟩

/-- How many variables a statement declares. -/
def decls : Stmt Γ → Nat
  | .letIn l _ => l.vars
  | .decl n => n
  | _ => 0

def declsB : Block Γ → Nat
  | .nil => 0
  | .cons st b => decls st + declsB b

theorem Adds.zero {a b : PS Γ} (h1 : b.scope = a.scope) (h2 : b.locals = a.locals) : Adds 0 a b := ⟨h1, by simp [h2]⟩

variable {em : Em Γ} [EmOk em]

theorem opt_same (e : Option Γ.X) (b : PS Γ) : (emitOpt em e b).scope = b.scope ∧ (emitOpt em e b).locals = b.locals := by
  unfold emitOpt; split <;> exact ⟨rfl, rfl⟩
theorem test_same (t : Test Γ) (b : PS Γ) : (emitTest em t b).1.scope = b.scope ∧ (emitTest em t b).1.locals = b.locals := by
  unfold emitTest
  split
  · exact ⟨rfl, rfl⟩
  · split <;> exact ⟨rfl, rfl⟩
theorem assign_scope (l : LV Γ) (i : Nat) (b : PS Γ) : (emitAssign l i b).scope = b.scope := by
  unfold emitAssign; split <;> rfl

mutual
theorem adds_S : ∀ (st : Stmt Γ) (a : PS Γ), Low a → Adds (decls st) a (emitS em st a)
  | .expr e, a, ha => by simp only [emitS, decls]; exact .zero (by simp) (by simp)
  | .semi, a, ha => by simp only [emitS, decls]; exact .zero (by simp) (by simp)
  | .letIn l e, a, ha => by
    simp only [emitS, decls]
    unfold emitLet
    split
    · exact ⟨by simp [PS.declare], by simp [LV.vars]⟩
    · exact ⟨by simp, by simp [LV.vars]⟩
    · exact ⟨by simp, by simp [LV.vars]⟩
  | .decl n, a, ha => by simp only [emitS, decls]; exact ⟨by simp, by simp⟩
  | .ite c t els, a, ha => by
    simp only [emitS, decls]
    obtain ⟨h1, h2⟩ := adds_block (a := (a.delayedPop.expr em a.delayedPop.locals.length c).branchForward) (by intro d hd; have := ha d (by simpa using hd); simpa using this) (emitB em t) (fun q hq => ⟨_, adds_B t q hq⟩)
    obtain ⟨h3, h4⟩ := adds_Else els (a.delayedPop.expr em a.delayedPop.locals.length c).b.done.length _ (show Low ((a.delayedPop.expr em a.delayedPop.locals.length c).branchForward.block (emitB em t)) from by
      intro d hd; rw [h2] at hd; rw [h1]; have := ha d (by simpa using hd); simpa using this)
    exact .zero (by rw [h3, h1]; simp) (by rw [h4, h2]; simp)
  | .while c body els, a, ha => by
    simp only [emitS, decls]
    obtain ⟨h1, h2⟩ := adds_block (a := (a.delayedPop.beginLoop.expr em a.delayedPop.beginLoop.locals.length c).branchForward) (by intro d hd; have := ha d (by simpa using hd); simpa using this) (emitB em body) (fun q hq => ⟨_, adds_B body q hq⟩)
    obtain ⟨h3, h4⟩ := adds_block (a := (((a.delayedPop.beginLoop.expr em a.delayedPop.beginLoop.locals.length c).branchForward.block (emitB em body)).joinReverse a.delayedPop.beginLoop.start none).joinForward (a.delayedPop.beginLoop.expr em a.delayedPop.beginLoop.locals.length c).b.done.length (some .ifFalsePop))
      (by intro d hd; rw [jF_locals, jR_locals, h2] at hd; rw [jF_scope, jR_scope, h1]; have := ha d (by simpa using hd); simpa using this) (emitB em els) (fun q hq => ⟨_, adds_B els q hq⟩)
    exact .zero (by rw [endLoop_scope, h3, jF_scope, jR_scope, h1]; simp) (by rw [endLoop_locals, h4, jF_locals, jR_locals, h2]; simp)
  | .doW body c els, a, ha => by
    simp only [emitS, decls]
    obtain ⟨h1, h2⟩ := adds_block (a := a.beginLoop) (by intro d hd; have := ha d (by simpa using hd); simpa using this) (emitB em body) (fun q hq => ⟨_, adds_B body q hq⟩)
    generalize hq : a.beginLoop.block (emitB em body) = q at *
    have h5 : ∀ q' : PS Γ, q'.scope = q.scope → q'.locals = q.locals → Adds 0 a (q'.block (emitB em els)).endLoop := by
      intro q' e1 e2
      obtain ⟨h3, h4⟩ := adds_block (a := q') (by intro d hd; rw [e2, h2] at hd; rw [e1, h1]; have := ha d (by simpa using hd); simpa using this) (emitB em els) (fun q hq => ⟨_, adds_B els q hq⟩)
      exact .zero (by rw [endLoop_scope, h3, e1, h1]; simp) (by rw [endLoop_locals, h4, e2, h2]; simp)
    refine h5 _ ?_ ?_
    · split <;> rfl
    · split <;> rfl
  | .loop body, a, ha => by
    simp only [emitS, decls]
    obtain ⟨h1, h2⟩ := adds_block (a := a.delayedPop.beginLoop) (by intro d hd; have := ha d (by simpa using hd); simpa using this) (emitB em body) (fun q hq => ⟨_, adds_B body q hq⟩)
    exact .zero (by rw [endLoop_scope, jR_scope, h1]; simp) (by rw [endLoop_locals, jR_locals, h2]; simp)
  | .for l e body els, a, ha => by
    simp only [emitS, decls]
    obtain ⟨_, s1, l1, _, _⟩ := forInit_facts (em := em) l e a.delayedPop
    generalize forInit em l e a.delayedPop = p1 at *
    simp only [dp_scope, dp_locals] at s1 l1 ⊢
    obtain ⟨h1, h2⟩ := adds_block (a := emitAssign l a.locals.length p1.beginForLoop.branchForward) (by
      intro d hd
      rw [assign_locals, bF_locals, bfL_locals, l1] at hd
      rw [assign_scope, bF_scope, bfL_scope, s1]
      rcases List.mem_append.1 hd with hd | hd
      · have := ha d hd; omega
      · exact Nat.le_of_eq (List.eq_of_mem_replicate hd)) (emitB em body) (fun q hq => ⟨_, adds_B body q hq⟩)
    rw [assign_scope, bF_scope, bfL_scope, s1] at h1
    rw [assign_locals, bF_locals, bfL_locals, l1] at h2
    obtain ⟨_, h4⟩ := leave_locals (q := (((emitAssign l a.locals.length p1.beginForLoop.branchForward).block (emitB em body)).joinReverse p1.beginForLoop.start none).joinForward p1.beginForLoop.b.done.length (some .testIter)) ha (by rw [jF_scope, jR_scope, h1]) (by rw [jF_locals, jR_locals, h2])
    have h5 := leave_scope ((((emitAssign l a.locals.length p1.beginForLoop.branchForward).block (emitB em body)).joinReverse p1.beginForLoop.start none).joinForward p1.beginForLoop.b.done.length (some .testIter))
    rw [jF_scope, jR_scope, h1] at h5
    generalize PS.leave _ = p5 at *
    obtain ⟨h6, h7⟩ := adds_block (a := p5) (by intro d hd; rw [h4] at hd; rw [h5]; have := ha d hd; omega) (emitB em els) (fun q hq => ⟨_, adds_B els q hq⟩)
    exact .zero (by rw [endLoop_scope, h6, h5]; omega) (by rw [endLoop_locals, h7, h4])
  | .brk, a, ha => by
    simp only [emitS, decls]
    split
    · exact .zero (by simp) (by simp)
    · exact .zero (by simp [PS.emitPops]) (by simp [PS.emitPops])
  | .cont, a, ha => by
    simp only [emitS, decls]
    split
    · exact .zero (by simp) (by simp)
    · exact .zero (by simp [PS.emitPops]) (by simp [PS.emitPops])
  | .ret e, a, ha => by simp only [emitS, decls]; exact .zero (by simp [opt_same]) (by simp [opt_same])
  | .assert t msg, a, ha => by simp only [emitS, decls]; exact .zero (by simp [opt_same, test_same]) (by simp [opt_same, test_same])
theorem adds_B : ∀ (b : Block Γ) (a : PS Γ), Low a → Adds (declsB b) a (emitB em b a)
  | .nil, a, ha => by simp only [emitB, declsB]; exact .zero rfl rfl
  | .cons st b, a, ha => by
    simp only [emitB, declsB]
    have h := adds_S st a ha
    exact h.trans (adds_B b _ (h.low ha))
theorem adds_Else : ∀ (e : Else Γ) (i : Nat) (q : PS Γ), Low q → (emitElse em e i q).scope = q.scope ∧ (emitElse em e i q).locals = q.locals
  | .none, i, q, hq => by simp only [emitElse]; exact ⟨by simp, by simp⟩
  | .els b, i, q, hq => by
    simp only [emitElse]
    obtain ⟨h1, h2⟩ := adds_block (a := q.branchForward.joinForward i (some .ifFalsePop)) hq (emitB em b) (fun q hq => ⟨_, adds_B b q hq⟩)
    exact ⟨by rw [jF_scope, h1]; rfl, by rw [jF_locals, h2]; rfl⟩
  | .elif c t els, i, q, hq => by
    simp only [emitElse]
    generalize hq3 : (q.branchForward.joinForward i (some .ifFalsePop)).delayedPop = q3
    have e1 : q3.scope = q.scope := by rw [← hq3]; simp
    have e2 : q3.locals = q.locals := by rw [← hq3]; simp
    obtain ⟨h1, h2⟩ := adds_block (a := (q3.expr em q3.locals.length c).branchForward) (by intro d hd; rw [bF_locals, expr_locals, e2] at hd; rw [bF_scope, expr_scope, e1]; exact hq d hd) (emitB em t) (fun q hq => ⟨_, adds_B t q hq⟩)
    replace h1 := h1.trans e1
    replace h2 := h2.trans e2
    obtain ⟨h3, h4⟩ := adds_Else els (q3.expr em q3.locals.length c).b.done.length _ (show Low ((q3.expr em q3.locals.length c).branchForward.block (emitB em t)) from by intro d hd; rw [h2] at hd; rw [h1]; exact hq d hd)
    exact ⟨by rw [jF_scope, h3, h1], by rw [jF_locals, h4, h2]⟩
  | .elifThen e, i, q, hq => by
    simp only [emitElse]
    exact ⟨by simp, by simp⟩
end

end Cordy.Stmts

namespace Cordy.Stmts
open Cordy.Builder
open Cordy.Graph (Place Code Instr LHalts GHalts WF Sem)
variable {Γ : Sig} {S R : Type}

/-! ## Statements after `k` variables -/

theorem inv_line (k : Nat) : Inv (⟨.empty, List.replicate k 0, 0, false, []⟩ : PS Γ) := by
  refine ⟨?_, ?_, ?_, ?_⟩
  · intro d hd
    simp at hd
    simp only
    omega
  · intro i hi; simp [brks] at hi
  · simp [brks]
  · simp [PS.start]

theorem bb_line (k : Nat) : BB (⟨.empty, List.replicate k 0, 0, false, []⟩ : PS Γ) [] := ⟨[], by simp [brks], .new⟩

theorem sim_line (Λ : Machine Γ S R) (em : Em Γ) [Compiles Λ em] (fuel k : Nat) (body : Block Γ) (hok : body.ok none false) {q : PS Γ} (hq : Grow (emitB em body ⟨.empty, List.replicate k 0, 0, false, []⟩).b q.b)
    (vs : List Γ.V) (hn : vs.length = k) (s : S) :
    Out Λ q.b.graph fuel ⟨none, fun m => ⟨0, 0, m⟩, fun m => ⟨0, 0, m⟩, 0, 0⟩ (emitB em body ⟨.empty, List.replicate k 0, 0, false, []⟩) ⟨0, 0, ⟨vs, s⟩⟩ (runB Λ.toLang fuel body vs s) := by
  have hi := inv_line (Γ := Γ) k
  have ag : Agree 0 (emitB em body ⟨.empty, List.replicate k 0, 0, false, []⟩).b q.b.graph (· ∈ brks (emitB em body ⟨.empty, List.replicate k 0, 0, false, []⟩)) :=
    agree_self.back hq (Nat.zero_le _)
  have := sim_B (Λ := Λ) (g := q.b.graph) (fuel := fuel) body ⟨.empty, List.replicate k 0, 0, false, []⟩ ⟨none, fun m => ⟨0, 0, m⟩, fun m => ⟨0, 0, m⟩, 0, 0⟩ hok hi
    ⟨fun h => absurd rfl h, fun h => by simp at h⟩ (fun _ => rfl) ag (fun h => absurd rfl h) vs none s (by simp [hn]) rfl
  simpa [pl, Bld.empty] using this

end Cordy.Stmts

namespace Cordy.Session
open Cordy.Codegen (Out LitTy)
open Cordy.Builder
open Cordy.Full (sig St em decode encode)
open Cordy.Stmts (Block Op Br PS Does linear entry)
open Cordy.Graph (Instr)
open Cordy.Program
variable {Γ : Codegen.Sig} {E S : Type}

theorem declared_eq : ∀ b : Block (sig Γ), declared b = Stmts.declsB b
  | .nil => rfl
  | .cons st b => by
    simp only [declared, Stmts.declsB, declared_eq b]
    cases st <;> rfl

theorem line_locals (P : Prog Γ E S) (f) (k : Nat) (body : Block (sig Γ)) : (Stmts.emitB (em P.base f) body ⟨.empty, List.replicate k 0, 0, false, []⟩).locals.length = k + declared body := by
  have h := Stmts.adds_B (em := em P.base f) body ⟨.empty, List.replicate k 0, 0, false, []⟩ (by intro d hd; simp at hd; simp; omega)
  rw [h.2, declared_eq]
  simp

theorem emitLine_locals (P : Prog Γ E S) (f print) (k : Nat) (body : Block (sig Γ)) : (emitLine (em P.base f) print k body).locals.length = k + declared body := by
  rw [← line_locals P f]
  unfold emitLine
  simp only
  split <;> rfl

theorem emitLine_grow (emit : Stmts.Em (sig Γ)) (print) (k : Nat) (body : Block (sig Γ)) : Grow (Stmts.emitB emit body ⟨.empty, List.replicate k 0, 0, false, []⟩).b (emitLine emit print k body).b := by
  unfold emitLine
  simp only
  split
  · exact (((((Grow.refl _).push _).push _).push _).push _).push _
  · exact (Grow.refl _).push _

theorem emitLine_wf (P : Prog Γ E S) (f print) (k : Nat) (body : Block (sig Γ)) : Graph.WF (emitLine (em P.base f) print k body).b.graph := by
  have hi := Stmts.inv_line (Γ := sig Γ) k
  have h := Stmts.built_B (em := em P.base f) body _ [] hi (Stmts.bb_line k)
  have hb := Stmts.brks_nil (Stmts.tab_B (em := em P.base f) body _ hi).ext rfl
  unfold emitLine
  simp only
  split
  · exact Stmts.wf_of_bb (((((h.push _).push _).push _).push _).push _) hb
  · exact Stmts.wf_of_bb (h.push _) hb

/-- How the machine stops. -/
def stopOf (us : List Int) : LineEnd Γ E S → Stmts.Stop (sig Γ) (St Γ (World Γ.V S)) (Full.Bad Γ.V E (World Γ.V S))
  | .ok vs w => .exit vs ⟨[], us, w⟩
  | .ret v w => .ret v ⟨[], us, w⟩
  | .stop r w vs => .err (r, w, vs)

theorem decode_app {W : Type} (vs st : List Γ.V) (t : St Γ W) : decode vs.length (⟨vs ++ st, t⟩ : Stmts.Mach (sig Γ) (St Γ W)) = some ⟨st.reverse, t.lits, t.unroll, (⟨vs, rfl⟩, t.s)⟩ := by
  unfold decode
  rw [dif_pos (by simp)]
  simp

theorem line_out (P : Prog Γ E S) {f} {G} (hG : Agrees P f G) (n : Nat) (print : Γ.V) (body : Block (sig Γ)) (hok : body.ok none false) (hb : body.each G) (vs : List Γ.V) (us : List Int) (s : S) :
    Does (Stmts.sem (atomicF P f n)) (emitLine (em P.base f) print vs.length body).b.graph ⟨0, 0, ⟨vs, ⟨[], us, ([], s)⟩⟩⟩ n (stopOf us) (lineEnd P n print body vs s) := by
  have h := Stmts.sim_line (atomicF P f n) (em P.base f) n vs.length body hok (q := emitLine (em P.base f) print vs.length body) (emitLine_grow _ _ _ _) vs rfl ⟨[], us, ([], s)⟩
  have hr := Full.runB_at [] us (hG n) n body hb vs ([], s)
  rw [show Stmts.runB (atomicF P f n).toLang n body vs ⟨[], us, ([], s)⟩ = _ from hr] at h
  have ag : Stmts.Agree 0 (emitLine (em P.base f) print vs.length body).b (emitLine (em P.base f) print vs.length body).b.graph (fun _ => False) := Stmts.agree_self
  unfold lineEnd
  rcases hx : Stmts.runB (lang P n) n body vs ([], s) with _ | (⟨env, val, w⟩ | _ | _ | _ | ⟨r, w, b⟩)
  all_goals rw [hx] at h
  · exact h
  · obtain ⟨h1, h2, h3⟩ := h
    generalize (emitLine (em P.base f) print vs.length body).b.graph = g at *
    unfold emitLine at ag
    simp only at ag
    generalize Stmts.emitB (em P.base f) body ⟨.empty, List.replicate vs.length 0, 0, false, []⟩ = q at *
    cases val with
    | none =>
      rw [if_neg (by rw [← h2]; simp)] at ag
      refine h3.halt ?_
      simp only [Option.toList, List.append_nil]
      exact Stmts.halt_push (sm := Stmts.sem (atomicF P f n)) (b := q.b) (o := .exit) ag (by simp [Stmts.sem, Stmts.exec, stopOf])
    | some v =>
      rw [if_pos (by rw [← h2]; rfl)] at ag
      rw [← h1] at ag
      have ag4 := ag.back ((Grow.refl _).push Op.exit) (Nat.zero_le _)
      have ag3 := ag4.back ((Grow.refl _).push Op.pop) (Nat.zero_le _)
      have ag2 := ag3.back ((Grow.refl _).push _) (Nat.zero_le _)
      have ag1 := ag2.back ((Grow.refl _).push Op.swap) (Nat.zero_le _)
      refine h3.halt ?_
      simp only [Option.toList]
      refine Stmts.Reach.halt (Stmts.reach_push (sm := Stmts.sem (atomicF P f n)) (b := q.b) (m' := ⟨env ++ [v, print], ⟨[], us, w⟩⟩) ag1 ?_) ?_
      · simp only [Stmts.sem, Stmts.exec]
        simp only [Full.machine, decode_app]
        simp [Codegen.exec, encode]
      refine Stmts.Reach.halt (Stmts.reach_push (sm := Stmts.sem (atomicF P f n)) (m' := ⟨env ++ [print, v], ⟨[], us, w⟩⟩) ag2 ?_) ?_
      · simp [Stmts.sem, Stmts.exec, List.getLast?_append, List.dropLast_append]
      have hcall : Codegen.exec ((withCalls P (callFn P n)).prims env.length) (.call 1 false) ⟨[print, v].reverse, [], us, (⟨env, rfl⟩, w)⟩ = Codegen.pushOut ⟨[v, print], [], us, (⟨env, rfl⟩, w)⟩ [] (((withCalls P (callFn P n)).prims env.length).call print [v] (⟨env, rfl⟩, w)) := rfl
      unfold printed
      rcases hc : ((withCalls P (callFn P n)).prims env.length).call print [v] (⟨env, rfl⟩, w) with ⟨v', env', w'⟩ | ⟨r, env', w'⟩
      · rw [hc] at hcall
        refine Stmts.Reach.halt (Stmts.reach_push (sm := Stmts.sem (atomicF P f n)) (m' := ⟨env'.1 ++ [v'], ⟨[], us, w'⟩⟩) ag3 ?_) ?_
        · simp only [Stmts.sem, Stmts.exec]
          simp only [Full.machine, decode_app]
          rw [hcall]
          simp [Codegen.pushOut, encode]
        refine Stmts.Reach.halt (Stmts.reach_push (sm := Stmts.sem (atomicF P f n)) (m' := ⟨env'.1, ⟨[], us, w'⟩⟩) ag4 ?_) ?_
        · simp [Stmts.sem, Stmts.exec]
        exact Stmts.halt_push (sm := Stmts.sem (atomicF P f n)) (o := .exit) ag (by simp [Stmts.sem, Stmts.exec, stopOf])
      · rw [hc] at hcall
        refine Stmts.halt_push (sm := Stmts.sem (atomicF P f n)) ag3 ?_
        simp only [Stmts.sem, Stmts.exec]
        simp only [Full.machine, decode_app]
        rw [hcall]
        rfl
  · exact absurd rfl h.1
  · exact absurd h.1 (by simp)
  · exact h
  · exact h

end Cordy.Session
