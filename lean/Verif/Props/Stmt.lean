import Verif.Lemmas.StmtMain
import Verif.Lemmas.StmtBuilt
import Verif.Lemmas.StmtFuel
/-!
# C64: statements do what the language says

The code that the parser emits for statements (`Model/Stmt.lean`), linearised (`Model/Graph.lean`), against the rules of `Spec/Exec.lean`. The code of expressions is any code that does what they mean (`Compiles`): see C74 for the code that the compiler emits for them.
-/
namespace Cordy.Stmts
open Cordy.Builder
open Cordy.Graph (Place Code Instr LHalts GHalts WF Sem)
variable {Γ : Sig} {S R : Type}

/-! ## The code of a function or program -/

/-- The emitted code, after the code `pre` that is there already. -/
def linear (ph : Op Γ) (q : PS Γ) (pre : List (Instr (Op Γ) (Br Γ))) (locs : List Unit) : List (Instr (Op Γ) (Br Γ)) := (Graph.emit ph () q.b.graph pre locs).1
/-- Where it starts. -/
def entry (ph : Op Γ) (q : PS Γ) (pre : List (Instr (Op Γ) (Br Γ))) (locs : List Unit) : Nat := (Graph.emit ph () q.b.graph pre locs).2.2.getD 0 0

/-- The code of `q`, started with `st` on the stack of its frame, ends with `r`. -/
def Ends (Λ : Machine Γ S R) (ph : Op Γ) (q : PS Γ) (pre : List (Instr (Op Γ) (Br Γ))) (locs : List Unit) (st : List Γ.V) (s : S) (r : Stop Γ S R) : Prop :=
  ∃ es, LHalts (sem Λ) (linear ph q pre locs) (entry ph q pre locs) ⟨st, s⟩ es r

/-- How a call that has a result ends. -/
def callStop : Except R (Γ.V × S) → Stop Γ S R
  | .ok (v, s) => .ret v s
  | .error r => .err r

/-- A program by the rules: it runs to its end, or to an error. -/
def runProgram (Λ : Lang Γ S R) (fuel : Nat) (body : Block Γ) (s : S) : Option (Except R S) :=
  match runB Λ fuel body [] s with
  | some (.normal _ _ s) => some (.ok s)
  | some (.stop r) => some (.error r)
  | _ => none

/-- models: vm/mod.rs:308-310: `Return` in the frame of the program, which starts at the bottom of the stack (vm/mod.rs:175): `frame_pointer - 1` is out of bounds. -/
def Stop.inMain : Stop Γ S R → Stop Γ S R
  | .ret _ _ => .crash
  | r => r

/-! ## Proof -/

theorem inv_start (n sc : Nat) (h : n = 0 ∨ 1 ≤ sc) : Inv (⟨.empty, List.replicate n 1, sc, false, []⟩ : PS Γ) := by
  refine ⟨?_, ?_, ?_, ?_⟩
  · intro d hd
    simp at hd
    simp only
    omega
  · intro i hi; simp [brks] at hi
  · simp [brks]
  · simp [PS.start]

theorem bb_start (n sc : Nat) : BB (⟨.empty, List.replicate n 1, sc, false, []⟩ : PS Γ) [] := ⟨[], by simp [brks], .new⟩

theorem brks_nil {a q : PS Γ} (h : Ext a q) (ha : a.loops = []) : brks q = [] := by
  rcases h.loops with ⟨_, e⟩ | ⟨l, ls, new, e1, _⟩
  · simp [brks, e]
  · rw [ha] at e1; simp at e1

theorem agree_self {b : Bld (Op Γ) (Br Γ)} {ex} : Agree 0 b b.graph ex :=
  ⟨fun i _ hi _ => graph_get_lt b i hi, fun i _ hi => by rw [codeAt, graph_get_lt b i hi, codeAt], [], by simp [codeAt, graph_get_len]⟩

/-- The statements of a function or program. -/
theorem sim_start (Λ : Machine Γ S R) (em : Em Γ) [Compiles Λ em] (fuel n sc : Nat) (h : n = 0 ∨ 1 ≤ sc) (body : Block Γ) (hok : body.ok none false) {q : PS Γ} (hq : Grow (emitB em body ⟨.empty, List.replicate n 1, sc, false, []⟩).b q.b)
    (args : List Γ.V) (hn : args.length = n) (s : S) :
    Out Λ q.b.graph fuel ⟨none, fun m => ⟨0, 0, m⟩, fun m => ⟨0, 0, m⟩, 0, 0⟩ (emitB em body ⟨.empty, List.replicate n 1, sc, false, []⟩) ⟨0, 0, ⟨args, s⟩⟩ (runB Λ.toLang fuel body args s) := by
  have hi := inv_start (Γ := Γ) n sc h
  have ag : Agree 0 (emitB em body ⟨.empty, List.replicate n 1, sc, false, []⟩).b q.b.graph (· ∈ brks (emitB em body ⟨.empty, List.replicate n 1, sc, false, []⟩)) :=
    agree_self.back hq (Nat.zero_le _)
  have := sim_B (Λ := Λ) (g := q.b.graph) (fuel := fuel) body ⟨.empty, List.replicate n 1, sc, false, []⟩ ⟨none, fun m => ⟨0, 0, m⟩, fun m => ⟨0, 0, m⟩, 0, 0⟩ hok hi
    ⟨fun h => absurd rfl h, fun h => by simp at h⟩ (fun _ => rfl) ag (fun h => absurd rfl h) args none s (by simp [hn]) rfl
  simpa [pl, Bld.empty] using this

/-- Linear code and graph. -/
theorem ends_iff (Λ : Machine Γ S R) (ph : Op Γ) {q : PS Γ} (hq : WF q.b.graph) (pre locs) (hsz : (linear ph q pre locs).length < 2 ^ 31) (st : List Γ.V) (s : S) (r : Stop Γ S R) :
    Ends Λ ph q pre locs st s r ↔ Halt (sem Λ) q.b.graph ⟨0, 0, ⟨st, s⟩⟩ r := by
  have h0 : 0 < q.b.graph.length := by rw [graph_length]; omega
  constructor
  · rintro ⟨es, h⟩
    exact halts_halt ((Graph.C33_code_to_graph (sem Λ) ph () q.b.graph pre locs hq hsz 0 h0 ⟨st, s⟩).2 es r h)
  · intro h
    obtain ⟨es, h⟩ := h.halts
    exact ⟨es, (Graph.C33_graph_to_code (sem Λ) ph () q.b.graph pre locs hq hsz 0 h0 ⟨st, s⟩).2.1 es r h⟩

theorem wf_of_bb {q : PS Γ} (h : BB q []) (hb : brks q = []) : WF q.b.graph := by
  obtain ⟨op, h1, h2⟩ := h
  rw [hb] at h1
  have : op = [] := by simpa using h1
  subst this
  exact Graph.C33_builder _ h2

theorem body_wf (em : Em Γ) [EmOk em] (n : Nat) (body : Block Γ) : WF (emitBody em n body).b.graph := by
  have hi := inv_start (Γ := Γ) n 2 (by omega)
  have h := built_B (em := em) body _ [] hi (bb_start n 2)
  have hb := brks_nil (tab_B (em := em) body _ hi).ext rfl
  unfold emitBody
  simp only
  split
  · exact wf_of_bb (h.push _) hb
  · exact wf_of_bb ((h.push _).push _) hb

/-- The code ends with the result, or takes at least `fuel` steps if there is none. -/
def Does {X : Type} (sm : Sem (Op Γ) (Br Γ) (Mach Γ S) (Stop Γ S R)) (g : Code (Op Γ) (Br Γ) Unit) (c : Place (Mach Γ S)) (fuel : Nat) (f : X → Stop Γ S R) : Option X → Prop
  | none => Long sm g fuel c
  | some r => Halt sm g c (f r)

theorem body_out (Λ : Machine Γ S R) (em : Em Γ) [Compiles Λ em] (fuel : Nat) (body : Block Γ) (hok : body.ok none false) (args : List Γ.V) (s : S) :
    Does (sem Λ) (emitBody em args.length body).b.graph ⟨0, 0, ⟨args, s⟩⟩ fuel callStop (callBody Λ.toLang fuel body args s) := by
  have hg : Grow (emitB em body ⟨.empty, List.replicate args.length 1, 2, false, []⟩).b (emitBody em args.length body).b := by
    unfold emitBody
    simp only
    split
    · exact (Grow.refl _).push _
    · exact ((Grow.refl _).push _).push _
  have h := sim_start Λ em fuel args.length 2 (by omega) body hok hg args rfl s
  unfold callBody
  rcases hr : runB Λ.toLang fuel body args s with _ | (⟨env, val, s'⟩ | _ | _ | _ | _)
  all_goals rw [hr] at h
  · exact h
  · obtain ⟨h1, h2, h3⟩ := h
    refine h3.halt ?_
    have ag : Agree 0 (emitBody em args.length body).b (emitBody em args.length body).b.graph (fun _ => False) := agree_self
    revert ag
    unfold emitBody
    simp only
    split
    · rename_i hf
      rw [hf] at h2
      obtain ⟨v, rfl⟩ := Option.isSome_iff_exists.1 h2
      intro ag
      exact halt_push (sm := sem Λ) (b := (emitB em body ⟨.empty, List.replicate args.length 1, 2, false, []⟩).b) ag (by simp [sem, exec, callStop])
    · rename_i hf
      have hv : val = none := by
        cases val with
        | none => rfl
        | some v => simp only [Option.isSome_some] at h2; exact absurd h2.symm hf
      subst hv
      intro ag
      refine Reach.halt (reach_push (sm := sem Λ) (b := (emitB em body ⟨.empty, List.replicate args.length 1, 2, false, []⟩).b) (m' := ⟨env ++ [Λ.nil], s'⟩) (ag.back ((Grow.refl _).push Op.ret) (Nat.zero_le _)) (by simp [sem, exec])) ?_
      exact halt_push (sm := sem Λ) (b := ((emitB em body ⟨.empty, List.replicate args.length 1, 2, false, []⟩).push .nil).b) ag (by simp [sem, exec, callStop])
  · exact absurd rfl h.1
  · exact absurd h.1 (by simp)
  · exact h
  · exact h

/-- The code and a specification with fuel agree. -/
theorem agree_iff {X : Type} {sm : Graph.Sem (Op Γ) (Br Γ) (Mach Γ S) (Stop Γ S R)} {g : Code (Op Γ) (Br Γ) Unit} {c : Place (Mach Γ S)} (run : Nat → Option X) (f : X → Stop Γ S R) (hf : ∀ a b, f a = f b → a = b)
    (h : ∀ fuel, Does sm g c fuel f (run fuel)) :
    (∀ r, Halt sm g c (f r) ↔ ∃ fuel, run fuel = some r) ∧ ∀ st, Halt sm g c st → ∃ r, st = f r := by
  have key : ∀ st, Halt sm g c st → ∃ fuel r, run fuel = some r ∧ st = f r := by
    intro st hst
    obtain ⟨n, hn⟩ := halt_not_long hst
    have h1 := h n
    cases hr : run n with
    | none => rw [hr] at h1; exact absurd h1 hn
    | some r => rw [hr] at h1; exact ⟨n, r, hr, halt_det hst h1⟩
  refine ⟨fun r => ⟨fun hst => ?_, ?_⟩, fun st hst => ?_⟩
  · obtain ⟨n, r', h1, h2⟩ := key _ hst
    exact ⟨n, by rw [h1, hf _ _ h2]⟩
  · rintro ⟨n, hn⟩
    have := h n
    rw [hn] at this
    exact this
  · obtain ⟨n, r', _, h2⟩ := key _ hst
    exact ⟨r', h2⟩

theorem callStop_inj (a b : Except R (Γ.V × S)) (h : (callStop a : Stop Γ S R) = callStop b) : a = b := by
  rcases a with a | ⟨a1, a2⟩ <;> rcases b with b | ⟨b1, b2⟩ <;> simp_all [callStop]

/-- **C64** the code of a function with body `body`, called with `args`, ends as the rules say, and only so: it returns `v` in state `s'` if and only if by the rules the call has that value and leaves that state, and likewise for errors. It never ends in another way; so if the call does not end by the rules, neither does the code. -/
theorem C64_function_partial (Λ : Machine Γ S R) (em : Em Γ) [Compiles Λ em] (ph : Op Γ) (body : Block Γ) (hok : body.ok none false) (args : List Γ.V) (s : S) (pre : List (Instr (Op Γ) (Br Γ))) (locs : List Unit)
    (hsz : (linear ph (emitBody em args.length body) pre locs).length < 2 ^ 31) :
    (∀ v s', Ends Λ ph (emitBody em args.length body) pre locs args s (.ret v s') ↔ ∃ fuel, callBody Λ.toLang fuel body args s = some (.ok (v, s'))) ∧
    (∀ r, Ends Λ ph (emitBody em args.length body) pre locs args s (.err r) ↔ ∃ fuel, callBody Λ.toLang fuel body args s = some (.error r)) ∧
    (∀ st s', ¬ Ends Λ ph (emitBody em args.length body) pre locs args s (.exit st s')) ∧
    ¬ Ends Λ ph (emitBody em args.length body) pre locs args s .crash := by
  obtain ⟨h1, h2⟩ := agree_iff (fun fuel => callBody Λ.toLang fuel body args s) callStop callStop_inj (fun fuel => body_out Λ em fuel body hok args s)
  simp only [ends_iff Λ ph (body_wf em args.length body) pre locs hsz]
  refine ⟨fun v s' => h1 (.ok (v, s')), fun r => h1 (.error r), ?_, ?_⟩
  · intro st s' h
    obtain ⟨r, hr⟩ := h2 _ h
    rcases r with r | ⟨v, s''⟩ <;> simp [callStop] at hr
  · intro h
    obtain ⟨r, hr⟩ := h2 _ h
    rcases r with r | ⟨v, s''⟩ <;> simp [callStop] at hr

/-! ## Programs -/

theorem program_wf (em : Em Γ) [EmOk em] (body : Block Γ) : WF (emitProgram em body).b.graph := by
  have hi := inv_start (Γ := Γ) 0 0 (by omega)
  have h := (built_B (em := em) body _ [] hi (bb_start 0 0)).dp
  have hb := brks_nil (tab_B (em := em) body _ hi).ext.dp rfl
  unfold emitProgram
  have h3 : BB (((emitB em body ⟨.empty, [], 0, false, []⟩).delayedPop).pops ((emitB em body ⟨.empty, [], 0, false, []⟩).delayedPop.above 0)) [] := h.pops _
  refine wf_of_bb (BB.push (ps := PS.popLocals _ 0) ?_ _) ?_
  · obtain ⟨op, p1, p2⟩ := h3
    exact ⟨op, by simpa [brks, PS.popLocals] using p1, p2⟩
  · simpa [brks, PS.popLocals] using hb

/-- How the statements of a program end: at the end, with an error, or with a `return`. -/
inductive Top (Γ : Sig) (S R : Type) where
  | fin (s : S)
  | ret (v : Γ.V) (s : S)
  | stop (r : R)

def topLevel (Λ : Lang Γ S R) (fuel : Nat) (body : Block Γ) (s : S) : Option (Top Γ S R) :=
  match runB Λ fuel body [] s with
  | some (.normal _ _ s) => some (.fin s)
  | some (.ret v s) => some (.ret v s)
  | some (.stop r) => some (.stop r)
  | _ => none

def programEnd : Top Γ S R → Stop Γ S R
  | .fin s => .exit [] s
  | .ret v s => .ret v s
  | .stop r => .err r

theorem programEnd_inj (a b : Top Γ S R) (h : programEnd a = programEnd b) : a = b := by
  rcases a with a | ⟨a1, a2⟩ | a <;> rcases b with b | ⟨b1, b2⟩ | b <;> simp_all [programEnd]

theorem program_out (Λ : Machine Γ S R) (em : Em Γ) [Compiles Λ em] (fuel : Nat) (body : Block Γ) (hok : body.ok none false) (s : S) :
    Does (sem Λ) (emitProgram em body).b.graph ⟨0, 0, ⟨[], s⟩⟩ fuel programEnd (topLevel Λ.toLang fuel body s) := by
  have hg : Grow (emitB em body ⟨.empty, [], 0, false, []⟩).b (emitProgram em body).b := by
    unfold emitProgram
    exact (((dp_grow _).trans (pops_grow _ _)).push _)
  have h := sim_start Λ em fuel 0 0 (by omega) body hok hg [] rfl s
  unfold topLevel
  rcases hr : runB Λ.toLang fuel body [] s with _ | (⟨env, val, s'⟩ | _ | _ | _ | _)
  all_goals rw [hr] at h
  · exact h
  · obtain ⟨h1, h2, h3⟩ := h
    refine h3.halt ?_
    have ag : Agree 0 (emitProgram em body).b (emitProgram em body).b.graph (fun _ => False) := agree_self
    have ag2 : Agree 0 ((emitB em body ⟨.empty, [], 0, false, []⟩).delayedPop.pops ((emitB em body ⟨.empty, [], 0, false, []⟩).delayedPop.above 0)).b (emitProgram em body).b.graph (fun _ => False) :=
      ag.back ((Grow.refl _).push Op.exit) (Nat.zero_le _)
    have ag1 := ag2.back (pops_grow _ _) (Nat.zero_le _)
    refine Reach.halt (reach_dp (q := emitB em body ⟨.empty, [], 0, false, []⟩) ag1 env val h2 s') ?_
    have ha : (emitB em body ⟨.empty, [], 0, false, []⟩).delayedPop.above 0 = env.length := by
      unfold PS.above
      simp only [Nat.zero_le, decide_true]
      rw [List.filter_eq_self.2 (by simp), dp_locals, h1]
      rfl
    refine Reach.halt (reach_pops (Λ := Λ) _ _ ag2 (Nat.zero_le _) env s' (by omega)) ?_
    have e : env.take (env.length - (emitB em body ⟨.empty, [], 0, false, []⟩).delayedPop.above 0) = [] := by rw [ha]; simp
    rw [e]
    exact halt_push (sm := sem Λ) (b := ((emitB em body ⟨.empty, [], 0, false, []⟩).delayedPop.pops ((emitB em body ⟨.empty, [], 0, false, []⟩).delayedPop.above 0)).b) (m := ⟨[], s'⟩) (o := .exit) (r := .exit [] s') ag (by simp [sem, exec])
  · exact absurd rfl h.1
  · exact absurd h.1 (by simp)
  · exact h
  · exact h

/-- **C64** the code of a program ends as the rules say: it runs to its end, in state `s'` and with nothing left on the stack, if and only if by the rules the statements run to their end in state `s'`; likewise for errors. -/
theorem C64_program_partial (Λ : Machine Γ S R) (em : Em Γ) [Compiles Λ em] (ph : Op Γ) (body : Block Γ) (hok : body.ok none false) (s : S) (pre : List (Instr (Op Γ) (Br Γ))) (locs : List Unit)
    (hsz : (linear ph (emitProgram em body) pre locs).length < 2 ^ 31) :
    (∀ st s', Ends Λ ph (emitProgram em body) pre locs [] s (.exit st s') ↔ st = [] ∧ ∃ fuel, runProgram Λ.toLang fuel body s = some (.ok s')) ∧
    (∀ r, Ends Λ ph (emitProgram em body) pre locs [] s (.err r) ↔ ∃ fuel, runProgram Λ.toLang fuel body s = some (.error r)) ∧
    ¬ Ends Λ ph (emitProgram em body) pre locs [] s .crash := by
  obtain ⟨h1, h2⟩ := agree_iff (fun fuel => topLevel Λ.toLang fuel body s) programEnd programEnd_inj (fun fuel => program_out Λ em fuel body hok s)
  simp only [ends_iff Λ ph (program_wf em body) pre locs hsz]
  have e1 : ∀ fuel s', topLevel Λ.toLang fuel body s = some (.fin s') ↔ runProgram Λ.toLang fuel body s = some (.ok s') := by
    intro fuel s'
    unfold topLevel runProgram
    rcases runB Λ.toLang fuel body [] s with _ | (⟨_, _, _⟩ | _ | _ | _ | _) <;> simp
  have e2 : ∀ fuel r, topLevel Λ.toLang fuel body s = some (.stop r) ↔ runProgram Λ.toLang fuel body s = some (.error r) := by
    intro fuel s'
    unfold topLevel runProgram
    rcases runB Λ.toLang fuel body [] s with _ | (⟨_, _, _⟩ | _ | _ | _ | _) <;> simp
  refine ⟨fun st s' => ⟨fun h => ?_, ?_⟩, fun r => ?_, ?_⟩
  · obtain ⟨r, hr⟩ := h2 _ h
    have hst : st = [] := by cases r <;> simp [programEnd] at hr; exact hr.1
    subst hst
    have := (h1 (.fin s')).1 h
    simp only [e1] at this
    exact ⟨rfl, this⟩
  · rintro ⟨rfl, h⟩
    refine (h1 (.fin s')).2 ?_
    simp only [e1]
    exact h
  · have := h1 (.stop r)
    simp only [e2] at this
    exact this
  · intro h
    obtain ⟨r, hr⟩ := h2 _ h
    cases r <;> simp [programEnd] at hr

/-- **C64** the rules are not ambiguous: how many turns are allowed does not matter, once there is a result. -/
theorem C64_rules (Λ : Lang Γ S R) (body : Block Γ) (args : List Γ.V) (s : S) (n m : Nat) (r r' : Except R (Γ.V × S))
    (h : callBody Λ n body args s = some r) (h' : callBody Λ m body args s = some r') : r = r' := by
  have h1 := callBody_le Λ (Nat.le_max_left n m) body args s r h
  have h2 := callBody_le Λ (Nat.le_max_right n m) body args s r' h'
  rw [h1] at h2
  exact Option.some.inj h2

/-- **C64**, violated: a `return` outside of a function compiles, and if it is reached the interpreter panics. -/
theorem C64_return_violation (Λ : Machine Γ S R) (em : Em Γ) [Compiles Λ em] (ph : Op Γ) (body : Block Γ) (hok : body.ok none false) (s : S) (pre : List (Instr (Op Γ) (Br Γ))) (locs : List Unit)
    (hsz : (linear ph (emitProgram em body) pre locs).length < 2 ^ 31) (fuel : Nat) (v : Γ.V) (s' : S) (h : runB Λ.toLang fuel body [] s = some (.ret v s')) :
    ∃ r, Ends Λ ph (emitProgram em body) pre locs [] s r ∧ r.inMain = .crash := by
  refine ⟨.ret v s', ?_, rfl⟩
  rw [ends_iff Λ ph (program_wf em body) pre locs hsz]
  have := program_out Λ em fuel body hok s
  simp only [topLevel, h] at this
  exact this

/-! ## Expressions as single opcodes

For the examples: an opcode that evaluates an expression, which can name the first `k` variables. -/

abbrev Sig.one (V X P C : Type) : Sig := ⟨V, X, P, C, Nat × X, Empty⟩

section One
variable {V X P C : Type}

def emOne : Em (Sig.one V X P C) := fun k e b => b.push (.x (k, e))

abbrev Lang.one (Λ : Lang (Sig.one V X P C) S R) : Machine (Sig.one V X P C) S R :=
  { Λ with
    xop := fun (k, e) m =>
      match Λ.eval e (m.st.take k) m.s with
      | .ok (v, vs, s) => .ok ⟨vs ++ m.st.drop k ++ [v], s⟩
      | .error r => .error (.err r)
    xtest := fun t _ => nomatch t }

instance : EmOk (emOne (V := V) (X := X) (P := P) (C := C)) where
  grow k e b := (Grow.refl b).push _
  built k e b op h := built_push h _

instance (Λ : Lang (Sig.one V X P C) S R) : Compiles Λ.one emOne where
  run g k e b ex h _ env rest s hl := by
    have h1 : (env ++ rest).take k = env := by rw [← hl]; simp
    have h2 : (env ++ rest).drop k = rest := by rw [← hl]; simp
    have he : exec Λ.one (.x (k, e)) ⟨env ++ rest, s⟩ = (match Λ.eval e env s with
      | .ok (v, vs, s) => .ok ⟨vs ++ rest ++ [v], s⟩
      | .error r => .error (.err r)) := by simp only [exec, h1, h2]
    cases hv : Λ.eval e env s with
    | error r => rw [hv] at he; exact halt_push (sm := sem Λ.one) h he
    | ok x => rw [hv] at he; exact reach_push (sm := sem Λ.one) h he

end One

/-! ## Concrete programs -/

namespace Toy

/-- Expressions: numbers, variables, `x < n`, `x += n`, `print(x)`. -/
inductive X where
  | lit (n : Int)
  | var (i : Nat)
  | lt (i : Nat) (n : Int)
  | add (i : Nat) (n : Int)
  | print (i : Nat)

/-- Values are numbers; 0 is false and `nil`. -/
abbrev G : Sig := .one Int X Unit Unit

/-- The state is what has been printed. There is an error if a variable is not there. -/
def eval : X → List Int → List Int → Except String (Int × List Int × List Int)
  | .lit n, vs, s => .ok (n, vs, s)
  | .var i, vs, s => match vs[i]? with | some v => .ok (v, vs, s) | none => .error "no variable"
  | .lt i n, vs, s => match vs[i]? with | some v => .ok (if v < n then 1 else 0, vs, s) | none => .error "no variable"
  | .add i n, vs, s => match vs[i]? with | some v => .ok (v + n, vs.set i (v + n), s) | none => .error "no variable"
  | .print i, vs, s => match vs[i]? with | some v => .ok (0, vs, s ++ [v]) | none => .error "no variable"

/-- `for i in 3` counts 3, 2, 1. -/
def Λ : Lang G (List Int) String where
  nil := (0 : Int)
  truthy v _ := (v : Int) != 0
  eval := eval
  destr := fun _ _ vs s => .ok (vs, s)
  iter := fun v _ s => .ok (v, s)
  next := fun it _ => if (it : Int) > 0 then some ((it : Int) - 1, it) else none
  cmp := fun _ a b _ => decide ((a : Int) = b)
  cmpMsg := fun _ _ _ _ => (7 : Int)
  failed := fun _ _ _ _ => "assert"
  eval_len := by
    intro e vs s v vs' s' h
    cases e <;> simp only [eval] at h
    · simp at h; rw [h.2.1]
    all_goals
      split at h
      · simp at h
        rw [← h.2.1]
        try simp
      · simp at h
  destr_len := by intro p v vs s vs' s' h; simp at h; rw [h.1]

def blk : List (Stmt G) → Block G
  | [] => .nil
  | x :: xs => .cons x (blk xs)

/-- `fn f(n) { let t = 0; for i in n { if i < 3 { continue } if t < 9 { t += i } else { break } } else { print(t) } while t < 20 { t += 1 }; do { t += 5 } while t < 30; t }` (with the constant 2 for `i`). -/
def f : Block G := blk [.letIn .named (.lit 0),
  .for .named (.var 0) (blk [.ite (.lt 2 3) (blk [.cont]) .none, .ite (.lt 1 9) (blk [.expr (.add 1 2)]) (.els (blk [.brk]))]) (blk [.expr (.print 1)]),
  .while (.lt 1 20) (blk [.expr (.add 1 1)]) .nil, .doW (blk [.expr (.add 1 5)]) (some (.lt 1 30)) .nil, .expr (.var 1)]

theorem f_ok : f.ok none false := by simp [f, blk, Block.ok, Stmt.ok, Else.ok, Stmt.isExpr]

/-- With 5: the values 5, 4, 3 add 2 each, 2 and 1 are skipped, 6 is printed; then up to 20, then 25 and 30. -/
theorem f_5 : callBody Λ 20 f [5] [] = some (.ok (30, [6])) := by decide +kernel
/-- With 9 there is a `break` after five values, and nothing is printed. -/
theorem f_9 : callBody Λ 20 f [9] [] = some (.ok (30, [])) := by decide +kernel

/-- So that is what the compiled code does, and nothing else. -/
example : Ends Λ.one .nil (emitBody emOne 1 f) [.op .exit] [()] [5] [] (.ret (30 : Int) [6]) ∧ ∀ v s', Ends Λ.one .nil (emitBody emOne 1 f) [.op .exit] [()] [9] [] (.ret v s') → v = (30 : Int) ∧ s' = [] := by
  have hsz : (linear .nil (emitBody emOne 1 f) [.op .exit] [()]).length < 2 ^ 31 := by decide +kernel
  refine ⟨((C64_function_partial Λ.one emOne .nil f f_ok [5] [] [.op .exit] [()] hsz).1 _ _).2 ⟨20, f_5⟩, ?_⟩
  intro v s' h
  obtain ⟨n, hn⟩ := ((C64_function_partial Λ.one emOne .nil f f_ok [9] [] [.op .exit] [()] hsz).1 v s').1 h
  have := C64_rules Λ f [9] [] _ _ _ _ hn f_9
  simpa using this

/-- `loop { }` never ends. -/
example (args : List Int) (r : Stop G (List Int) String) : ¬ Ends Λ.one .nil (emitBody emOne args.length (blk [.loop .nil])) [] [] args [] r := by
  have hsz : (linear .nil (emitBody emOne args.length (blk [.loop .nil])) [] []).length < 2 ^ 31 := by
    have : (emitBody emOne args.length (blk [.loop .nil] : Block G)).b = (emitBody emOne 0 (blk [.loop .nil])).b := by
      simp [emitBody, blk, emitB, emitS, PS.delayedPop, PS.beginLoop, PS.block, PS.leave, PS.popLocals, PS.above, PS.start, PS.joinReverse, PS.endLoop, PS.joinAll, PS.push, PS.pops]
    rw [linear, this]
    decide +kernel
  have none : ∀ fuel, callBody Λ fuel (blk [.loop .nil]) args [] = none := by
    intro fuel
    have : ∀ n : Nat, loopN n (fun (env : List Int) (s : List Int) => (inScope (runB Λ fuel .nil) env s).map afterBody) args [] = none := by
      intro n
      induction n with
      | zero => rfl
      | succ n ih => simp [loopN, inScope, runB, Res.leave, afterBody] at ih ⊢; exact ih
    have e : runB Λ fuel (blk [.loop .nil]) args [] = none := by
      rw [← this fuel, blk, blk, runB, runS]
    rw [callBody, e]
  obtain ⟨h1, h2, h3, h4⟩ := C64_function_partial Λ.one emOne .nil (blk [.loop .nil]) (by simp [blk, Block.ok, Stmt.ok]) args [] [] [] hsz
  intro h
  cases r with
  | ret v s =>
    obtain ⟨n, hn⟩ := (h1 v s).1 h
    rw [none] at hn; simp at hn
  | err r =>
    obtain ⟨n, hn⟩ := (h2 r).1 h
    rw [none] at hn; simp at hn
  | exit st s => exact h3 st s h
  | crash => exact h4 h

/-! ### Programs that the compiler gets wrong -/

/-- Running code for at most so many steps. -/
def lrun {O T S R : Type} (sm : Sem O T S R) (code : List (Instr O T)) : Nat → Nat → S → Option R
  | 0, _, _ => none
  | n + 1, ip, s =>
    match Graph.lstep sm code ip s with
    | some (_, .error r) => some r
    | some (_, .ok (.ofNat ip', s')) => lrun sm code n ip' s'
    | _ => none

theorem lrun_halts {O T S R : Type} (sm : Sem O T S R) (code : List (Instr O T)) : ∀ (n ip : Nat) (s : S) (r : R), lrun sm code n ip s = some r → ∃ es, LHalts sm code ip s es r := by
  intro n
  induction n with
  | zero => intro ip s r h; simp [lrun] at h
  | succ n ih =>
    intro ip s r h
    rw [lrun] at h
    split at h
    · rename_i e r' he
      simp at h
      subst h
      exact ⟨_, [], ip, s, e, .refl, he, rfl⟩
    · rename_i e ip' s' he
      obtain ⟨es, es1, ip2, s2, e2, h1, h2, h3⟩ := ih ip' s' r h
      exact ⟨_, _, ip2, s2, e2, .step he h1, h2, rfl⟩
    · simp at h

/-- `let x = 1; print(x) do { x += 1 } while x < 3; print(x)`: without a `;` before `do`. -/
def pDo : Block G := blk [.letIn .named (.lit 1), .expr (.print 0), .doW (blk [.expr (.add 0 1)]) (some (.lt 0 3)) .nil, .semi, .expr (.print 0)]

/-- **C64**, violated: `do` directly after an expression statement. The program should print 1 and 3; but the `Pop` for the value of the statement is in the loop, the second turn of which removes the variable. -/
theorem C64_do_violation : runProgram Λ 5 pDo [] = some (.ok [1, 3]) ∧ Ends Λ.one .nil (emitProgram emOne pDo) [] [] [] [] (.err "no variable") :=
  ⟨by decide +kernel, lrun_halts _ _ 100 _ _ _ (by rfl)⟩

/-- `let x = 1; if x { } elif x then 5 else 6; print(x)` (5 for the expression after `elif`). -/
def pElif : Block G := blk [.letIn .named (.lit 1), .ite (.var 0) .nil (.elifThen (.lit 5)), .semi, .expr (.print 0)]

/-- **C64**, violated: `elif c then a else b` after the block of an `if`. The value is removed also if there is none, and so is the variable. -/
theorem C64_elif_violation : runProgram Λ 5 pElif [] = some (.ok [1]) ∧ Ends Λ.one .nil (emitProgram emOne pElif) [] [] [] [] (.err "no variable") :=
  ⟨by decide +kernel, lrun_halts _ _ 100 _ _ _ (by rfl)⟩

/-- `for i in 0 { } else { continue }`. -/
def pCont : Block G := blk [.for .named (.lit 0) .nil (blk [.cont])]

/-- **C64**, violated: `continue` in the `else` of a `for` loop goes to the test of the loop, when there is no iterator any more. The interpreter panics (by the rules, the loop would never end). -/
theorem C64_continue_violation : Ends Λ.one .nil (emitProgram emOne pCont) [] [] [] [] .crash ∧ ∀ fuel, runProgram Λ fuel pCont [] = none := by
  refine ⟨lrun_halts _ _ 100 _ _ _ (by rfl), fun fuel => ?_⟩
  have : ∀ (n : Nat) (x : Int), loopN n (forTurn Λ .named 0 (inScope (runB Λ fuel .nil)) (inScope (runB Λ fuel (blk [.cont])))) [x, (0 : Int)] [] = none := by
    intro n
    induction n with
    | zero => intro x; rfl
    | succ n ih =>
      intro x
      simp [loopN, forTurn, Λ, inScope, blk, runB, runS, Res.leave, afterElse] at ih ⊢
      exact ih x
  have h := this fuel 0
  simp only [pCont, runProgram, blk, runB, runS, withVal, Λ, eval, LV.vars] at h ⊢
  simp at h ⊢
  rw [h]
  rfl

/-- `let x = 1; if x { return x }`: the hypotheses of the theorem about `return`. -/
example : ∃ r, Ends Λ.one .nil (emitProgram emOne (blk [.letIn .named (.lit 1), .ite (.var 0) (blk [.ret (some (.var 0))]) .none])) [] [] [] [] r ∧ r.inMain = .crash :=
  C64_return_violation Λ.one emOne .nil _ (by simp [blk, Block.ok, Stmt.ok, Else.ok]) [] [] [] (by decide +kernel) 1 (1 : Int) [] (by rfl)

end Toy

end Cordy.Stmts
