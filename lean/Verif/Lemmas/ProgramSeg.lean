import Verif.Lemmas.ProgramRun
import Verif.Model.ProgramOpt
/-! Two codes, where each opcode of the second does what one or more opcodes of the first do. -/
namespace Cordy.Program
open Cordy.Codegen (Out Prims LitTy)
open Cordy.Full (Runtime Vars sig St decode encode machine)
open Cordy.Stmts (Op Br)
open Cordy.Graph (Instr)
variable {Γ : Codegen.Sig} {E S : Type}

/-- Opcodes that never need the code of a function, and do not return. -/
def plain : Op (sig Γ) → Prop
  | .x (_, o) => ∀ {W : Type} (d : Codegen.Mach Γ W), asks o d = none
  | .ret => False
  | _ => True

abbrev MSt (Γ : Codegen.Sig) (S : Type) := Stmts.Mach (sig Γ) (St Γ (World Γ.V S))
abbrev MStop (Γ : Codegen.Sig) (E S : Type) := Stmts.Stop (sig Γ) (St Γ (World Γ.V S)) (Full.Bad Γ.V E (World Γ.V S))

/-- Opcodes, one after the other. -/
def execs (P : Prog Γ E S) : List (Op (sig Γ)) → MSt Γ S → Except (MStop Γ E S) (MSt Γ S)
  | [], m => .ok m
  | o :: os, m =>
    match Stmts.exec (machine P.base id) o m with
    | .ok m => execs P os m
    | .error r => .error r

theorem execs_append (P : Prog Γ E S) (a b : List (Op (sig Γ))) (m) : execs P (a ++ b) m = (match execs P a m with | .ok m => execs P b m | .error r => .error r) := by
  induction a generalizing m with
  | nil => rfl
  | cons o a ih =>
    simp only [List.cons_append, execs]
    cases Stmts.exec (machine P.base id) o m with
    | ok m => exact ih m
    | error r => rfl

/-- `o` does what `g` does, unless `g` crashes. -/
def Grp (P : Prog Γ E S) (g : List (Op (sig Γ))) (o : Op (sig Γ)) : Prop :=
  g = [o] ∨ (g ≠ [] ∧ (∀ a ∈ g, plain a) ∧ plain o ∧ ∀ m, execs P g m = .error .crash ∨ execs P g m = Stmts.exec (machine P.base id) o m)

theorem Grp.ne {P : Prog Γ E S} {g o} (h : Grp P g o) : g ≠ [] := by
  rcases h with rfl | h
  · simp
  · exact h.1

inductive Seg (P : Prog Γ E S) : List (Op (sig Γ)) → List (Op (sig Γ)) → Prop
  | nil : Seg P [] []
  | cons {g o a b} : Grp P g o → Seg P a b → Seg P (g ++ a) (o :: b)

theorem Seg.one {P : Prog Γ E S} (o) {a b} (h : Seg P a b) : Seg P (o :: a) (o :: b) := .cons (g := [o]) (.inl rfl) h

theorem Seg.refl (P : Prog Γ E S) : ∀ a, Seg P a a
  | [] => .nil
  | o :: a => (Seg.refl P a).one o

theorem Seg.split {P : Prog Γ E S} : ∀ {g a c}, Seg P a (g ++ c) → ∃ a₁ a₂, a = a₁ ++ a₂ ∧ Seg P a₁ g ∧ Seg P a₂ c
  | [], a, c, h => ⟨[], a, rfl, .nil, h⟩
  | o :: g, _, c, .cons h1 h2 => by
    obtain ⟨a₁, a₂, rfl, h3, h4⟩ := Seg.split h2
    exact ⟨_, a₂, by rw [← List.append_assoc], .cons h1 h3, h4⟩

theorem Grp.of_seg {P : Prog Γ E S} {a o} (h : Seg P a [o]) : Grp P a o := by
  cases h with
  | cons h1 h2 => cases h2; simpa using h1

theorem Seg.execs {P : Prog Γ E S} {a g} (h : Seg P a g) : (∀ x ∈ g, plain x) → (∀ x ∈ a, plain x) ∧ ∀ m, Program.execs P a m = .error .crash ∨ Program.execs P a m = Program.execs P g m := by
  induction h with
  | nil => intro _; exact ⟨by simp, fun _ => .inr rfl⟩
  | @cons g o a b h1 h2 ih =>
    intro hp
    obtain ⟨ih1, ih2⟩ := ih (fun x hx => hp x (by simp [hx]))
    have ho := hp o (by simp)
    rcases h1 with rfl | ⟨_, h3, h4, h5⟩
    · refine ⟨fun x hx => ?_, fun m => ?_⟩
      · rcases List.mem_cons.1 hx with rfl | hx
        · exact ho
        · exact ih1 x hx
      · simp only [List.cons_append, List.nil_append, Program.execs]
        cases Stmts.exec (machine P.base id) o m with
        | ok m => exact ih2 m
        | error r => exact .inr rfl
    · refine ⟨fun x hx => ?_, fun m => ?_⟩
      · rcases List.mem_append.1 hx with hx | hx
        · exact h3 x hx
        · exact ih1 x hx
      · rw [execs_append]
        rcases h5 m with h5 | h5
        · rw [h5]; exact .inl rfl
        · rw [h5]
          simp only [Program.execs]
          cases Stmts.exec (machine P.base id) o m with
          | ok m => exact ih2 m
          | error r => exact .inr rfl

theorem Seg.ne {P : Prog Γ E S} {a g} (h : Seg P a g) (hg : g ≠ []) : a ≠ [] := by
  cases h with
  | nil => exact absurd rfl hg
  | cons h1 _ => have := h1.ne; simp [this]

theorem Grp.trans {P : Prog Γ E S} {a g o} (h : Seg P a g) (h' : Grp P g o) : Grp P a o := by
  rcases h' with rfl | ⟨h1, h2, h3, h4⟩
  · exact Grp.of_seg h
  · obtain ⟨h5, h6⟩ := h.execs h2
    refine .inr ⟨h.ne h1, h5, h3, fun m => ?_⟩
    rcases h6 m with h6 | h6
    · exact .inl h6
    · rw [h6]; exact h4 m

theorem Seg.trans {P : Prog Γ E S} {b c} (h' : Seg P b c) : ∀ {a}, Seg P a b → Seg P a c := by
  induction h' with
  | nil => intro a h; exact h
  | cons h1 _ ih =>
    intro a h
    obtain ⟨a₁, a₂, rfl, h3, h4⟩ := h.split
    exact .cons (Grp.trans h3 h1) (ih h4)

theorem Seg.length {P : Prog Γ E S} {a b} (h : Seg P a b) : b.length ≤ a.length := by
  induction h with
  | nil => simp
  | @cons g o a b h1 _ ih =>
    have := h1.ne
    have : 0 < g.length := List.length_pos_iff.2 this
    simp; omega

/-! ## Code with jumps -/

/-- The code from `i` on and the code from `i'` on: `T` are pairs of targets. -/
inductive SegI (P : Prog Γ E S) (T : Nat → Nat → Prop) : Nat → Nat → Code Γ → Code Γ → Prop
  | nil {i i'} : SegI P T i i' [] []
  | ops {i i' g o a b} : Grp P g o → SegI P T (i + g.length) (i' + 1) a b → SegI P T i i' (g.map .op ++ a) (.op o :: b)
  | jump {i i' : Nat} {off off' : Int} {t t' : Nat} {a b} : (i : Int) + 1 + off = (t : Int) → (i' : Int) + 1 + off' = (t' : Int) → T t t' → SegI P T (i + 1) (i' + 1) a b → SegI P T i i' (.jump off :: a) (.jump off' :: b)
  | cjump {i i' : Nat} {ty} {off off' : Int} {t t' : Nat} {a b} : (i : Int) + 1 + off = (t : Int) → (i' : Int) + 1 + off' = (t' : Int) → T t t' → SegI P T (i + 1) (i' + 1) a b → SegI P T i i' (.cjump ty off :: a) (.cjump ty off' :: b)

theorem SegI.seg {P : Prog Γ E S} {T} {a b} (h : Seg P a b) : ∀ {i i' c d}, SegI P T (i + a.length) (i' + b.length) c d → SegI P T i i' (a.map .op ++ c) (b.map .op ++ d) := by
  induction h with
  | nil => intro i i' c d h; exact h
  | @cons g o a b h1 _ ih =>
    intro i i' c d h
    rw [List.map_append, List.append_assoc]
    refine .ops h1 (ih ?_)
    simp only [List.length_append, List.length_cons] at h
    rw [show i + g.length + a.length = i + (g.length + a.length) by omega, show i' + 1 + b.length = i' + (b.length + 1) by omega]
    exact h

/-! ## The machines -/

/-- Positions that correspond. -/
def At (P : Prog Γ E S) (T : Nat → Nat → Prop) (code code' : Code Γ) (i i' : Nat) : Prop := SegI P T i i' (code.drop i) (code'.drop i')

inductive Frames (R : Nat → Nat → Prop) : List (Frame Γ E S) → List (Frame Γ E S) → Prop
  | nil : Frames R [] []
  | cons {ip ip' k rest next fs fs'} : R ip ip' → Frames R fs fs' → Frames R (⟨ip, k, rest, next⟩ :: fs) (⟨ip', k, rest, next⟩ :: fs')

inductive Same (R : Nat → Nat → Prop) : State Γ E S → State Γ E S → Prop
  | run {ip ip' m fs fs'} : R ip ip' → Frames R fs fs' → Same R (.run ⟨ip, m, fs⟩) (.run ⟨ip', m, fs'⟩)
  | stop {r} : Same R (.stop r) (.stop r)
  /-- nothing is said after a crash -/
  | crash {y} : Same R (.stop .crash) y

/-- Calls enter at places that correspond. -/
def Starts (R : Nat → Nat → Prop) (starts starts' : List (List Nat)) : Prop :=
  ∀ fn : Nat, (starts[fn]? = none ∧ starts'[fn]? = none) ∨ ∃ ips ips' : List Nat, starts[fn]? = some ips ∧ starts'[fn]? = some ips' ∧
    ∀ j : Nat, (ips[j]? = none ∧ ips'[j]? = none) ∨ ∃ ip ip', ips[j]? = some ip ∧ ips'[j]? = some ip' ∧ R ip ip'

theorem Frames.bottom {R : Nat → Nat → Prop} {fs fs' : List (Frame Γ E S)} (h : Frames R fs fs') : ∀ k, Program.bottom k fs = Program.bottom k fs' := by
  induction h with
  | nil => exact fun _ => rfl
  | cons _ _ ih => exact fun _ => ih _

theorem bad_same (P : Prog Γ E S) {R : Nat → Nat → Prop} (k : Nat) {fs fs' : List (Frame Γ E S)} (h : Frames R fs fs') (r w) : Same R (bad P k fs r w) (bad P k fs' r w) := by
  unfold bad botOf
  rw [h.bottom k]
  exact .stop

theorem unwind_same (P : Prog Γ E S) {R : Nat → Nat → Prop} {fs fs' : List (Frame Γ E S)} (h : Frames R fs fs') (r) : unwind P fs r = unwind P fs' r := by
  cases h with
  | nil => rfl
  | cons _ h =>
    cases r with
    | err q => simp only [unwind, botOf]; rw [h.bottom]
    | _ => rfl

theorem stop_same (P : Prog Γ E S) {R : Nat → Nat → Prop} {fs fs' : List (Frame Γ E S)} (h : Frames R fs fs') (r) : Same R (State.stop (unwind P fs r)) (.stop (unwind P fs' r)) := by
  rw [unwind_same P h]
  exact .stop

section
variable (P : Prog Γ E S) {R : Nat → Nat → Prop} {starts starts' : List (List Nat)} (hs : Starts R starts starts')
include hs

theorem proceed_same {ip ip' : Nat} (k : Nat) (rest lits unroll) {fs fs' : List (Frame Γ E S)} (hip : R ip ip') (hf : Frames R fs fs') (p : Proc Γ.V E (World Γ.V S)) :
    Same R (proceed P starts ip k rest lits unroll fs p) (proceed P starts' ip' k rest lits unroll fs' p) := by
  cases p with
  | done o =>
    cases o with
    | ok v w =>
      obtain ⟨_ | ⟨vs, ws⟩, s⟩ := w
      · exact bad_same P k hf _ _
      · simp only [proceed]
        split
        · exact .run hip hf
        · exact bad_same P k hf _ _
    | stop r w => exact bad_same P k hf _ _
  | enter fn args w next =>
    simp only [proceed]
    rcases hs fn with ⟨h1, h2⟩ | ⟨ips, ips', h1, h2, h3⟩
    · rw [h1, h2]
      cases P.fns[fn]? <;> exact bad_same P k hf _ _
    · rw [h1, h2]
      cases P.fns[fn]? with
      | none => exact bad_same P k hf _ _
      | some F =>
        simp only
        split
        · rcases h3 (args.length - F.required) with ⟨h4, h5⟩ | ⟨a, a', h4, h5, h6⟩
          · rw [h4, h5]; exact bad_same P k hf _ _
          · rw [h4, h5]; exact .run h6 (.cons hip hf)
        · exact bad_same P k hf _ _

theorem resume_same (v t) {fs fs' : List (Frame Γ E S)} (hf : Frames R fs fs') : Same R (resume P starts v t fs) (resume P starts' v t fs') := by
  cases hf with
  | nil => exact .stop
  | cons hip hf => exact proceed_same P hs _ _ _ _ hip hf _
omit hs

/-- An opcode, by itself. -/
def own (P : Prog Γ E S) (o : Op (sig Γ)) (ip : Nat) (m : MSt Γ S) (fs : List (Frame Γ E S)) : State Γ E S :=
  match Stmts.exec (machine P.base id) o m with
  | .ok m => .run ⟨ip + 1, m, fs⟩
  | .error r => .stop (unwind P fs r)

theorem ownStep_op {code : Code Γ} {ip : Nat} {o} (h : code[ip]? = some (.op o)) (m : MSt Γ S) (fs : List (Frame Γ E S)) : ownStep P code ⟨ip, m, fs⟩ = own P o ip m fs := by
  simp only [ownStep, Graph.lstep, h, own, Stmts.sem]
  cases Stmts.exec (machine P.base id) o m <;> rfl

def stepOp (P : Prog Γ E S) (starts : List (List Nat)) (ip : Nat) (m : MSt Γ S) (fs : List (Frame Γ E S)) : Op (sig Γ) → State Γ E S
  | .x (k, o) =>
    match decode k m with
    | some d =>
      match asks o d with
      | some (a, st, us) => proceed P starts (ip + 1) k st.reverse m.s.lits us fs (P.ask a (d.s.1.1 :: d.s.2.1, d.s.2.2))
      | none => own P (.x (k, o)) ip m fs
    | none => own P (.x (k, o)) ip m fs
  | .ret =>
    match m.st.getLast? with
    | some v => resume P starts v m.s fs
    | none => .stop .crash
  | o => own P o ip m fs

theorem step_op {code : Code Γ} {ip : Nat} {o} (h : code[ip]? = some (.op o)) (m : MSt Γ S) (fs : List (Frame Γ E S)) :
    step P code starts ⟨ip, m, fs⟩ = stepOp P starts ip m fs o := by
  have ho := ownStep_op P h m fs
  cases o <;> simp only [step, h, ho, stepOp]
  case x p =>
    obtain ⟨k, o⟩ := p
    simp only
    cases decode k m with
    | none => rfl
    | some d =>
      simp only
      cases asks o d <;> rfl
  case ret => cases m.st.getLast? <;> rfl

theorem step_plain {code : Code Γ} {ip : Nat} {o} (h : code[ip]? = some (.op o)) (hp : plain o) (m : MSt Γ S) (fs : List (Frame Γ E S)) :
    step P code starts ⟨ip, m, fs⟩ = own P o ip m fs := by
  rw [step_op P h]
  cases o <;> simp only [stepOp]
  case x p =>
    obtain ⟨k, o⟩ := p
    simp only
    cases hd : decode k m with
    | none => rfl
    | some d => simp only [hp d]
  case ret => exact hp.elim

theorem steps_plain {code : Code Γ} : ∀ (g : List (Op (sig Γ))) {ip : Nat} {rest : Code Γ} (_ : code.drop ip = g.map .op ++ rest) (_ : ∀ a ∈ g, plain a) (m : MSt Γ S) (fs : List (Frame Γ E S)),
    steps P code starts g.length (.run ⟨ip, m, fs⟩) = match execs P g m with | .ok m => .run ⟨ip + g.length, m, fs⟩ | .error r => .stop (unwind P fs r)
  | [], ip, rest, _, _, m, fs => rfl
  | o :: g, ip, rest, h, hp, m, fs => by
    have h0 : code[ip]? = some (.op o) := by
      have := congrArg (fun l : Code Γ => l[0]?) h
      simpa using this
    have h1 : code.drop (ip + 1) = g.map .op ++ rest := by
      rw [← List.drop_drop, h]; simp
    simp only [List.length_cons, steps, execs]
    rw [step_plain P h0 (hp o (by simp))]
    simp only [own]
    cases hx : Stmts.exec (machine P.base id) o m with
    | error r => exact steps_stop P code starts _ _
    | ok m' =>
      simp only
      rw [steps_plain g h1 (fun a ha => hp a (by simp [ha]))]
      simp only [show ip + 1 + g.length = ip + (g.length + 1) by omega]

include hs
/-- One opcode of the second code. -/
theorem step_same {T : Nat → Nat → Prop} {code code' : Code Γ} (hR : R = At P T code code') (hT : ∀ t t', T t t' → R t t') {ip ip' : Nat} {m : MSt Γ S} {fs fs' : List (Frame Γ E S)} (h : R ip ip') (hf : Frames R fs fs') :
    ∃ n, 1 ≤ n ∧ Same R (steps P code starts n (.run ⟨ip, m, fs⟩)) (step P code' starts' ⟨ip', m, fs'⟩) := by
  have h' := h
  rw [hR] at h
  unfold At at h
  generalize hc : code.drop ip = c at h
  generalize hc' : code'.drop ip' = c' at h
  have get : ∀ {code c : Code Γ} {ip : Nat}, code.drop ip = c → code[ip]? = c[0]? := by
    intro code c ip h; rw [← h]; simp
  have next : ∀ {code c : Code Γ} {ip : Nat} {x}, code.drop ip = x :: c → code.drop (ip + 1) = c := by
    intro code c ip x h; rw [← List.drop_drop, h]; rfl
  cases h with
  | nil =>
    refine ⟨1, Nat.le_refl _, ?_⟩
    have g1 := get hc
    have g2 := get hc'
    simp only [steps, step, ownStep, Graph.lstep, g1, g2]
    exact .stop
  | @ops _ _ g o a b h1 h2 =>
    have g2 : code'[ip']? = some (.op o) := by rw [get hc']; rfl
    have hr : R (ip + g.length) (ip' + 1) := by
      rw [hR]; unfold At
      rw [next hc', ← List.drop_drop, hc, List.drop_append_of_le_length (by simp), show g.length = (g.map (Instr.op (T := Br (sig Γ)))).length by simp, List.drop_length]
      simpa using h2
    rcases h1 with rfl | ⟨h3, h4, h5, h6⟩
    · have g1 : code[ip]? = some (.op o) := by rw [get hc]; rfl
      refine ⟨1, Nat.le_refl _, ?_⟩
      have hown : ∀ o, Same R (own P o ip m fs) (own P o ip' m fs') := by
        intro o
        unfold own
        cases Stmts.exec (machine P.base id) o m with
        | ok m => exact .run hr hf
        | error r => exact stop_same P hf r
      simp only [steps]
      rw [step_op P g1, step_op P g2]
      cases o <;> simp only [stepOp, hown]
      case x p =>
        obtain ⟨k, o⟩ := p
        simp only
        cases decode k m with
        | none => exact hown _
        | some d =>
          simp only
          cases asks o d with
          | none => exact hown _
          | some q => exact proceed_same P hs _ _ _ _ hr hf _
      case ret =>
        cases m.st.getLast? with
        | none => exact .stop
        | some v => exact resume_same P hs _ _ hf
    · refine ⟨g.length, List.length_pos_iff.2 h3, ?_⟩
      rw [steps_plain P g hc h4, step_plain P g2 h5]
      rcases h6 m with h6 | h6 <;> rw [h6]
      · simp only [unwind_crash]; exact .crash
      unfold own
      cases Stmts.exec (machine P.base id) o m with
      | ok m => exact .run hr hf
      | error r => exact stop_same P hf r
  | @jump _ _ off off' t t' a b e1 e2 h1 h2 =>
    refine ⟨1, Nat.le_refl _, ?_⟩
    have g1 : code[ip]? = some (.jump off) := by rw [get hc]; rfl
    have g2 : code'[ip']? = some (.jump off') := by rw [get hc']; rfl
    simp only [steps, step, ownStep, Graph.lstep, g1, g2, e1, e2]
    exact .run (hT _ _ h1) hf
  | @cjump _ _ ty off off' t t' a b e1 e2 h1 h2 =>
    refine ⟨1, Nat.le_refl _, ?_⟩
    have g1 : code[ip]? = some (.cjump ty off) := by rw [get hc]; rfl
    have g2 : code'[ip']? = some (.cjump ty off') := by rw [get hc']; rfl
    have hr : R (ip + 1) (ip' + 1) := by
      rw [hR]; unfold At
      rw [next hc', next hc]; exact h2
    simp only [steps, step, ownStep, Graph.lstep, g1, g2, e1, e2, Stmts.sem]
    cases Stmts.test (machine P.base id) ty m with
    | error r => exact stop_same P hf r
    | ok p =>
      obtain ⟨j, m⟩ := p
      cases j
      · exact .run hr hf
      · exact .run (hT _ _ h1) hf

/-- Any number of opcodes. -/
theorem steps_same {T : Nat → Nat → Prop} {code code' : Code Γ} (hR : R = At P T code code') (hT : ∀ t t', T t t' → R t t') (k : Nat) : ∀ {x x' : State Γ E S}, Same R x x' →
    ∃ n, k ≤ n ∧ Same R (steps P code starts n x) (steps P code' starts' k x') := by
  induction k with
  | zero => intro x x' h; exact ⟨0, Nat.le_refl _, h⟩
  | succ k ih =>
    intro x x' h
    cases h with
    | @stop r => exact ⟨k + 1, Nat.le_refl _, by simp only [steps]; exact .stop⟩
    | crash => exact ⟨k + 1, Nat.le_refl _, by rw [steps_stop]; exact .crash⟩
    | @run ip ip' m fs fs' h hf =>
      obtain ⟨n, hn, h1⟩ := step_same P hs hR hT (m := m) h hf
      obtain ⟨n', hn', h2⟩ := ih h1
      exact ⟨n + n', by omega, by rw [steps_add]; exact h2⟩

/-- The two codes do the same. -/
theorem stops_same {T : Nat → Nat → Prop} {code code' : Code Γ} (hR : R = At P T code code') (hT : ∀ t t', T t t' → R t t') {x x' : State Γ E S} (h : Same R x x') (hc : ∀ n, steps P code starts n x ≠ .stop .crash) (r : MStop Γ E S) :
    (∃ n, steps P code starts n x = .stop r) ↔ ∃ n, steps P code' starts' n x' = .stop r := by
  constructor
  · rintro ⟨n, hn⟩
    obtain ⟨n', hn', h'⟩ := steps_same P hs hR hT n h
    obtain ⟨j, rfl⟩ : ∃ j, n' = n + j := ⟨n' - n, by omega⟩
    have hr : r ≠ .crash := by rintro rfl; exact hc n hn
    rw [steps_add, hn, steps_stop] at h'
    generalize hy : steps P code' starts' n x' = y at h'
    cases h' with
    | stop => exact ⟨n, hy⟩
    | crash => exact absurd rfl hr
  · rintro ⟨n, hn⟩
    obtain ⟨n', _, h'⟩ := steps_same P hs hR hT n h
    rw [hn] at h'
    generalize hy : steps P code starts n' x = y at h'
    cases h' with
    | stop => exact ⟨n', hy⟩
    | crash => exact absurd hy (hc n')
end

end Cordy.Program
