import Verif.Lemmas.StmtGrow
/-! The graph of statements is well-formed: C64. -/
namespace Cordy.Stmts
open Cordy.Builder
open Cordy.Graph (Built)
variable {Γ : Sig} {em : Em Γ} [EmOk em]

/-- Built, with the breaks of the innermost loop and `op` still open. -/
def BB (ps : PS Γ) (op : List Nat) : Prop := ∃ op', op'.Perm (brks ps ++ op) ∧ Built ps.b.graph op'

theorem BB.push {ps : PS Γ} {op} (h : BB ps op) (o) : BB (ps.push o) op := by
  obtain ⟨op', h1, h2⟩ := h; exact ⟨op', h1, built_push h2 o⟩
theorem BB.expr {ps : PS Γ} {op} (h : BB ps op) (k e) : BB (ps.expr em k e) op := by
  obtain ⟨op', h1, h2⟩ := h; exact ⟨op', h1, EmOk.built k e _ _ h2⟩
theorem BB.dp {ps : PS Γ} {op} (h : BB ps op) : BB ps.delayedPop op := by
  unfold PS.delayedPop
  split
  · exact h.push _
  · exact h
theorem BB.pops {ps : PS Γ} {op} (h : BB ps op) (n : Nat) : BB (ps.pops n) op := by
  induction n generalizing ps with
  | zero => exact h
  | succ n ih => exact ih (h.push _)
theorem BB.nils {ps : PS Γ} {op} (h : BB ps op) (n : Nat) : BB (ps.nils n) op := by
  induction n generalizing ps with
  | zero => exact h
  | succ n ih => exact ih (h.push _)
theorem BB.leave {ps : PS Γ} {op} (h : BB ps op) : BB ps.leave op := h.pops (ps.above ps.scope)
theorem BB.bF {ps : PS Γ} {op} (h : BB ps op) : BB ps.branchForward (ps.b.done.length :: op) := by
  obtain ⟨op', h1, h2⟩ := h
  exact ⟨_, ((List.perm_cons _).2 h1).trans List.perm_middle.symm, built_branchForward h2⟩
theorem BB.jF {ps : PS Γ} {i op} (h : BB ps (i :: op)) (ty) : BB (ps.joinForward i ty) op := by
  obtain ⟨op', h1, h2⟩ := h
  have h3 := h1.trans List.perm_middle
  refine ⟨op'.erase i, ?_, built_joinForward h2 i ty (h3.mem_iff.2 (by simp))⟩
  have := h3.erase i
  rw [List.erase_cons_head] at this
  exact this
theorem BB.jR {ps : PS Γ} {op} (h : BB ps op) (i ty) (hi : i ≤ ps.b.done.length) : BB (ps.joinReverse i ty) op := by
  obtain ⟨op', h1, h2⟩ := h; exact ⟨op', h1, built_joinReverse h2 i ty hi⟩
theorem BB.perm {ps : PS Γ} {op op'} (h : BB ps op) (hp : op.Perm op') : BB ps op' := by
  obtain ⟨o, h1, h2⟩ := h; exact ⟨o, h1.trans (hp.append_left _), h2⟩

theorem BB.begin {ps : PS Γ} {op} (h : BB ps op) : BB ps.beginLoop (brks ps ++ op) := by
  obtain ⟨o, h1, h2⟩ := h; exact ⟨o, h1, built_branchReverse h2⟩
theorem BB.beginFor {ps : PS Γ} {op} (h : BB ps op) : BB ps.beginForLoop (brks ps ++ op) := by
  obtain ⟨o, h1, h2⟩ := h; exact ⟨o, h1, built_branchReverse h2⟩

theorem joinAll_built (is : List Nat) : ∀ (ps : PS Γ) (op : List Nat), BB ps (is ++ op) → BB (ps.joinAll is) op := by
  induction is with
  | nil => exact fun ps op h => h
  | cons i is ih => exact fun ps op h => ih _ _ (h.jF none)

theorem BB.endLoop {q : PS Γ} {l : Loop} {ls : List Loop} {op : List Nat} (hq : q.loops = l :: ls) (h : BB q (brks { q with loops := ls } ++ op)) : BB q.endLoop op := by
  have : q.endLoop = PS.joinAll { q with loops := ls } l.breaks := by simp [PS.endLoop, hq]
  rw [this]
  apply joinAll_built
  obtain ⟨o, h1, h2⟩ := h
  refine ⟨o, ?_, h2⟩
  have h3 : brks q = l.breaks := by simp [brks, hq]
  rw [h3] at h1
  refine h1.trans ?_
  rw [← List.append_assoc, ← List.append_assoc]
  exact List.perm_append_comm.append_right _

theorem built_opt {ps : PS Γ} {op} (h : BB ps op) (e : Option Γ.X) : BB (emitOpt em e ps) op := by
  unfold emitOpt; split
  · exact h.expr _ _
  · exact h.push _
theorem built_let {ps : PS Γ} {op} (h : BB ps op) (l : LV Γ) (e : Γ.X) : BB (emitLet em l e ps) op := by
  have hd : ∀ n, BB (ps.declare n) op := fun _ => h
  unfold emitLet
  split
  · exact (hd 1).expr _ _
  · exact (h.expr _ _).push _
  · exact ((((hd _).nils _).expr _ _).push _).push _
theorem built_assign {ps : PS Γ} {op} (h : BB ps op) (l : LV Γ) (i) : BB (emitAssign l i ps) op := by
  unfold emitAssign
  split
  · exact (h.push _).push _
  · exact h.push _
  · exact (h.push _).push _
theorem built_test {ps : PS Γ} {op} (h : BB ps op) (t : Test Γ) : BB (emitTest em t ps).1 op := by
  unfold emitTest
  split
  · exact h.expr _ _
  · split
    · exact ((h.expr _ _).expr _ _).push _
    · exact (h.expr _ _).expr _ _
theorem built_forInit {ps : PS Γ} {op} (h : BB ps op) (l : LV Γ) (e) : BB (forInit em l e ps) op := by
  have h1 : BB (({ ps with scope := ps.scope + 1 } : PS Γ).declare l.vars) op := h
  have h2 : BB (((({ ps with scope := ps.scope + 1 } : PS Γ).declare l.vars).nils l.vars |>.expr em ps.locals.length e).declare 1) op := (h1.nils _).expr _ _
  exact h2.push _

theorem built_block {ps : PS Γ} {op} (hi : Inv ps) (h : BB ps op) (f : PS Γ → PS Γ) (hf : ∀ q op, Inv q → BB q op → BB (f q) op) : BB (ps.block f) op := by
  rw [block_eq]
  exact (hf ps.enter op hi.enter h.dp).leave.dp

theorem tail_loops {a q : PS Γ} (h : Ext a q) {l : Loop} {ls : List Loop} (ha : a.loops = l :: ls) : ∃ l', q.loops = l' :: ls := by
  rcases h.loops with ⟨e1, _⟩ | ⟨_, _, _, e1, e2, _⟩
  · rw [ha] at e1; simp at e1
  · rw [ha] at e1
    simp only [List.cons.injEq] at e1
    obtain ⟨rfl, rfl⟩ := e1
    exact ⟨_, e2⟩

theorem brks_of_loops {a b : PS Γ} (h : a.loops = b.loops) : brks a = brks b := by simp [brks, h]

mutual
theorem built_S : ∀ (s : Stmt Γ) (ps : PS Γ) (op : List Nat), Inv ps → BB ps op → BB (emitS em s ps) op
  | .expr e, ps, op, hi, h => by simp only [emitS]; exact h.dp.expr _ _
  | .semi, ps, op, hi, h => by simp only [emitS]; exact h.dp
  | .letIn l e, ps, op, hi, h => by simp only [emitS]; exact built_let h.dp l e
  | .decl n, ps, op, hi, h => by
    simp only [emitS]
    have : BB (ps.delayedPop.declare n) op := h.dp
    exact this.nils _
  | .ite c t els, ps, op, hi, h => by
    simp only [emitS]
    have h2 := ((Tab.refl ps).dp.expr (em := em) ps.delayedPop.locals.length c).bF
    have h3 := built_block (hi.tab h2) (h.dp.expr _ _).bF (emitB em t) (built_B t)
    exact built_Else els _ _ op (hi.tab (h2.of_block hi (emitB em t) (tab_B t))) h3
  | .while c body els, ps, op, hi, h => by
    simp only [emitS]
    have hb : Inv ps.delayedPop.beginLoop := inv_begin (by simpa using hi.locals) (by simp [PS.beginLoop, branchReverse_len]) rfl
    generalize he : ps.delayedPop.beginLoop.locals.length = o
    have h1 := (Tab.refl ps.delayedPop.beginLoop).expr (em := em) o c
    have h3 := h1.bF.of_block hb (emitB em body) (tab_B body)
    have h4 := tab_block (hb.tab h1.bF) (emitB em body) (tab_B body)
    have hl := h4.1.grow.le
    simp only [bF_b, branchForward_len] at hl
    have hs := hb.start
    have h5 := ((h3.jR ps.delayedPop.beginLoop.start none).jF (ps.delayedPop.beginLoop.expr em o c).b.done.length (some .ifFalsePop) h1.ext.grow.le (by simp only [jR_b, joinReverse_len]; omega))
    obtain ⟨l', hl'⟩ := tail_loops (h5.of_block hb (emitB em els) (tab_B els)).ext (bL_loops_dp ps)
    refine BB.endLoop hl' ?_
    have b1 := built_block (hb.tab h1.bF) (h.dp.begin.expr o c).bF (emitB em body) (built_B body)
    have b2 := (b1.jR ps.delayedPop.beginLoop.start none (by have := h3.ext.grow.le; omega)).jF (some .ifFalsePop)
    have b3 := built_block (hb.tab h5) b2 (emitB em els) (built_B els)
    rw [brks_of_loops (dp_loops ps)] at b3
    exact b3
  | .doW body c els, ps, op, hi, h => by
    simp only [emitS]
    have hb : Inv ps.beginLoop := inv_begin hi.locals (by simp [PS.beginLoop, branchReverse_len]) rfl
    have h1 := (Tab.refl ps.beginLoop).of_block hb (emitB em body) (tab_B body)
    have b1 := built_block hb h.begin (emitB em body) (built_B body)
    have hs := hb.start
    have hle := h1.ext.grow.le
    have key : ∀ q, Tab ps.beginLoop q → BB q (brks ps ++ op) → BB (q.block (emitB em els)).endLoop op := by
      intro q hq hB
      obtain ⟨l', hl'⟩ := tail_loops (hq.of_block hb (emitB em els) (tab_B els)).ext (bL_loops ps)
      exact BB.endLoop hl' (built_block (hb.tab hq) hB (emitB em els) (built_B els))
    split
    · exact key _ ((h1.expr _ _).jR _ _) ((b1.expr _ _).jR _ _ (Nat.le_trans (by omega) (expr_len _ _ _)))
    · exact key _ h1 b1
  | .loop body, ps, op, hi, h => by
    simp only [emitS]
    have hb : Inv ps.delayedPop.beginLoop := inv_begin (by simpa using hi.locals) (by simp [PS.beginLoop, branchReverse_len]) rfl
    have h1 := (Tab.refl ps.delayedPop.beginLoop).of_block hb (emitB em body) (tab_B body)
    have b1 := built_block hb h.dp.begin (emitB em body) (built_B body)
    have hs := hb.start
    obtain ⟨l', hl'⟩ := tail_loops (h1.jR ps.delayedPop.beginLoop.start none).ext (bL_loops_dp ps)
    refine BB.endLoop hl' ?_
    have b2 := b1.jR ps.delayedPop.beginLoop.start none (by have := h1.ext.grow.le; omega)
    rw [brks_of_loops (dp_loops ps)] at b2
    exact b2
  | .for l e body els, ps, op, hi, h => by
    simp only [emitS]
    obtain ⟨hb, t2, t3, hlen, t4, _, l5, s5, hb5, lp, hg, _, _⟩ := tab_for (em := em) hi l e (emitB em body) (tab_B body)
    have hl1 : (forInit em l e ps.delayedPop).loops = ps.loops := by rw [(forInit_facts (em := em) l e ps.delayedPop).2.2.2.1, dp_loops]
    have b1 := (built_forInit (em := em) h.dp l e).beginFor
    rw [brks_of_loops hl1] at b1
    simp only [dp_locals]
    have b2 := built_assign b1.bF l ps.locals.length
    have b3 := built_block (hb.tab t2) b2 (emitB em body) (built_B body)
    have hs := hb.start
    have b4 := (b3.jR (forInit em l e ps.delayedPop).beginForLoop.start none (by omega)).jF (some .testIter)
    have b5 := built_block hb5 b4.leave (emitB em els) (built_B els)
    have t6 := tab_block hb5 (emitB em els) (tab_B els)
    obtain ⟨l', hl'⟩ := tail_loops (t4.ext.leave.trans t6.1) lp
    exact BB.endLoop hl' b5
  | .brk, ps, op, hi, h => by
    simp only [emitS]
    split
    · exact h.dp
    · rename_i l ls hl
      obtain ⟨o, h1, h2⟩ := (h.dp.pops (ps.delayedPop.above l.enclosing)).bF
      refine ⟨o, ?_, h2⟩
      rw [dp_loops] at hl
      simpa [brks, PS.emitPops, hl] using h1
  | .cont, ps, op, hi, h => by
    simp only [emitS]
    split
    · exact h.dp
    · rename_i l ls hl
      refine (h.dp.pops _).jR _ _ ?_
      have := hi.start
      rw [dp_loops] at hl
      simp only [PS.start, hl] at this
      simpa using this
  | .ret e, ps, op, hi, h => by simp only [emitS]; exact (built_opt h.dp e).push _
  | .assert t msg, ps, op, hi, h => by
    simp only [emitS]
    exact ((built_opt (built_test h.dp t).bF msg).push _).jF _
theorem built_B : ∀ (b : Block Γ) (ps : PS Γ) (op : List Nat), Inv ps → BB ps op → BB (emitB em b ps) op
  | .nil, ps, op, hi, h => by simp only [emitB]; exact h
  | .cons s b, ps, op, hi, h => by
    simp only [emitB]
    exact built_B b _ _ (hi.tab (tab_S s ps hi)) (built_S s ps op hi h)
theorem built_Else : ∀ (e : Else Γ) (i : Nat) (q : PS Γ) (op : List Nat), Inv q → BB q (i :: op) → BB (emitElse em e i q) op
  | .none, i, q, op, hi, h => by simp only [emitElse]; exact h.jF _
  | .els b, i, q, op, hi, h => by
    simp only [emitElse]
    have hinv : Inv (q.branchForward.joinForward i (some .ifFalsePop)) := by
      refine ⟨hi.locals, ?_, hi.nodup, ?_⟩
      · intro k hk
        have := hi.brk k hk
        simp only [jF_b, joinForward_len, bF_b, branchForward_len]; omega
      · have := hi.start
        simp only [jF_b, joinForward_len, bF_b, branchForward_len]
        simp only [PS.start, jF_loops, bF_loops] at this ⊢
        omega
    have h1 := (h.bF.perm (List.Perm.swap i q.b.done.length op)).jF (some .ifFalsePop)
    exact (built_block hinv h1 (emitB em b) (built_B b)).jF none
  | .elif c t els, i, q, op, hi, h => by
    simp only [emitElse]
    have hinv : Inv (q.branchForward.joinForward i (some .ifFalsePop)) := by
      refine ⟨hi.locals, ?_, hi.nodup, ?_⟩
      · intro k hk
        have := hi.brk k hk
        simp only [jF_b, joinForward_len, bF_b, branchForward_len]; omega
      · have := hi.start
        simp only [jF_b, joinForward_len, bF_b, branchForward_len]
        simp only [PS.start, jF_loops, bF_loops] at this ⊢
        omega
    have h1 := (h.bF.perm (List.Perm.swap i q.b.done.length op)).jF (some .ifFalsePop)
    generalize q.branchForward.joinForward i (some .ifFalsePop) = q1 at hinv h1 ⊢
    have t2 := ((Tab.refl q1).dp.expr (em := em) q1.delayedPop.locals.length c).bF
    have b2 := built_block (hinv.tab t2) (h1.dp.expr _ _).bF (emitB em t) (built_B t)
    exact (built_Else els _ _ _ (hinv.tab (t2.of_block hinv (emitB em t) (tab_B t))) b2).jF none
  | .elifThen e, i, q, op, hi, h => by
    simp only [emitElse]
    have h1 := (h.bF.perm (List.Perm.swap i q.b.done.length op)).jF (some .ifFalsePop)
    exact (h1.dp.expr _ _).jF none
end

end Cordy.Stmts
