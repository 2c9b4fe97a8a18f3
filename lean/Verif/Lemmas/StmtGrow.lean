import Verif.Lemmas.StmtBuilder
import Mathlib.Data.List.Nodup
/-! What emitting statements does to the parser's tables: C64. -/
namespace Cordy.Stmts
open Cordy.Builder
open Cordy.Graph (Place gstep Code Built GRun GHalts)
variable {Γ : Sig}

/-- The code of expressions is added at the end, and leaves no branches open. -/
class EmOk (em : Em Γ) : Prop where
  grow : ∀ k e b, Grow b (em k e b)
  built : ∀ k e b op, Built b.graph op → Built (em k e b).graph op

variable {em : Em Γ} [EmOk em]

/-! ## Fields -/

@[simp] theorem push_locals (ps : PS Γ) (o) : (ps.push o).locals = ps.locals := rfl
@[simp] theorem push_scope (ps : PS Γ) (o) : (ps.push o).scope = ps.scope := rfl
@[simp] theorem push_flag (ps : PS Γ) (o) : (ps.push o).flag = ps.flag := rfl
@[simp] theorem push_loops (ps : PS Γ) (o) : (ps.push o).loops = ps.loops := rfl
omit [EmOk em] in
@[simp] theorem expr_locals (ps : PS Γ) (k e) : (ps.expr em k e).locals = ps.locals := rfl
omit [EmOk em] in
@[simp] theorem expr_scope (ps : PS Γ) (k e) : (ps.expr em k e).scope = ps.scope := rfl
omit [EmOk em] in
@[simp] theorem expr_flag (ps : PS Γ) (k e) : (ps.expr em k e).flag = ps.flag := rfl
omit [EmOk em] in
@[simp] theorem expr_loops (ps : PS Γ) (k e) : (ps.expr em k e).loops = ps.loops := rfl
theorem expr_grow (ps : PS Γ) (k e) : Grow ps.b (ps.expr em k e).b := EmOk.grow k e ps.b
theorem expr_len (ps : PS Γ) (k e) : ps.b.done.length ≤ (ps.expr em k e).b.done.length := (expr_grow ps k e).le
@[simp] theorem bF_locals (ps : PS Γ) : ps.branchForward.locals = ps.locals := rfl
@[simp] theorem bF_scope (ps : PS Γ) : ps.branchForward.scope = ps.scope := rfl
@[simp] theorem bF_flag (ps : PS Γ) : ps.branchForward.flag = ps.flag := rfl
@[simp] theorem bF_loops (ps : PS Γ) : ps.branchForward.loops = ps.loops := rfl
@[simp] theorem jF_locals (ps : PS Γ) (i ty) : (ps.joinForward i ty).locals = ps.locals := rfl
@[simp] theorem jF_scope (ps : PS Γ) (i ty) : (ps.joinForward i ty).scope = ps.scope := rfl
@[simp] theorem jF_flag (ps : PS Γ) (i ty) : (ps.joinForward i ty).flag = ps.flag := rfl
@[simp] theorem jF_loops (ps : PS Γ) (i ty) : (ps.joinForward i ty).loops = ps.loops := rfl
@[simp] theorem jR_locals (ps : PS Γ) (i ty) : (ps.joinReverse i ty).locals = ps.locals := rfl
@[simp] theorem jR_scope (ps : PS Γ) (i ty) : (ps.joinReverse i ty).scope = ps.scope := rfl
@[simp] theorem jR_flag (ps : PS Γ) (i ty) : (ps.joinReverse i ty).flag = ps.flag := rfl
@[simp] theorem jR_loops (ps : PS Γ) (i ty) : (ps.joinReverse i ty).loops = ps.loops := rfl
@[simp] theorem bL_locals (ps : PS Γ) : ps.beginLoop.locals = ps.locals := rfl
@[simp] theorem bL_scope (ps : PS Γ) : ps.beginLoop.scope = ps.scope := rfl
@[simp] theorem bL_flag (ps : PS Γ) : ps.beginLoop.flag = ps.flag := rfl
@[simp] theorem bfL_locals (ps : PS Γ) : ps.beginForLoop.locals = ps.locals := rfl
@[simp] theorem bfL_scope (ps : PS Γ) : ps.beginForLoop.scope = ps.scope := rfl
@[simp] theorem bfL_flag (ps : PS Γ) : ps.beginForLoop.flag = ps.flag := rfl
@[simp] theorem declare_b (ps : PS Γ) (n) : (ps.declare n).b = ps.b := rfl
@[simp] theorem declare_scope (ps : PS Γ) (n) : (ps.declare n).scope = ps.scope := rfl
@[simp] theorem declare_flag (ps : PS Γ) (n) : (ps.declare n).flag = ps.flag := rfl
@[simp] theorem declare_loops (ps : PS Γ) (n) : (ps.declare n).loops = ps.loops := rfl
@[simp] theorem declare_locals (ps : PS Γ) (n) : (ps.declare n).locals = ps.locals ++ List.replicate n ps.scope := rfl

@[simp] theorem dp_locals (ps : PS Γ) : ps.delayedPop.locals = ps.locals := by unfold PS.delayedPop; split <;> rfl
@[simp] theorem dp_scope (ps : PS Γ) : ps.delayedPop.scope = ps.scope := by unfold PS.delayedPop; split <;> rfl
@[simp] theorem dp_loops (ps : PS Γ) : ps.delayedPop.loops = ps.loops := by unfold PS.delayedPop; split <;> rfl
@[simp] theorem dp_flag (ps : PS Γ) : ps.delayedPop.flag = false := by unfold PS.delayedPop; split <;> simp_all
@[simp] theorem dp_len (ps : PS Γ) : ps.delayedPop.b.done.length = ps.b.done.length := by unfold PS.delayedPop; split <;> rfl
theorem dp_false {ps : PS Γ} (h : ps.flag = false) : ps.delayedPop = ps := by simp [PS.delayedPop, h]

@[simp] theorem pops_locals (ps : PS Γ) (n) : (ps.pops n).locals = ps.locals := by
  induction n generalizing ps with
  | zero => rfl
  | succ n ih => exact (ih _).trans rfl
@[simp] theorem pops_scope (ps : PS Γ) (n) : (ps.pops n).scope = ps.scope := by
  induction n generalizing ps with
  | zero => rfl
  | succ n ih => exact (ih _).trans rfl
@[simp] theorem pops_flag (ps : PS Γ) (n) : (ps.pops n).flag = ps.flag := by
  induction n generalizing ps with
  | zero => rfl
  | succ n ih => exact (ih _).trans rfl
@[simp] theorem pops_loops (ps : PS Γ) (n) : (ps.pops n).loops = ps.loops := by
  induction n generalizing ps with
  | zero => rfl
  | succ n ih => exact (ih _).trans rfl
@[simp] theorem pops_len (ps : PS Γ) (n) : (ps.pops n).b.done.length = ps.b.done.length := by
  induction n generalizing ps with
  | zero => rfl
  | succ n ih => exact (ih _).trans rfl
@[simp] theorem nils_locals (ps : PS Γ) (n) : (ps.nils n).locals = ps.locals := by
  induction n generalizing ps with
  | zero => rfl
  | succ n ih => exact (ih _).trans rfl
@[simp] theorem nils_scope (ps : PS Γ) (n) : (ps.nils n).scope = ps.scope := by
  induction n generalizing ps with
  | zero => rfl
  | succ n ih => exact (ih _).trans rfl
@[simp] theorem nils_flag (ps : PS Γ) (n) : (ps.nils n).flag = ps.flag := by
  induction n generalizing ps with
  | zero => rfl
  | succ n ih => exact (ih _).trans rfl
@[simp] theorem nils_loops (ps : PS Γ) (n) : (ps.nils n).loops = ps.loops := by
  induction n generalizing ps with
  | zero => rfl
  | succ n ih => exact (ih _).trans rfl
@[simp] theorem nils_len (ps : PS Γ) (n) : (ps.nils n).b.done.length = ps.b.done.length := by
  induction n generalizing ps with
  | zero => rfl
  | succ n ih => exact (ih _).trans rfl

theorem pops_grow (ps : PS Γ) (n) : Grow ps.b (ps.pops n).b := by
  induction n generalizing ps with
  | zero => exact .refl _
  | succ n ih => exact ((Grow.refl ps.b).push .pop).trans (ih (ps.push .pop))
theorem nils_grow (ps : PS Γ) (n) : Grow ps.b (ps.nils n).b := by
  induction n generalizing ps with
  | zero => exact .refl _
  | succ n ih => exact ((Grow.refl ps.b).push .nil).trans (ih (ps.push .nil))
theorem dp_grow (ps : PS Γ) : Grow ps.b ps.delayedPop.b := by
  unfold PS.delayedPop
  split
  · exact (Grow.refl ps.b).push .pop
  · exact .refl _

@[simp] theorem joinAll_locals (ps : PS Γ) (is) : (ps.joinAll is).locals = ps.locals := by
  induction is generalizing ps with
  | nil => rfl
  | cons i is ih => exact (ih _).trans rfl
@[simp] theorem joinAll_scope (ps : PS Γ) (is) : (ps.joinAll is).scope = ps.scope := by
  induction is generalizing ps with
  | nil => rfl
  | cons i is ih => exact (ih _).trans rfl
@[simp] theorem joinAll_flag (ps : PS Γ) (is) : (ps.joinAll is).flag = ps.flag := by
  induction is generalizing ps with
  | nil => rfl
  | cons i is ih => exact (ih _).trans rfl
@[simp] theorem joinAll_loops (ps : PS Γ) (is) : (ps.joinAll is).loops = ps.loops := by
  induction is generalizing ps with
  | nil => rfl
  | cons i is ih => exact (ih _).trans rfl

theorem joinAll_len (ps : PS Γ) (is : List Nat) : (ps.joinAll is).b.done.length = ps.b.done.length + is.length := by
  induction is generalizing ps with
  | nil => rfl
  | cons i is ih => rw [PS.joinAll, ih, PS.joinForward, joinForward_len, List.length_cons]; omega

theorem joinAll_grow {a : Bld (Op Γ) (Br Γ)} (is : List Nat) : ∀ (ps : PS Γ), Grow a ps.b → (∀ i ∈ is, a.done.length ≤ i ∧ i < ps.b.done.length) → Grow a (ps.joinAll is).b := by
  induction is with
  | nil => exact fun ps h _ => h
  | cons i is ih =>
    intro ps h hi
    have h0 := hi i (by simp)
    exact ih (ps.joinForward i none) (h.joinForward i none h0.1 h0.2) (fun j hj => by
      have := hi j (by simp [hj]); rw [PS.joinForward, joinForward_len]; omega)

/-! ## Extending -/

/-- The breaks of the innermost loop. -/
def brks (ps : PS Γ) : List Nat :=
  match ps.loops with
  | [] => []
  | l :: _ => l.breaks

/-- The code grows, and there may be new breaks of the innermost loop, in the new blocks. -/
structure Ext (ps ps' : PS Γ) : Prop where
  grow : Grow ps.b ps'.b
  loops : (ps.loops = [] ∧ ps'.loops = []) ∨ ∃ l ls new, ps.loops = l :: ls ∧ ps'.loops = { l with breaks := l.breaks ++ new } :: ls ∧
    (∀ i ∈ new, ps.b.done.length ≤ i ∧ i < ps'.b.done.length) ∧ new.Nodup

theorem Ext.same {ps ps' : PS Γ} (hg : Grow ps.b ps'.b) (hl : ps'.loops = ps.loops) : Ext ps ps' := by
  refine ⟨hg, ?_⟩
  rw [hl]
  cases h : ps.loops with
  | nil => exact .inl ⟨rfl, rfl⟩
  | cons l ls => exact .inr ⟨l, ls, [], rfl, by simp, by simp, List.nodup_nil⟩

theorem Ext.refl (ps : PS Γ) : Ext ps ps := .same (.refl _) rfl

theorem Ext.trans {a b c : PS Γ} (h : Ext a b) (h' : Ext b c) : Ext a c := by
  refine ⟨h.grow.trans h'.grow, ?_⟩
  have l1 := h.grow.le
  have l2 := h'.grow.le
  rcases h.loops with ⟨e1, e2⟩ | ⟨l, ls, new, e1, e2, e3, e4⟩
  · rcases h'.loops with ⟨_, f2⟩ | ⟨_, _, _, f1, _⟩
    · exact .inl ⟨e1, f2⟩
    · rw [e2] at f1; simp at f1
  · rcases h'.loops with ⟨f1, _⟩ | ⟨l', ls', new', f1, f2, f3, f4⟩
    · rw [e2] at f1; simp at f1
    · rw [e2] at f1
      simp only [List.cons.injEq] at f1
      obtain ⟨rfl, rfl⟩ := f1
      refine .inr ⟨l, ls, new ++ new', e1, by simp [f2], ?_, ?_⟩
      · intro i hi
        rcases List.mem_append.1 hi with hi | hi
        · have := e3 i hi; omega
        · have := f3 i hi; omega
      · rw [List.nodup_append']
        refine ⟨e4, f4, ?_⟩
        intro i hi hi'
        have := e3 i hi
        have := f3 i hi'
        omega

theorem Ext.push {a b : PS Γ} (h : Ext a b) (o) : Ext a (b.push o) := h.trans (.same ((Grow.refl _).push o) rfl)
theorem Ext.expr {a b : PS Γ} (h : Ext a b) (k e) : Ext a (b.expr em k e) := h.trans (.same (expr_grow b k e) rfl)
theorem Ext.nils {a b : PS Γ} (h : Ext a b) (n) : Ext a (b.nils n) := h.trans (.same (nils_grow _ _) (nils_loops _ _))
theorem Ext.pops {a b : PS Γ} (h : Ext a b) (n) : Ext a (b.pops n) := h.trans (.same (pops_grow _ _) (pops_loops _ _))
theorem Ext.dp {a b : PS Γ} (h : Ext a b) : Ext a b.delayedPop := h.trans (.same (dp_grow _) (dp_loops _))
theorem Ext.declare {a b : PS Γ} (h : Ext a b) (n) : Ext a (b.declare n) := h.trans (.same (.refl _) rfl)
theorem Ext.bF {a b : PS Γ} (h : Ext a b) : Ext a b.branchForward := h.trans (.same (Grow.refl _).branchForward rfl)
theorem Ext.jR {a b : PS Γ} (h : Ext a b) (i ty) : Ext a (b.joinReverse i ty) := h.trans (.same ((Grow.refl _).joinReverse i ty) rfl)
theorem Ext.jF {a b : PS Γ} (h : Ext a b) (i ty) (hi : a.b.done.length ≤ i) (hi' : i < b.b.done.length) : Ext a (b.joinForward i ty) := by
  refine ⟨h.grow.joinForward i ty hi hi', ?_⟩
  rcases h.loops with ⟨e1, e2⟩ | ⟨l, ls, new, e1, e2, e3, e4⟩
  · exact .inl ⟨e1, e2⟩
  · exact .inr ⟨l, ls, new, e1, e2, fun i hi => ⟨(e3 i hi).1, by rw [PS.joinForward, joinForward_len]; have := (e3 i hi).2; omega⟩, e4⟩
theorem Ext.locals {a b : PS Γ} (h : Ext a b) (ls : List Nat) (sc : Nat) (fl : Bool) : Ext a { b with locals := ls, scope := sc, flag := fl } := h.trans (.same (.refl _) rfl)
theorem Ext.popLocals {a b : PS Γ} (h : Ext a b) (d) : Ext a (b.popLocals d) := h.trans (.same (pops_grow _ _) (pops_loops _ _))

theorem Ext.brks {a b : PS Γ} (h : Ext a b) {i : Nat} (hi : i ∈ brks b) : i ∈ brks a ∨ (a.b.done.length ≤ i ∧ i < b.b.done.length) := by
  rcases h.loops with ⟨_, e2⟩ | ⟨l, ls, new, e1, e2, e3, _⟩
  · simp [Stmts.brks, e2] at hi
  · simp only [Stmts.brks, e2, List.mem_append] at hi
    rcases hi with hi | hi
    · left; simp [Stmts.brks, e1, hi]
    · right; exact e3 i hi

theorem Ext.brks_sub {a b : PS Γ} (h : Ext a b) {i : Nat} (hi : i ∈ Stmts.brks a) : i ∈ Stmts.brks b := by
  rcases h.loops with ⟨e1, _⟩ | ⟨l, ls, new, e1, e2, _, _⟩
  · simp [Stmts.brks, e1] at hi
  · simp only [Stmts.brks, e1] at hi
    simp [Stmts.brks, e2, hi]

/-! ## The tables -/

/-- What holds of the tables between statements. -/
structure Inv (ps : PS Γ) : Prop where
  locals : ∀ d ∈ ps.locals, d ≤ ps.scope
  brk : ∀ i ∈ brks ps, i < ps.b.done.length
  nodup : (brks ps).Nodup
  start : ps.start ≤ ps.b.done.length

/-- What a statement does to the tables. -/
structure Tab (ps ps' : PS Γ) : Prop where
  ext : Ext ps ps'
  scope : ps'.scope = ps.scope
  locals : ∃ k, ps'.locals = ps.locals ++ List.replicate k ps.scope

theorem Tab.refl (ps : PS Γ) : Tab ps ps := ⟨.refl _, rfl, 0, by simp⟩

theorem Tab.trans {a b c : PS Γ} (h : Tab a b) (h' : Tab b c) : Tab a c := by
  obtain ⟨k, hk⟩ := h.locals
  obtain ⟨j, hj⟩ := h'.locals
  exact ⟨h.ext.trans h'.ext, h'.scope.trans h.scope, k + j, by rw [hj, hk, h.scope, List.append_assoc, List.replicate_append_replicate]⟩

theorem Inv.of_ext {ps ps' : PS Γ} (hi : Inv ps) (h : Ext ps ps') (hl : ∀ d ∈ ps'.locals, d ≤ ps'.scope) : Inv ps' := by
  have hle := h.grow.le
  refine ⟨hl, fun i hii => ?_, ?_, ?_⟩
  · rcases h.brks hii with hh | hh
    · have := hi.brk i hh; omega
    · omega
  · rcases h.loops with ⟨_, e2⟩ | ⟨l, ls, new, e1, e2, e3, e4⟩
    · simp [brks, e2]
    · simp only [brks, e2]
      rw [List.nodup_append']
      refine ⟨by have := hi.nodup; simpa [brks, e1] using this, e4, ?_⟩
      intro i hi1 hi2
      have := hi.brk i (by simp [brks, e1, hi1])
      have := e3 i hi2
      omega
  · rcases h.loops with ⟨_, e2⟩ | ⟨l, ls, new, e1, e2, e3, e4⟩
    · simp [PS.start, e2]
    · have := hi.start
      simp only [PS.start, e1, e2] at this ⊢
      omega

theorem Inv.tab {ps ps' : PS Γ} (hi : Inv ps) (h : Tab ps ps') : Inv ps' := by
  obtain ⟨k, hk⟩ := h.locals
  refine hi.of_ext h.ext ?_
  intro d hd
  rw [hk] at hd
  rw [h.scope]
  rcases List.mem_append.1 hd with hd | hd
  · exact hi.locals d hd
  · exact Nat.le_of_eq (List.eq_of_mem_replicate hd)

theorem filter_above (ls : List Nat) (k d : Nat) (h : ∀ x ∈ ls, x < d) : ((ls ++ List.replicate k d).filter (fun x => decide (d ≤ x))).length = k := by
  rw [List.filter_append, List.length_append]
  have h1 : ls.filter (fun x => decide (d ≤ x)) = [] := by
    rw [List.filter_eq_nil_iff]
    intro x hx
    have := h x hx
    simp only [decide_eq_true_eq]; omega
  rw [h1]
  simp [List.filter_replicate]

theorem leave_scope (q : PS Γ) : q.leave.scope = q.scope - 1 := rfl
theorem leave_flag (q : PS Γ) : q.leave.flag = q.flag := by simp [PS.leave, PS.popLocals]
theorem Ext.leave {a b : PS Γ} (h : Ext a b) : Ext a b.leave := (h.popLocals b.scope).trans (.same (.refl _) rfl)

/-- Back to the outer scope. -/
theorem leave_locals {ps q : PS Γ} (hl : ∀ d ∈ ps.locals, d ≤ ps.scope) (hs : q.scope = ps.scope + 1) {k : Nat} (hk : q.locals = ps.locals ++ List.replicate k (ps.scope + 1)) :
    q.above q.scope = k ∧ q.leave.locals = ps.locals := by
  have hab : q.above q.scope = k := by
    rw [hs, PS.above, hk]
    exact filter_above _ _ _ (fun x hx => by have := hl x hx; omega)
  refine ⟨hab, ?_⟩
  simp only [PS.leave, PS.popLocals, hab, hk]
  rw [List.length_append, List.length_replicate, Nat.add_sub_cancel, List.take_left]

/-- A new scope. -/
def PS.enter (ps : PS Γ) : PS Γ := { ps.delayedPop with scope := ps.delayedPop.scope + 1 }
theorem block_eq (ps : PS Γ) (f : PS Γ → PS Γ) : ps.block f = (f ps.enter).leave.delayedPop := rfl
@[simp] theorem enter_scope (ps : PS Γ) : ps.enter.scope = ps.scope + 1 := by simp [PS.enter]
@[simp] theorem enter_locals (ps : PS Γ) : ps.enter.locals = ps.locals := by simp [PS.enter]
@[simp] theorem enter_loops (ps : PS Γ) : ps.enter.loops = ps.loops := by simp [PS.enter]
@[simp] theorem enter_flag (ps : PS Γ) : ps.enter.flag = false := by simp [PS.enter]
@[simp] theorem enter_b (ps : PS Γ) : ps.enter.b = ps.delayedPop.b := rfl
theorem ext_enter (ps : PS Γ) : Ext ps ps.enter := (Ext.refl ps).dp.trans (.same (.refl _) rfl)
theorem Inv.enter {ps : PS Γ} (hi : Inv ps) : Inv ps.enter :=
  hi.of_ext (ext_enter ps) (fun d hd => by have := hi.locals d (by simpa using hd); simp; omega)

/-- The body of a block, and leaving it. -/
theorem tab_block {ps : PS Γ} (hi : Inv ps) (f : PS Γ → PS Γ) (hf : ∀ q, Inv q → Tab q (f q)) :
    Ext ps (ps.block f) ∧ (ps.block f).scope = ps.scope ∧ (ps.block f).locals = ps.locals ∧ (ps.block f).flag = false := by
  rw [block_eq]
  have h2 := hf _ hi.enter
  have hsc : (f ps.enter).scope = ps.scope + 1 := by rw [h2.scope]; simp
  obtain ⟨k, hk⟩ := h2.locals
  simp only [enter_locals, enter_scope] at hk
  obtain ⟨_, hl⟩ := leave_locals hi.locals hsc hk
  exact ⟨((ext_enter ps).trans h2.ext).leave.dp, by rw [dp_scope, leave_scope, hsc]; omega, by rw [dp_locals, hl], by simp⟩

theorem Tab.of_block {ps q : PS Γ} (h : Tab ps q) (hi : Inv ps) (f : PS Γ → PS Γ) (hf : ∀ q, Inv q → Tab q (f q)) : Tab ps (q.block f) := by
  obtain ⟨h1, h2, h3, _⟩ := tab_block (hi.tab h) f hf
  exact h.trans ⟨h1, h2, 0, by simp [h3]⟩

theorem Tab.push {a b : PS Γ} (h : Tab a b) (o) : Tab a (b.push o) := ⟨h.ext.push o, h.scope, h.locals⟩
theorem Tab.expr {a b : PS Γ} (h : Tab a b) (k e) : Tab a (b.expr em k e) := ⟨h.ext.expr k e, h.scope, h.locals⟩
theorem Tab.dp {a b : PS Γ} (h : Tab a b) : Tab a b.delayedPop := ⟨h.ext.dp, by simp [h.scope], by simpa using h.locals⟩
theorem Tab.bF {a b : PS Γ} (h : Tab a b) : Tab a b.branchForward := ⟨h.ext.bF, h.scope, h.locals⟩
theorem Tab.jR {a b : PS Γ} (h : Tab a b) (i ty) : Tab a (b.joinReverse i ty) := ⟨h.ext.jR i ty, h.scope, h.locals⟩
theorem Tab.jF {a b : PS Γ} (h : Tab a b) (i ty) (hi : a.b.done.length ≤ i) (hi' : i < b.b.done.length) : Tab a (b.joinForward i ty) := ⟨h.ext.jF i ty hi hi', h.scope, h.locals⟩
theorem Tab.declare {a b : PS Γ} (h : Tab a b) (n) : Tab a (b.declare n) :=
  h.trans ⟨(Ext.refl _).declare n, rfl, n, rfl⟩
theorem Tab.nils {a b : PS Γ} (h : Tab a b) (n) : Tab a (b.nils n) := ⟨h.ext.nils n, by simp [h.scope], by simpa using h.locals⟩
theorem Tab.pops {a b : PS Γ} (h : Tab a b) (n) : Tab a (b.pops n) := ⟨h.ext.pops n, by simp [h.scope], by simpa using h.locals⟩
theorem Tab.flag {a b : PS Γ} (h : Tab a b) (f : Bool) : Tab a { b with flag := f } := ⟨h.ext.trans (.same (.refl _) rfl), h.scope, h.locals⟩

/-- A new loop on top of the loops. -/
theorem inv_begin {q : PS Γ} (hl : ∀ d ∈ q.locals, d ≤ q.scope) {e i st : Nat} (hst : st ≤ q.b.done.length) {ls : List Loop}
    (hq : q.loops = ⟨st, [], e, i⟩ :: ls) : Inv q := by
  refine ⟨hl, ?_, ?_, ?_⟩
  · simp [brks, hq]
  · simp [brks, hq]
  · simpa [PS.start, hq] using hst

/-- The end of a loop. -/
theorem ext_endLoop {ps a q : PS Γ} (hg : Grow ps.b a.b) {st e i : Nat} (ha : a.loops = ⟨st, [], e, i⟩ :: ps.loops) (h : Ext a q) :
    ∃ new, q.loops = ⟨st, new, e, i⟩ :: ps.loops ∧ (∀ k ∈ new, a.b.done.length ≤ k ∧ k < q.b.done.length) ∧ new.Nodup ∧
      q.endLoop = PS.joinAll { q with loops := ps.loops } new ∧ Ext ps q.endLoop := by
  have hle := hg.le
  rcases h.loops with ⟨e1, _⟩ | ⟨l, ls, new, e1, e2, e3, e4⟩
  · rw [ha] at e1; simp at e1
  · rw [ha] at e1
    simp only [List.cons.injEq] at e1
    obtain ⟨rfl, rfl⟩ := e1
    simp only [List.nil_append] at e2
    have hend : q.endLoop = PS.joinAll { q with loops := ps.loops } new := by simp [PS.endLoop, e2]
    refine ⟨new, e2, e3, e4, hend, ?_⟩
    rw [hend]
    refine .same ?_ (by simp)
    exact joinAll_grow new _ (hg.trans h.grow) (fun k hk => by have := e3 k hk; simp only; omega)

@[simp] theorem endLoop_scope (q : PS Γ) : q.endLoop.scope = q.scope := by unfold PS.endLoop; split <;> simp
@[simp] theorem endLoop_locals (q : PS Γ) : q.endLoop.locals = q.locals := by unfold PS.endLoop; split <;> simp
@[simp] theorem endLoop_flag (q : PS Γ) : q.endLoop.flag = q.flag := by unfold PS.endLoop; split <;> simp

theorem bL_loops (ps : PS Γ) : ps.beginLoop.loops = ⟨ps.b.done.length + 1, [], ps.scope + 1, ps.scope + 1⟩ :: ps.loops := rfl
theorem bL_loops_dp (ps : PS Γ) : ps.delayedPop.beginLoop.loops = ⟨ps.b.done.length + 1, [], ps.scope + 1, ps.scope + 1⟩ :: ps.loops := by simp [bL_loops]
theorem bfL_loops (ps : PS Γ) : ps.beginForLoop.loops = ⟨ps.b.done.length + 1, [], ps.scope, ps.scope + 1⟩ :: ps.loops := rfl

theorem tab_endLoop {ps a q : PS Γ} (hg : Grow ps.b a.b) {st e i : Nat} (ha : a.loops = ⟨st, [], e, i⟩ :: ps.loops) (h : Tab a q)
    (hs : a.scope = ps.scope) (hl : a.locals = ps.locals) : Tab ps q.endLoop := by
  obtain ⟨_, _, _, _, _, h5⟩ := ext_endLoop hg ha h.ext
  refine ⟨h5, by simp [h.scope, hs], ?_⟩
  obtain ⟨k, hk⟩ := h.locals
  exact ⟨k, by simp [hk, hl, hs]⟩

theorem tab_opt {a b : PS Γ} (h : Tab a b) (e : Option Γ.X) : Tab a (emitOpt em e b) := by
  unfold emitOpt
  split
  · exact h.expr _ _
  · exact h.push _

theorem tab_let {a b : PS Γ} (h : Tab a b) (l : LV Γ) (e : Γ.X) : Tab a (emitLet em l e b) := by
  unfold emitLet
  split
  · exact (h.declare 1).expr _ _
  · exact (h.expr _ _).push _
  · exact ((((h.declare _).nils _).expr _ _).push _).push _

theorem tab_assign {a b : PS Γ} (h : Tab a b) (l : LV Γ) (i : Nat) : Tab a (emitAssign l i b) := by
  unfold emitAssign
  split
  · exact (h.push _).push _
  · exact h.push _
  · exact (h.push _).push _

theorem assign_len (l : LV Γ) (i : Nat) (b : PS Γ) : (emitAssign l i b).b.done.length = b.b.done.length := by
  unfold emitAssign; split <;> rfl

theorem assign_locals (l : LV Γ) (i : Nat) (b : PS Γ) : (emitAssign l i b).locals = b.locals := by
  unfold emitAssign; split <;> rfl

theorem tab_test {a b : PS Γ} (h : Tab a b) (t : Test Γ) : Tab a (emitTest em t b).1 := by
  unfold emitTest
  split
  · exact h.expr _ _
  · split
    · exact ((h.expr _ _).expr _ _).push _
    · exact (h.expr _ _).expr _ _

theorem opt_len (e : Option Γ.X) (b : PS Γ) : b.b.done.length ≤ (emitOpt em e b).b.done.length := (tab_opt (Tab.refl b) e).ext.grow.le

@[simp] theorem bF_b (ps : PS Γ) : ps.branchForward.b = ps.b.branchForward := rfl
@[simp] theorem jF_b (ps : PS Γ) (i ty) : (ps.joinForward i ty).b = ps.b.joinForward i ty := rfl
@[simp] theorem jR_b (ps : PS Γ) (i ty) : (ps.joinReverse i ty).b = ps.b.joinReverse i ty := rfl
@[simp] theorem push_b (ps : PS Γ) (o) : (ps.push o).b = ps.b.push o := rfl

theorem forInit_facts (l : LV Γ) (e : Γ.X) (ps : PS Γ) :
    Ext ps (forInit em l e ps) ∧ (forInit em l e ps).scope = ps.scope + 1 ∧ (forInit em l e ps).locals = ps.locals ++ List.replicate (l.vars + 1) (ps.scope + 1) ∧
    (forInit em l e ps).loops = ps.loops ∧ (forInit em l e ps).flag = ps.flag := by
  have h1 : Ext ps { ps with scope := ps.scope + 1 } := .same (.refl _) rfl
  refine ⟨((((h1.declare _).nils _).expr _ _).declare 1).push _, by simp [forInit], ?_, by simp [forInit], by simp [forInit]⟩
  simp [forInit, List.replicate_succ']

/-- A `for` loop: the tables at its start, after its body, and at its `else` clause. -/
theorem tab_for {ps : PS Γ} (hi : Inv ps) (l : LV Γ) (e : Γ.X) (f : PS Γ → PS Γ) (hf : ∀ q, Inv q → Tab q (f q)) :
    let p1 := (forInit em l e ps.delayedPop).beginForLoop
    let p2 := emitAssign l ps.locals.length p1.branchForward
    let p4 := ((p2.block f).joinReverse p1.start none).joinForward p1.b.done.length (some .testIter)
    Inv p1 ∧ Tab p1 p2 ∧ Tab p1 (p2.block f) ∧ p1.b.done.length < (p2.block f).b.done.length ∧ Tab p1 p4 ∧ p4.above p4.scope = l.vars + 1 ∧
    p4.leave.locals = ps.locals ∧ p4.leave.scope = ps.scope ∧ Inv p4.leave ∧ p1.loops = ⟨(forInit em l e ps.delayedPop).b.done.length + 1, [], ps.scope + 1, ps.scope + 2⟩ :: ps.loops ∧
    Grow ps.b p1.b ∧ p1.locals = ps.locals ++ List.replicate (l.vars + 1) (ps.scope + 1) ∧ p1.scope = ps.scope + 1 := by
  obtain ⟨e1, s1, l1, lp1, f1⟩ := forInit_facts (em := em) l e ps.delayedPop
  generalize forInit em l e ps.delayedPop = p1 at *
  simp only [dp_scope, dp_locals, dp_loops] at s1 l1 lp1 ⊢
  have hb : Inv p1.beginForLoop := by
    refine inv_begin ?_ (by simp [PS.beginForLoop, branchReverse_len]) rfl
    intro d hd
    rw [bfL_locals, l1] at hd
    rw [bfL_scope, s1]
    rcases List.mem_append.1 hd with hd | hd
    · have := hi.locals d hd; omega
    · exact Nat.le_of_eq (List.eq_of_mem_replicate hd)
  have t2 := tab_assign (Tab.refl p1.beginForLoop).bF l ps.locals.length
  have t3 := t2.of_block hb f hf
  have tb := tab_block (hb.tab t2) f hf
  have hlen := tb.1.grow.le
  rw [assign_len, bF_b, branchForward_len] at hlen
  have t4 := (t3.jR p1.beginForLoop.start none).jF p1.beginForLoop.b.done.length (some .testIter) (Nat.le_refl _) (by simp only [jR_b, joinReverse_len]; omega)
  have hk4 : ((((emitAssign l ps.locals.length p1.beginForLoop.branchForward).block f).joinReverse p1.beginForLoop.start none).joinForward p1.beginForLoop.b.done.length (some .testIter)).locals = p1.locals := by
    rw [jF_locals, jR_locals, tb.2.2.1, assign_locals]; rfl
  refine ⟨hb, t2, t3, hlen, t4, ?_⟩
  generalize (((emitAssign l ps.locals.length p1.beginForLoop.branchForward).block f).joinReverse p1.beginForLoop.start none).joinForward p1.beginForLoop.b.done.length (some .testIter) = p4 at t4 hk4 ⊢
  have s4 : p4.scope = ps.scope + 1 := by rw [t4.scope, bfL_scope, s1]
  obtain ⟨a5, l5⟩ := leave_locals hi.locals s4 (hk4.trans l1)
  have t5 : Ext p1.beginForLoop p4.leave := t4.ext.leave
  have s5 : p4.leave.scope = ps.scope := by rw [leave_scope, s4]; omega
  have hb5 : Inv p4.leave := hb.of_ext t5 (fun d hd => by rw [l5] at hd; rw [s5]; exact hi.locals d hd)
  exact ⟨a5, l5, s5, hb5, by rw [bfL_loops, lp1, s1], ((dp_grow ps).trans e1.grow).branchReverse, by rw [bfL_locals, l1], by rw [bfL_scope, s1]⟩

mutual
theorem tab_S : ∀ (s : Stmt Γ) (ps : PS Γ), Inv ps → Tab ps (emitS em s ps)
  | .expr e, ps, hi => by simp only [emitS]; exact ((Tab.refl ps).dp.expr _ _).flag true
  | .semi, ps, hi => by simp only [emitS]; exact (Tab.refl ps).dp
  | .letIn l e, ps, hi => by simp only [emitS]; exact tab_let (Tab.refl ps).dp l e
  | .decl n, ps, hi => by simp only [emitS]; exact ((Tab.refl ps).dp.declare n).nils n
  | .ite c t els, ps, hi => by
    simp only [emitS]
    have h1 := (Tab.refl ps).dp.expr (em := em) ps.delayedPop.locals.length c
    have h2 := h1.bF
    have h3 := h2.of_block hi (emitB em t) (tab_B t)
    have h4 := tab_block (hi.tab h2) (emitB em t) (tab_B t)
    refine tab_Else els _ ps _ hi h3 (by simpa using h1.ext.grow.le) ?_
    have := h4.1.grow.le
    simp only [bF_b, branchForward_len] at this
    exact this
  | .while c body els, ps, hi => by
    simp only [emitS]
    have hb : Inv ps.delayedPop.beginLoop :=
      inv_begin (by simpa using hi.locals) (by simp [PS.beginLoop, branchReverse_len]) rfl
    have h1 := (Tab.refl ps.delayedPop.beginLoop).expr (em := em) ps.delayedPop.beginLoop.locals.length c
    have h3 := h1.bF.of_block hb (emitB em body) (tab_B body)
    have h4 := tab_block (hb.tab h1.bF) (emitB em body) (tab_B body)
    have hl := h4.1.grow.le
    simp only [bF_b, branchForward_len] at hl
    have h5 := ((h3.jR ps.delayedPop.beginLoop.start none).jF (ps.delayedPop.beginLoop.expr em ps.delayedPop.beginLoop.locals.length c).b.done.length (some .ifFalsePop) h1.ext.grow.le (by simp only [jR_b, joinReverse_len]; omega))
    exact tab_endLoop ((dp_grow ps).branchReverse) (bL_loops_dp ps) (h5.of_block hb (emitB em els) (tab_B els)) (by simp) (by simp)
  | .doW body c els, ps, hi => by
    simp only [emitS]
    have hb : Inv ps.beginLoop :=
      inv_begin hi.locals (by simp [PS.beginLoop, branchReverse_len]) rfl
    have h1 := (Tab.refl ps.beginLoop).of_block hb (emitB em body) (tab_B body)
    refine tab_endLoop ((Grow.refl ps.b).branchReverse) (bL_loops _) (Tab.of_block ?_ hb (emitB em els) (tab_B els)) (by simp) (by simp)
    split
    · exact (h1.expr _ _).jR _ _
    · exact h1
  | .loop body, ps, hi => by
    simp only [emitS]
    have hb : Inv ps.delayedPop.beginLoop :=
      inv_begin (by simpa using hi.locals) (by simp [PS.beginLoop, branchReverse_len]) rfl
    have h1 := (Tab.refl ps.delayedPop.beginLoop).of_block hb (emitB em body) (tab_B body)
    exact tab_endLoop ((dp_grow ps).branchReverse) (bL_loops_dp ps) (h1.jR _ none) (by simp) (by simp)
  | .for l e body els, ps, hi => by
    simp only [emitS]
    obtain ⟨hb, t2, t3, hlen, t4, _, l5, s5, hb5, lp, hg, _, _⟩ := tab_for (em := em) hi l e (emitB em body) (tab_B body)
    simp only [dp_locals]
    have t6 := tab_block hb5 (emitB em els) (tab_B els)
    obtain ⟨_, _, _, _, _, h5⟩ := ext_endLoop hg (ps := ps) lp (t4.ext.leave.trans t6.1)
    exact ⟨h5, by rw [endLoop_scope, t6.2.1, s5], 0, by rw [endLoop_locals, t6.2.2.1, l5]; simp⟩
  | .brk, ps, hi => by
    simp only [emitS]
    split
    · exact (Tab.refl ps).dp
    · rename_i l ls h
      have h1 := ((Tab.refl ps).dp.pops (ps.delayedPop.above l.enclosing)).bF
      rw [dp_loops] at h
      refine ⟨⟨h1.ext.grow, .inr ⟨l, ls, [ps.b.done.length], h, ?_, ?_, by simp⟩⟩, h1.scope, h1.locals⟩
      · simp [PS.emitPops]
      · simp [PS.emitPops, bF_b, branchForward_len]
  | .cont, ps, hi => by
    simp only [emitS]
    split
    · exact (Tab.refl ps).dp
    · exact ((Tab.refl ps).dp.pops _).jR _ _
  | .ret e, ps, hi => by simp only [emitS]; exact (tab_opt (Tab.refl ps).dp e).push _
  | .assert t msg, ps, hi => by
    simp only [emitS]
    have h1 := tab_test (em := em) (Tab.refl ps).dp t
    have h2 := (tab_opt (em := em) h1.bF msg).push .assertFailed
    refine h2.jF _ _ h1.ext.grow.le ?_
    have := opt_len (em := em) msg (emitTest em t ps.delayedPop).1.branchForward
    rw [bF_b, branchForward_len] at this
    rw [push_b, push_len]
    omega
theorem tab_B : ∀ (b : Block Γ) (ps : PS Γ), Inv ps → Tab ps (emitB em b ps)
  | .nil, ps, hi => by simp only [emitB]; exact .refl _
  | .cons s b, ps, hi => by
    simp only [emitB]
    have h := tab_S s ps hi
    exact h.trans (tab_B b _ (hi.tab h))
theorem tab_Else : ∀ (e : Else Γ) (i : Nat) (ps q : PS Γ), Inv ps → Tab ps q → ps.b.done.length ≤ i → i < q.b.done.length → Tab ps (emitElse em e i q)
  | .none, i, ps, q, hi, h, h1, h2 => by simp only [emitElse]; exact h.jF _ _ h1 h2
  | .els b, i, ps, q, hi, h, h1, h2 => by
    simp only [emitElse]
    have h3 := h.bF.jF i (some .ifFalsePop) h1 (by simp only [bF_b, branchForward_len]; omega)
    have h4 := h3.of_block hi (emitB em b) (tab_B b)
    have h5 := (tab_block (hi.tab h3) (emitB em b) (tab_B b)).1.grow.le
    rw [jF_b, joinForward_len, bF_b, branchForward_len] at h5
    exact h4.jF _ none h.ext.grow.le (by omega)
  | .elif c t els, i, ps, q, hi, h, h1, h2 => by
    simp only [emitElse]
    have h3 := (h.bF.jF i (some .ifFalsePop) h1 (by simp only [bF_b, branchForward_len]; omega)).dp
    generalize hq3 : (q.branchForward.joinForward i (some .ifFalsePop)).delayedPop = q3 at h3
    have hl3 : q3.b.done.length = q.b.done.length + 2 := by rw [← hq3, dp_len, jF_b, joinForward_len, bF_b, branchForward_len]
    have h4 := (h3.expr (em := em) q3.locals.length c).bF
    have h5 := h4.of_block hi (emitB em t) (tab_B t)
    have h6 := (tab_block (hi.tab h4) (emitB em t) (tab_B t)).1.grow.le
    rw [bF_b, branchForward_len] at h6
    have hle := h.ext.grow.le
    have hq := h3.expr (em := em) q3.locals.length c
    have h7 := tab_Else els (q3.expr em q3.locals.length c).b.done.length (q3.expr em q3.locals.length c) _ (hi.tab hq)
      ((Tab.refl _).bF.of_block (hi.tab hq) (emitB em t) (tab_B t)) (Nat.le_refl _) h6
    refine (hq.trans h7).jF _ none hle ?_
    have := h7.ext.grow.le
    have e := expr_len (em := em) q3 q3.locals.length c
    omega
  | .elifThen e, i, ps, q, hi, h, h1, h2 => by
    simp only [emitElse]
    have h3 := (h.bF.jF i (some .ifFalsePop) h1 (by simp only [bF_b, branchForward_len]; omega)).dp
    have := h.ext.grow.le
    exact ((h3.expr _ _).jF _ none this (Nat.lt_of_lt_of_le (by rw [dp_len, jF_b, joinForward_len, bF_b, branchForward_len]; omega) (expr_len _ _ _))).flag true
end

end Cordy.Stmts
