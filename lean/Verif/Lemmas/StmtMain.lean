import Verif.Lemmas.StmtLoop
/-! The code of statements does what the statements do: C64. -/
namespace Cordy.Stmts
open Cordy.Builder
open Cordy.Graph (Place gstep Code)
variable {Γ : Sig} {S R : Type} {Λ : Machine Γ S R} {g : Code (Op Γ) (Br Γ) Unit} {fuel : Nat} {em : Em Γ} [Compiles Λ em]

/-- Whether there is a value to be popped: after an expression. -/
theorem else_flag : ∀ (e : Else Γ) (i : Nat) (q : PS Γ) (lp : Option Bool), e.ok lp → q.flag = false → (emitElse em e i q).flag = false
  | .none, i, q, lp, _, h => by simp only [emitElse]; exact h
  | .els b, i, q, lp, _, h => by simp only [emitElse]; simp [PS.block]
  | .elif c t els, i, q, lp, ho, h => by
    simp only [emitElse]
    rw [jF_flag]
    simp only [Else.ok] at ho
    exact else_flag els _ _ lp ho.2 (by simp [PS.block])
  | .elifThen e, i, q, lp, ho, h => by simp [Else.ok] at ho

theorem let_loops (l : LV Γ) (e : Γ.X) (ps : PS Γ) : (emitLet em l e ps).loops = ps.loops := by
  unfold emitLet; split <;> simp
theorem let_flag (l : LV Γ) (e : Γ.X) (ps : PS Γ) : (emitLet em l e ps).flag = ps.flag := by
  unfold emitLet; split <;> simp
theorem opt_flag (e : Option Γ.X) (ps : PS Γ) : (emitOpt em e ps).flag = ps.flag := by
  unfold emitOpt; split <;> simp
theorem test_flag (t : Test Γ) (ps : PS Γ) : (emitTest em t ps).1.flag = ps.flag := by
  unfold emitTest; split <;> (try split) <;> simp

theorem stmt_flag (s : Stmt Γ) (ps : PS Γ) (lp : Option Bool) (after : Bool) (ho : s.ok lp after) : (emitS em s ps).flag = s.isExpr := by
  cases s with
  | expr e => simp [emitS, Stmt.isExpr]
  | semi => simp [emitS, Stmt.isExpr]
  | letIn l e => simp [emitS, Stmt.isExpr, let_flag]
  | decl n => simp [emitS, Stmt.isExpr]
  | ite c t els =>
    simp only [emitS, Stmt.isExpr]
    simp only [Stmt.ok] at ho
    exact else_flag els _ _ lp ho.2 (by simp [PS.block])
  | «while» c body els => simp [emitS, Stmt.isExpr, PS.block]
  | doW body c els => simp [emitS, Stmt.isExpr, PS.block]
  | loop body => simp [emitS, Stmt.isExpr, PS.block]
  | «for» l e body els => simp [emitS, Stmt.isExpr, PS.block]
  | brk =>
    simp only [emitS, Stmt.isExpr]
    split <;> simp [PS.emitPops]
  | cont =>
    simp only [emitS, Stmt.isExpr]
    split <;> simp [PS.emitPops]
  | ret e => simp [emitS, Stmt.isExpr, opt_flag]
  | assert t m => simp [emitS, Stmt.isExpr, opt_flag, test_flag]

/-! ## Simple statements -/

theorem out_opt {lo : Nat} {ex : Nat → Prop} {q q' : PS Γ} {n : Nat} {k : K Γ S} {e : Option Γ.X} (h : Agree lo (emitOpt em e q).b g ex) (hlo : lo ≤ q.b.done.length)
    (hx : ∀ i, q.b.done.length ≤ i → i < (emitOpt em e q).b.done.length → ¬ ex i) {env rest : List Γ.V} {s : S} (hl : env.length = q.locals.length)
    {f : Γ.V → List Γ.V → S → Option (Res Γ S R)}
    (hf : ∀ v env' s', env'.length = q.locals.length → Out Λ g n k q' (pl (emitOpt em e q).b ⟨env' ++ rest ++ [v], s'⟩) (f v env' s')) :
    Out Λ g n k q' (pl q.b ⟨env ++ rest, s⟩) (optVal Λ e env s fail f) := by
  cases e with
  | none => exact Out.pre (reach_push (sm := sem Λ) (b := q.b) h (by simp [sem, exec])) (hf _ _ _ hl)
  | some e => exact out_expr h hlo hx hl hf

theorem sim_let {ps : PS Γ} (hi : Inv ps) (l : LV Γ) (e : Γ.X) (k : K Γ S) :
    Sim Λ g fuel (emitS em (.letIn l e)) (runS Λ fuel (.letIn l e)) k ps := by
  intro hag _ env pend s hl hp
  simp only [emitS] at hag ⊢
  have ht := tab_let (em := em) (Tab.refl ps.delayedPop) l e
  have agd := hag.sub ht.ext (by simp)
  refine Out.pre (reach_dp (q := ps) agd env pend hp s) ?_
  simp only [runS]
  have hl' : env.length = ps.delayedPop.locals.length := by simpa using hl
  generalize hlo : ps.b.done.length = lo at hag
  have hlo : lo ≤ ps.delayedPop.b.done.length := by simp; omega
  have hf : ps.delayedPop.flag = false := by simp
  have hxd : ∀ i, ps.delayedPop.b.done.length ≤ i → i ∉ brks (emitLet em l e ps.delayedPop) := by
    intro i hi1 hh
    have := (hi.tab (Tab.refl ps).dp).brk i (by simpa only [brks, let_loops] using hh)
    omega
  generalize ps.delayedPop = d at *
  cases l with
  | named =>
    have := out_expr (Λ := Λ) (q := d.declare 1) (rest := []) (q' := emitLet em .named e d) (k := k) (n := fuel) (j := d.locals.length) (e := e) hag hlo (fun i h1 _ => hxd i h1) hl' (s := s) (f := fun v env s => some (.normal (env ++ [v]) none s)) ?_
    · simpa using this
    · intro v env' s' hle
      refine ⟨by simp [emitLet, hle], by simp [emitLet, hf], ?_⟩
      simp [emitLet]
      exact .refl _
  | empty =>
    have h1 : Agree lo (d.expr em d.locals.length e).b g (· ∈ brks (emitLet em .empty e d)) := Agree.back hag ((Grow.refl _).push Op.pop) (Nat.le_trans hlo (expr_len _ _ _))
    have := out_expr (Λ := Λ) (q := d) (rest := []) (q' := emitLet em .empty e d) (k := k) (n := fuel) (j := d.locals.length) (e := e) h1 hlo (fun i h1 _ => hxd i h1) hl' (s := s)
      (f := fun v env s => assign Λ LV.empty env.length v (env ++ List.replicate (LV.vars (Γ := Γ) .empty) Λ.nil) s fail fun env s => some (.normal env none s)) ?_
    · simpa using this
    · intro v env' s' hle
      simp only [assign, LV.vars, List.replicate_zero, List.append_nil]
      refine ⟨by simp [emitLet, hle], by simp [emitLet, hf], ?_⟩
      simp only [Option.toList_none, List.append_nil, emitLet]
      exact reach_push (sm := sem Λ) (b := (d.expr em d.locals.length e).b) hag (by simp [sem, exec])
  | terms n p =>
    have hle0 : lo ≤ ((d.declare n).nils n).b.done.length := by simp; omega
    have hle1 := expr_len (em := em) ((d.declare n).nils n) d.locals.length e
    have h1 : Agree lo ((((d.declare n).nils n).expr em d.locals.length e).push (.pattern p)).b g (· ∈ brks (emitLet em (.terms n p) e d)) := Agree.back hag ((Grow.refl _).push Op.pop) (by simp only [push_b, push_len]; omega)
    have h2 : Agree lo (((d.declare n).nils n).expr em d.locals.length e).b g (· ∈ brks (emitLet em (.terms n p) e d)) := Agree.back h1 ((Grow.refl _).push (Op.pattern p)) (by omega)
    have h3 : Agree lo ((d.declare n).nils n).b g (· ∈ brks (emitLet em (.terms n p) e d)) := Agree.back h2 (expr_grow _ _ _) hle0
    refine Out.pre (reach_nils (Λ := Λ) n (d.declare n) h3 hlo env s) ?_
    refine out_expr (q := (d.declare n).nils n) h2 hle0 (fun i h1 _ => hxd i (by simpa using h1)) hl' ?_
    intro v env' s' hle
    simp only [assign, LV.vars]
    cases hv : Λ.destr p v (env' ++ List.replicate n Λ.nil) s' with
    | error r => exact halt_push (sm := sem Λ) (b := (((d.declare n).nils n).expr em d.locals.length e).b) h1 (by simp [sem, exec, hv, - List.append_assoc])
    | ok x =>
      obtain ⟨vs, s''⟩ := x
      have hlen := Λ.destr_len _ _ _ _ _ _ hv
      refine ⟨by simp [emitLet, hle, hlen], by simp [emitLet, hf], ?_⟩
      simp only [Option.toList_none, List.append_nil]
      refine (reach_push (sm := sem Λ) (b := (((d.declare n).nils n).expr em d.locals.length e).b) (m' := ⟨vs ++ [v], s''⟩) h1 (by simp [sem, exec, hv, - List.append_assoc])).trans ?_
      exact reach_push (sm := sem Λ) (b := ((((d.declare n).nils n).expr em d.locals.length e).push (.pattern p)).b) hag (by simp [sem, exec])

theorem sim_assert {ps : PS Γ} (hi : Inv ps) (t : Test Γ) (msg : Option Γ.X) (k : K Γ S) :
    Sim Λ g fuel (emitS em (.assert t msg)) (runS Λ fuel (.assert t msg)) k ps := by
  intro hag _ env pend s hl hp
  simp only [emitS] at hag ⊢
  have t1 := tab_test (em := em) (Tab.refl ps.delayedPop) t
  have hid : Inv ps.delayedPop := hi.tab (Tab.refl ps).dp
  have hlo : ps.b.done.length ≤ ps.delayedPop.b.done.length := by simp
  have hl' : env.length = ps.delayedPop.locals.length := by simpa using hl
  have hfd : ps.delayedPop.flag = false := by simp
  have hll : (emitTest em t ps.delayedPop).1.b.done.length ≥ ps.delayedPop.b.done.length := t1.ext.grow.le
  have hloc : (emitTest em t ps.delayedPop).1.locals = ps.delayedPop.locals := by
    unfold emitTest; split <;> (try split) <;> simp
  have hfl : (emitTest em t ps.delayedPop).1.flag = false := by rw [test_flag, hfd]
  have hbk : brks (((emitOpt em msg (emitTest em t ps.delayedPop).1.branchForward).push .assertFailed).joinForward (emitTest em t ps.delayedPop).1.b.done.length (some (emitTest em t ps.delayedPop).2)) =
      brks ((emitOpt em msg (emitTest em t ps.delayedPop).1.branchForward).push .assertFailed) := rfl
  rw [hbk] at hag
  have t2 := (tab_opt (em := em) (Tab.refl (emitTest em t ps.delayedPop).1.branchForward) msg).push .assertFailed
  have hit := hid.tab t1
  have hbs : brks ((emitOpt em msg (emitTest em t ps.delayedPop).1.branchForward).push .assertFailed) = brks (emitTest em t ps.delayedPop).1 := by
    unfold emitOpt; split <;> rfl
  obtain ⟨ag2, ag1, hgi, r3⟩ := agree_jF (Λ := Λ) (a := (emitTest em t ps.delayedPop).1) hag (by omega) t2.ext.grow rfl ((hit.tab ((Tab.refl _).bF.trans t2)).brk)
    (by rw [hbs]; intro hh; exact absurd (hit.brk _ hh) (Nat.lt_irrefl _))
  have agd := Agree.back ag1 t1.ext.grow hlo
  refine Out.pre (reach_dp (q := ps) agd env pend hp s) ?_
  simp only [runS]
  have hlm : (emitOpt em msg (emitTest em t ps.delayedPop).1.branchForward).locals = ps.delayedPop.locals := by
    unfold emitOpt; split <;> simp [hloc]
  have hfm : (emitOpt em msg (emitTest em t ps.delayedPop).1.branchForward).flag = false := by rw [opt_flag, bF_flag, hfl]
  -- after the test: at the branch
  have key : ∀ (b : Bool) (m : Γ.V) (env' : List Γ.V) (s' : S) (st : List Γ.V), env'.length = ps.delayedPop.locals.length →
      test Λ (emitTest em t ps.delayedPop).2 ⟨st, s'⟩ = .ok (b, ⟨if b then env' else env' ++ [m], s'⟩) →
      Out Λ g fuel k (((emitOpt em msg (emitTest em t ps.delayedPop).1.branchForward).push .assertFailed).joinForward (emitTest em t ps.delayedPop).1.b.done.length (some (emitTest em t ps.delayedPop).2))
        (pl (emitTest em t ps.delayedPop).1.b ⟨st, s'⟩)
        (if b = true then some (.normal env' none s') else optVal Λ msg env' s' fail fun v env s => some (.stop (Λ.failed v m env s))) := by
    intro b m env' s' st hle htest
    have hst := reach_test (sm := sem Λ) (b := (emitTest em t ps.delayedPop).1.b) hgi rfl htest
    cases b with
    | true =>
      simp only [if_true] at hst ⊢
      refine ⟨by rw [jF_locals, push_locals, hlm]; exact hle, by rw [jF_flag, push_flag, hfm]; rfl, ?_⟩
      rw [jF_b, pl_joinForward]
      simpa using hst
    | false =>
      simp only [Bool.false_eq_true, if_false] at hst ⊢
      rw [← pl_branchForward, ← bF_b] at hst
      refine Out.pre hst ?_
      have ago : Agree ((emitTest em t ps.delayedPop).1.b.done.length + 1) (emitOpt em msg (emitTest em t ps.delayedPop).1.branchForward).b g (· ∈ brks ((emitOpt em msg (emitTest em t ps.delayedPop).1.branchForward).push .assertFailed)) :=
        Agree.back ag2 ((Grow.refl _).push Op.assertFailed) (Nat.le_trans (Nat.le_of_eq (by rw [bF_b, branchForward_len])) (opt_len _ _))
      refine out_opt ago (Nat.le_of_eq (by rw [bF_b, branchForward_len])) (fun i h1 _ hh => by rw [hbs] at hh; have := hit.brk _ hh; rw [bF_b, branchForward_len] at h1; omega) (by rw [bF_locals, hloc]; exact hle) ?_
      intro v env'' s'' _
      exact halt_push (sm := sem Λ) (b := (emitOpt em msg (emitTest em t ps.delayedPop).1.branchForward).b) ag2 (by simp [sem, exec])
  generalize hq : (((emitOpt em msg (emitTest em t ps.delayedPop).1.branchForward).push .assertFailed).joinForward (emitTest em t ps.delayedPop).1.b.done.length (some (emitTest em t ps.delayedPop).2)) = q at key
  clear hq
  have hxx : ∀ i, ps.delayedPop.b.done.length ≤ i → i < (emitTest em t ps.delayedPop).1.b.done.length →
      ¬ (fun k => k ∈ brks ((emitOpt em msg (emitTest em t ps.delayedPop).1.branchForward).push .assertFailed) ∨ k = (emitTest em t ps.delayedPop).1.b.done.length) i := by
    rintro i h1 h2 (hh | hh)
    · rw [hbs] at hh
      have : i ∈ brks ps.delayedPop := by
        rcases t1.ext.loops with ⟨_, e2⟩ | ⟨_, _, _, e1, e2, e3, _⟩
        · simp [brks, e2] at hh
        · have e4 : (emitTest em t ps.delayedPop).1.loops = ps.delayedPop.loops := by unfold emitTest; split <;> (try split) <;> simp
          simpa only [brks, e4] using hh
      have := hid.brk i this
      omega
    · omega
  generalize (fun k => k ∈ brks ((emitOpt em msg (emitTest em t ps.delayedPop).1.branchForward).push .assertFailed) ∨ k = (emitTest em t ps.delayedPop).1.b.done.length) = ex at ag1 hxx
  generalize hd : ps.delayedPop = d at *
  generalize ps.b.done.length = lo at *
  cases t with
  | val e =>
    simp only [emitTest] at ag1 key hxx
    simp only [testVal]
    have := out_expr (Λ := Λ) (q := d) (rest := []) (q' := q) (k := k) (n := fuel) (e := e) ag1 hlo hxx hl' (s := s)
      (f := fun v env s => if Λ.truthy v s then some (.normal env none s) else optVal Λ msg env s fail fun w env s => some (.stop (Λ.failed w Λ.nil env s))) ?_
    · simpa using this
    intro v env' s' hle
    refine key (Λ.truthy v s') Λ.nil env' s' _ hle ?_
    cases hv : Λ.truthy v s' <;> simp [test, hv]
  | cmp c l r swap =>
    cases swap with
    | false =>
      simp only [emitTest, Bool.false_eq_true, if_false] at ag1 key hxx
      simp only [testVal]
      have hle1 := expr_len (em := em) d d.locals.length l
      have hle2 := expr_len (em := em) (d.expr em d.locals.length l) d.locals.length r
      have h1 : Agree lo (d.expr em d.locals.length l).b g ex := Agree.back ag1 (expr_grow _ _ _) (by omega)
      have := out_expr (Λ := Λ) (q := d) (rest := []) (q' := q) (k := k) (n := fuel) (e := l) h1 hlo (fun i h1 h2 => hxx i h1 (by omega)) hl' (s := s)
        (f := fun lv env s => withVal Λ r env s fail fun rv env s => if Λ.cmp c lv rv s then some (.normal env none s) else optVal Λ msg env s fail fun w env s' => some (.stop (Λ.failed w (Λ.cmpMsg c lv rv s) env s'))) ?_
      · simpa using this
      intro lv env' s' hle
      simp only [List.append_nil]
      refine out_expr (Λ := Λ) (q := d.expr em d.locals.length l) ag1 (by omega) (fun i h1 h2 => hxx i (by omega) h2) hle ?_
      intro rv env'' s'' hle'
      refine key (Λ.cmp c lv rv s'') (Λ.cmpMsg c lv rv s'') env'' s'' _ hle' ?_
      cases hv : Λ.cmp c lv rv s'' <;> simp [test, hv, List.getLast?_append, List.dropLast_append]
    | true =>
      simp only [emitTest, if_true] at ag1 key hxx
      simp only [testVal]
      have h2 : Agree lo ((d.expr em d.locals.length r).expr em d.locals.length l).b g ex := Agree.back ag1 ((Grow.refl _).push Op.swap) (Nat.le_trans hlo (Nat.le_trans (expr_len _ _ _) (expr_len _ _ _)))
      have hle1 := expr_len (em := em) d d.locals.length r
      have hle2 := expr_len (em := em) (d.expr em d.locals.length r) d.locals.length l
      have h1 : Agree lo (d.expr em d.locals.length r).b g ex := Agree.back h2 (expr_grow _ _ _) (by omega)
      have := out_expr (Λ := Λ) (q := d) (rest := []) (q' := q) (k := k) (n := fuel) (e := r) h1 hlo (fun i h1 h2 => hxx i h1 (by simp only [push_b, push_len]; omega)) hl' (s := s)
        (f := fun rv env s => withVal Λ l env s fail fun lv env s => if Λ.cmp c lv rv s then some (.normal env none s) else optVal Λ msg env s fail fun w env s' => some (.stop (Λ.failed w (Λ.cmpMsg c lv rv s) env s'))) ?_
      · simpa using this
      intro rv env' s' hle
      simp only [List.append_nil]
      refine out_expr (Λ := Λ) (q := d.expr em d.locals.length r) h2 (by omega) (fun i h1 h2 => hxx i (by omega) (by simp only [push_b, push_len]; omega)) hle ?_
      intro lv env'' s'' hle'
      refine Out.pre (reach_push (sm := sem Λ) (b := ((d.expr em d.locals.length r).expr em d.locals.length l).b) (m' := ⟨env'' ++ [lv, rv], s''⟩) ag1 ?_) ?_
      · simp [sem, exec, List.getLast?_append, List.dropLast_append]
      refine key (Λ.cmp c lv rv s'') (Λ.cmpMsg c lv rv s'') env'' s'' _ hle' ?_
      cases hv : Λ.cmp c lv rv s'' <;> simp [test, hv, List.getLast?_append, List.dropLast_append]

/-! ## If -/

/-- What is known of an `else` clause: `a` is the code up to the test, at the end of block `i`; `q` that up to the end of the first block; `q'` that after the `else` clause. -/
structure ElseRes (Λ : Machine Γ S R) (g : Code (Op Γ) (Br Γ) Unit) (fuel : Nat) (k : K Γ S) (lo : Nat) (a q q' : PS Γ) (run : List Γ.V → S → Option (Res Γ S R)) : Prop where
  agq : Agree (a.b.done.length + 1) q.b g (· ∈ brks q)
  aga : Agree lo a.b g (fun k => k ∈ brks q ∨ k = a.b.done.length)
  els : ∃ t, g[a.b.done.length]? = some ⟨a.b.cur, .branch .ifFalsePop (a.b.done.length + 1) t⟩ ∧
    ∀ env s, env.length = a.locals.length → Out Λ g fuel k q' ⟨t, 0, ⟨env, s⟩⟩ (run env s)
  fin : ∀ m : Mach Γ S, Reach (sem Λ) g (pl q.b m) (pl q'.b m)
  brk : ∀ x ∈ brks q, x ∈ brks q'
  locals : q'.locals = a.locals
  flag : q'.flag = false

theorem sim_if {d : PS Γ} {k : K Γ S} {lo : Nat} (hi : Inv d) (hf : d.flag = false) (hc : Ctx 0 k d) (hlo : lo ≤ d.b.done.length) {c : Γ.X} {lp : Option Bool} {ft : PS Γ → PS Γ} {rt re : List Γ.V → S → Option (Res Γ S R)}
    (ht : BlockSim Λ g fuel lp ft rt) (hk : k.lp = lp) {q' : PS Γ}
    (hr : ElseRes Λ g fuel k lo (d.expr em d.locals.length c) ((d.expr em d.locals.length c).branchForward.block ft) q' re) (hbr : Brk Λ g k lo (brks q'))
    (env : List Γ.V) (s : S) (hl : env.length = d.locals.length) :
    Out Λ g fuel k q' (pl d.b ⟨env, s⟩) (withVal Λ c env s fail fun v env s => if Λ.truthy v s then inScope rt env s else re env s) := by
  obtain ⟨t, hg, hels⟩ := hr.els
  have hle1 := expr_len (em := em) d d.locals.length c
  have hxx : ∀ i, d.b.done.length ≤ i → i < (d.expr em d.locals.length c).b.done.length →
      ¬ (i ∈ brks ((d.expr em d.locals.length c).branchForward.block ft) ∨ i = (d.expr em d.locals.length c).b.done.length) := by
    rintro i h1 h2 (hh | hh)
    · rcases (tab_block (hi.tab ((Tab.refl d).expr _ _).bF) ft ht.1).1.brks hh with h3 | h3
      · have := hi.brk i h3; omega
      · rw [bF_b, branchForward_len] at h3; omega
    · omega
  have := out_expr (Λ := Λ) (q := d) (rest := []) (q' := q') (k := k) (n := fuel) (e := c) hr.aga hlo hxx hl (s := s)
    (f := fun v env s => if Λ.truthy v s then inScope rt env s else re env s) ?_
  · simpa using this
  intro v env' s' hl'
  simp only [List.append_nil]
  have htest : (sem Λ).test .ifFalsePop (⟨env' ++ [v], s'⟩ : Mach Γ S) = .ok (!Λ.truthy v s', ⟨env', s'⟩) := by simp [sem, test]
  have hst := reach_test (b := (d.expr em d.locals.length c).b) hg rfl htest
  have t1 : Tab d (d.expr em d.locals.length c).branchForward := ((Tab.refl d).expr _ _).bF
  have w := tab_block (hi.tab t1) ft ht.1
  by_cases hv : Λ.truthy v s' = true
  · rw [if_pos hv]
    rw [hv] at hst
    simp only [Bool.not_true, Bool.false_eq_true, if_false] at hst
    refine Out.pre hst ?_
    rw [← pl_branchForward, ← bF_b]
    have simB := ht.block (k := k) (hi.tab t1) (hc.tab t1).one hk (by rw [bF_b, branchForward_len]; exact hr.agq)
      (fun hk i hi hlo' => hbr hk i (hr.brk i hi) (by rw [bF_b, branchForward_len] at hlo'; omega))
    have ho := simB env' none s' hl' (by simp [hf])
    simp only [Option.toList_none, List.append_nil] at ho
    exact Out.post (by rw [hr.locals, w.2.2.1]; rfl) w.2.2.2 hr.flag hr.fin ho
  · rw [if_neg hv]
    simp only [Bool.not_eq_true] at hv
    rw [hv] at hst
    simp only [Bool.not_false, if_true] at hst
    exact Out.pre hst (hels env' s' hl')

/-- Around the `else` clause. -/
theorem agree_else {a q q3 : PS Γ} {lo i : Nat} (hai : a.b.done.length = i) (hgr : Grow a.branchForward.b q.b) (hlo : lo ≤ i)
    (hext : Ext (q.branchForward.joinForward i (some .ifFalsePop)) q3)
    (hia : Inv a) (hq : Inv q) (haq : Ext a.branchForward q)
    (h : Agree lo (q3.joinForward q.b.done.length none).b g (· ∈ brks q3)) :
    Agree (q.b.done.length + 2) q3.b g (· ∈ brks q3) ∧ Agree (i + 1) q.b g (· ∈ brks q) ∧ Agree lo a.b g (fun k => k ∈ brks q ∨ k = i) ∧
    g[i]? = some ⟨a.b.cur, .branch .ifFalsePop (i + 1) (q.b.done.length + 2)⟩ ∧
    (∀ m : Mach Γ S, Reach (sem Λ) g (pl q.b m) (pl (q3.joinForward q.b.done.length none).b m)) ∧
    (∀ m : Mach Γ S, Reach (sem Λ) g (pl q3.b m) (pl (q3.joinForward q.b.done.length none).b m)) := by
  have hlen2 : (q.branchForward.joinForward i (some .ifFalsePop)).b.done.length = q.b.done.length + 2 := by rw [jF_b, joinForward_len, bF_b, branchForward_len]
  have hle3 := hext.grow.le
  have hleq := hgr.le
  rw [bF_b, branchForward_len, hai] at hleq
  -- breaks
  have hb3 : ∀ x ∈ brks q3, (x ∈ brks q ∧ x < q.b.done.length ∧ x ≠ i) ∨ (q.b.done.length + 2 ≤ x ∧ x < q3.b.done.length) := by
    intro x hx
    rcases hext.brks hx with h1 | h1
    · have h2 : x ∈ brks q := h1
      refine .inl ⟨h2, hq.brk x h2, ?_⟩
      rintro rfl
      rcases haq.brks h2 with h3 | h3
      · have := hia.brk _ h3; omega
      · rw [bF_b, branchForward_len] at h3; omega
    · exact .inr ⟨by omega, h1.2⟩
  have hx1 : q.b.done.length ∉ brks q3 := fun hh => by rcases hb3 _ hh with h1 | h1 <;> omega
  have hx2 : q3.b.done.length ∉ brks q3 := fun hh => by rcases hb3 _ hh with h1 | h1 <;> omega
  have hx3 : i ∉ brks q3 := fun hh => by rcases hb3 _ hh with h1 | h1 <;> omega
  obtain ⟨h1, ⟨c, h2, h3⟩, h4⟩ := Agree.joinForward (b := q3.b) h (by omega) (by omega) hx1 hx2
  have hc : c = q.b.cur := by
    rw [codeAt, hext.grow.keep _ (by omega)] at h2
    rw [jF_b, joinForward_get _ _ _ _ (by rw [bF_b, branchForward_len]; omega) (by omega)] at h2
    simp [bF_b, Bld.branchForward] at h2
    exact h2.symm
  subst hc
  have a2 : Agree lo (q.branchForward.joinForward i (some .ifFalsePop)).b g (fun k => k ∈ brks q3 ∨ k = q.b.done.length) := h1.back hext.grow (by omega)
  obtain ⟨h5, ⟨c, h6, h7⟩, h8⟩ := Agree.joinForward (b := q.branchForward.b) a2 hlo (by rw [bF_b, branchForward_len]; omega)
    (by rintro (hh | hh); exact hx3 hh; omega)
    (by
      rw [bF_b, branchForward_len]
      rintro (hh | hh)
      · rcases hb3 _ hh with h1 | h1 <;> omega
      · omega)
  have hc : c = a.b.cur := by
    rw [codeAt, bF_b] at h6
    simp only [Bld.branchForward] at h6
    rw [List.getElem?_append_left (by omega), hgr.keep i (by rw [bF_b, branchForward_len]; omega)] at h6
    simp [bF_b, Bld.branchForward, ← hai] at h6
    exact h6.symm
  subst hc
  have agq : Agree lo q.b g (fun k => (k ∈ brks q3 ∨ k = q.b.done.length) ∨ k = i) := h5.back (Grow.refl q.b).branchForward (by omega)
  have hpl : ∀ m : Mach Γ S, pl (q3.joinForward q.b.done.length none).b m = ⟨q3.b.done.length + 1, 0, m⟩ := fun m => by rw [jF_b, pl_joinForward]
  refine ⟨h1.mono (by omega) ?_, agq.mono (by omega) ?_, (agq.back ((Grow.refl a.b).branchForward.trans hgr) (by omega)).mono (Nat.le_refl _) ?_, ?_, ?_, ?_⟩
  · rintro k hk _ (hh | hh)
    · exact hh
    · omega
  · rintro k hk hk' ((hh | hh) | hh)
    · rcases hb3 _ hh with h1 | h1
      · exact h1.1
      · omega
    · omega
    · omega
  · rintro k hk hk' ((hh | hh) | hh)
    · rcases hb3 _ hh with h1 | h1
      · exact .inl h1.1
      · omega
    · omega
    · exact .inr hh
  · rw [h7, bF_b, branchForward_len]; rfl
  · intro m
    rw [hpl]
    exact reach_next h3 m
  · intro m
    rw [hpl]
    exact reach_next h4 m

theorem Inv.jF {q : PS Γ} (h : Inv q) (i ty) : Inv (q.joinForward i ty) := by
  refine ⟨h.locals, fun k hk => ?_, h.nodup, ?_⟩
  · have := h.brk k hk
    simp only [jF_b, joinForward_len]; omega
  · have := h.start
    simp only [jF_b, joinForward_len]
    simp only [PS.start, jF_loops] at this ⊢
    omega

/-- The context does not change if only the code changes. -/
theorem Ctx.jF {n : Nat} {k : K Γ S} {q : PS Γ} (h : Ctx n k q) (i ty) : Ctx n k (q.joinForward i ty) := ⟨h.brk, h.cont⟩

/-! ## Statements -/

mutual
theorem sim_S : ∀ (st : Stmt Γ) (ps : PS Γ) (k : K Γ S), st.ok k.lp ps.flag → Inv ps → Ctx 0 k ps → Sim Λ g fuel (emitS em st) (runS Λ fuel st) k ps
  | .expr e, ps, k, ho, hi, hc => by
    intro hag _ env pend s hl hp
    simp only [emitS] at hag ⊢
    have agd := Agree.back hag (expr_grow _ _ _) (by simp)
    refine Out.pre (reach_dp (q := ps) agd env pend hp s) ?_
    simp only [runS]
    have := out_expr (Λ := Λ) (q := ps.delayedPop) (rest := []) (q' := { ps.delayedPop.expr em ps.delayedPop.locals.length e with flag := true }) (k := k) (n := fuel) (e := e) hag (by simp) (fun i h1 _ hh => by have := (hi.tab (Tab.refl ps).dp).brk i hh; omega) (by simpa using hl) (s := s)
      (f := fun v env s => some (.normal env (some v) s)) ?_
    · simpa using this
    · intro v env' s' hle
      exact ⟨by simpa using hle, rfl, by simp; exact .refl _⟩
  | .semi, ps, k, ho, hi, hc => by
    intro hag _ env pend s hl hp
    simp only [emitS] at hag ⊢
    simp only [runS]
    exact ⟨by simpa using hl, by simp, by simpa using reach_dp hag env pend hp s⟩
  | .letIn l e, ps, k, ho, hi, hc => sim_let hi l e k
  | .decl n, ps, k, ho, hi, hc => by
    intro hag _ env pend s hl hp
    simp only [emitS] at hag ⊢
    simp only [runS]
    have agd : Agree ps.b.done.length ps.delayedPop.b g _ := Agree.back hag (nils_grow (ps.delayedPop.declare n) n) (by simp)
    refine Out.pre (reach_dp (q := ps) agd env pend hp s) ?_
    refine ⟨by simpa using hl, by simp, ?_⟩
    simp only [Option.toList_none, List.append_nil]
    exact reach_nils (Λ := Λ) n (ps.delayedPop.declare n) hag (by simp) env s
  | .ite c t els, ps, k, ho, hi, hc => by
    intro hag hbr env pend s hl hp
    simp only [emitS] at hag hbr ⊢
    simp only [Stmt.ok] at ho
    have td := (Tab.refl ps).dp
    have hid := hi.tab td
    have hcd := hc.tab td
    have hb : BlockSim Λ g fuel k.lp (emitB em t) (runB Λ fuel t) := ⟨tab_B t, fun q k' hi' hc' hk hf => sim_B t q k' (by rw [hk, hf]; exact ho.1) hi' hc' (fun _ => hf)⟩
    have t1 := (Tab.refl ps.delayedPop).expr (em := em) ps.delayedPop.locals.length c
    have w := tab_block (hid.tab t1.bF) (emitB em t) (tab_B t)
    have hr := sim_Else els (ps.delayedPop.expr em ps.delayedPop.locals.length c) ((ps.delayedPop.expr em ps.delayedPop.locals.length c).branchForward.block (emitB em t)) ps.b.done.length k ho.2 (hid.tab t1) (hcd.tab t1)
      (by simp) w.2.2.2 w.1 w.2.2.1 w.2.1 (Nat.le_trans (by simp) (expr_len _ _ _)) hag hbr
    have agd := Agree.back hr.aga t1.ext.grow (by simp)
    refine Out.pre (reach_dp (q := ps) agd env pend hp s) ?_
    simp only [runS]
    exact sim_if hid (by simp) hcd (by simp) hb rfl hr hbr env s (by simpa using hl)
  | .while c body els, ps, k, ho, hi, hc => by
    simp only [Stmt.ok] at ho
    have := sim_while (em := em) (Λ := Λ) (g := g) (fuel := fuel) hi c (fb := emitB em body) (fe := emitB em els) (rb := runB Λ fuel body) (re := runB Λ fuel els)
      ⟨tab_B body, fun q k' hi' hc' hk hf => sim_B body q k' (by rw [hk, hf]; exact ho.1) hi' hc' (fun _ => hf)⟩
      ⟨tab_B els, fun q k' hi' hc' hk hf => sim_B els q k' (by rw [hk, hf]; exact ho.2) hi' hc' (fun _ => hf)⟩ k
    simpa only [Sim, emitS, runS, whileE] using this
  | .doW body c els, ps, k, ho, hi, hc => by
    simp only [Stmt.ok] at ho
    have := sim_do (em := em) (Λ := Λ) (g := g) (fuel := fuel) hi ho.1 c (fb := emitB em body) (fe := emitB em els) (rb := runB Λ fuel body) (re := runB Λ fuel els)
      ⟨tab_B body, fun q k' hi' hc' hk hf => sim_B body q k' (by rw [hk, hf]; exact ho.2.1) hi' hc' (fun _ => hf)⟩
      ⟨tab_B els, fun q k' hi' hc' hk hf => sim_B els q k' (by rw [hk, hf]; exact ho.2.2) hi' hc' (fun _ => hf)⟩ k
    have h1 : emitS em (.doW body c els) = doE em c (emitB em body) (emitB em els) := by
      funext q; cases c <;> simp only [emitS, doE, doCond]
    rw [h1]
    simpa only [runS] using this
  | .loop body, ps, k, ho, hi, hc => by
    simp only [Stmt.ok] at ho
    have := sim_loop (Λ := Λ) (g := g) (fuel := fuel) hi (fb := emitB em body) (rb := runB Λ fuel body)
      ⟨tab_B body, fun q k' hi' hc' hk hf => sim_B body q k' (by rw [hk, hf]; exact ho) hi' hc' (fun _ => hf)⟩ k
    simpa only [Sim, emitS, runS, loopE] using this
  | .for l e body els, ps, k, ho, hi, hc => by
    simp only [Stmt.ok] at ho
    have := sim_for (em := em) (Λ := Λ) (g := g) (fuel := fuel) hi l e (fb := emitB em body) (fe := emitB em els) (rb := runB Λ fuel body) (re := runB Λ fuel els)
      ⟨tab_B body, fun q k' hi' hc' hk hf => sim_B body q k' (by rw [hk, hf]; exact ho.1) hi' hc' (fun _ => hf)⟩
      ⟨tab_B els, fun q k' hi' hc' hk hf => sim_B els q k' (by rw [hk, hf]; exact ho.2) hi' hc' (fun _ => hf)⟩ k
    have h1 : emitS em (.for l e body els) = forE em l e (emitB em body) (emitB em els) := by
      funext q; simp only [emitS, forE, dp_locals]
    have h2 : runS Λ fuel (.for l e body els) = forRun Λ fuel l e (runB Λ fuel body) (runB Λ fuel els) := by
      funext env s; simp only [runS, forRun]; rfl
    rw [h1, h2]
    exact this
  | .brk, ps, k, ho, hi, hc => by
    intro hag hbr env pend s hl hp
    simp only [Stmt.ok] at ho
    obtain ⟨l, ls, h1, h2, h3⟩ := hc.brk ho
    have hloops : ps.delayedPop.loops = l :: ls := by simp [h1]
    simp only [emitS, hloops] at hag hbr ⊢
    have hab : ps.delayedPop.above l.enclosing = ps.above l.enclosing := by simp [PS.above]
    have hlen : (ps.delayedPop.emitPops l.enclosing).b.done.length = ps.b.done.length := by simp [PS.emitPops]
    have agp : Agree ps.b.done.length (ps.delayedPop.emitPops l.enclosing).b g _ := Agree.branchForward (b := (ps.delayedPop.emitPops l.enclosing).b) hag (by omega)
    have agd := Agree.back agp (pops_grow ps.delayedPop _) (by simp)
    simp only [runS, Out]
    refine ⟨ho, by omega, ?_⟩
    refine (reach_dp (q := ps) agd env pend hp s).trans ?_
    have hpo := reach_pops (Λ := Λ) (ps.delayedPop.above l.enclosing) ps.delayedPop agp (by simp) env s (by rw [hab]; omega)
    have he : env.length - ps.delayedPop.above l.enclosing = k.eN := by rw [hab]; omega
    rw [he] at hpo
    refine hpo.trans ?_
    obtain ⟨c, t, hg, hD⟩ := hbr ho (ps.delayedPop.emitPops l.enclosing).b.done.length (by simp [brks]) (by omega)
    have hcode := hag.codes (ps.delayedPop.emitPops l.enclosing).b.done.length (by omega) (by simp only [bF_b, branchForward_len]; omega)
    simp only [bF_b, Bld.branchForward, codeAt, hg] at hcode
    simp at hcode
    subst hcode
    exact (reach_next (b := (ps.delayedPop.emitPops l.enclosing).b) hg _).trans (hD _)
  | .cont, ps, k, ho, hi, hc => by
    intro hag hbr env pend s hl hp
    simp only [Stmt.ok] at ho
    obtain ⟨l, ls, h1, h2, h3, h4⟩ := hc.cont ho
    have hloops : ps.delayedPop.loops = l :: ls := by simp [h1]
    simp only [emitS, hloops] at hag hbr ⊢
    have hab : ps.delayedPop.above l.inner = ps.above l.inner := by simp [PS.above]
    have hlen : (ps.delayedPop.emitPops l.inner).b.done.length = ps.b.done.length := by simp [PS.emitPops]
    have hbk : brks (ps.delayedPop.emitPops l.inner) = brks ps := by simp [brks, PS.emitPops]
    obtain ⟨agp, hg⟩ := Agree.append (b := (ps.delayedPop.emitPops l.inner).b) hag (by omega) (fun hh => by
      have h5 : ps.b.done.length ∈ brks ps := by rw [← hbk, ← hlen]; exact hh
      exact absurd (hi.brk _ h5) (Nat.lt_irrefl _))
    have agd := Agree.back agp (pops_grow ps.delayedPop _) (by simp)
    simp only [runS, Out]
    refine ⟨ho, by omega, ?_⟩
    refine Reach.one_right ((reach_dp (q := ps) agd env pend hp s).trans (reach_pops (Λ := Λ) (ps.delayedPop.above l.inner) ps.delayedPop agp (by simp) env s (by rw [hab]; omega))) ?_
    have he : env.length - ps.delayedPop.above l.inner = k.iN := by rw [hab]; omega
    rw [he, h4]
    exact ⟨1, Nat.le_refl _, steps_next (b := (ps.delayedPop.emitPops l.inner).b) hg _⟩
  | .ret e, ps, k, ho, hi, hc => by
    intro hag _ env pend s hl hp
    simp only [emitS] at hag ⊢
    have ago := Agree.back hag ((Grow.refl _).push Op.ret) (Nat.le_trans (by simp) (opt_len _ _))
    have agd := Agree.back ago (tab_opt (em := em) (Tab.refl ps.delayedPop) e).ext.grow (by simp)
    refine Out.pre (reach_dp (q := ps) agd env pend hp s) ?_
    simp only [runS]
    have := out_opt (Λ := Λ) (q := ps.delayedPop) (rest := []) (q' := (emitOpt em e ps.delayedPop).push .ret) (k := k) (n := fuel) (e := e) ago (by simp) (fun i h1 _ hh => by have := (hi.tab (Tab.refl ps).dp).brk i (by unfold emitOpt at hh; split at hh <;> exact hh); omega) (by simpa using hl) (s := s)
      (f := fun v _ s => some (.ret v s)) ?_
    · simpa using this
    · intro v env' s' hle
      exact halt_push (sm := sem Λ) (b := (emitOpt em e ps.delayedPop).b) hag (by simp [sem, exec])
  | .assert t msg, ps, k, ho, hi, hc => sim_assert hi t msg k
theorem sim_B : ∀ (b : Block Γ) (ps : PS Γ) (k : K Γ S), b.ok k.lp ps.flag → Inv ps → Ctx 0 k ps → (b = .nil → ps.flag = false) → Sim Λ g fuel (emitB em b) (runB Λ fuel b) k ps
  | .nil, ps, k, ho, hi, hc, hf => by
    intro hag _ env pend s hl hp
    simp only [emitB, runB]
    have hf := hf rfl
    have : pend = none := by cases pend <;> simp_all
    subst this
    exact ⟨hl, by simp [hf], .refl _⟩
  | .cons st .nil, ps, k, ho, hi, hc, hf => by
    simp only [Block.ok] at ho
    have := sim_S st ps k ho.1 hi hc
    simpa only [Sim, emitB, runB] using this
  | .cons st (.cons st' b), ps, k, ho, hi, hc, hf => by
    intro hag hbr env pend s hl hp
    have h0 : (Block.cons st (.cons st' b)).ok k.lp ps.flag = (st.ok k.lp ps.flag ∧ (Block.cons st' b).ok k.lp st.isExpr) := by rw [Block.ok]
    rw [h0] at ho
    have hE : emitB em (.cons st (.cons st' b)) ps = emitB em (.cons st' b) (emitS em st ps) := by rw [emitB]
    rw [hE] at hag hbr ⊢
    have t1 := tab_S (em := em) st ps hi
    have hi1 := hi.tab t1
    have t2 := tab_B (em := em) (.cons st' b) _ hi1
    have hle := t1.ext.grow.le
    have h1 := sim_S st ps k ho.1 hi hc (hag.sub t2.ext (by omega)) (hbr.sub t2.ext (Nat.le_refl _)) env pend s hl hp
    have h2 := sim_B (.cons st' b) (emitS em st ps) k (by rw [stmt_flag st ps k.lp ps.flag ho.1]; exact ho.2) hi1 (hc.tab t1) (fun h => by simp at h) (hag.up hle) (hbr.sub (.refl _) hle)
    have hR : runB Λ.toLang fuel (.cons st (.cons st' b)) env s = (match runS Λ fuel st env s with
      | some (.normal env _ s) => runB Λ.toLang fuel (.cons st' b) env s
      | r => r) := by rw [runB]; rfl
    rw [hR]
    rcases hr : runS Λ.toLang fuel st env s with _ | (⟨env', val, s'⟩ | ⟨env', s'⟩ | ⟨env', s'⟩ | ⟨v, s'⟩ | r)
    · rw [hr] at h1; exact h1
    · rw [hr] at h1
      exact Out.pre h1.2.2 (h2 env' val s' h1.1 h1.2.1)
    all_goals
      rw [hr] at h1
      exact h1
theorem sim_Else : ∀ (e : Else Γ) (a q : PS Γ) (lo : Nat) (k : K Γ S), e.ok k.lp → Inv a → Ctx 0 k a → a.flag = false → q.flag = false → Ext a.branchForward q → q.locals = a.locals → q.scope = a.scope → lo ≤ a.b.done.length →
    Agree lo (emitElse em e a.b.done.length q).b g (· ∈ brks (emitElse em e a.b.done.length q)) → Brk Λ g k lo (brks (emitElse em e a.b.done.length q)) →
    ElseRes Λ g fuel k lo a q (emitElse em e a.b.done.length q) (runElse Λ fuel e)
  | .none, a, q, lo, k, ho, hi, hc, hfa, hf, hext, hloc, hsc, hlo, hag, hbr => by
    simp only [emitElse] at hag hbr ⊢
    have hiq : Inv q := (hi.tab (Tab.refl a).bF).of_ext hext (by rw [hloc, hsc]; exact hi.locals)
    have hx : a.b.done.length ∉ brks q := by
      intro hh
      rcases hext.brks hh with h3 | h3
      · have := hi.brk _ h3; omega
      · rw [bF_b, branchForward_len] at h3; omega
    obtain ⟨h1, h2, h3, h4⟩ := agree_jF (Λ := Λ) (a := a) hag hlo hext.grow rfl hiq.brk hx
    refine ⟨h1, h2, ⟨_, h3, ?_⟩, h4, fun _ h => h, hloc, hf⟩
    intro env s hl
    simp only [runElse]
    refine ⟨by rw [jF_locals, hloc]; exact hl, by rw [jF_flag, hf]; rfl, ?_⟩
    rw [jF_b, pl_joinForward]
    simp
    exact .refl _
  | .els b, a, q, lo, k, ho, hi, hc, hfa, hf, hext, hloc, hsc, hlo, hag, hbr => by
    simp only [emitElse] at hag hbr ⊢
    simp only [Else.ok] at ho
    have hiq : Inv q := (hi.tab (Tab.refl a).bF).of_ext hext (by rw [hloc, hsc]; exact hi.locals)
    have hi2 : Inv (q.branchForward.joinForward a.b.done.length (some .ifFalsePop)) := (hiq.tab (Tab.refl q).bF).jF _ _
    have hc2 : Ctx 0 k (q.branchForward.joinForward a.b.done.length (some .ifFalsePop)) := (((hc.tab (Tab.refl a).bF).same hext hloc hsc).tab (Tab.refl q).bF).jF _ _
    have w := tab_block hi2 (emitB em b) (tab_B b)
    have hb : BlockSim Λ g fuel k.lp (emitB em b) (runB Λ fuel b) := ⟨tab_B b, fun q k' hi' hc' hk hf => sim_B b q k' (by rw [hk, hf]; exact ho) hi' hc' (fun _ => hf)⟩
    have hleq := hext.grow.le
    rw [bF_b, branchForward_len] at hleq
    obtain ⟨g1, g2, g3, g4, g5, g6⟩ := agree_else (Λ := Λ) rfl hext.grow hlo w.1 hi hiq hext hag
    have hlen2 : (q.branchForward.joinForward a.b.done.length (some .ifFalsePop)).b.done.length = q.b.done.length + 2 := by rw [jF_b, joinForward_len, bF_b, branchForward_len]
    refine ⟨g2, g3, ⟨_, g4, ?_⟩, g5, fun x hx => w.1.brks_sub hx, by rw [jF_locals, w.2.2.1, jF_locals, bF_locals, hloc], by rw [jF_flag, w.2.2.2]⟩
    intro env s hl
    have hs := hb.block (k := k) hi2 hc2.one rfl (by rw [hlen2]; exact g1) (fun hk i hi' hlo' => hbr hk i hi' (by rw [hlen2] at hlo'; omega))
    have h := hs env none s (by rw [jF_locals, bF_locals, hloc]; exact hl) (by simp [hf])
    simp only [Option.toList_none, List.append_nil, pl_joinForward, jF_b] at h
    rw [bF_b, branchForward_len] at h
    simp only [runElse]
    refine Out.post ?_ w.2.2.2 ?_ g6 h
    · rw [jF_locals]
    · rw [jF_flag]; exact w.2.2.2
  | .elif c t els, a, q, lo, k, ho, hi, hc, hfa, hf, hext, hloc, hsc, hlo, hag, hbr => by
    simp only [emitElse] at hag hbr ⊢
    simp only [Else.ok] at ho
    have hiq : Inv q := (hi.tab (Tab.refl a).bF).of_ext hext (by rw [hloc, hsc]; exact hi.locals)
    have hi2 : Inv (q.branchForward.joinForward a.b.done.length (some .ifFalsePop)) := (hiq.tab (Tab.refl q).bF).jF _ _
    have hc2 : Ctx 0 k (q.branchForward.joinForward a.b.done.length (some .ifFalsePop)) := (((hc.tab (Tab.refl a).bF).same hext hloc hsc).tab (Tab.refl q).bF).jF _ _
    have hb : BlockSim Λ g fuel k.lp (emitB em t) (runB Λ fuel t) := ⟨tab_B t, fun q k' hi' hc' hk hf => sim_B t q k' (by rw [hk, hf]; exact ho.1) hi' hc' (fun _ => hf)⟩
    have hleq := hext.grow.le
    rw [bF_b, branchForward_len] at hleq
    have hlen2 : (q.branchForward.joinForward a.b.done.length (some .ifFalsePop)).b.done.length = q.b.done.length + 2 := by rw [jF_b, joinForward_len, bF_b, branchForward_len]
    have hdp : (q.branchForward.joinForward a.b.done.length (some .ifFalsePop)).delayedPop = q.branchForward.joinForward a.b.done.length (some .ifFalsePop) := dp_false (by rw [jF_flag, bF_flag, hf])
    rw [hdp] at hag hbr ⊢
    have hpl : ∀ m : Mach Γ S, pl (q.branchForward.joinForward a.b.done.length (some .ifFalsePop)).b m = ⟨q.b.done.length + 2, 0, m⟩ := fun m => by
      rw [jF_b, pl_joinForward, bF_b, branchForward_len]
    have hloc2 : (q.branchForward.joinForward a.b.done.length (some .ifFalsePop)).locals = a.locals := by rw [jF_locals, bF_locals, hloc]
    have hfl2 : (q.branchForward.joinForward a.b.done.length (some .ifFalsePop)).flag = false := by rw [jF_flag, bF_flag, hf]
    have hbq : brks q = brks (q.branchForward.joinForward a.b.done.length (some .ifFalsePop)) := rfl
    generalize hq2 : q.branchForward.joinForward a.b.done.length (some .ifFalsePop) = q2 at *
    have t1 := (Tab.refl q2).expr (em := em) q2.locals.length c
    have w := tab_block (hi2.tab t1.bF) (emitB em t) (tab_B t)
    have t3 := (Tab.refl (q2.expr em q2.locals.length c)).bF.of_block (hi2.tab t1) (emitB em t) (tab_B (em := em) t)
    have hlt := w.1.grow.le
    rw [bF_b, branchForward_len] at hlt
    have tE := tab_Else (em := em) els (q2.expr em q2.locals.length c).b.done.length (q2.expr em q2.locals.length c) ((q2.expr em q2.locals.length c).branchForward.block (emitB em t)) (hi2.tab t1) t3 (Nat.le_refl _) hlt
    obtain ⟨g1, g2, g3, g4, g5, g6⟩ := agree_else (Λ := Λ) (q3 := emitElse em els (q2.expr em q2.locals.length c).b.done.length ((q2.expr em q2.locals.length c).branchForward.block (emitB em t)))
      rfl hext.grow hlo (by rw [hq2]; exact t1.ext.trans tE.ext) hi hiq hext hag
    have hr := sim_Else els (q2.expr em q2.locals.length c) ((q2.expr em q2.locals.length c).branchForward.block (emitB em t)) (q.b.done.length + 2) k ho.2 (hi2.tab t1) (hc2.tab t1)
      hfl2 w.2.2.2 w.1 w.2.2.1 w.2.1 (Nat.le_trans (by omega) (expr_len _ _ _)) g1 (fun hk i hi' hlo' => hbr hk i hi' (by omega))
    refine ⟨g2, g3, ⟨_, g4, ?_⟩, g5, fun x hx => tE.ext.brks_sub (t1.ext.brks_sub (by rw [← hbq]; exact hx)), by rw [jF_locals, hr.locals]; exact hloc2, by rw [jF_flag, hr.flag]⟩
    intro env s hl
    have h := sim_if hi2 hfl2 hc2 (by omega) hb rfl hr (fun hk i hi' hlo' => hbr hk i hi' (by omega)) env s (by rw [hloc2]; exact hl)
    rw [hpl] at h
    simp only [runElse]
    refine Out.post ?_ hr.flag ?_ g6 h
    · rw [jF_locals]
    · rw [jF_flag]; exact hr.flag
  | .elifThen e, a, q, lo, k, ho, hi, hc, hfa, hf, hext, hloc, hsc, hlo, hag, hbr => by simp [Else.ok] at ho
end

end Cordy.Stmts
