import Verif.Lemmas.CodegenRun
/-! Running the code of an expression does what the evaluation rules say: C36–C38, C45. -/
namespace Cordy.Codegen
open Cordy.Builder
open Cordy.Graph (GRun GHalts Place gstep)
variable {Γ : Sig} {E S O T M R : Type} {P : Prims Γ E S} (H : Host P O T M R)

/-- What joining the branches of a chain of comparisons gives (from `joinAll_spec`). -/
structure Joined (g : GCode O T) (lo : Nat) (b : Bld O T) (pend : List (Γ.C × Nat)) (fin : Bld O T) : Prop where
  blocks : ∀ (i : Nat), lo ≤ i → i < b.done.length → i ∉ pend.map (·.2) → g[i]? = b.done[i]?
  jumps : ∀ p ∈ pend, ∃ x t, b.done[p.2]? = some x ∧ g[p.2]? = some ⟨x.code, .branch (H.em.br (.compare p.1)) (p.2 + 1) t⟩ ∧
      ∀ m : Mach Γ S, ∃ es, GRun H.sm g ⟨t, 0, H.emb m⟩ es (pl H fin m)
  last : ∃ r, codeAt g b.done.length = some (b.cur ++ r)
  run : ∀ m : Mach Γ S, ∃ es, GRun H.sm g (pl H b m) es (pl H fin m)

theorem Out.ok_bind {α β : Type} (a : α) (s : S) (f : α → S → Out E S β) : (Out.ok a s).bind f = f a s := rfl

theorem evalExprs_length : ∀ (es : Exprs Γ) (s s' : S) (vs : List Γ.V), evalExprsW P (fcCode P) es s = .ok vs s' → vs.length = es.length
  | .nil, s, s', vs, h => by simp only [evalExprsW, Out.ok.injEq] at h; rw [← h.1]; rfl
  | .cons e rest, s, s', vs, h => by
    simp only [evalExprsW] at h
    cases he : evalW P (fcCode P) e s with
    | stop => rw [he] at h; simp [Out.bind] at h
    | ok v s1 =>
      rw [he] at h
      cases hr : evalExprsW P (fcCode P) rest s1 with
      | stop => rw [Out.bind, hr] at h; simp [Out.bind] at h
      | ok ws s2 =>
        rw [Out.bind, hr] at h
        simp only [Out.bind, Out.ok.injEq] at h
        rw [← h.1]
        simp [Exprs.length, evalExprs_length rest s1 s2 ws hr]

theorem exec_pattern (p : Γ.P) (v : Γ.V) (vs st : List Γ.V) (ls) (us : List Int) (s : S) :
    exec P (.pattern p vs.length) ⟨v :: (vs.reverse ++ st), ls, us, s⟩ = doOut ⟨v :: (vs.reverse ++ st), ls, us, s⟩ (v :: st) (P.pattern p vs v s) := by
  simp only [exec]
  rw [List.drop_left' (by simp), List.take_left' (by simp)]
  simp

mutual
theorem runs_expr (g : GCode O T) : ∀ (e : Expr Γ) (b : Bld O T) (st : List Γ.V) (ls us) (s : S), Agree b.done.length (emitExpr H.em e b) g →
    Runs H g (pl H b ⟨st, ls, us, s⟩) (evalW P (fcCode P) e s) (fun v s => pl H (emitExpr H.em e b) ⟨v :: st, ls, us, s⟩)
  | .const v, b, st, ls, us, s, h => by
    simp only [emitExpr, evalW] at h ⊢
    exact run_push_ok _ h rfl
  | .exit, b, st, ls, us, s, h => by
    simp only [emitExpr, evalW] at h ⊢
    exact runs_push_err _ h rfl _
  | .error f, b, st, ls, us, s, h => by
    simp only [emitExpr, evalW] at h ⊢
    exact runs_push_err _ h rfl _
  | .function v caps, b, st, ls, us, s, h => by
    simp only [emitExpr, evalW, emitCaptures] at h ⊢
    split
    · rename_i hc
      rw [if_pos hc] at h
      exact run_push_ok _ h rfl
    · rename_i hc
      rw [if_neg hc] at h
      have hg : ∀ (caps : List Γ.Q) (c : Bld O T), Grow c (caps.foldl (fun b q => b.push (H.em.op (.capture q))) c) := by
        intro caps
        induction caps with
        | nil => exact fun c => .refl _
        | cons q qs ih => exact fun c => (Grow.push' _ _).trans (ih _)
      have h2 := Agree.back h (hg caps _) (Nat.le_refl _)
      have h1 := Agree.back h2 (Grow.push' _ _) (Nat.le_refl _)
      refine runs_step _ h1 rfl ?_
      refine Runs.bind (runs_pushOut' _ h2 rfl) (fun v s => ?_)
      exact runs_captures caps _ g _ v st ls us s (Nat.le_refl _) h
  | .call f args, b, st, ls, us, s, h => by
    simp only [emitExpr, evalW] at h ⊢
    have gf := grow_expr H.em f b
    have ga := grow_args H.em args (emitExpr H.em f b) false
    have h1 := h.sub (Nat.le_refl _) gf (ga.trans (Grow.push' _ _))
    have h2 := h.sub gf.le ga (Grow.push' _ _)
    refine Runs.bind (runs_expr g f b st ls us s h1) (fun fv s => ?_)
    cases he : evalArgsW P (fcCode P) P.iter args s with
    | stop r s' =>
      have := runs_args g args (emitExpr H.em f b) false (fv :: st) ls us s (by simp) h2
      rw [he] at this
      exact this
    | ok vs s' =>
      have := runs_args g args (emitExpr H.em f b) false (fv :: st) ls us s (by simp) h2
      rw [he] at this
      refine Runs.after this ?_
      refine runs_pushOut' (st0 := vs.reverse ++ fv :: st) (s0 := s') (ls := ls) (us := us) (st := st) _ h (exec_call _ _ _ _ _ _ _ us _ ?_)
      cases hr : (emitArgs H.em args (emitExpr H.em f b) false).2 with
      | false => simp [bump]; exact emitArgs_false args _ _ _ _ _ hr he
      | true => simp [bump]
  | .compose x f, b, st, ls, us, s, h => by
    simp only [emitExpr, evalW] at h ⊢
    have gx := grow_expr H.em x b
    have gf := grow_expr H.em f (emitExpr H.em x b)
    have h1 := h.sub (Nat.le_refl _) gx ((gf.trans (Grow.push' _ _)).trans (Grow.push' _ _))
    have h2 := h.sub gx.le gf ((Grow.push' _ _).trans (Grow.push' _ _))
    have h3 := h.back (Grow.push' _ _) (gx.trans gf).le
    refine Runs.bind (runs_expr g x b st ls us s h1) (fun xv s => ?_)
    refine Runs.bind (runs_expr g f _ _ ls us s h2) (fun fv s => ?_)
    refine runs_step _ h3 rfl ?_
    exact runs_pushOut' (st0 := xv :: fv :: st) (ls := ls) (us := us) (s0 := s) _ h (exec_call 1 false fv [xv] st ls us us s ⟨rfl, rfl⟩)
  | .load x, b, st, ls, us, s, h => by
    cases x with
    | var x => 
      simp only [emitExpr, evalW, emitLoad, evalLVal] at h ⊢
      exact runs_pushOut' _ h rfl
    | thisField x fi =>
      simp only [emitExpr, evalW, emitLoad, evalLVal] at h ⊢
      exact Runs.bind (runs_pushOut' _ (h.back (Grow.push' _ _) (Nat.le_refl _)) rfl) (fun v s => runs_pushOut' _ h rfl)
    | thisMethod x m =>
      simp only [emitExpr, evalW, emitLoad, evalLVal] at h ⊢
      exact Runs.bind (runs_pushOut' _ (h.back (Grow.push' _ _) (Nat.le_refl _)) rfl) (fun v s => runs_pushOut' _ h rfl)
  | .unary op a, b, st, ls, us, s, h => by
    simp only [emitExpr, evalW] at h ⊢
    refine Runs.bind (runs_expr g a b st ls us s (h.sub (Nat.le_refl _) (grow_expr H.em a b) (Grow.push' _ _))) (fun v s => ?_)
    exact runs_pushOut' _ h rfl
  | .binary op l r swap, b, st, ls, us, s, h => by
    cases swap with
    | true =>
      simp only [emitExpr, evalW, if_true] at h ⊢
      have g1 := grow_expr H.em r b
      have g2 := grow_expr H.em l (emitExpr H.em r b)
      refine Runs.bind (runs_expr g r b st ls us s (h.sub (Nat.le_refl _) g1 ((g2.push _).push _))) (fun v s => ?_)
      refine Runs.bind (runs_expr g l _ _ ls us s (h.sub g1.le g2 ((Grow.push' _ _).push _))) (fun w s => ?_)
      refine runs_step _ (h.back (Grow.push' _ _) (g1.trans g2).le) rfl ?_
      exact runs_pushOut' _ h rfl
    | false =>
      simp only [emitExpr, evalW] at h ⊢
      have g1 := grow_expr H.em l b
      have g2 := grow_expr H.em r (emitExpr H.em l b)
      refine Runs.bind (runs_expr g l b st ls us s (h.sub (Nat.le_refl _) g1 (g2.push _))) (fun v s => ?_)
      refine Runs.bind (runs_expr g r _ _ ls us s (h.sub g1.le g2 (Grow.push' _ _))) (fun w s => ?_)
      exact runs_pushOut' _ h rfl
  | .compare l c, b, st, ls, us, s, h => by
    simp only [emitExpr, evalW] at h ⊢
    have gl := grow_expr H.em l b
    obtain ⟨gc, new, hp, hr, hnd⟩ := grow_chain H.em c (emitExpr H.em l b) []
    rw [List.nil_append] at hp
    have hj := joinAll_spec (H := H) _ _ _ g h (by rw [hp]; intro p hp; have := hr p hp; have := gl.le; omega) (by rw [hp]; exact hnd)
    have hJ : Joined H g b.done.length (emitChain H.em c (emitExpr H.em l b) []).1 (emitChain H.em c (emitExpr H.em l b) []).2
      (joinAll H.em (emitChain H.em c (emitExpr H.em l b) []).2 (emitChain H.em c (emitExpr H.em l b) []).1) := ⟨hj.1, hj.2.1, hj.2.2.1, hj.2.2.2⟩
    have hA : Agree b.done.length (emitExpr H.em l b) g := by
      refine ⟨fun i hi hi' => ?_, ?_⟩
      · rw [hJ.blocks i hi (by have := gc.le; omega) ?_, gc.keep i hi']
        rw [hp]
        intro hm
        obtain ⟨p, hp, he⟩ := List.mem_map.1 hm
        have := hr p hp; omega
      · obtain ⟨r1, hr1⟩ := gc.cur
        by_cases hlt : (emitExpr H.em l b).done.length < (emitChain H.em c (emitExpr H.em l b) []).1.done.length
        · rw [codeAt, graph_get_lt _ _ hlt] at hr1
          obtain ⟨y, hy, hy'⟩ := Option.map_eq_some_iff.1 hr1
          by_cases hm : (emitExpr H.em l b).done.length ∈ (emitChain H.em c (emitExpr H.em l b) []).2.map (·.2)
          · obtain ⟨p, hp, he⟩ := List.mem_map.1 hm
            obtain ⟨x, t, hx, hx', _⟩ := hJ.jumps p hp
            rw [he] at hx hx'
            rw [hy] at hx
            cases hx
            exact ⟨r1, by rw [codeAt, hx']; simp [hy']⟩
          · exact ⟨r1, by rw [codeAt, hJ.blocks _ gl.le hlt hm, hy]; simp [hy']⟩
        · have heq : (emitExpr H.em l b).done.length = (emitChain H.em c (emitExpr H.em l b) []).1.done.length := by have := gc.le; omega
          obtain ⟨r2, hr2⟩ := hJ.last
          rw [heq, codeAt, graph_get_len] at hr1
          simp at hr1
          exact ⟨r1 ++ r2, by rw [heq, hr2, hr1]; simp⟩
    refine Runs.bind (runs_expr g l b st ls us s hA) (fun v s => ?_)
    exact runs_chain g c (emitExpr H.em l b) [] _ b.done.length v st ls us s gl.le (by simp) hJ
  | .literal ty args, b, st, ls, us, s, h => by
    simp only [emitExpr, evalW] at h ⊢
    have ge := grow_elems H.em args (b.push (H.em.op (.litBegin ty args.length))) 0
    have h1 := h.sub (Nat.le_refl _) (Grow.push' _ _) (ge.trans (Grow.push' _ _))
    have h2 := h.sub (b1 := b.push (H.em.op (.litBegin ty args.length))) (Nat.le_refl _) ge (Grow.push' _ _)
    refine runs_step _ h1 (m' := ⟨st, (ty, []) :: ls, us, s⟩) rfl ?_
    refine Runs.bind (runs_elems g args _ [] ty [] st ls us s h2) (fun vs s => ?_)
    simp only [List.nil_append]
    exact runs_pushOut' _ h rfl
  | .sliceLit a₁ a₂, b, st, ls, us, s, h => by
    simp only [emitExpr, evalW] at h ⊢
    have g1 := grow_expr H.em a₁ b
    have g2 := grow_expr H.em a₂ (emitExpr H.em a₁ b)
    refine Runs.bind (runs_expr g a₁ b st ls us s (h.sub (Nat.le_refl _) g1 (g2.push _))) (fun v s => ?_)
    refine Runs.bind (runs_expr g a₂ _ _ ls us s (h.sub g1.le g2 (Grow.push' _ _))) (fun w s => ?_)
    exact runs_pushOut' _ h rfl
  | .sliceLit3 a₁ a₂ a₃, b, st, ls, us, s, h => by
    simp only [emitExpr, evalW] at h ⊢
    have g1 := grow_expr H.em a₁ b
    have g2 := grow_expr H.em a₂ (emitExpr H.em a₁ b)
    have g3 := grow_expr H.em a₃ (emitExpr H.em a₂ (emitExpr H.em a₁ b))
    refine Runs.bind (runs_expr g a₁ b st ls us s (h.sub (Nat.le_refl _) g1 ((g2.trans g3).push _))) (fun v s => ?_)
    refine Runs.bind (runs_expr g a₂ _ _ ls us s (h.sub g1.le g2 (g3.push _))) (fun w s => ?_)
    refine Runs.bind (runs_expr g a₃ _ _ ls us s (h.sub (g1.trans g2).le g3 (Grow.push' _ _))) (fun x s => ?_)
    exact runs_pushOut' _ h rfl
  | .and l r, b, st, ls, us, s, h => by
    simp only [emitExpr, evalW] at h ⊢
    have g1 := grow_expr H.em l b
    have g2 := grow_expr H.em r ((emitExpr H.em l b).branchForward.push (H.em.op .pop))
    obtain ⟨j1, j2, j3, j4⟩ := join_blocks _ g1.le ((Grow.push' _ _).trans g2) h
    refine Runs.bind (runs_expr g l b st ls us s j1) (fun v s => ?_)
    split
    · rename_i ht
      refine Runs.after (run_test (m' := ⟨v :: st, ls, us, s⟩) (j := false) j2 (by simp [execTest, ht])) ?_
      rw [if_neg (by simp), ← pl_branchForward]
      refine runs_step _ ((j3.back g2 (by rw [push_len, branchForward_len]; exact Nat.le_refl _)) ) (m' := ⟨st, ls, us, s⟩) rfl ?_
      refine Runs.weaken (runs_expr g r _ st ls us s (j3.mono (by rw [push_len, branchForward_len]; exact Nat.le_refl _))) (fun w s _ => ?_)
      rw [pl_joinForward]
      exact run_next j4 _
    · rename_i ht
      refine Runs.after (run_test (m' := ⟨v :: st, ls, us, s⟩) (j := true) j2 (by simp [execTest, ht])) ?_
      rw [if_pos rfl]
      exact Runs.ok (by rw [pl_joinForward])
  | .or l r, b, st, ls, us, s, h => by
    simp only [emitExpr, evalW] at h ⊢
    have g1 := grow_expr H.em l b
    have g2 := grow_expr H.em r ((emitExpr H.em l b).branchForward.push (H.em.op .pop))
    obtain ⟨j1, j2, j3, j4⟩ := join_blocks _ g1.le ((Grow.push' _ _).trans g2) h
    refine Runs.bind (runs_expr g l b st ls us s j1) (fun v s => ?_)
    split
    · rename_i ht
      refine Runs.after (run_test (m' := ⟨v :: st, ls, us, s⟩) (j := true) j2 (by simp [execTest, ht])) ?_
      rw [if_pos rfl]
      exact Runs.ok (by rw [pl_joinForward])
    · rename_i ht
      refine Runs.after (run_test (m' := ⟨v :: st, ls, us, s⟩) (j := false) j2 (by simp [execTest, ht])) ?_
      rw [if_neg (by simp), ← pl_branchForward]
      refine runs_step _ ((j3.back g2 (by rw [push_len, branchForward_len]; exact Nat.le_refl _)) ) (m' := ⟨st, ls, us, s⟩) rfl ?_
      refine Runs.weaken (runs_expr g r _ st ls us s (j3.mono (by rw [push_len, branchForward_len]; exact Nat.le_refl _))) (fun w s _ => ?_)
      rw [pl_joinForward]
      exact run_next j4 _
  | .index a i, b, st, ls, us, s, h => by
    simp only [emitExpr, evalW] at h ⊢
    have g1 := grow_expr H.em a b
    have g2 := grow_expr H.em i (emitExpr H.em a b)
    refine Runs.bind (runs_expr g a b st ls us s (h.sub (Nat.le_refl _) g1 (g2.push _))) (fun v s => ?_)
    refine Runs.bind (runs_expr g i _ _ ls us s (h.sub g1.le g2 (Grow.push' _ _))) (fun w s => ?_)
    exact runs_pushOut' _ h rfl
  | .slice a₁ a₂ a₃, b, st, ls, us, s, h => by
    simp only [emitExpr, evalW] at h ⊢
    have g1 := grow_expr H.em a₁ b
    have g2 := grow_expr H.em a₂ (emitExpr H.em a₁ b)
    have g3 := grow_expr H.em a₃ (emitExpr H.em a₂ (emitExpr H.em a₁ b))
    refine Runs.bind (runs_expr g a₁ b st ls us s (h.sub (Nat.le_refl _) g1 ((g2.trans g3).push _))) (fun v s => ?_)
    refine Runs.bind (runs_expr g a₂ _ _ ls us s (h.sub g1.le g2 (g3.push _))) (fun w s => ?_)
    refine Runs.bind (runs_expr g a₃ _ _ ls us s (h.sub (g1.trans g2).le g3 (Grow.push' _ _))) (fun x s => ?_)
    exact runs_pushOut' _ h rfl
  | .sliceStep a₁ a₂ a₃ a₄, b, st, ls, us, s, h => by
    simp only [emitExpr, evalW] at h ⊢
    have g1 := grow_expr H.em a₁ b
    have g2 := grow_expr H.em a₂ (emitExpr H.em a₁ b)
    have g3 := grow_expr H.em a₃ (emitExpr H.em a₂ (emitExpr H.em a₁ b))
    have g4 := grow_expr H.em a₄ (emitExpr H.em a₃ (emitExpr H.em a₂ (emitExpr H.em a₁ b)))
    refine Runs.bind (runs_expr g a₁ b st ls us s (h.sub (Nat.le_refl _) g1 (((g2.trans g3).trans g4).push _))) (fun v s => ?_)
    refine Runs.bind (runs_expr g a₂ _ _ ls us s (h.sub g1.le g2 ((g3.trans g4).push _))) (fun w s => ?_)
    refine Runs.bind (runs_expr g a₃ _ _ ls us s (h.sub (g1.trans g2).le g3 (g4.push _))) (fun x s => ?_)
    refine Runs.bind (runs_expr g a₄ _ _ ls us s (h.sub ((g1.trans g2).trans g3).le g4 (Grow.push' _ _))) (fun y s => ?_)
    exact runs_pushOut' _ h rfl
  | .ite c t e, b, st, ls, us, s, h => by
    simp only [emitExpr, evalW] at h ⊢
    have g1 := grow_expr H.em c b
    have g2 := grow_expr H.em t (emitExpr H.em c b).branchForward
    have g4 := grow_expr H.em e ((emitExpr H.em t (emitExpr H.em c b).branchForward).branchForward.joinForward (emitExpr H.em c b).done.length (some (H.em.br .ifFalsePop)))
    generalize hb1 : emitExpr H.em c b = b1 at h g1 g2 g4 ⊢
    generalize hb2 : emitExpr H.em t b1.branchForward = b2 at h g2 g4 ⊢
    have l2 := g2.le
    rw [branchForward_len] at l2
    have h3len : (b2.branchForward.joinForward b1.done.length (some (H.em.br .ifFalsePop))).done.length = b2.done.length + 2 := by rw [joinForward_len, branchForward_len]
    generalize hb4 : emitExpr H.em e (b2.branchForward.joinForward b1.done.length (some (H.em.br .ifFalsePop))) = b4 at h g4 ⊢
    have l4 := g4.le
    rw [h3len] at l4
    have l1 := g1.le
    -- the blocks
    have hblk : ∀ (i : Nat), b.done.length ≤ i → i < b4.done.length → i ≠ b2.done.length → g[i]? = b4.done[i]? := by
      intro i hi hi' hne
      rw [h.blocks i hi (by rw [joinForward_len]; omega), joinForward_get _ _ _ _ hi' hne]
    have hblk3 : ∀ (i : Nat), b.done.length ≤ i → i < b2.done.length → i ≠ b1.done.length → g[i]? = b2.done[i]? := by
      intro i hi hi' hne
      rw [hblk i hi (by omega) (by omega), g4.keep i (by omega), joinForward_get _ _ _ _ (by rw [branchForward_len]; omega) hne]
      exact List.getElem?_append_left hi'
    have hx1 : b2.done[b1.done.length]? = some ⟨b1.cur, .exit⟩ := by
      rw [g2.keep _ (by rw [branchForward_len]; omega)]; simp [Bld.branchForward]
    have j1 : g[b1.done.length]? = some ⟨b1.cur, .branch (H.em.br .ifFalsePop) (b1.done.length + 1) (b2.done.length + 2)⟩ := by
      rw [hblk _ l1 (by omega) (by omega), g4.keep _ (by omega), joinForward_get_i _ _ _ (by rw [branchForward_len]; omega) ⟨b1.cur, .exit⟩ ?_, branchForward_len]
      · rfl
      · rw [← hx1]; exact List.getElem?_append_left (by omega)
    have j2 : g[b2.done.length]? = some ⟨b2.cur, .next (b4.done.length + 1)⟩ := by
      rw [h.blocks _ (by omega) (by rw [joinForward_len]; omega), joinForward_get_i _ _ _ (by omega) ⟨b2.cur, .exit⟩ ?_]
      · rfl
      · rw [g4.keep _ (by omega), joinForward_get _ _ _ _ (by rw [branchForward_len]; omega) (by omega)]
        simp [Bld.branchForward]
    have j4 : g[b4.done.length]? = some ⟨b4.cur, .next (b4.done.length + 1)⟩ := by
      rw [h.blocks _ (by omega) (by rw [joinForward_len]; omega), joinForward_get_len _ _ _ (by omega)]
    have A1 : Agree b.done.length b1 g := by
      refine ⟨fun i hi hi' => ?_, [], by simp [codeAt, j1]⟩
      rw [hblk3 i hi (by omega) (by omega), g2.keep i (by rw [branchForward_len]; omega)]
      exact List.getElem?_append_left hi'
    have A2 : Agree b1.branchForward.done.length b2 g := by
      refine ⟨fun i hi hi' => ?_, [], by simp [codeAt, j2]⟩
      rw [branchForward_len] at hi
      exact hblk3 i (by omega) hi' (by omega)
    have A4 : Agree (b2.branchForward.joinForward b1.done.length (some (H.em.br .ifFalsePop))).done.length b4 g := by
      refine ⟨fun i hi hi' => ?_, [], by simp [codeAt, j4]⟩
      rw [h3len] at hi
      exact hblk i (by omega) hi' (by omega)
    have rc := runs_expr g c b st ls us s (by rw [hb1]; exact A1)
    rw [hb1] at rc
    refine Runs.bind rc (fun v s => ?_)
    split
    · rename_i ht
      refine Runs.after (run_test (m' := ⟨st, ls, us, s⟩) (j := false) j1 (by simp [execTest, ht])) ?_
      rw [if_neg (by simp), ← pl_branchForward]
      have rt := runs_expr g t b1.branchForward st ls us s (by rw [hb2]; exact A2)
      rw [hb2] at rt
      refine Runs.weaken rt (fun w s _ => ?_)
      rw [pl_joinForward]
      exact run_next j2 _
    · rename_i ht
      refine Runs.after (run_test (m' := ⟨st, ls, us, s⟩) (j := true) j1 (by simp [execTest, ht])) ?_
      rw [if_pos rfl]
      have re := runs_expr g e (b2.branchForward.joinForward b1.done.length (some (H.em.br .ifFalsePop))) st ls us s (by rw [hb4]; exact A4)
      rw [hb4, pl_joinForward, branchForward_len] at re
      refine Runs.weaken re (fun w s _ => ?_)
      rw [pl_joinForward]
      exact run_next j4 _
  | .getField a fi, b, st, ls, us, s, h => by
    simp only [emitExpr, evalW] at h ⊢
    refine Runs.bind (runs_expr g a b st ls us s (h.sub (Nat.le_refl _) (grow_expr H.em a b) (Grow.push' _ _))) (fun v s => ?_)
    exact runs_pushOut' _ h rfl
  | .setField a fi r, b, st, ls, us, s, h => by
    simp only [emitExpr, evalW] at h ⊢
    have g1 := grow_expr H.em a b
    have g2 := grow_expr H.em r (emitExpr H.em a b)
    refine Runs.bind (runs_expr g a b st ls us s (h.sub (Nat.le_refl _) g1 (g2.push _))) (fun v s => ?_)
    refine Runs.bind (runs_expr g r _ _ ls us s (h.sub g1.le g2 (Grow.push' _ _))) (fun w s => ?_)
    exact runs_pushOut' _ h rfl
  | .swapField a fi op r, b, st, ls, us, s, h => by
    simp only [emitExpr, evalW] at h ⊢
    have g1 := grow_expr H.em a b
    have g2 := grow_expr H.em r ((emitExpr H.em a b).push (H.em.op (.getFieldPeek fi)))
    refine Runs.bind (runs_expr g a b st ls us s (h.sub (Nat.le_refl _) g1 ((((Grow.push' _ _).trans g2).push _).push _))) (fun v s => ?_)
    refine Runs.bind (runs_pushOut' _ (h.back ((g2.push _).push _) g1.le) rfl) (fun old s => ?_)
    refine Runs.bind (runs_expr g r _ _ ls us s (h.sub g1.le g2 ((Grow.push' _ _).push _))) (fun w s => ?_)
    refine Runs.bind (runs_pushOut' (st := v :: st) (st0 := w :: old :: v :: st) (ls := ls) (us := us) (s0 := s) _ (h.back (Grow.push' _ _) ((g1.push _).trans g2).le) ?_) (fun new s => ?_)
    · cases op
      · show pushOut _ _ (P.binary H.em.ne old w s) = _
        rw [H.ne]; rfl
      · rfl
    · exact runs_pushOut' _ h rfl
  | .assign x r, b, st, ls, us, s, h => by
    cases x with
    | var x =>
      simp only [emitExpr, evalW, emitStorePrefix, emitStore] at h ⊢
      have g1 := grow_expr H.em r b
      refine Runs.bind (runs_expr g r b st ls us s (h.sub (Nat.le_refl _) g1 (Grow.push' _ _))) (fun v s => ?_)
      cases ho : P.store x v s with
      | ok u s' =>
        exact run_push_ok _ h (by simp [exec, ho, doOut])
      | stop r s' => exact runs_push_err _ h (by simp [exec, ho, doOut]) _
    | thisField x fi =>
      simp only [emitExpr, evalW, emitStorePrefix, emitStore] at h ⊢
      have g1 := grow_expr H.em r (b.push (H.em.op (.load x)))
      refine Runs.bind (runs_pushOut' _ (h.sub (Nat.le_refl _) (Grow.push' _ _) (g1.push _)) rfl) (fun v s => ?_)
      refine Runs.bind (runs_expr g r _ _ ls us s (h.sub (Nat.le_refl _) g1 (Grow.push' _ _))) (fun w s => ?_)
      exact runs_pushOut' _ h rfl
    | thisMethod x m =>
      simp only [emitExpr, evalW, emitStorePrefix, emitStore] at h ⊢
      exact runs_expr g r b st ls us s h
  | .pattern ts p r, b, st, ls, us, s, h => by
    simp only [emitExpr, evalW] at h ⊢
    have g1 := grow_exprs H.em ts b
    have g2 := grow_expr H.em r (emitExprs H.em ts b)
    have he := runs_exprs g ts b st ls us s (h.sub (Nat.le_refl _) g1 (g2.push _))
    cases hv : evalExprsW P (fcCode P) ts s with
    | stop r s' => rw [hv] at he; exact he
    | ok vs s' =>
      rw [hv] at he
      refine Runs.after he ?_
      rw [Out.ok_bind]
      refine Runs.bind (runs_expr g r _ _ ls us s' (h.sub g1.le g2 (Grow.push' _ _))) (fun v s => ?_)
      have hex := exec_pattern (P := P) p v vs st ls us s
      rw [evalExprs_length ts _ s' vs hv] at hex
      cases ho : P.pattern p vs v s with
      | ok u s'' => exact run_push_ok _ h (by rw [hex, ho]; rfl)
      | stop r s'' => exact runs_push_err _ h (by rw [hex, ho]; rfl) _
  | .arraySet a i r, b, st, ls, us, s, h => by
    simp only [emitExpr, evalW] at h ⊢
    have g1 := grow_expr H.em a b
    have g2 := grow_expr H.em i (emitExpr H.em a b)
    have g3 := grow_expr H.em r (emitExpr H.em i (emitExpr H.em a b))
    refine Runs.bind (runs_expr g a b st ls us s (h.sub (Nat.le_refl _) g1 ((g2.trans g3).push _))) (fun v s => ?_)
    refine Runs.bind (runs_expr g i _ _ ls us s (h.sub g1.le g2 (g3.push _))) (fun w s => ?_)
    refine Runs.bind (runs_expr g r _ _ ls us s (h.sub (g1.trans g2).le g3 (Grow.push' _ _))) (fun x s => ?_)
    cases ho : P.setIndex v w x s with
    | ok u s' => exact run_push_ok _ h (by simp [exec, ho, doOut])
    | stop r s' => exact runs_push_err _ h (by simp [exec, ho, doOut]) _
  | .arrayOp a i op r, b, st, ls, us, s, h => by
    have g1 := grow_expr H.em a b
    have g2 := grow_expr H.em i (emitExpr H.em a b)
    have g3 := grow_expr H.em r ((emitExpr H.em i (emitExpr H.em a b)).push (H.em.op .indexPeek))
    have g23 := (Grow.push' (emitExpr H.em i (emitExpr H.em a b)) (H.em.op .indexPeek)).trans g3
    have hlo := ((g1.trans g2).trans g23).le
    cases op with
    | none =>
      simp only [emitExpr, evalW] at h ⊢
      refine Runs.bind (runs_expr g a b st ls us s (h.sub (Nat.le_refl _) g1 ((((g2.trans g23).push _).push _).push _))) (fun v s => ?_)
      refine Runs.bind (runs_expr g i _ _ ls us s (h.sub g1.le g2 (((g23.push _).push _).push _))) (fun w s => ?_)
      refine Runs.bind (runs_pushOut' _ (h.back (((g3.push _).push _).push _) (g1.trans g2).le) rfl) (fun old s => ?_)
      refine Runs.bind (runs_expr g r _ _ ls us s (h.sub (g1.trans g2).le g3 (((Grow.push' _ _).push _).push _))) (fun f s => ?_)
      refine runs_step _ (h.back ((Grow.push' _ _).push _) hlo) rfl ?_
      refine Runs.bind (runs_pushOut' (st0 := old :: f :: w :: v :: st) (ls := ls) (us := us) (s0 := s) _ (h.back (Grow.push' _ _) hlo) (exec_call 1 false f [old] (w :: v :: st) ls us us s ⟨rfl, rfl⟩)) (fun x s => ?_)
      cases ho : P.setIndex v w x s with
      | ok u s' => exact run_push_ok _ h (by simp [exec, ho, doOut])
      | stop r s' => exact runs_push_err _ h (by simp [exec, ho, doOut]) _
    | some op =>
      simp only [emitExpr, evalW] at h ⊢
      refine Runs.bind (runs_expr g a b st ls us s (h.sub (Nat.le_refl _) g1 ((((g2.trans g23).push _).push _)))) (fun v s => ?_)
      refine Runs.bind (runs_expr g i _ _ ls us s (h.sub g1.le g2 (((g23.push _).push _)))) (fun w s => ?_)
      refine Runs.bind (runs_pushOut' _ (h.back (((g3.push _).push _)) (g1.trans g2).le) rfl) (fun old s => ?_)
      refine Runs.bind (runs_expr g r _ _ ls us s (h.sub (g1.trans g2).le g3 ((Grow.push' _ _).push _))) (fun f s => ?_)
      refine Runs.bind (runs_pushOut' _ (h.back (Grow.push' _ _) hlo) rfl) (fun x s => ?_)
      cases ho : P.setIndex v w x s with
      | ok u s' => exact run_push_ok _ h (by simp [exec, ho, doOut])
      | stop r s' => exact runs_push_err _ h (by simp [exec, ho, doOut]) _
theorem runs_args (g : GCode O T) : ∀ (args : Args Γ) (b : Bld O T) (u : Bool) (st : List Γ.V) (ls us) (s : S), (u = true → us ≠ []) → Agree b.done.length (emitArgs H.em args b u).1 g →
    Runs H g (pl H b ⟨st, ls, us, s⟩) (evalArgsW P (fcCode P) P.iter args s)
      (fun vs s => pl H (emitArgs H.em args b u).1 ⟨vs.reverse ++ st, ls, bump u (emitArgs H.em args b u).2 ((vs.length : Int) - args.length) us, s⟩)
  | .nil, b, u, st, ls, us, s, hu, h => by
    simp only [emitArgs, evalArgsW]
    refine Runs.ok ?_
    cases u with
    | false => simp [bump]
    | true => cases us with
      | nil => simp at hu
      | cons k us => simp [bump, Args.length]
  | .plain e rest, b, u, st, ls, us, s, hu, h => by
    simp only [emitArgs, evalArgsW] at h ⊢
    have g1 := grow_expr H.em e b
    have g2 := grow_args H.em rest (emitExpr H.em e b) u
    refine Runs.bind (runs_expr g e b st ls us s (h.sub (Nat.le_refl _) g1 g2)) (fun v s => ?_)
    refine Runs.bind (runs_args g rest _ u (v :: st) ls us s hu (h.mono g1.le)) (fun vs s => ?_)
    refine Runs.ok ?_
    have : ((v :: vs).length : Int) - ((Args.plain e rest).length : Int) = (vs.length : Int) - rest.length := by
      simp only [List.length_cons, Args.length]; omega
    simp only [List.reverse_cons, List.append_assoc, List.singleton_append, this]
  | .unroll e rest, b, u, st, ls, us, s, hu, h => by
    simp only [emitArgs, evalArgsW] at h ⊢
    have g1 := grow_expr H.em e b
    have g2 := grow_args H.em rest ((emitExpr H.em e b).push (H.em.op (.unroll (!u)))) true
    refine Runs.bind (runs_expr g e b st ls us s (h.sub (Nat.le_refl _) g1 ((Grow.push' _ _).trans g2))) (fun v s => ?_)
    have hA := h.sub g1.le (Grow.push' _ _) g2
    cases hi : P.iter v s with
    | stop r s' =>
      cases u with
      | false => exact runs_push_err _ hA (by simp [exec, hi]) _
      | true => cases us with
        | nil => simp at hu
        | cons k us => exact runs_push_err _ hA (by simp [exec, hi]) _
    | ok xs s' =>
      have hex : exec P (.unroll (!u)) ⟨v :: st, ls, us, s⟩ = .ok ⟨xs.reverse ++ st, ls, bump u true ((xs.length : Int) - 1) us, s'⟩ := by
        cases u with
        | false => simp [exec, hi, bump]
        | true => cases us with
          | nil => simp at hu
          | cons k us => simp [exec, hi, bump]
      rw [Out.ok_bind]
      refine runs_step _ hA hex ?_
      refine Runs.bind (runs_args g rest _ true _ ls _ s' ?_ (h.mono g1.le)) (fun vs s => ?_)
      · intro _
        cases u with
        | false => simp [bump]
        | true => cases us with
          | nil => simp at hu
          | cons k us => simp [bump]
      · refine Runs.ok ?_
        rw [emitArgs_true]
        have : bump true true ((vs.length : Int) - rest.length) (bump u true ((xs.length : Int) - 1) us) =
            bump u true (((xs ++ vs).length : Int) - (Args.unroll e rest).length) us := by
          cases u with
          | false => simp only [bump, List.length_append, Args.length]; simp; omega
          | true => cases us with
            | nil => simp at hu
            | cons k us => simp only [bump, List.length_append, Args.length]; simp; omega
        rw [this]
        simp
theorem runs_elems (g : GCode O T) : ∀ (args : Args Γ) (b : Bld O T) (acc : List Γ.V) (ty : LitTy) (xs st : List Γ.V) (ls us) (s : S), Agree b.done.length (emitElems H.em args b acc.length) g →
    Runs H g (pl H b ⟨acc.reverse ++ st, (ty, xs) :: ls, us, s⟩) (evalArgsW P (fcCode P) (P.spread ty) args s)
      (fun vs s => pl H (emitElems H.em args b acc.length) ⟨st, (ty, xs ++ acc ++ vs) :: ls, us, s⟩)
  | .nil, b, acc, ty, xs, st, ls, us, s, h => by
    simp only [emitElems, evalArgsW] at h ⊢
    simp only [Runs, List.append_nil]
    exact runs_acc ty xs acc st ls us s h
  | .plain e rest, b, acc, ty, xs, st, ls, us, s, h => by
    simp only [emitElems, evalArgsW] at h ⊢
    have g1 := grow_expr H.em e b
    have g2 := grow_elems H.em rest (emitExpr H.em e b) (acc.length + 1)
    refine Runs.bind (runs_expr g e b _ _ us s (h.sub (Nat.le_refl _) g1 g2)) (fun v s => ?_)
    have h2 := runs_elems g rest (emitExpr H.em e b) (acc ++ [v]) ty xs st ls us s (by rw [List.length_append]; exact h.mono g1.le)
    rw [List.length_append, List.length_singleton, List.reverse_append, List.reverse_singleton, List.append_assoc] at h2
    refine Runs.bind h2 (fun vs s => ?_)
    exact Runs.ok (by simp)
  | .unroll e rest, b, acc, ty, xs, st, ls, us, s, h => by
    simp only [emitElems, evalArgsW] at h ⊢
    have g0 := grow_acc (H := H.em) acc.length b
    have g1 := grow_expr H.em e (emitAcc H.em acc.length b)
    have g2 := grow_elems H.em rest ((emitExpr H.em e (emitAcc H.em acc.length b)).push (H.em.op .litUnroll)) 0
    refine Runs.after (runs_acc ty xs acc st ls us s (h.back ((g1.push _).trans g2) g0.le)) ?_
    refine Runs.bind (runs_expr g e _ _ _ us s (h.sub g0.le g1 ((Grow.push' _ _).trans g2))) (fun v s => ?_)
    have hA := h.back g2 (g0.trans g1).le
    cases hi : P.spread ty v s with
    | stop r s' => exact runs_push_err _ hA (by simp [exec, hi]) _
    | ok ys s' =>
      rw [Out.ok_bind]
      refine runs_step _ hA (m' := ⟨st, (ty, xs ++ acc ++ ys) :: ls, us, s'⟩) (by simp [exec, hi]) ?_
      refine Runs.bind (runs_elems g rest _ [] ty (xs ++ acc ++ ys) st ls us s' (h.mono (g0.trans g1).le)) (fun vs s => ?_)
      exact Runs.ok (by simp)
theorem runs_chain (g : GCode O T) : ∀ (c : Chain Γ) (b : Bld O T) (pend : List (Γ.C × Nat)) (fin : Bld O T) (lo : Nat) (l : Γ.V) (st : List Γ.V) (ls us) (s : S), lo ≤ b.done.length → (∀ p ∈ pend, p.2 < b.done.length) → 
    Joined H g lo (emitChain H.em c b pend).1 (emitChain H.em c b pend).2 fin →
    Runs H g (pl H b ⟨l :: st, ls, us, s⟩) (evalChainW P (fcCode P) c l s) (fun v s => pl H fin ⟨v :: st, ls, us, s⟩)
  | .last op e, b, pend, fin, lo, l, st, ls, us, s, hlo, hpend, hJ => by
    simp only [emitChain, evalChainW] at hJ ⊢
    have g1 := grow_expr H.em e b
    have hA : Agree b.done.length ((emitExpr H.em e b).push (H.em.op (.binary (H.em.ofCmp op)))) g := by
      refine ⟨fun i hi hi' => hJ.blocks i (by omega) hi' ?_, hJ.last⟩
      intro hm
      obtain ⟨p, hp, he⟩ := List.mem_map.1 hm
      have := hpend p hp; omega
    refine Runs.bind (runs_expr g e b _ ls us s (hA.back (Grow.push' _ _) g1.le)) (fun r s => ?_)
    obtain ⟨es, hes⟩ := run_push_ok (H := H) (m := ⟨r :: l :: st, ls, us, s⟩) (m' := ⟨P.bool (P.cmp op l r s) :: st, ls, us, s⟩) _ hA (by simp [exec, H.ofCmp, P.ofCmp_spec, pushOut])
    obtain ⟨fs, hfs⟩ := hJ.run ⟨P.bool (P.cmp op l r s) :: st, ls, us, s⟩
    exact ⟨_, GRun.append hes hfs⟩
  | .more op e rest, b, pend, fin, lo, l, st, ls, us, s, hlo, hpend, hJ => by
    simp only [emitChain, evalChainW] at hJ ⊢
    have g1 := grow_expr H.em e b
    obtain ⟨gc, new, hp, hr, hnd⟩ := grow_chain H.em rest (emitExpr H.em e b).branchForward (pend ++ [(op, (emitExpr H.em e b).done.length)])
    have l1 := g1.le
    have lc := gc.le
    rw [branchForward_len] at lc
    obtain ⟨x, t, hx, hx', ht⟩ := hJ.jumps (op, (emitExpr H.em e b).done.length) (by rw [hp]; simp)
    have hxe : x = ⟨(emitExpr H.em e b).cur, .exit⟩ := by
      rw [gc.keep _ (by rw [branchForward_len]; simp)] at hx
      simp [Bld.branchForward] at hx
      exact hx.symm
    subst hxe
    have hA : Agree b.done.length (emitExpr H.em e b) g := by
      refine ⟨fun i hi hi' => ?_, [], by simp [codeAt, hx']⟩
      rw [hJ.blocks i (by omega) (by omega) ?_, gc.keep i (by rw [branchForward_len]; omega)]
      · exact List.getElem?_append_left hi'
      · rw [hp]
        intro hm
        obtain ⟨p, hp', he⟩ := List.mem_map.1 hm
        rcases List.mem_append.1 hp' with hp' | hp'
        · rcases List.mem_append.1 hp' with hp' | hp'
          · have := hpend p hp'; omega
          · simp at hp'; subst hp'; simp at he; omega
        · have := hr p hp'
          rw [branchForward_len] at this
          omega
    refine Runs.bind (runs_expr g e b _ ls us s hA) (fun r s => ?_)
    split
    · rename_i hc
      refine Runs.after (run_test (m' := ⟨r :: st, ls, us, s⟩) (j := false) hx' (by simp [execTest, hc])) ?_
      rw [if_neg (by simp), show (op, (emitExpr H.em e b).done.length).2 + 1 = (emitExpr H.em e b).done.length + 1 from rfl, ← pl_branchForward]
      refine runs_chain g rest _ _ fin lo r st ls us s (by rw [branchForward_len]; omega) ?_ hJ
      intro p hp'
      rw [branchForward_len]
      rcases List.mem_append.1 hp' with hp' | hp'
      · have := hpend p hp'; omega
      · simp at hp'; subst hp'; simp
    · rename_i hc
      refine Runs.after (run_test (m' := ⟨P.bool false :: st, ls, us, s⟩) (j := true) hx' (by simp [execTest, hc])) ?_
      rw [if_pos rfl]
      exact ht _
theorem runs_exprs (g : GCode O T) : ∀ (es : Exprs Γ) (b : Bld O T) (st : List Γ.V) (ls us) (s : S), Agree b.done.length (emitExprs H.em es b) g →
    Runs H g (pl H b ⟨st, ls, us, s⟩) (evalExprsW P (fcCode P) es s) (fun vs s => pl H (emitExprs H.em es b) ⟨vs.reverse ++ st, ls, us, s⟩)
  | .nil, b, st, ls, us, s, h => by
    simp only [emitExprs, evalExprsW] at h ⊢
    exact Runs.ok rfl
  | .cons e rest, b, st, ls, us, s, h => by
    simp only [emitExprs, evalExprsW] at h ⊢
    have g1 := grow_expr H.em e b
    have g2 := grow_exprs H.em rest (emitExpr H.em e b)
    refine Runs.bind (runs_expr g e b st ls us s (h.sub (Nat.le_refl _) g1 g2)) (fun v s => ?_)
    refine Runs.bind (runs_exprs g rest _ _ ls us s (h.mono g1.le)) (fun vs s => ?_)
    exact Runs.ok (by simp)
end

end Cordy.Codegen
