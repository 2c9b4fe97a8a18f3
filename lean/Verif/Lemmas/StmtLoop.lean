import Verif.Lemmas.StmtSim
/-! Blocks and loops: C64. -/
namespace Cordy.Stmts
open Cordy.Builder
open Cordy.Graph (Place gstep Code)
variable {Γ : Sig} {S R : Type} {Λ : Machine Γ S R} {g : Code (Op Γ) (Br Γ) Unit} {fuel : Nat} {em : Em Γ} [Compiles Λ em]

/-- The code emitted by `f` does what `run` does. -/
def Sim (Λ : Machine Γ S R) (g : Code (Op Γ) (Br Γ) Unit) (fuel : Nat) (f : PS Γ → PS Γ) (run : List Γ.V → S → Option (Res Γ S R)) (k : K Γ S) (ps : PS Γ) : Prop :=
  Agree ps.b.done.length (f ps).b g (· ∈ brks (f ps)) → Brk Λ g k ps.b.done.length (brks (f ps)) →
  ∀ (env : List Γ.V) (pend : Option Γ.V) (s : S), env.length = ps.locals.length → pend.isSome = ps.flag →
    Out Λ g fuel k (f ps) (pl ps.b ⟨env ++ pend.toList, s⟩) (run env s)

theorem leave_b (q : PS Γ) : q.leave.b = (q.pops (q.above q.scope)).b := rfl

/-- Leaving a scope: the variables go, and the pending value. -/
theorem reach_leave {lo : Nat} {ex : Nat → Prop} {q : PS Γ} (h : Agree lo q.leave.delayedPop.b g ex) (hlo : lo ≤ q.b.done.length) (env : List Γ.V) (pend : Option Γ.V) (hp : pend.isSome = q.flag) (s : S) {n : Nat}
    (hn : env.length = n + q.above q.scope) : Reach (sem Λ) g (pl q.b ⟨env ++ pend.toList, s⟩) (pl q.leave.delayedPop.b ⟨env.take n, s⟩) := by
  have h1 : Agree lo q.leave.b g ex := h.back (dp_grow _) (by rw [leave_b, pops_len]; exact hlo)
  have h2 := reach_pops (Λ := Λ) (q.above q.scope) q h1 hlo (env ++ pend.toList) s (by simp; omega)
  refine Reach.trans h2 ?_
  rw [← leave_b]
  rw [← leave_flag] at hp
  unfold PS.delayedPop at h ⊢
  split at h
  · rename_i hf
    rw [if_pos hf]
    rw [hf] at hp
    obtain ⟨v, rfl⟩ := Option.isSome_iff_exists.1 hp
    refine reach_push (sm := sem Λ) (b := q.leave.b) h ?_
    have e1 : (env ++ [v]).length - q.above q.scope = n + 1 := by simp; omega
    simp only [Option.toList_some, e1]
    have e2 : (env ++ [v]).take (n + 1) ≠ [] := by
      intro hh
      have := congrArg List.length hh
      simp at this
    have e3 : ((env ++ [v]).take (n + 1)).dropLast = env.take n := by
      rw [List.dropLast_eq_take, List.take_take, List.length_take, List.length_append, List.length_singleton, List.take_append_of_le_length (by omega)]
      congr 1
      omega
    simp [sem, exec, e2, e3]
  · rename_i hf
    rw [if_neg hf]
    have : pend = none := by
      cases pend with
      | none => rfl
      | some v => simp only [Option.isSome_some] at hp; exact absurd hp.symm hf
    subst this
    have e1 : env.length - q.above q.scope = n := by omega
    simp [e1]
    exact .refl _

theorem sim_block {ps : PS Γ} {k : K Γ S} (hi : Inv ps) (hc : Ctx 1 k ps) {f : PS Γ → PS Γ} (hf : ∀ q, Inv q → Tab q (f q)) {run : List Γ.V → S → Option (Res Γ S R)}
    (hs : Sim Λ g fuel f run k ps.enter) : Sim Λ g fuel (·.block f) (inScope run) k ps := by
  intro hag hbr env pend s hl hp
  have ht := hf _ hi.enter
  have hlen : ps.enter.b.done.length = ps.b.done.length := by simp
  simp only [block_eq] at hag hbr ⊢
  have e1 : Ext (f ps.enter) (f ps.enter).leave.delayedPop := (Ext.refl _).leave.dp
  have hle := ht.ext.grow.le
  have ag1 : Agree ps.b.done.length (f ps.enter).b g (· ∈ brks (f ps.enter)) := hag.sub e1 (by omega)
  have ag0 := ag1.sub ht.ext (by omega)
  have ho := hs (by rw [hlen]; exact ag1) (hbr.sub e1 (by omega)) env none s (by simpa using hl) (by simp)
  obtain ⟨j, hj⟩ := ht.locals
  simp only [enter_locals, enter_scope] at hj
  obtain ⟨ha, hll⟩ := leave_locals hi.locals (ht.scope.trans (enter_scope ps)) hj
  refine Out.pre (reach_dp (q := ps) ag0 env pend hp s) ?_
  simp only [Option.toList_none, List.append_nil, enter_b] at ho
  have hlj : (f ps.enter).locals.length = ps.locals.length + j := by rw [hj]; simp
  simp only [inScope]
  cases hr : run env s with
  | none => rw [hr] at ho; exact ho
  | some r =>
    rw [hr] at ho
    cases r with
    | normal env' val s' =>
      obtain ⟨o1, o2, o3⟩ := ho
      refine ⟨?_, by simp, ?_⟩
      · simp only [dp_locals, hll, List.length_take]; omega
      · simp only [Option.toList_none, List.append_nil]
        exact o3.trans (reach_leave hag (by omega) env' val o2 s' (by rw [ha]; omega))
    | brk env' s' =>
      obtain ⟨o1, o2, o3⟩ := ho
      obtain ⟨l, ls, _, hh, _⟩ := hc.brk o1
      refine ⟨o1, by rw [List.length_take]; omega, ?_⟩
      rw [List.take_take, Nat.min_eq_left (by omega)]
      exact o3
    | cont env' s' =>
      obtain ⟨o1, o2, o3⟩ := ho
      obtain ⟨l, ls, _, hh, _⟩ := hc.cont o1
      refine ⟨o1, by rw [List.length_take]; omega, ?_⟩
      rw [List.take_take, Nat.min_eq_left (by omega)]
      exact o3
    | ret v s' => exact ho
    | stop r => exact ho

/-- In a block no more variables are known outside than at its start. -/
def Bounded (n : Nat) : Option (Res Γ S R) → Prop
  | some (.brk env _) => env.length ≤ n
  | some (.cont env _) => env.length ≤ n
  | _ => True

theorem bounded_inScope (run : List Γ.V → S → Option (Res Γ S R)) (env : List Γ.V) (s : S) : Bounded env.length (inScope run env s) := by
  unfold inScope
  rcases run env s with _ | (_ | _ | _ | _ | _) <;> simp [Res.leave, Bounded, List.length_take, Nat.min_le_left]

/-! ## Turns -/

/-- What the code of one turn of a loop does, that starts at `a`, with `iN` variables, and is followed by `q`. `post`: what is left of the result outside. -/
def TOut (Λ : Machine Γ S R) (g : Code (Op Γ) (Br Γ) Unit) (fuel : Nat) (k : K Γ S) (q a : PS Γ) (iN : Nat) (post : Res Γ S R → Res Γ S R) (p : Place (Mach Γ S)) : Option (Turn Γ S R) → Prop
  | none => Long (sem Λ) g fuel p
  | some (.again env s) => env.length = iN ∧ Reach1 Λ g p (pl a.b ⟨env, s⟩)
  | some (.done r) => Out Λ g fuel k q p (some (post r))

theorem TOut.pre {k : K Γ S} {q a : PS Γ} {iN : Nat} {post : Res Γ S R → Res Γ S R} {p p' : Place (Mach Γ S)} (h : Reach (sem Λ) g p p') {t : Option (Turn Γ S R)} (ho : TOut Λ g fuel k q a iN post p' t) : TOut Λ g fuel k q a iN post p t := by
  rcases t with _ | (_ | _)
  · exact h.long ho
  · exact ⟨ho.1, h.one_right ho.2⟩
  · exact Out.pre h ho

theorem loop_sim {k : K Γ S} {q a : PS Γ} {iN : Nat} {post : Res Γ S R → Res Γ S R} {turn : List Γ.V → S → Option (Turn Γ S R)}
    (ht : ∀ env s, env.length = iN → TOut Λ g fuel k q a iN post (pl a.b ⟨env, s⟩) (turn env s)) :
    ∀ n, n ≤ fuel → ∀ env s, env.length = iN → Out Λ g n k q (pl a.b ⟨env, s⟩) ((loopN n turn env s).map post) := by
  intro n
  induction n with
  | zero => intro _ env s _; exact ⟨0, _, Nat.le_refl _, .refl⟩
  | succ n ih =>
    intro hn env s he
    have h := ht env s he
    unfold loopN
    rcases hr : turn env s with _ | (⟨env', s'⟩ | r)
    · rw [hr] at h
      obtain ⟨m, c, hm, h⟩ := h
      exact ⟨m, c, by omega, h⟩
    · rw [hr] at h
      obtain ⟨h1, h2⟩ := h
      have h3 := ih (by omega) env' s' h1
      simp only
      cases hl : (loopN n turn env' s').map post with
      | none =>
        rw [hl] at h3
        obtain ⟨m, c, hm, h4⟩ := h3
        obtain ⟨j, hj, h2⟩ := h2
        exact ⟨j + m, c, by omega, h2.trans h4⟩
      | some r =>
        rw [hl] at h3
        have h4 := Out.pre h2.reach h3
        rcases r with _ | _ | _ | _ | _ <;> exact h4
    · rw [hr] at h
      exact Out.mono hn h

/-- What is known of the end of a loop. -/
structure LoopEnd (k1 : K Γ S) (q a : PS Γ) (post : Res Γ S R → Res Γ S R) : Prop where
  D : k1.D = pl q.b
  flag : q.flag = false
  locals : q.locals.length = k1.eN
  C : k1.lp = some true → k1.C = pl a.b
  normal : ∀ env s, k1.eN ≤ env.length → env.length ≤ k1.iN → post (.normal env none s) = .normal (env.take k1.eN) none s
  ret : ∀ v s, post (.ret v s) = .ret v s
  stop : ∀ r, post (.stop r) = .stop r
  le : k1.eN ≤ k1.iN

theorem after_body {k k1 : K Γ S} {q a b : PS Γ} {post : Res Γ S R → Res Γ S R} (he : LoopEnd k1 q a post) (hlp : k1.lp = some true) (hb : b.locals.length = k1.iN) (hf : b.flag = false)
    {p : Place (Mach Γ S)} {r : Option (Res Γ S R)} (hback : (∃ env v s, r = some (.normal env v s)) → ∀ m, Reach1 Λ g (pl b.b m) (pl a.b m)) (hbd : Bounded k1.iN r) (ho : Out Λ g fuel k1 b p r) :
    TOut Λ g fuel k q a k1.iN post p (r.map afterBody) := by
  rcases r with _ | (⟨env, val, s⟩ | ⟨env, s⟩ | ⟨env, s⟩ | ⟨v, s⟩ | r)
  · exact ho
  · obtain ⟨h1, h2, h3⟩ := ho
    rw [hf] at h2
    have : val = none := by cases val <;> simp_all
    subst this
    refine ⟨h1.trans hb, ?_⟩
    have := h3.one_right (hback ⟨_, _, _, rfl⟩ _)
    simpa using this
  · obtain ⟨_, h2, h3⟩ := ho
    simp only [Bounded] at hbd
    simp only [Option.map_some, afterBody, TOut]
    rw [he.normal env s h2 hbd]
    refine ⟨by rw [List.length_take, he.locals]; omega, by simp [he.flag], ?_⟩
    rw [he.D] at h3
    simpa using h3
  · obtain ⟨_, h2, h3⟩ := ho
    simp only [Bounded] at hbd
    have h4 : env.length = k1.iN := by omega
    refine ⟨h4, ?_⟩
    rw [he.C hlp, ← h4, List.take_length] at h3
    exact h3
  · simp only [Option.map_some, afterBody, TOut]
    rw [he.ret]; exact ho
  · simp only [Option.map_some, afterBody, TOut]
    rw [he.stop]; exact ho

theorem after_else {k k1 : K Γ S} {q a b : PS Γ} {post : Res Γ S R → Res Γ S R} (he : LoopEnd k1 q a post) {back : List Γ.V} {iN : Nat} (hlp : k1.lp = some true → back = [] ∧ k1.iN = iN ∧ k1.eN = iN) (hb : b.locals.length = k1.eN) (hf : b.flag = false)
    (hend : ∀ m, Reach (sem Λ) g (pl b.b m) (pl q.b m)) {p : Place (Mach Γ S)} {r : Option (Res Γ S R)} (hbd : Bounded k1.eN r) (ho : Out Λ g fuel k1 b p r) :
    TOut Λ g fuel k q a iN post p (r.map (afterElse back)) := by
  rcases r with _ | (⟨env, val, s⟩ | ⟨env, s⟩ | ⟨env, s⟩ | ⟨v, s⟩ | r)
  · exact ho
  · obtain ⟨h1, h2, h3⟩ := ho
    rw [hf] at h2
    have : val = none := by cases val <;> simp_all
    subst this
    have := he.le
    simp only [Option.map_some, afterElse, TOut]
    rw [he.normal env s (by omega) (by omega)]
    refine ⟨by rw [List.length_take, he.locals]; omega, by simp [he.flag], ?_⟩
    have := h3.trans (hend _)
    rw [List.take_of_length_le (by omega)]
    simpa using this
  · obtain ⟨_, h2, h3⟩ := ho
    have := he.le
    simp only [Bounded] at hbd
    simp only [Option.map_some, afterElse, TOut]
    rw [he.normal env s h2 (by omega)]
    refine ⟨by rw [List.length_take, he.locals]; omega, by simp [he.flag], ?_⟩
    rw [he.D] at h3
    simpa using h3
  · obtain ⟨h1, h2, h3⟩ := ho
    obtain ⟨rfl, h5, h6⟩ := hlp h1
    simp only [Bounded] at hbd
    have h4 : env.length = k1.iN := by omega
    refine ⟨by simp; omega, ?_⟩
    rw [he.C h1, ← h4, List.take_length] at h3
    simpa using h3
  · simp only [Option.map_some, afterElse, TOut]
    rw [he.ret]; exact ho
  · simp only [Option.map_some, afterElse, TOut]
    rw [he.stop]; exact ho

/-- An expression in a turn. -/
theorem tout_expr {lo : Nat} {ex : Nat → Prop} {q q' a : PS Γ} {k : K Γ S} {iN : Nat} {post : Res Γ S R → Res Γ S R} (hpost : ∀ r, post (.stop r) = .stop r) {e : Γ.X} {j : Nat} (h : Agree lo (q.expr em j e).b g ex)
    (hlo : lo ≤ q.b.done.length) (hx : ∀ i, q.b.done.length ≤ i → i < (q.expr em j e).b.done.length → ¬ ex i) {env : List Γ.V} {s : S} (hl : env.length = j)
    {f : Γ.V → List Γ.V → S → Option (Turn Γ S R)}
    (hf : ∀ v env' s', env'.length = j → TOut Λ g fuel k q' a iN post (pl (q.expr em j e).b ⟨env' ++ [v], s'⟩) (f v env' s')) :
    TOut Λ g fuel k q' a iN post (pl q.b ⟨env, s⟩) (withVal Λ e env s failTurn f) := by
  unfold withVal
  have hr := Compiles.run (Λ := Λ) (em := em) g j e q.b ex (h.mono hlo (fun _ _ _ h => h)) hx env [] s hl
  simp only [List.append_nil] at hr
  cases hv : Λ.eval e env s with
  | error r =>
    rw [hv] at hr
    simp only [failTurn, TOut, hpost]
    exact hr
  | ok x =>
    obtain ⟨v, env', s'⟩ := x
    rw [hv] at hr
    simp only
    have hlen := Λ.eval_len _ _ _ _ _ _ hv
    exact TOut.pre hr (hf v env' s' (by omega))

theorem pl_begin (ps : PS Γ) (m : Mach Γ S) : pl ps.beginLoop.b m = ⟨ps.beginLoop.start, 0, m⟩ := pl_branchReverse ps.b m
theorem pl_beginFor (ps : PS Γ) (m : Mach Γ S) : pl ps.beginForLoop.b m = ⟨ps.beginForLoop.start, 0, m⟩ := pl_branchReverse ps.b m

/-- The reverse jump at the end of a loop's body. -/
theorem reach_jR {lo : Nat} {q : PS Γ} {i : Nat} (h : Agree lo (q.joinReverse i none).b g (· ∈ brks q)) (hlo : lo ≤ q.b.done.length) (hb : ∀ k ∈ brks q, k < q.b.done.length) (m : Mach Γ S) :
    Reach1 Λ g (pl q.b m) ⟨i, 0, m⟩ := by
  obtain ⟨_, h2⟩ := Agree.append (b := q.b) h hlo (fun hh => absurd (hb _ hh) (Nat.lt_irrefl _))
  exact ⟨1, Nat.le_refl _, steps_next h2 m⟩

/-- What is asked of the code of a block. -/
def BlockSim (Λ : Machine Γ S R) (g : Code (Op Γ) (Br Γ) Unit) (fuel : Nat) (lp : Option Bool) (f : PS Γ → PS Γ) (run : List Γ.V → S → Option (Res Γ S R)) : Prop :=
  (∀ q, Inv q → Tab q (f q)) ∧ ∀ q (k : K Γ S), Inv q → Ctx 0 k q → k.lp = lp → q.flag = false → Sim Λ g fuel f run k q

theorem BlockSim.block {lp : Option Bool} {f : PS Γ → PS Γ} {run : List Γ.V → S → Option (Res Γ S R)} (h : BlockSim Λ g fuel lp f run) {ps : PS Γ} (hi : Inv ps) {k : K Γ S} (hc : Ctx 1 k ps) (hk : k.lp = lp) :
    Sim Λ g fuel (·.block f) (inScope run) k ps := sim_block hi hc h.1 (h.2 _ _ hi.enter hc.enter hk (by simp))

theorem above_zero {ps : PS Γ} {d : Nat} (h : ∀ x ∈ ps.locals, x < d) : ps.above d = 0 := by
  unfold PS.above
  rw [List.length_eq_zero_iff, List.filter_eq_nil_iff]
  intro x hx
  have := h x hx
  simp only [decide_eq_true_eq]; omega

/-- The context in a loop, at its start. -/
theorem ctx_loop {a : PS Γ} {st : Nat} {ls : List Loop} (ha : a.loops = ⟨st, [], a.scope + 1, a.scope + 1⟩ :: ls) (hl : ∀ d ∈ a.locals, d ≤ a.scope) {k : K Γ S} (he : k.eN = a.locals.length) (hi : k.iN = a.locals.length)
    (hC : k.C = fun m => ⟨st, 0, m⟩) : Ctx 1 k a := by
  have h0 : a.above (a.scope + 1) = 0 := above_zero (fun x hx => by have := hl x hx; omega)
  exact ⟨fun _ => ⟨_, _, ha, by simp only [h0]; omega, Nat.le_refl _⟩, fun _ => ⟨_, _, ha, by simp only [h0]; omega, Nat.le_refl _, hC⟩⟩

theorem brks_of_endLoop {ps a q : PS Γ} (hg : Grow ps.b a.b) {st e i : Nat} (ha : a.loops = ⟨st, [], e, i⟩ :: ps.loops) (h : Ext a q) : brks q.endLoop = brks ps := by
  obtain ⟨new, _, _, _, hend, _⟩ := ext_endLoop hg ha h
  rw [hend]
  simp [brks]

/-- From before the loop to its start. -/
theorem reach_begin {ps a : PS Γ} (ha : a.b = ps.b.branchReverse) {ex : Nat → Prop} (h : Agree ps.b.done.length a.b g ex) (hx : ¬ ex ps.b.done.length) (m : Mach Γ S) :
    Reach (sem Λ) g (pl ps.b m) (pl a.b m) := by
  rw [ha] at h ⊢
  obtain ⟨_, h2⟩ := Agree.append (b := ps.b) h (Nat.le_refl _) hx
  rw [pl_branchReverse]
  exact reach_next h2 m

/-- models: parser/mod.rs:792-822. -/
def whileE (em : Em Γ) (c : Γ.X) (fb fe : PS Γ → PS Γ) (ps : PS Γ) : PS Γ :=
  let a := ps.delayedPop.beginLoop
  let p1 := a.expr em a.locals.length c
  (((p1.branchForward.block fb).joinReverse a.start none).joinForward p1.b.done.length (some .ifFalsePop)).block fe |>.endLoop

theorem sim_while {ps : PS Γ} (hi : Inv ps) (c : Γ.X) {fb fe : PS Γ → PS Γ} {rb re : List Γ.V → S → Option (Res Γ S R)}
    (hb : BlockSim Λ g fuel (some true) fb rb) (he : BlockSim Λ g fuel (some true) fe re) (k : K Γ S) :
    Sim Λ g fuel (whileE em c fb fe) (fun env s => loopN fuel (whileTurn Λ c (inScope rb) (inScope re)) env s) k ps := by
  intro hag hbr env pend s hl hp
  -- the stages
  have hia : Inv ps.delayedPop.beginLoop := inv_begin (by simpa using hi.locals) (by simp [PS.beginLoop, branchReverse_len]) rfl
  have hla := bL_loops_dp ps
  have hga : Grow ps.b ps.delayedPop.beginLoop.b := (dp_grow ps).branchReverse
  have hlena : ps.delayedPop.beginLoop.b.done.length = ps.b.done.length + 1 := by simp [PS.beginLoop, branchReverse_len]
  simp only [whileE] at hag hbr ⊢
  have hra : ∀ m : Mach Γ S, pl ps.delayedPop.beginLoop.b m = ⟨ps.delayedPop.beginLoop.start, 0, m⟩ := pl_begin _
  have hsta : ps.delayedPop.beginLoop.start = ps.b.done.length + 1 := by simp [PS.start, hla]
  have hloc : ps.delayedPop.beginLoop.locals = ps.locals := by simp
  have hsc : ps.delayedPop.beginLoop.scope = ps.scope := by simp
  have hfa : ps.delayedPop.beginLoop.flag = false := by simp
  generalize haa : ps.delayedPop.beginLoop = a at *
  have t1 : Tab a (a.expr em a.locals.length c) := (Tab.refl a).expr _ _
  have t2 := t1.bF.of_block hia fb hb.1
  have w2 := tab_block (hia.tab t1.bF) fb hb.1
  have hlen2 := w2.1.grow.le
  rw [bF_b, branchForward_len] at hlen2
  have t3 := (t2.jR a.start none).jF (a.expr em a.locals.length c).b.done.length (some .ifFalsePop) t1.ext.grow.le (by simp only [jR_b, joinReverse_len]; omega)
  have w4 := tab_block (hia.tab t3) fe he.1
  have t4 := t3.of_block hia fe he.1
  -- the end of the loop
  have hbe : brks (((((a.expr em a.locals.length c).branchForward.block fb).joinReverse a.start none).joinForward (a.expr em a.locals.length c).b.done.length (some .ifFalsePop)).block fe).endLoop = brks ps := by
    apply brks_of_endLoop hga hla t4.ext
  rw [hbe] at hag
  let k1 : K Γ S := ⟨some true, pl (((((a.expr em a.locals.length c).branchForward.block fb).joinReverse a.start none).joinForward (a.expr em a.locals.length c).b.done.length (some .ifFalsePop)).block fe).endLoop.b, pl a.b, ps.locals.length, ps.locals.length⟩
  obtain ⟨ag4, br4, end4⟩ := endLoop_sim (Λ := Λ) hi hga hla t4.ext hga.le hag k1 rfl
  have hend : LoopEnd (R := R) k1 (((((a.expr em a.locals.length c).branchForward.block fb).joinReverse a.start none).joinForward (a.expr em a.locals.length c).b.done.length (some .ifFalsePop)).block fe).endLoop a id :=
    { D := rfl, flag := by rw [endLoop_flag, w4.2.2.2], locals := by rw [endLoop_locals, w4.2.2.1, jF_locals, jR_locals, w2.2.2.1, bF_locals, expr_locals, hloc],
      C := fun _ => rfl, normal := fun env s h1 h2 => by rw [id, List.take_of_length_le h2], ret := fun _ _ => rfl, stop := fun _ => rfl, le := Nat.le_refl _ }
  have hlE := hend.locals
  generalize hend_q : (((((a.expr em a.locals.length c).branchForward.block fb).joinReverse a.start none).joinForward (a.expr em a.locals.length c).b.done.length (some .ifFalsePop)).block fe).endLoop = qE at *
  clear hag hbr
  -- the `else` clause
  have hlen1 := expr_len (em := em) a a.locals.length c
  have hlen3 : ((((a.expr em a.locals.length c).branchForward.block fb).joinReverse a.start none).joinForward (a.expr em a.locals.length c).b.done.length (some .ifFalsePop)).b.done.length = ((a.expr em a.locals.length c).branchForward.block fb).b.done.length + 2 := by
    rw [jF_b, joinForward_len, jR_b, joinReverse_len]
  have hca : Ctx 1 k1 a := ctx_loop (by rw [hla, hsc]) hia.locals (by rw [hloc]) (by rw [hloc]) (by funext m; rw [show k1.C m = pl a.b m from rfl, hra m, hsta])
  have l3 : ((((a.expr em a.locals.length c).branchForward.block fb).joinReverse a.start none).joinForward (a.expr em a.locals.length c).b.done.length (some .ifFalsePop)).locals = a.locals := by
    rw [jF_locals, jR_locals, w2.2.2.1, bF_locals, expr_locals]
  have simE := he.block (hia.tab t3) (hca.same t3.ext l3 t3.scope) rfl (ag4.up (by omega)) (br4.sub (.refl _) (by omega))
  -- the body
  have ag3 : Agree (ps.b.done.length) ((((a.expr em a.locals.length c).branchForward.block fb).joinReverse a.start none).joinForward (a.expr em a.locals.length c).b.done.length (some .ifFalsePop)).b g
      (· ∈ brks (((a.expr em a.locals.length c).branchForward.block fb).joinReverse a.start none)) := ag4.sub w4.1 (by omega)
  have hibk : (a.expr em a.locals.length c).b.done.length ∉ brks (((a.expr em a.locals.length c).branchForward.block fb).joinReverse a.start none) := by
    intro hh
    rcases w2.1.brks hh with h5 | h5
    · have := hia.brk _ h5; omega
    · rw [bF_b, branchForward_len] at h5; omega
  obtain ⟨ag2, ag1, hgi, r3⟩ := agree_jF (Λ := Λ) (a := a.expr em a.locals.length c) ag3 (by omega) (w2.1.jR a.start none).grow rfl ((hia.tab (t2.jR a.start none)).brk) hibk
  have ag2' : Agree ((a.expr em a.locals.length c).b.done.length + 1) ((a.expr em a.locals.length c).branchForward.block fb).b g (· ∈ brks ((a.expr em a.locals.length c).branchForward.block fb)) :=
    ag2.sub (Ext.jR (.refl _) _ _) (by omega)
  have simB := hb.block (k := k1) (hia.tab t1.bF) (hca.same t1.bF.ext rfl rfl) rfl (by rw [bF_b, branchForward_len]; exact ag2')
    (fun hk i hi hlo => br4 hk i (w4.1.brks_sub hi) (Nat.zero_le _))
  -- into the loop
  have hx1 : ∀ i, (i ∈ brks (((a.expr em a.locals.length c).branchForward.block fb).joinReverse a.start none) ∨ i = (a.expr em a.locals.length c).b.done.length) → a.b.done.length ≤ i := by
    rintro i (hh | hh)
    · rcases w2.1.brks hh with h5 | h5
      · simp [brks, hla] at h5
      · rw [bF_b, branchForward_len] at h5; omega
    · omega
  have hx2 : ∀ i, a.b.done.length ≤ i → i < (a.expr em a.locals.length c).b.done.length → ¬ (i ∈ brks (((a.expr em a.locals.length c).branchForward.block fb).joinReverse a.start none) ∨ i = (a.expr em a.locals.length c).b.done.length) := by
    rintro i hi1 hi2 (hh | hh)
    · rcases w2.1.brks hh with h5 | h5
      · simp [brks, hla] at h5
      · rw [bF_b, branchForward_len] at h5; omega
    · omega
  have aga := Agree.back ag1 (expr_grow a a.locals.length c) (by omega)
  have agd : Agree ps.delayedPop.b.done.length a.b g (fun k => k ∈ brks (((a.expr em a.locals.length c).branchForward.block fb).joinReverse a.start none) ∨ k = (a.expr em a.locals.length c).b.done.length) := by
    simpa using aga
  refine Out.pre ((reach_dp (q := ps) (aga.back (by rw [← haa]; exact (Grow.refl ps.delayedPop.b).branchReverse) (by simp)) env pend hp s).trans
    (reach_begin (ps := ps.delayedPop) (a := a) (by rw [← haa]; rfl) agd (fun hh => by have := hx1 _ hh; simp at this; omega) _)) ?_
  have hloop := loop_sim (Λ := Λ) (g := g) (fuel := fuel) (k := k) (q := qE) (a := a) (iN := ps.locals.length) (post := id)
    (turn := whileTurn Λ c (inScope rb) (inScope re)) ?_ fuel (Nat.le_refl _) env s hl
  · simpa using hloop
  intro env s hl
  unfold whileTurn
  refine tout_expr (q := a) hend.stop ag1 (by omega) hx2 (by rw [hloc]; exact hl) ?_
  intro v env' s' hl'
  rw [hloc] at hl'
  have htest : (sem Λ).test .ifFalsePop (⟨env' ++ [v], s'⟩ : Mach Γ S) = .ok (!Λ.truthy v s', ⟨env', s'⟩) := by simp [sem, test]
  have hst := reach_test (b := (a.expr em a.locals.length c).b) hgi rfl htest
  by_cases hv : Λ.truthy v s' = true
  · rw [if_pos hv]
    rw [hv] at hst
    simp only [Bool.not_true, Bool.false_eq_true, if_false] at hst
    refine TOut.pre hst ?_
    rw [← pl_branchForward]
    have ho := simB env' none s' (by rw [bF_locals, expr_locals, hloc]; exact hl') (by simp [hfa])
    simp only [Option.toList_none, List.append_nil] at ho
    have hbd := bounded_inScope rb env' s'
    rw [hl'] at hbd
    refine after_body (k1 := k1) hend rfl (by rw [w2.2.2.1, bF_locals, expr_locals, hloc]) w2.2.2.2 ?_ hbd ho
    intro _ m
    rw [hra]
    exact reach_jR ag2 (by omega) ((hia.tab t2).brk) m
  · rw [if_neg hv]
    simp only [Bool.not_eq_true] at hv
    rw [hv] at hst
    simp only [Bool.not_false, if_true] at hst
    refine TOut.pre hst ?_
    have hpl := pl_joinForward (((a.expr em a.locals.length c).branchForward.block fb).joinReverse a.start none).b (a.expr em a.locals.length c).b.done.length (some Br.ifFalsePop) (⟨env', s'⟩ : Mach Γ S)
    rw [← hpl, ← jF_b]
    have ho := simE env' none s' (by rw [l3, hloc]; exact hl') (by rw [jF_flag, jR_flag, w2.2.2.2]; rfl)
    simp only [Option.toList_none, List.append_nil] at ho
    have hbd := bounded_inScope re env' s'
    rw [hl'] at hbd
    exact after_else (k1 := k1) hend (fun _ => ⟨rfl, rfl, rfl⟩) (by rw [w4.2.2.1, l3, hloc]) w4.2.2.2 (fun m => end4 m) hbd ho

/-- models: parser/mod.rs:849-870. -/
def loopE (fb : PS Γ → PS Γ) (ps : PS Γ) : PS Γ :=
  let a := ps.delayedPop.beginLoop
  ((a.block fb).joinReverse a.start none).endLoop

theorem sim_loop {ps : PS Γ} (hi : Inv ps) {fb : PS Γ → PS Γ} {rb : List Γ.V → S → Option (Res Γ S R)}
    (hb : BlockSim Λ g fuel (some true) fb rb) (k : K Γ S) :
    Sim Λ g fuel (loopE fb) (fun env s => loopN fuel (fun env s => (inScope rb env s).map afterBody) env s) k ps := by
  intro hag hbr env pend s hl hp
  have hia : Inv ps.delayedPop.beginLoop := inv_begin (by simpa using hi.locals) (by simp [PS.beginLoop, branchReverse_len]) rfl
  have hla := bL_loops_dp ps
  have hga : Grow ps.b ps.delayedPop.beginLoop.b := (dp_grow ps).branchReverse
  have hlena : ps.delayedPop.beginLoop.b.done.length = ps.b.done.length + 1 := by simp [PS.beginLoop, branchReverse_len]
  simp only [loopE] at hag hbr ⊢
  have hra : ∀ m : Mach Γ S, pl ps.delayedPop.beginLoop.b m = ⟨ps.delayedPop.beginLoop.start, 0, m⟩ := pl_begin _
  have hsta : ps.delayedPop.beginLoop.start = ps.b.done.length + 1 := by simp [PS.start, hla]
  have hloc : ps.delayedPop.beginLoop.locals = ps.locals := by simp
  have hsc : ps.delayedPop.beginLoop.scope = ps.scope := by simp
  have hfa : ps.delayedPop.beginLoop.flag = false := by simp
  generalize haa : ps.delayedPop.beginLoop = a at *
  have t2 := (Tab.refl a).of_block hia fb hb.1
  have w2 := tab_block hia fb hb.1
  have hlen2 := w2.1.grow.le
  have t3 := t2.jR a.start none
  have hbe : brks ((a.block fb).joinReverse a.start none).endLoop = brks ps := brks_of_endLoop hga hla t3.ext
  rw [hbe] at hag
  let k1 : K Γ S := ⟨some true, pl ((a.block fb).joinReverse a.start none).endLoop.b, pl a.b, ps.locals.length, ps.locals.length⟩
  obtain ⟨ag3, br3, end3⟩ := endLoop_sim (Λ := Λ) hi hga hla t3.ext hga.le hag k1 rfl
  have hend : LoopEnd (R := R) k1 ((a.block fb).joinReverse a.start none).endLoop a id :=
    { D := rfl, flag := by rw [endLoop_flag, jR_flag, w2.2.2.2], locals := by rw [endLoop_locals, jR_locals, w2.2.2.1, hloc],
      C := fun _ => rfl, normal := fun env s h1 h2 => by rw [id, List.take_of_length_le h2], ret := fun _ _ => rfl, stop := fun _ => rfl, le := Nat.le_refl _ }
  generalize ((a.block fb).joinReverse a.start none).endLoop = qE at *
  clear hag hbr
  have hca : Ctx 1 k1 a := ctx_loop (by rw [hla, hsc]) hia.locals (by rw [hloc]) (by rw [hloc]) (by funext m; rw [show k1.C m = pl a.b m from rfl, hra m, hsta])
  have ag2 : Agree ps.b.done.length (a.block fb).b g (· ∈ brks (a.block fb)) := ag3.sub (Ext.jR (.refl _) _ _) (by omega)
  have simB := hb.block (k := k1) hia hca rfl (ag2.up (by omega)) (br3.sub (Ext.jR (.refl _) _ _) (by omega))
  have aga := ag2.sub w2.1 (by omega)
  have agd : Agree ps.delayedPop.b.done.length a.b g (· ∈ brks a) := by simpa using aga
  refine Out.pre ((reach_dp (q := ps) (aga.back (by rw [← haa]; exact (Grow.refl ps.delayedPop.b).branchReverse) (by simp)) env pend hp s).trans
    (reach_begin (ps := ps.delayedPop) (a := a) (by rw [← haa]; rfl) agd (fun hh => by simp [brks, hla] at hh) _)) ?_
  have hloop := loop_sim (Λ := Λ) (g := g) (fuel := fuel) (k := k) (q := qE) (a := a) (iN := ps.locals.length) (post := id)
    (turn := fun env s => (inScope rb env s).map afterBody) ?_ fuel (Nat.le_refl _) env s hl
  · simpa using hloop
  intro env s hl
  have ho := simB env none s (by rw [hloc]; exact hl) (by simp [hfa])
  simp only [Option.toList_none, List.append_nil] at ho
  have hbd := bounded_inScope rb env s
  rw [hl] at hbd
  refine after_body (k1 := k1) hend rfl (by rw [w2.2.2.1, hloc]) w2.2.2.2 ?_ hbd ho
  intro _ m
  rw [hra]
  exact reach_jR (lo := ps.b.done.length) ag3 (by omega) ((hia.tab t2).brk) m

/-- models: parser/mod.rs:825-847: the condition. -/
def doCond (em : Em Γ) (c : Option Γ.X) (start : Nat) (ps : PS Γ) : PS Γ :=
  match c with
  | some c => (ps.expr em ps.locals.length c).joinReverse start (some .ifTruePop)
  | none => ps

/-- models: parser/mod.rs:825-847. -/
def doE (em : Em Γ) (c : Option Γ.X) (fb fe : PS Γ → PS Γ) (ps : PS Γ) : PS Γ :=
  let a := ps.beginLoop
  ((doCond em c a.start (a.block fb)).block fe).endLoop

omit [Compiles Λ em] in
theorem doCond_facts [EmOk em] (c : Option Γ.X) (st : Nat) (q : PS Γ) : Tab q (doCond em c st q) ∧ (doCond em c st q).locals = q.locals ∧ (doCond em c st q).flag = q.flag ∧ (doCond em c st q).loops = q.loops := by
  unfold doCond
  split
  · exact ⟨((Tab.refl q).expr _ _).jR _ _, rfl, rfl, rfl⟩
  · exact ⟨Tab.refl q, rfl, rfl, rfl⟩

theorem sim_do {ps : PS Γ} (hi : Inv ps) (hflag : ps.flag = false) (c : Option Γ.X) {fb fe : PS Γ → PS Γ} {rb re : List Γ.V → S → Option (Res Γ S R)}
    (hb : BlockSim Λ g fuel (some true) fb rb) (he : BlockSim Λ g fuel (some true) fe re) (k : K Γ S) :
    Sim Λ g fuel (doE em c fb fe) (fun env s => loopN fuel (doTurn Λ c (inScope rb) (inScope re)) env s) k ps := by
  intro hag hbr env pend s hl hp
  have hpn : pend = none := by rw [hflag] at hp; cases pend <;> simp_all
  subst hpn
  simp only [Option.toList_none, List.append_nil]
  have hia : Inv ps.beginLoop := inv_begin hi.locals (by simp [PS.beginLoop, branchReverse_len]) rfl
  have hla := bL_loops ps
  have hga : Grow ps.b ps.beginLoop.b := (Grow.refl ps.b).branchReverse
  have hlena : ps.beginLoop.b.done.length = ps.b.done.length + 1 := by simp [PS.beginLoop, branchReverse_len]
  simp only [doE] at hag hbr ⊢
  have hra : ∀ m : Mach Γ S, pl ps.beginLoop.b m = ⟨ps.beginLoop.start, 0, m⟩ := pl_begin _
  have hsta : ps.beginLoop.start = ps.b.done.length + 1 := by simp [PS.start, hla]
  have hloc : ps.beginLoop.locals = ps.locals := by simp
  have hsc : ps.beginLoop.scope = ps.scope := by simp
  have hfa : ps.beginLoop.flag = false := hflag
  generalize haa : ps.beginLoop = a at *
  have t2 := (Tab.refl a).of_block hia fb hb.1
  have w2 := tab_block hia fb hb.1
  obtain ⟨c1, c2, c3, c4⟩ := doCond_facts (em := em) c a.start (a.block fb)
  have t3 := t2.trans c1
  have w4 := tab_block (hia.tab t3) fe he.1
  have t4 := t3.of_block hia fe he.1
  have hle2 := w2.1.grow.le
  have hle3 := c1.ext.grow.le
  have hbe : brks ((doCond em c a.start (a.block fb)).block fe).endLoop = brks ps := brks_of_endLoop hga hla t4.ext
  rw [hbe] at hag
  let k1 : K Γ S := ⟨some true, pl ((doCond em c a.start (a.block fb)).block fe).endLoop.b, pl a.b, ps.locals.length, ps.locals.length⟩
  obtain ⟨ag4, br4, end4⟩ := endLoop_sim (Λ := Λ) hi hga hla t4.ext hga.le hag k1 rfl
  have hend : LoopEnd (R := R) k1 ((doCond em c a.start (a.block fb)).block fe).endLoop a id :=
    { D := rfl, flag := by rw [endLoop_flag, w4.2.2.2], locals := by rw [endLoop_locals, w4.2.2.1, c2, w2.2.2.1, hloc],
      C := fun _ => rfl, normal := fun env s h1 h2 => by rw [id, List.take_of_length_le h2], ret := fun _ _ => rfl, stop := fun _ => rfl, le := Nat.le_refl _ }
  generalize ((doCond em c a.start (a.block fb)).block fe).endLoop = qE at *
  clear hag hbr
  have hca : Ctx 1 k1 a := ctx_loop (by rw [hla, hsc]) hia.locals (by rw [hloc]) (by rw [hloc]) (by funext m; rw [show k1.C m = pl a.b m from rfl, hra m, hsta])
  have l3 : (doCond em c a.start (a.block fb)).locals = a.locals := by rw [c2, w2.2.2.1]
  have simE := he.block (hia.tab t3) (hca.same t3.ext l3 t3.scope) rfl (ag4.up (by omega)) (br4.sub (.refl _) (by omega))
  have ag3 := ag4.sub w4.1 (by omega)
  have ag2 : Agree ps.b.done.length (a.block fb).b g (· ∈ brks (a.block fb)) := ag3.sub c1.ext (by omega)
  have simB := hb.block (k := k1) hia hca rfl (ag2.up (by omega)) (br4.sub (c1.ext.trans w4.1) (by omega))
  have aga := ag2.sub w2.1 (by omega)
  refine Out.pre (reach_begin (ps := ps) (a := a) (by rw [← haa]; rfl) aga (fun hh => by simp [brks, hla] at hh) _) ?_
  have hloop := loop_sim (Λ := Λ) (g := g) (fuel := fuel) (k := k) (q := qE) (a := a) (iN := ps.locals.length) (post := id)
    (turn := doTurn Λ c (inScope rb) (inScope re)) ?_ fuel (Nat.le_refl _) env s hl
  · simpa using hloop
  intro env s hl
  have ho := simB env none s (by rw [hloc]; exact hl) (by simp [hfa])
  simp only [Option.toList_none, List.append_nil] at ho
  have hbd := bounded_inScope rb env s
  rw [hl] at hbd
  unfold doTurn
  -- the `else` clause
  have hels : ∀ env' s', env'.length = ps.locals.length → TOut Λ g fuel k qE a ps.locals.length id (pl (doCond em c a.start (a.block fb)).b ⟨env', s'⟩) ((inScope re env' s').map (afterElse [])) := by
    intro env' s' hl'
    have ho := simE env' none s' (by rw [l3, hloc]; exact hl') (by rw [c3, w2.2.2.2]; rfl)
    simp only [Option.toList_none, List.append_nil] at ho
    have hbd := bounded_inScope re env' s'
    rw [hl'] at hbd
    exact after_else (k1 := k1) hend (fun _ => ⟨rfl, rfl, rfl⟩) (by rw [w4.2.2.1, l3, hloc]) w4.2.2.2 (fun m => end4 m) hbd ho
  rcases hr : inScope rb env s with _ | (⟨env', val, s'⟩ | ⟨env', s'⟩ | ⟨env', s'⟩ | ⟨v, s'⟩ | r)
  · rw [hr] at ho; exact ho
  · rw [hr] at ho
    obtain ⟨h1, h2, h3⟩ := ho
    simp only at h1 h2 h3 ⊢
    rw [w2.2.2.2] at h2
    have : val = none := by cases val <;> simp_all
    subst this
    rw [w2.2.2.1, hloc] at h1
    simp only [Option.toList_none, List.append_nil] at h3
    cases c with
    | none => exact TOut.pre h3 (hels env' s' h1)
    | some c =>
      refine TOut.pre h3 ?_
      simp only [doCond] at ag3 hels l3
      have hle := expr_len (em := em) (a.block fb) (a.block fb).locals.length c
      obtain ⟨ag3', hg3⟩ := Agree.append (b := ((a.block fb).expr em (a.block fb).locals.length c).b) ag3 (by omega)
        (fun hh => by
          have := (hia.tab t2).brk _ hh
          omega)
      refine tout_expr (q := a.block fb) hend.stop ag3' (by omega) (fun i hi _ hh => by have := (hia.tab t2).brk _ hh; omega) (by rw [w2.2.2.1, hloc]; exact h1) ?_
      intro v env'' s'' hl'
      rw [w2.2.2.1, hloc] at hl'
      have htest : (sem Λ).test .ifTruePop (⟨env'' ++ [v], s''⟩ : Mach Γ S) = .ok (Λ.truthy v s'', ⟨env'', s''⟩) := by simp [sem, test]
      have hst := steps_test (b := ((a.block fb).expr em (a.block fb).locals.length c).b) hg3 rfl htest
      by_cases hv : Λ.truthy v s'' = true
      · rw [if_pos hv]
        rw [hv] at hst
        simp only [if_true] at hst
        rw [← hra] at hst
        exact ⟨hl', 1, Nat.le_refl _, hst⟩
      · rw [if_neg hv]
        simp only [Bool.not_eq_true] at hv
        rw [hv] at hst
        simp only [Bool.false_eq_true, if_false] at hst
        refine TOut.pre ⟨1, hst⟩ ?_
        have := hels env'' s'' hl'
        rw [jR_b, pl_joinReverse] at this
        exact this
  all_goals
    rw [hr] at ho hbd
    exact after_body (k1 := k1) hend rfl (by rw [w2.2.2.1, hloc]) w2.2.2.2 (fun ⟨_, _, _, hh⟩ => by simp at hh) hbd ho

/-- models: parser/mod.rs:872-927. -/
def forE (em : Em Γ) (l : LV Γ) (e : Γ.X) (fb fe : PS Γ → PS Γ) (ps : PS Γ) : PS Γ :=
  let a := (forInit em l e ps.delayedPop).beginForLoop
  let p2 := emitAssign l ps.locals.length a.branchForward
  let p4 := ((p2.block fb).joinReverse a.start none).joinForward a.b.done.length (some .testIter)
  (p4.leave.block fe).endLoop

def forRun (Λ : Machine Γ S R) (fuel : Nat) (l : LV Γ) (e : Γ.X) (rb re : List Γ.V → S → Option (Res Γ S R)) (env : List Γ.V) (s : S) : Option (Res Γ S R) :=
  withVal Λ e env s fail fun v env' s =>
    match Λ.iter v (env' ++ List.replicate l.vars Λ.nil) s with
    | .ok (it, s) =>
      (loopN fuel (forTurn Λ l env.length (inScope rb) (inScope re)) (env' ++ List.replicate l.vars Λ.nil ++ [it]) s).map (Res.leave env.length)
    | .error r => fail r

theorem assign_flag (l : LV Γ) (i : Nat) (b : PS Γ) : (emitAssign l i b).flag = b.flag := by
  unfold emitAssign; split <;> rfl

theorem tout_assign {lo : Nat} {ex : Nat → Prop} {q q' a : PS Γ} {k : K Γ S} {iN : Nat} {post : Res Γ S R → Res Γ S R} (hpost : ∀ r, post (.stop r) = .stop r) {l : LV Γ} {i : Nat}
    (h : Agree lo (emitAssign l i q).b g ex) (hlo : lo ≤ q.b.done.length) {v : Γ.V} {X : List Γ.V} {s : S} (hi : i < X.length) {f : List Γ.V → S → Option (Turn Γ S R)}
    (hf : ∀ env' s', env'.length = X.length → TOut Λ g fuel k q' a iN post (pl (emitAssign l i q).b ⟨env', s'⟩) (f env' s')) :
    TOut Λ g fuel k q' a iN post (pl q.b ⟨X ++ [v], s⟩) (assign Λ l i v X s failTurn f) := by
  cases l with
  | named =>
    simp only [emitAssign] at h hf
    simp only [assign]
    have h1 : Agree lo (q.push (.store i)).b g ex := h.back ((Grow.refl _).push Op.pop) hlo
    refine TOut.pre ((reach_push (sm := sem Λ) (b := q.b) (m' := ⟨(X ++ [v]).set i v, s⟩) h1 ?_).trans (reach_push (sm := sem Λ) (b := (q.push (.store i)).b) (m' := ⟨X.set i v, s⟩) h ?_)) (hf _ _ (by simp))
    · simp [sem, exec, hi]
    · have : (X ++ [v]).set i v = X.set i v ++ [v] := by rw [List.set_append_left _ _ hi]
      simp [sem, exec, this]
  | empty =>
    simp only [emitAssign] at h hf
    simp only [assign]
    exact TOut.pre (reach_push (sm := sem Λ) (b := q.b) h (by simp [sem, exec])) (hf _ _ rfl)
  | terms n p =>
    simp only [emitAssign] at h hf
    simp only [assign]
    have h1 : Agree lo (q.push (.pattern p)).b g ex := h.back ((Grow.refl _).push Op.pop) hlo
    cases hv : Λ.destr p v X s with
    | error r =>
      simp only [failTurn, TOut, hpost]
      exact halt_push (sm := sem Λ) (b := q.b) h1 (by simp [sem, exec, hv])
    | ok x =>
      obtain ⟨vs, s'⟩ := x
      have hlen := Λ.destr_len _ _ _ _ _ _ hv
      refine TOut.pre ((reach_push (sm := sem Λ) (b := q.b) (m' := ⟨vs ++ [v], s'⟩) h1 ?_).trans (reach_push (sm := sem Λ) (b := (q.push (.pattern p)).b) (m' := ⟨vs, s'⟩) h ?_)) (hf _ _ hlen)
      · simp [sem, exec, hv]
      · simp [sem, exec]

theorem sim_for {ps : PS Γ} (hi : Inv ps) (l : LV Γ) (e : Γ.X) {fb fe : PS Γ → PS Γ} {rb re : List Γ.V → S → Option (Res Γ S R)}
    (hb : BlockSim Λ g fuel (some true) fb rb) (he : BlockSim Λ g fuel (some false) fe re) (k : K Γ S) :
    Sim Λ g fuel (forE em l e fb fe) (forRun Λ fuel l e rb re) k ps := by
  intro hag hbr env pend s hl hp
  obtain ⟨hia, t2, t3, hlen3, t4, ab4, l5, s5, hi5, hla, hga, hloca, hsca⟩ := tab_for (em := em) hi l e fb hb.1
  obtain ⟨ef, _, _, _, ff⟩ := forInit_facts (em := em) l e ps.delayedPop
  simp only [forE] at hag hbr ⊢
  rw [dp_flag] at ff
  have nf := ef.grow.le
  rw [dp_len] at nf
  have hfa : (forInit em l e ps.delayedPop).beginForLoop.flag = false := ff
  have hra : ∀ m : Mach Γ S, pl (forInit em l e ps.delayedPop).beginForLoop.b m = ⟨(forInit em l e ps.delayedPop).beginForLoop.start, 0, m⟩ := pl_beginFor _
  have hcur : (forInit em l e ps.delayedPop).beginForLoop.b.cur = [] := rfl
  have hsta : (forInit em l e ps.delayedPop).beginForLoop.start = (forInit em l e ps.delayedPop).b.done.length + 1 := by simp [PS.start, hla]
  have hlena : (forInit em l e ps.delayedPop).beginForLoop.b.done.length = (forInit em l e ps.delayedPop).b.done.length + 1 := by simp [PS.beginForLoop, branchReverse_len]
  have hab : (forInit em l e ps.delayedPop).beginForLoop.b = (forInit em l e ps.delayedPop).b.branchReverse := rfl
  generalize haa : (forInit em l e ps.delayedPop).beginForLoop = a at *
  have w2 := tab_block (hia.tab t2) fb hb.1
  have t5 : Ext a ((((emitAssign l ps.locals.length a.branchForward).block fb).joinReverse a.start none).joinForward a.b.done.length (some .testIter)).leave := t4.ext.leave
  have w6 := tab_block hi5 fe he.1
  have hle4 := t4.ext.grow.le
  have hle6 := w6.1.grow.le
  generalize hp2 : emitAssign l ps.locals.length a.branchForward = p2 at *
  have hlen2 : p2.b.done.length = a.b.done.length + 1 := by rw [← hp2, assign_len, bF_b, branchForward_len]
  have hloc2 : p2.locals = a.locals := by rw [← hp2, assign_locals, bF_locals]
  have hfl2 : p2.flag = false := by rw [← hp2, assign_flag, bF_flag, hfa]
  generalize hp4 : ((p2.block fb).joinReverse a.start none).joinForward a.b.done.length (some .testIter) = p4 at *
  have hlen4 : p4.leave.b.done.length = p4.b.done.length := by rw [leave_b, pops_len]
  have hbe : brks (p4.leave.block fe).endLoop = brks ps := brks_of_endLoop hga hla (t5.trans w6.1)
  rw [hbe] at hag
  let k1 : K Γ S := ⟨some true, pl (p4.leave.block fe).endLoop.b, pl a.b, ps.locals.length, ps.locals.length + (l.vars + 1)⟩
  let k2 : K Γ S := ⟨some false, pl (p4.leave.block fe).endLoop.b, pl a.b, ps.locals.length, ps.locals.length + (l.vars + 1)⟩
  obtain ⟨ag6, br6, end6⟩ := endLoop_sim (Λ := Λ) hi hga hla (t5.trans w6.1) hga.le hag k1 rfl
  have br6' : Brk Λ g k2 0 (brks (p4.leave.block fe)) := fun _ i hi hlo => br6 (by simp [k1]) i hi hlo
  have hend : LoopEnd (R := R) k1 (p4.leave.block fe).endLoop a (Res.leave ps.locals.length) :=
    { D := rfl, flag := by rw [endLoop_flag, w6.2.2.2], locals := by rw [endLoop_locals, w6.2.2.1, l5],
      C := fun _ => rfl, normal := fun env s h1 h2 => rfl, ret := fun _ _ => rfl, stop := fun _ => rfl, le := Nat.le_add_right _ _ }
  have hend2 : LoopEnd (R := R) k2 (p4.leave.block fe).endLoop a (Res.leave ps.locals.length) :=
    { D := rfl, flag := by rw [endLoop_flag, w6.2.2.2], locals := by rw [endLoop_locals, w6.2.2.1, l5],
      C := fun _ => rfl, normal := fun env s h1 h2 => rfl, ret := fun _ _ => rfl, stop := fun _ => rfl, le := Nat.le_add_right _ _ }
  generalize (p4.leave.block fe).endLoop = qE at *
  clear hag hbr
  -- contexts
  have hab1 : a.above (ps.scope + 1) = l.vars + 1 := by
    unfold PS.above
    rw [hloca]
    exact filter_above _ _ _ (fun x hx => by have := hi.locals x hx; omega)
  have hab2 : a.above (ps.scope + 2) = 0 := above_zero (fun x hx => by have := hia.locals x hx; omega)
  have hlena' : a.locals.length = ps.locals.length + (l.vars + 1) := by rw [hloca]; simp
  have hca : Ctx 1 k1 a :=
    ⟨fun _ => ⟨_, _, hla, by simp only [hab1, hlena', k1]; omega, by simp only [hsca]; omega⟩,
     fun _ => ⟨_, _, hla, by simp only [hab2, hlena', k1]; omega, by simp only [hsca]; omega, by funext m; rw [show k1.C m = pl a.b m from rfl, hra m, hsta]⟩⟩
  have hc5 : Ctx 1 k2 p4.leave := by
    refine ⟨fun _ => ?_, fun hh => by simp [k2] at hh⟩
    rcases t5.loops with ⟨e1, _⟩ | ⟨l', ls', new, e1, e2, _⟩
    · rw [hla] at e1; simp at e1
    · rw [hla] at e1
      simp only [List.cons.injEq] at e1
      obtain ⟨rfl, rfl⟩ := e1
      refine ⟨_, _, e2, ?_, by simp only [s5]; omega⟩
      simp only
      rw [above_zero (fun x hx => by rw [l5] at hx; have := hi.locals x hx; omega), l5]
      simp [k2]
  have simE := he.block hi5 hc5 rfl (ag6.up (by omega)) (br6'.sub (.refl _) (by omega))
  have ag5 := ag6.sub w6.1 (by omega)
  have ag4 : Agree ps.b.done.length p4.b g (· ∈ brks p4) := ag5.sub ((Ext.refl p4).leave) (by omega)
  have hb4 : brks p4 = brks ((p2.block fb).joinReverse a.start none) := by rw [← hp4]; rfl
  have hibk : a.b.done.length ∉ brks ((p2.block fb).joinReverse a.start none) := by
    intro hh
    rcases w2.1.brks hh with h5 | h5
    · have := t2.ext.brks h5
      rcases this with h6 | h6
      · simp [brks, hla] at h6
      · rw [hlen2] at h6
        simp only [← hp2, brks, emitAssign] at h5
        cases l <;> simp [hla] at h5
    · omega
  rw [hb4, ← hp4] at ag4
  have hgr2 : Grow a.branchForward.b ((p2.block fb).joinReverse a.start none).b := by
    refine (Grow.trans ?_ w2.1.grow).joinReverse _ _
    rw [← hp2]
    exact (tab_assign (Tab.refl a.branchForward) l ps.locals.length).ext.grow
  obtain ⟨agq, aga, hgi, r4⟩ := agree_jF (Λ := Λ) (a := a) ag4 (by omega) hgr2 rfl ((hia.tab (t3.jR a.start none)).brk) hibk
  have agb : Agree (a.b.done.length + 1) (p2.block fb).b g (· ∈ brks (p2.block fb)) := agq.sub (Ext.jR (.refl _) _ _) (by omega)
  have simB := hb.block (k := k1) (hia.tab t2) (hca.same t2.ext hloc2 t2.scope) rfl (by rw [hlen2]; exact agb)
    (fun hk i hi hlo => br6 hk i (w6.1.brks_sub (((Ext.refl p4).leave).brks_sub (by rw [hb4]; exact hi))) (Nat.zero_le _))
  have ag2 := agb.sub w2.1 (by omega)
  -- into the loop
  have hx1 : ∀ i, (i ∈ brks ((p2.block fb).joinReverse a.start none) ∨ i = a.b.done.length) → a.b.done.length ≤ i := by
    rintro i (hh | hh)
    · rcases t3.ext.brks hh with h5 | h5
      · simp [brks, hla] at h5
      · omega
    · omega
  have agi : Agree ps.b.done.length (forInit em l e ps.delayedPop).b g (fun k => k ∈ brks ((p2.block fb).joinReverse a.start none) ∨ k = a.b.done.length) :=
    aga.back (by rw [hab]; exact (Grow.refl _).branchReverse) (by omega)
  have agd := agi.back ef.grow (by simp)
  refine Out.pre (reach_dp (q := ps) agd env pend hp s) ?_
  -- the value
  let n1 : PS Γ := ((({ ps.delayedPop with scope := ps.delayedPop.scope + 1 } : PS Γ).declare l.vars).nils l.vars)
  let x1 : PS Γ := n1.expr em ps.locals.length e
  have hlo1 : ps.b.done.length ≤ n1.b.done.length := by simp [n1]
  have hle1 : n1.b.done.length ≤ x1.b.done.length := expr_len n1 _ _
  have hib : (forInit em l e ps.delayedPop).b = ((x1.declare 1).push .initIter).b := by simp [forInit, x1, n1]
  have agx : Agree ps.b.done.length x1.b g (fun k => k ∈ brks ((p2.block fb).joinReverse a.start none) ∨ k = a.b.done.length) :=
    agi.back (by rw [hib]; exact (Grow.refl x1.b).push .initIter) (Nat.le_trans hlo1 hle1)
  have agn : Agree ps.b.done.length n1.b g (fun k => k ∈ brks ((p2.block fb).joinReverse a.start none) ∨ k = a.b.done.length) :=
    agx.back (expr_grow n1 _ _) hlo1
  refine Out.pre (reach_nils (Λ := Λ) l.vars (({ ps.delayedPop with scope := ps.delayedPop.scope + 1 } : PS Γ).declare l.vars) agn (by simp) env s) ?_
  unfold forRun
  refine out_expr (q := n1) agx hlo1 (fun i _ hi2 hh => by have := hx1 _ hh; have e1 : (forInit em l e ps.delayedPop).b.done.length = x1.b.done.length := (by rw [hib]; rfl); have : i < x1.b.done.length := hi2; omega) hl ?_
  intro v env' s' hl'
  have hir : ∀ it s'', Λ.iter v (env' ++ List.replicate l.vars Λ.nil) s' = .ok (it, s'') → Reach (sem Λ) g (pl x1.b ⟨env' ++ List.replicate l.vars Λ.nil ++ [v], s'⟩) (pl a.b ⟨env' ++ List.replicate l.vars Λ.nil ++ [it], s''⟩) := by
    intro it s'' hit
    refine (reach_push (sm := sem Λ) (b := x1.b) (o := .initIter) (m' := ⟨env' ++ List.replicate l.vars Λ.nil ++ [it], s''⟩) (by rw [← show ((x1.declare 1).push .initIter).b = x1.b.push .initIter from rfl, ← hib]; exact agi) ?_).trans ?_
    · simp [sem, exec, hit, - List.append_assoc]
    · rw [← show ((x1.declare 1).push .initIter).b = x1.b.push .initIter from rfl, ← hib]
      exact reach_begin (ps := forInit em l e ps.delayedPop) (a := a) hab (aga.mono nf (fun _ _ _ h => h)) (fun hh => by have := hx1 _ hh; omega) _
  cases hit : Λ.iter v (env' ++ List.replicate l.vars Λ.nil) s' with
  | error r =>
    simp only [fail, Out]
    exact halt_push (sm := sem Λ) (b := x1.b) (o := .initIter) (by rw [← show ((x1.declare 1).push .initIter).b = x1.b.push .initIter from rfl, ← hib]; exact agi) (by simp [sem, exec, hit, - List.append_assoc])
  | ok x =>
    obtain ⟨it, s''⟩ := x
    simp only
    refine Out.pre (hir it s'' hit) ?_
    rw [hl]
    refine loop_sim (Λ := Λ) (g := g) (fuel := fuel) (k := k) (q := qE) (a := a) (iN := ps.locals.length + (l.vars + 1)) ?_ fuel (Nat.le_refl _) _ _ (by simp; omega)
    -- one turn
    intro env s hl
    unfold forTurn
    obtain ⟨it, hit⟩ : ∃ it, env.getLast? = some it := by
      cases hh : env.getLast? with
      | none => rw [List.getLast?_eq_none_iff] at hh; subst hh; simp at hl
      | some it => exact ⟨it, rfl⟩
    rw [hit]
    simp only
    cases hn : Λ.next it s with
    | some x =>
      obtain ⟨it', v⟩ := x
      simp only
      have htest : (sem Λ).test .testIter (⟨env, s⟩ : Mach Γ S) = .ok (false, ⟨env.dropLast ++ [it', v], s⟩) := by simp [sem, test, hit, hn]
      have hst := reach_test (b := a.b) hgi rfl htest
      simp only [Bool.false_eq_true, if_false] at hst
      refine TOut.pre hst ?_
      rw [← pl_branchForward, ← bF_b]
      have happ : env.dropLast ++ [it', v] = (env.dropLast ++ [it']) ++ [v] := by simp
      rw [happ]
      refine tout_assign (q := a.branchForward) (lo := a.b.done.length + 1) (ex := (· ∈ brks p2)) hend.stop (by rw [hp2]; exact ag2) (Nat.le_of_eq (by rw [bF_b, branchForward_len])) (by simp; omega) ?_
      intro env'' s'' hl''
      have hl3 : env''.length = ps.locals.length + (l.vars + 1) := by rw [hl'']; simp; omega
      rw [hp2]
      have ho := simB env'' none s'' (by rw [hloc2, hlena']; exact hl3) (by simp [hfl2])
      simp only [Option.toList_none, List.append_nil] at ho
      have hbd := bounded_inScope rb env'' s''
      rw [hl3] at hbd
      refine after_body (k1 := k1) hend rfl (by rw [w2.2.2.1, hloc2, hlena']) w2.2.2.2 ?_ hbd ho
      intro _ m
      rw [hra]
      exact reach_jR agq (by omega) ((hia.tab t3).brk) m
    | none =>
      simp only
      have htest : (sem Λ).test .testIter (⟨env, s⟩ : Mach Γ S) = .ok (true, ⟨env, s⟩) := by simp [sem, test, hit, hn]
      have hst := reach_test (b := a.b) hgi rfl htest
      simp only [if_true] at hst
      refine TOut.pre hst ?_
      have hpl := pl_joinForward ((p2.block fb).joinReverse a.start none).b a.b.done.length (some Br.testIter) (⟨env, s⟩ : Mach Γ S)
      rw [← hpl, ← jF_b, hp4]
      have hpo := reach_pops (Λ := Λ) (p4.above p4.scope) p4 (by rw [← leave_b]; exact ag5) (by omega) env s (by rw [ab4]; omega)
      rw [ab4, hl, Nat.add_sub_cancel] at hpo
      rw [← ab4, ← leave_b] at hpo
      refine TOut.pre hpo ?_
      have hlt : (env.take ps.locals.length).length = ps.locals.length := by rw [List.length_take]; omega
      have hfl : p4.leave.flag = false := by rw [leave_flag, ← hp4, jF_flag, jR_flag, w2.2.2.2]
      have ho := simE (env.take ps.locals.length) none s (by rw [l5]; exact hlt) (by simp [hfl])
      simp only [Option.toList_none, List.append_nil] at ho
      have hbd := bounded_inScope re (env.take ps.locals.length) s
      rw [hlt] at hbd
      exact after_else (k1 := k2) hend2 (fun hh => by simp [k2] at hh) (by rw [w6.2.2.1, l5]) w6.2.2.2 (fun m => end6 m) hbd ho

end Cordy.Stmts
