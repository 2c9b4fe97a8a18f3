import Verif.Model.Program
import Verif.Props.Stmt
/-! # The code of functions with default values (C76) -/
namespace Cordy.Program
open Cordy.Graph (Code WF Built Sem Place)
open Cordy.Builder
open Cordy.Stmts
variable {Δ : Stmts.Sig} {S R : Type} {em : Em Δ}

theorem defaults_grow [EmOk em] : ∀ (es : List Δ.X) (k : Nat) (b : Bld (Op Δ) (Br Δ)), Grow b (emitDefaults em k es b).1
  | [], _, b => .refl b
  | e :: es, k, b => by
    simp only [emitDefaults]
    exact ((EmOk.grow k e b).branchReverse).trans (defaults_grow es (k + 1) _)

theorem defaults_built [EmOk em] : ∀ (es : List Δ.X) (k : Nat) (b : Bld (Op Δ) (Br Δ)), Built b.graph [] → Built (emitDefaults em k es b).1.graph []
  | [], _, b, h => h
  | e :: es, k, b, h => by
    simp only [emitDefaults]
    exact defaults_built es (k + 1) _ (built_branchReverse (EmOk.built k e b _ h))

theorem defaults_ids (em : Em Δ) : ∀ (es : List Δ.X) (k : Nat) (b : Bld (Op Δ) (Br Δ)), (emitDefaults em k es b).2.length = es.length
  | [], _, b => rfl
  | e :: es, k, b => by simp [emitDefaults, defaults_ids em es]

theorem defaults_mem [EmOk em] : ∀ (es : List Δ.X) (k : Nat) (b : Bld (Op Δ) (Br Δ)) (i : Nat), i ∈ (emitDefaults em k es b).2 → i ≤ (emitDefaults em k es b).1.done.length
  | [], _, b, i, h => by simp [emitDefaults] at h
  | e :: es, k, b, i, h => by
    simp only [emitDefaults, List.mem_cons] at h ⊢
    rcases h with rfl | h
    · have := (defaults_grow (em := em) es (k + 1) (em k e b).branchReverse).le
      rw [branchReverse_len] at this
      exact this
    · exact defaults_mem es _ _ _ h

/-- What the code of the default values does. -/
def DoesDefaults (Λ : Machine Δ S R) (g : Code (Op Δ) (Br Δ) Unit) (c : Place (Mach Δ S)) (b : Bld (Op Δ) (Br Δ)) (n : Nat) : Except R (List Δ.V × S) → Prop
  | .ok (vs, s) => vs.length = n ∧ Reach (sem Λ) g c (pl b ⟨vs, s⟩)
  | .error r => Halt (sem Λ) g c (.err r)

theorem defaults_run (Λ : Machine Δ S R) [Compiles Λ em] {g : Code (Op Δ) (Br Δ) Unit} : ∀ (es : List Δ.X) (k : Nat) (b : Bld (Op Δ) (Br Δ)), Agree 0 (emitDefaults em k es b).1 g (fun _ => False) →
    ∀ (env : List Δ.V) (s : S), env.length = k → DoesDefaults Λ g (pl b ⟨env, s⟩) (emitDefaults em k es b).1 (k + es.length) (withDefaults Λ.toLang es env s)
  | [], k, b, ag, env, s, hk => ⟨hk, .refl _⟩
  | e :: es, k, b, ag, env, s, hk => by
    simp only [emitDefaults] at ag ⊢
    have hg := defaults_grow (em := em) es (k + 1) (em k e b).branchReverse
    have ag1 : Agree 0 (em k e b).branchReverse g (fun _ => False) := ag.back hg (Nat.zero_le _)
    have ag2 : Agree 0 (em k e b) g (fun _ => False) := ag1.back (Grow.refl _).branchReverse (Nat.zero_le _)
    have hrun := Compiles.run (Λ := Λ) (em := em) g k e b (fun _ => False) (ag2.mono (Nat.zero_le _) (fun _ _ _ h => h)) (fun _ _ _ h => h) env [] s hk
    rw [withDefaults]
    cases hv : Λ.eval e env s with
    | error r =>
      rw [hv] at hrun
      simp only [List.append_nil] at hrun
      exact hrun
    | ok q =>
      obtain ⟨v, env', s'⟩ := q
      rw [hv] at hrun
      simp only [List.append_nil] at hrun
      have hlen : (env' ++ [v]).length = k + 1 := by rw [List.length_append, Λ.eval_len _ _ _ _ _ _ hv, hk]; rfl
      have ih := defaults_run Λ es (k + 1) (em k e b).branchReverse ag (env' ++ [v]) s' hlen
      have hnext : Reach (sem Λ) g (pl (em k e b) ⟨env' ++ [v], s'⟩) (pl (em k e b).branchReverse ⟨env' ++ [v], s'⟩) := by
        rw [pl_branchReverse]
        refine reach_next ?_ _
        rw [ag1.blocks _ (Nat.zero_le _) (by rw [branchReverse_len]; omega) (fun h => h)]
        simp [Bld.branchReverse]
      simp only
      cases hr : withDefaults Λ.toLang es (env' ++ [v]) s' with
      | error r => rw [hr] at ih; exact (hrun.trans hnext).halt ih
      | ok q =>
        rw [hr] at ih
        exact ⟨by rw [ih.1]; simp; omega, (hrun.trans hnext).trans ih.2⟩

/-- A call enters after the default values that it does not need. -/
theorem defaults_from (Λ : Machine Δ S R) [Compiles Λ em] {g : Code (Op Δ) (Br Δ) Unit} : ∀ (es : List Δ.X) (k : Nat) (b : Bld (Op Δ) (Br Δ)) (i0 : Nat), (∀ m : Mach Δ S, pl b m = ⟨i0, 0, m⟩) → Agree 0 (emitDefaults em k es b).1 g (fun _ => False) →
    ∀ (j : Nat), j ≤ es.length → ∀ (env : List Δ.V) (s : S), env.length = k + j →
      DoesDefaults Λ g ⟨(i0 :: (emitDefaults em k es b).2).getD j 0, 0, ⟨env, s⟩⟩ (emitDefaults em k es b).1 (k + es.length) (withDefaults Λ.toLang (es.drop j) env s)
  | es, k, b, i0, hp, ag, 0, _, env, s, hk => by
    have := defaults_run Λ es k b ag env s (by simpa using hk)
    rw [hp] at this
    simpa using this
  | [], k, b, i0, hp, ag, j + 1, hj, env, s, hk => by simp at hj
  | e :: es, k, b, i0, hp, ag, j + 1, hj, env, s, hk => by
    simp only [emitDefaults] at ag ⊢
    have := defaults_from Λ es (k + 1) (em k e b).branchReverse ((em k e b).done.length + 1) (fun m => pl_branchReverse _ _) ag j (by simpa using hj) env s (by omega)
    simp only [List.length_cons, List.drop_succ_cons, List.getD_cons_succ]
    rw [show k + (es.length + 1) = k + 1 + es.length by omega]
    exact this

/-! ## Patterns -/

@[simp] theorem pat_locals : ∀ (pats : List (Nat × Option (Nat × Δ.P))) (ps : PS Δ), (emitPatterns pats ps).locals = ps.locals
  | [], _ => rfl
  | (_, none) :: pats, ps => (pat_locals pats _).trans rfl
  | (_, some _) :: pats, ps => (pat_locals pats _).trans rfl
@[simp] theorem pat_scope : ∀ (pats : List (Nat × Option (Nat × Δ.P))) (ps : PS Δ), (emitPatterns pats ps).scope = ps.scope
  | [], _ => rfl
  | (_, none) :: pats, ps => (pat_scope pats _).trans rfl
  | (_, some _) :: pats, ps => (pat_scope pats _).trans rfl
@[simp] theorem pat_flag : ∀ (pats : List (Nat × Option (Nat × Δ.P))) (ps : PS Δ), (emitPatterns pats ps).flag = ps.flag
  | [], _ => rfl
  | (_, none) :: pats, ps => (pat_flag pats _).trans rfl
  | (_, some _) :: pats, ps => (pat_flag pats _).trans rfl
@[simp] theorem pat_loops : ∀ (pats : List (Nat × Option (Nat × Δ.P))) (ps : PS Δ), (emitPatterns pats ps).loops = ps.loops
  | [], _ => rfl
  | (_, none) :: pats, ps => (pat_loops pats _).trans rfl
  | (_, some _) :: pats, ps => (pat_loops pats _).trans rfl
@[simp] theorem pat_len : ∀ (pats : List (Nat × Option (Nat × Δ.P))) (ps : PS Δ), (emitPatterns pats ps).b.done.length = ps.b.done.length
  | [], _ => rfl
  | (_, none) :: pats, ps => (pat_len pats _).trans rfl
  | (_, some _) :: pats, ps => (pat_len pats _).trans rfl
theorem pat_grow : ∀ (pats : List (Nat × Option (Nat × Δ.P))) (ps : PS Δ), Grow ps.b (emitPatterns pats ps).b
  | [], _ => .refl _
  | (i, none) :: pats, ps => (((Grow.refl ps.b).push (.load i)).push .pop).trans (pat_grow pats ((ps.push (.load i)).push .pop))
  | (i, some (_, p)) :: pats, ps => ((((Grow.refl ps.b).push (.load i)).push (.pattern p)).push .pop).trans (pat_grow pats (((ps.push (.load i)).push (.pattern p)).push .pop))
theorem pat_bb {op} : ∀ (pats : List (Nat × Option (Nat × Δ.P))) (ps : PS Δ), BB ps op → BB (emitPatterns pats ps) op
  | [], _, h => h
  | (_, none) :: pats, ps, h => pat_bb pats _ ((h.push _).push _)
  | (_, some _) :: pats, ps, h => pat_bb pats _ (((h.push _).push _).push _)

/-- What the code of the patterns does. -/
theorem pat_run (Λ : Machine Δ S R) {g : Code (Op Δ) (Br Δ) Unit} : ∀ (pats : List (Nat × Option (Nat × Δ.P))) (ps : PS Δ), Agree 0 (emitPatterns pats ps).b g (fun _ => False) →
    ∀ (env : List Δ.V) (s : S), (∀ q ∈ pats, q.1 < env.length) → DoesDefaults Λ g (pl ps.b ⟨env, s⟩) (emitPatterns pats ps).b env.length (bindPatterns Λ.toLang pats env s)
  | [], ps, ag, env, s, h => ⟨rfl, .refl _⟩
  | (i, none) :: pats, ps, ag, env, s, h => by
    have hi : i < env.length := h (i, none) (by simp)
    have ag2 : Agree 0 ((ps.push (.load i)).push .pop).b g (fun _ => False) := ag.back (pat_grow pats _) (Nat.zero_le _)
    have ag1 : Agree 0 (ps.push (.load i)).b g (fun _ => False) := ag2.back ((Grow.refl _).push Op.pop) (Nat.zero_le _)
    have h1 : Reach (sem Λ) g (pl ps.b ⟨env, s⟩) (pl (ps.push (.load i)).b ⟨env ++ [env[i]], s⟩) := reach_push (sm := sem Λ) ag1 (by simp [sem, exec, List.getElem?_eq_getElem hi])
    have h2 : Reach (sem Λ) g (pl (ps.push (.load i)).b ⟨env ++ [env[i]], s⟩) (pl ((ps.push (.load i)).push .pop).b ⟨env, s⟩) := reach_push (sm := sem Λ) ag2 (by simp [sem, exec])
    have ih := pat_run Λ pats ((ps.push (.load i)).push .pop) ag env s (fun q hq => h q (by simp [hq]))
    simp only [bindPatterns, emitPatterns]
    cases hr : bindPatterns Λ.toLang pats env s with
    | error r => rw [hr] at ih; exact (h1.trans h2).halt ih
    | ok q => rw [hr] at ih; exact ⟨ih.1, (h1.trans h2).trans ih.2⟩
  | (i, some (n, p)) :: pats, ps, ag, env, s, h => by
    have hi : i < env.length := h (i, some (n, p)) (by simp)
    have ag3 : Agree 0 (((ps.push (.load i)).push (.pattern p)).push .pop).b g (fun _ => False) := ag.back (pat_grow pats _) (Nat.zero_le _)
    have ag2 : Agree 0 ((ps.push (.load i)).push (.pattern p)).b g (fun _ => False) := ag3.back ((Grow.refl _).push Op.pop) (Nat.zero_le _)
    have ag1 : Agree 0 (ps.push (.load i)).b g (fun _ => False) := ag2.back ((Grow.refl _).push (Op.pattern p)) (Nat.zero_le _)
    have h1 : Reach (sem Λ) g (pl ps.b ⟨env, s⟩) (pl (ps.push (.load i)).b ⟨env ++ [env[i]], s⟩) := reach_push (sm := sem Λ) ag1 (by simp [sem, exec, List.getElem?_eq_getElem hi])
    simp only [bindPatterns, emitPatterns, List.getElem?_eq_getElem hi]
    cases hd : Λ.toLang.destr p env[i] env s with
    | error r =>
      exact h1.halt (halt_push (sm := sem Λ) (b := (ps.push (.load i)).b) ag2 (by simp [sem, exec, hd]))
    | ok q =>
      obtain ⟨env', s'⟩ := q
      have hlen := Λ.destr_len _ _ _ _ _ _ hd
      have h2 : Reach (sem Λ) g (pl (ps.push (.load i)).b ⟨env ++ [env[i]], s⟩) (pl ((ps.push (.load i)).push (.pattern p)).b ⟨env' ++ [env[i]], s'⟩) := reach_push (sm := sem Λ) ag2 (by simp [sem, exec, hd])
      have h3 : Reach (sem Λ) g (pl ((ps.push (.load i)).push (.pattern p)).b ⟨env' ++ [env[i]], s'⟩) (pl (((ps.push (.load i)).push (.pattern p)).push .pop).b ⟨env', s'⟩) := reach_push (sm := sem Λ) ag3 (by simp [sem, exec])
      have ih := pat_run Λ pats (((ps.push (.load i)).push (.pattern p)).push .pop) ag env' s' (fun q hq => by rw [hlen]; exact h q (by simp [hq]))
      simp only
      cases hr : bindPatterns Λ.toLang pats env' s' with
      | error r => rw [hr] at ih; exact ((h1.trans h2).trans h3).halt ih
      | ok q => rw [hr] at ih; exact ⟨by rw [ih.1, hlen], ((h1.trans h2).trans h3).trans ih.2⟩

/-! ## The code before the body -/

variable (em) in
theorem params_locals (r : Nat) (es : List Δ.X) (pats) : (emitParams em r es pats).1.locals = List.replicate (r + es.length + names pats) 1 := by simp [emitParams]
variable (em) in
theorem params_loops (r : Nat) (es : List Δ.X) (pats) : (emitParams em r es pats).1.loops = [] := by simp [emitParams]
variable (em) in
theorem params_flag (r : Nat) (es : List Δ.X) (pats) : (emitParams em r es pats).1.flag = false := by simp [emitParams]
variable (em) in
theorem params_scope (r : Nat) (es : List Δ.X) (pats) : (emitParams em r es pats).1.scope = 2 := by simp [emitParams]
variable (em) in
theorem params_len (r : Nat) (es : List Δ.X) (pats) : (emitParams em r es pats).1.b.done.length = (emitDefaults em r es .empty).1.done.length := by simp [emitParams]

variable (em) in
theorem inv_fn (r : Nat) (es : List Δ.X) (pats) : Inv (emitParams em r es pats).1 := by
  have hb : brks (emitParams em r es pats).1 = [] := by simp [brks, params_loops]
  refine ⟨?_, ?_, ?_, ?_⟩
  · intro d hd
    rw [params_locals] at hd
    rw [params_scope]
    have := List.eq_of_mem_replicate hd
    omega
  · intro i hi; rw [hb] at hi; simp at hi
  · rw [hb]; exact List.nodup_nil
  · simp [PS.start, params_loops]

theorem params_bb [EmOk em] (r : Nat) (es : List Δ.X) (pats) : BB (emitParams em r es pats).1 [] :=
  pat_bb pats _ (BB.nils ⟨[], by simp [brks], defaults_built (em := em) es r .empty .new⟩ _)

/-- The code of the parameters, entered with `r + j` arguments. -/
theorem params_run (Λ : Machine Δ S R) [Compiles Λ em] {g : Code (Op Δ) (Br Δ) Unit} (r : Nat) (es : List Δ.X) (pats : List (Nat × Option (Nat × Δ.P))) (hp : ∀ q ∈ pats, q.1 < r + es.length)
    (ag : Agree 0 (emitParams em r es pats).1.b g (fun _ => False)) (j : Nat) (hj : j ≤ es.length) (env : List Δ.V) (s : S) (hk : env.length = r + j) :
    DoesDefaults Λ g ⟨(emitParams em r es pats).2.getD j 0, 0, ⟨env, s⟩⟩ (emitParams em r es pats).1.b (r + es.length + names pats)
      (match withDefaults Λ.toLang (es.drop j) env s with
        | .ok (vs, s) => bindPatterns Λ.toLang pats (vs ++ List.replicate (names pats) Λ.toLang.nil) s
        | .error r => .error r) := by
  have ag2 := ag.back (pat_grow pats _) (Nat.zero_le _)
  have ag1 := ag2.back (nils_grow _ _) (Nat.zero_le _)
  have h1 := defaults_from Λ es r .empty 0 (fun m => rfl) ag1 j hj env s hk
  rw [show (0 :: (emitDefaults em r es .empty).2) = (emitParams em r es pats).2 from rfl] at h1
  cases hw : withDefaults Λ.toLang (es.drop j) env s with
  | error r => rw [hw] at h1; exact h1
  | ok q =>
    obtain ⟨vs, s1⟩ := q
    rw [hw] at h1
    obtain ⟨hlen, h1⟩ := h1
    have h2 := reach_nils (Λ := Λ) (names pats) _ ag2 (Nat.zero_le _) vs s1
    have h3 := pat_run Λ pats _ ag (vs ++ List.replicate (names pats) Λ.toLang.nil) s1 (fun q hq => by have := hp q hq; simp; omega)
    simp only
    cases hr : bindPatterns Λ.toLang pats (vs ++ List.replicate (names pats) Λ.toLang.nil) s1 with
    | error r => rw [hr] at h3; exact (h1.trans h2).halt h3
    | ok q => rw [hr] at h3; exact ⟨by rw [h3.1]; simp [hlen], (h1.trans h2).trans h3.2⟩

theorem fn_wf (em : Em Δ) [EmOk em] (r : Nat) (es : List Δ.X) (pats : List (Nat × Option (Nat × Δ.P))) (body : Block Δ) : WF (emitFn em r es pats body).1.b.graph := by
  have hi := inv_fn em r es pats
  have h := built_B (em := em) body _ [] hi (params_bb r es pats)
  have hb := brks_nil (tab_B (em := em) body _ hi).ext (params_loops em r es pats)
  unfold emitFn
  simp only
  split
  · exact wf_of_bb (h.push _) hb
  · exact wf_of_bb ((h.push _).push _) hb

theorem fn_grow (em : Em Δ) [EmOk em] (r : Nat) (es : List Δ.X) (pats : List (Nat × Option (Nat × Δ.P))) (body : Block Δ) :
    Grow (emitB em body (emitParams em r es pats).1).b (emitFn em r es pats body).1.b := by
  unfold emitFn
  simp only
  split
  · exact (Grow.refl _).push _
  · exact ((Grow.refl _).push _).push _

theorem fn_ids (em : Em Δ) [EmOk em] (r : Nat) (es : List Δ.X) (pats : List (Nat × Option (Nat × Δ.P))) (body : Block Δ) (i : Nat) (h : i ∈ (emitFn em r es pats body).2) : i < (emitFn em r es pats body).1.b.graph.length := by
  have h1 := (fn_grow em r es pats body).le
  have h2 := (tab_B (em := em) body _ (inv_fn em r es pats)).ext.grow.le
  rw [params_len] at h2
  rw [graph_length]
  simp only [emitFn, emitParams, List.mem_cons] at h
  rcases h with rfl | h
  · omega
  · have := defaults_mem es r .empty i h
    omega

theorem fn_ids_length (em : Em Δ) (r : Nat) (es : List Δ.X) (pats : List (Nat × Option (Nat × Δ.P))) (body : Block Δ) : (emitFn em r es pats body).2.length = es.length + 1 := by
  simp [emitFn, emitParams, defaults_ids]

/-- The code of a function, entered with `r + j` arguments. -/
theorem fn_out (Λ : Machine Δ S R) (em : Em Δ) [Compiles Λ em] (fuel r : Nat) (es : List Δ.X) (pats : List (Nat × Option (Nat × Δ.P))) (body : Block Δ) (hok : body.ok none false) (hp : ∀ q ∈ pats, q.1 < r + es.length) (j : Nat) (hj : j ≤ es.length) (args : List Δ.V) (ha : args.length = r + j) (s : S) :
    Does (sem Λ) (emitFn em r es pats body).1.b.graph ⟨(emitFn em r es pats body).2.getD j 0, 0, ⟨args, s⟩⟩ fuel callStop (callWith Λ.toLang fuel (es.drop j) pats body args s) := by
  have hg := fn_grow em r es pats body
  have hi := inv_fn em r es pats
  have hB := (tab_B (em := em) body _ hi).ext.grow
  have ag0 : Agree 0 (emitFn em r es pats body).1.b (emitFn em r es pats body).1.b.graph (fun _ => False) := agree_self
  have hd := params_run Λ (em := em) r es pats hp ((ag0.back hg (Nat.zero_le _)).back hB (Nat.zero_le _)) j hj args s ha
  rw [show (emitParams em r es pats).2 = (emitFn em r es pats body).2 from rfl] at hd
  unfold callWith
  cases hw : withDefaults Λ.toLang (es.drop j) args s with
  | error e => rw [hw] at hd; exact hd
  | ok q =>
   obtain ⟨vs, s1⟩ := q
   rw [hw] at hd
   simp only at hd ⊢
   cases hw : bindPatterns Λ.toLang pats (vs ++ List.replicate (names pats) Λ.toLang.nil) s1 with
   | error e => rw [hw] at hd; exact hd
   | ok q =>
    obtain ⟨vs, s1⟩ := q
    rw [hw] at hd
    obtain ⟨hlen, hreach⟩ := hd
    have ag : Agree 0 (emitB em body (emitParams em r es pats).1).b (emitFn em r es pats body).1.b.graph
        (· ∈ brks (emitB em body (emitParams em r es pats).1)) := agree_self.back hg (Nat.zero_le _)
    have h := sim_B (Λ := Λ) (g := (emitFn em r es pats body).1.b.graph) (fuel := fuel) body (emitParams em r es pats).1 ⟨none, fun m => ⟨0, 0, m⟩, fun m => ⟨0, 0, m⟩, 0, 0⟩ (by rw [params_flag]; exact hok) hi
      ⟨fun h => absurd rfl h, fun h => absurd (params_loops em r es pats) (by simpa using h)⟩ (fun _ => params_flag em r es pats) (ag.mono (Nat.zero_le _) (fun _ _ _ h => h)) (fun h => absurd rfl h) vs none s1 (by rw [params_locals]; simp [hlen]) (by rw [params_flag]; rfl)
    simp at h
    simp only
    unfold callBody
    rcases hr : runB Λ.toLang fuel body vs s1 with _ | (⟨env, val, s'⟩ | _ | _ | _ | _)
    all_goals rw [hr] at h
    · exact hreach.long h
    · obtain ⟨h1, h2, h3⟩ := h
      refine hreach.halt ?_
      refine Reach.halt h3 ?_
      have ag : Agree 0 (emitFn em r es pats body).1.b (emitFn em r es pats body).1.b.graph (fun _ => False) := agree_self
      revert ag
      unfold emitFn
      simp only
      split
      · rename_i hf
        rw [hf] at h2
        obtain ⟨v, rfl⟩ := Option.isSome_iff_exists.1 h2
        intro ag
        exact halt_push (sm := sem Λ) (b := (emitB em body (emitParams em r es pats).1).b) ag (by simp [sem, exec, callStop])
      · rename_i hf
        have hv : val = none := by
          cases val with
          | none => rfl
          | some v => simp only [Option.isSome_some] at h2; exact absurd h2.symm hf
        subst hv
        intro ag
        refine Reach.halt (reach_push (sm := sem Λ) (b := (emitB em body (emitParams em r es pats).1).b) (m' := ⟨env ++ [Λ.nil], s'⟩) (ag.back ((Grow.refl _).push Op.ret) (Nat.zero_le _)) (by simp [sem, exec])) ?_
        exact halt_push (sm := sem Λ) (b := ((emitB em body (emitParams em r es pats).1).push .nil).b) ag (by simp [sem, exec, callStop])
    · exact absurd rfl h.1
    · exact absurd h.1 (by simp)
    · exact hreach.halt h
    · exact hreach.halt h

end Cordy.Program
