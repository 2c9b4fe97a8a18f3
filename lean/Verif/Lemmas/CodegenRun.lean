import Verif.Lemmas.CodegenGrow
import Verif.Spec.Eval
/-! Running emitted code: C36–C38, C45. -/
namespace Cordy.Codegen
open Cordy.Builder
open Cordy.Graph (GRun GHalts Place gstep)
variable {Γ : Sig} {E S O T M R : Type} {P : Prims Γ E S} {H : Host P O T M R}

theorem Agree.sub {lo : Nat} {b1 b2 b3 : Bld O T} {g : GCode O T} (h : Agree lo b3 g) (h0 : lo ≤ b1.done.length) (h1 : Grow b1 b2) (h2 : Grow b2 b3) :
    Agree b1.done.length b2 g := (h.back h2 (Nat.le_trans h0 h1.le)).mono h0

theorem runs_pushOut' {lo : Nat} {b : Bld O T} {g : GCode O T} (o : Op Γ) (h : Agree lo (b.push (H.em.op o)) g) {m : Mach Γ S} {st : List Γ.V} {ls us s0} {out : Out E S Γ.V} {st0 : List Γ.V}
    (he : exec P o m = pushOut ⟨st0, ls, us, s0⟩ st out) : Runs H g (pl H b m) out (fun v s => pl H (b.push (H.em.op o)) ⟨v :: st, ls, us, s⟩) :=
  runs_pushOut o h he

theorem runs_doOut' {α : Type} {lo : Nat} {b : Bld O T} {g : GCode O T} (o : Op Γ) (h : Agree lo (b.push (H.em.op o)) g) {m : Mach Γ S} {st : List Γ.V} {ls us s0} {out : Out E S Unit} {st0 : List Γ.V} (v : α)
    (he : exec P o m = doOut ⟨st0, ls, us, s0⟩ st out) : Runs H g (pl H b m) (out.bind fun _ s => .ok v s) (fun _ s => pl H (b.push (H.em.op o)) ⟨st, ls, us, s⟩) :=
  Runs.bind (runs_doOut o h he) (fun _ _ => Runs.ok rfl)

theorem runs_step {α : Type} {lo : Nat} {b : Bld O T} {g : GCode O T} (o : Op Γ) (h : Agree lo (b.push (H.em.op o)) g) {m m' : Mach Γ S} {out : Out E S α} {k : α → S → Place M}
    (he : exec P o m = .ok m') (hr : Runs H g (pl H (b.push (H.em.op o)) m') out k) : Runs H g (pl H b m) out k :=
  Runs.after (run_push_ok o h he) hr

theorem runs_captures (caps : List Γ.Q) : ∀ (b : Bld O T) (g : GCode O T) (lo : Nat) (v : Γ.V) (st : List Γ.V) (ls us s), lo ≤ b.done.length →
    Agree lo (caps.foldl (fun b q => b.push (H.em.op (.capture q))) b) g →
    Runs H g (pl H b ⟨v :: st, ls, us, s⟩) (captureAll P caps v s) (fun v s => pl H (caps.foldl (fun b q => b.push (H.em.op (.capture q))) b) ⟨v :: st, ls, us, s⟩) := by
  have hg : ∀ (caps : List Γ.Q) (c : Bld O T), Grow c (caps.foldl (fun b q => b.push (H.em.op (.capture q))) c) := by
    intro caps
    induction caps with
    | nil => exact fun c => .refl _
    | cons q qs ih => exact fun c => (Grow.push' _ _).trans (ih _)
  induction caps with
  | nil => exact fun b g lo v st ls us s _ _ => Runs.ok rfl
  | cons q qs ih =>
    intro b g lo v st ls us s hl h
    refine Runs.bind (runs_pushOut' (.capture q) (lo := lo) ?_ rfl) (fun v s => ?_)
    · exact Agree.back h (hg qs _) hl
    · exact ih _ g lo v st ls us s hl h

theorem exec_call (n : Nat) (any : Bool) (f : Γ.V) (vs : List Γ.V) (st : List Γ.V) (ls) (us us' : List Int) (s : S)
    (h : if any then us = ((vs.length : Int) - n) :: us' else us = us' ∧ vs.length = n) :
    exec P (.call n any) ⟨vs.reverse ++ f :: st, ls, us, s⟩ = pushOut ⟨vs.reverse ++ f :: st, ls, us', s⟩ st (P.call f vs s) := by
  have key : ∀ k, k = vs.length → (match List.drop k (vs.reverse ++ f :: st) with
      | f' :: st' => if k ≤ (vs.reverse ++ f :: st).length then pushOut (⟨vs.reverse ++ f :: st, ls, us', s⟩ : Mach Γ S) st' (P.call f' (List.take k (vs.reverse ++ f :: st)).reverse s) else crash ⟨vs.reverse ++ f :: st, ls, us, s⟩
      | [] => crash ⟨vs.reverse ++ f :: st, ls, us, s⟩) = pushOut ⟨vs.reverse ++ f :: st, ls, us', s⟩ st (P.call f vs s) := by
    intro k hk
    have h1 : List.drop k (vs.reverse ++ f :: st) = f :: st := by rw [List.drop_left' (by simp [hk])]
    have h2 : List.take k (vs.reverse ++ f :: st) = vs.reverse := by rw [List.take_left' (by simp [hk])]
    rw [h1, h2]
    simp [hk]
  cases any with
  | false =>
    obtain ⟨rfl, hn⟩ := h
    exact key n hn.symm
  | true =>
    simp only [if_true] at h
    subst h
    exact key _ (by omega)

theorem emitArgs_true : ∀ (args : Args Γ) (b : Bld O T), (emitArgs H.em args b true).2 = true
  | .nil, b => by simp [emitArgs]
  | .plain e rest, b => by simp only [emitArgs]; exact emitArgs_true rest _
  | .unroll e rest, b => by simp only [emitArgs]; exact emitArgs_true rest _

theorem emitArgs_false : ∀ (args : Args Γ) (b : Bld O T) (sp : Γ.V → S → Out E S (List Γ.V)) (s s' : S) (vs : List Γ.V), (emitArgs H.em args b false).2 = false → evalArgsW P (fcCode P) sp args s = .ok vs s' → vs.length = args.length
  | .nil, b, sp, s, s', vs, _, h => by simp only [evalArgsW, Out.ok.injEq] at h; rw [← h.1]; rfl
  | .plain e rest, b, sp, s, s', vs, hf, h => by
    simp only [emitArgs] at hf
    simp only [evalArgsW] at h
    cases he : evalW P (fcCode P) e s with
    | stop => rw [he] at h; simp [Out.bind] at h
    | ok v s1 =>
      rw [he] at h
      cases hr : evalArgsW P (fcCode P) sp rest s1 with
      | stop => rw [Out.bind, hr] at h; simp [Out.bind] at h
      | ok ws s2 =>
        rw [Out.bind, hr] at h
        simp only [Out.bind, Out.ok.injEq] at h
        rw [← h.1]
        have := emitArgs_false rest _ sp s1 s2 ws hf hr
        simp [Args.length, this]
  | .unroll e rest, b, sp, s, s', vs, hf, h => by
    simp only [emitArgs] at hf
    rw [emitArgs_true] at hf; cases hf

/-- The counters after arguments that give `d` values more than there are arguments. -/
def bump (u u' : Bool) (d : Int) (us : List Int) : List Int :=
  if u' then (if u then (match us with | k :: us => (k + d) :: us | [] => []) else d :: us) else us

theorem exec_acc (ty : LitTy) (xs acc st : List Γ.V) (ls) (us : List Int) (s : S) :
    exec P (.litAcc acc.length) ⟨acc.reverse ++ st, (ty, xs) :: ls, us, s⟩ = .ok ⟨st, (ty, xs ++ acc) :: ls, us, s⟩ := by
  simp only [exec]
  rw [List.drop_left' (by simp), List.take_left' (by simp)]
  simp

theorem runs_acc {b : Bld O T} {g : GCode O T} {lo : Nat} (ty : LitTy) (xs acc st : List Γ.V) (ls) (us : List Int) (s : S) (h : Agree lo (emitAcc H.em acc.length b) g) :
    ∃ es, GRun H.sm g (pl H b ⟨acc.reverse ++ st, (ty, xs) :: ls, us, s⟩) es (pl H (emitAcc H.em acc.length b) ⟨st, (ty, xs ++ acc) :: ls, us, s⟩) := by
  unfold emitAcc at h ⊢
  split
  · rename_i hp
    rw [if_pos hp] at h
    exact run_push_ok _ h (exec_acc ty xs acc st ls us s)
  · rename_i hp
    have : acc = [] := by cases acc <;> simp_all
    subst this
    simp only [List.reverse_nil, List.nil_append, List.append_nil]
    exact ⟨_, .refl⟩

/-! ## Branches -/

/-- The blocks of the graph around a forward branch that is joined. -/
theorem join_blocks {lo : Nat} {b1 b2 : Bld O T} {g : GCode O T} (ty : Graph.BranchType T) (hlo : lo ≤ b1.done.length) (h2 : Grow b1.branchForward b2)
    (h : Agree lo (b2.joinForward b1.done.length ty) g) :
    Agree lo b1 g ∧ g[b1.done.length]? = some ⟨b1.cur, Graph.mkBranch ty (b1.done.length + 1) (b2.done.length + 1)⟩ ∧
    Agree (b1.done.length + 1) b2 g ∧ g[b2.done.length]? = some ⟨b2.cur, .next (b2.done.length + 1)⟩ := by
  have hl := h2.le
  rw [branchForward_len] at hl
  have hb : ∀ (i : Nat), lo ≤ i → i < b2.done.length → i ≠ b1.done.length → g[i]? = b2.done[i]? := by
    intro i hi hi' hne
    rw [h.blocks i hi (by rw [joinForward_len]; omega), joinForward_get _ _ _ _ hi' hne]
  have hx : b2.done[b1.done.length]? = some ⟨b1.cur, .exit⟩ := by
    rw [h2.keep _ (by rw [branchForward_len]; omega)]; simp [Bld.branchForward]
  have h1 : g[b1.done.length]? = some ⟨b1.cur, Graph.mkBranch ty (b1.done.length + 1) (b2.done.length + 1)⟩ := by
    rw [h.blocks _ hlo (by rw [joinForward_len]; omega), joinForward_get_i _ _ _ (by omega) _ hx]
  have h3 : g[b2.done.length]? = some ⟨b2.cur, .next (b2.done.length + 1)⟩ := by
    rw [h.blocks _ (by omega) (by rw [joinForward_len]; omega), joinForward_get_len _ _ _ (by omega)]
  refine ⟨⟨fun i hi hi' => ?_, [], by simp [codeAt, h1]⟩, h1, ⟨fun i hi hi' => hb i (by omega) hi' (by omega), [], by simp [codeAt, h3]⟩, h3⟩
  rw [hb i hi (by omega) (by omega), h2.keep i (by rw [branchForward_len]; omega)]
  exact List.getElem?_append_left hi'

theorem run_next {g : GCode O T} {b : Bld O T} {n : Nat} (h : g[b.done.length]? = some ⟨b.cur, .next n⟩) (m : Mach Γ S) :
    ∃ es, GRun H.sm g (pl H b m) es ⟨n, 0, H.emb m⟩ :=
  ⟨[] ++ [], .step (c' := ⟨n, 0, H.emb m⟩) (by simp [gstep, pl, h]) .refl⟩

theorem run_test {g : GCode O T} {b : Bld O T} {t : Br Γ} {d n : Nat} (h : g[b.done.length]? = some ⟨b.cur, .branch (H.em.br t) d n⟩) {m m' : Mach Γ S} {j : Bool}
    (he : execTest P t m = .ok (j, m')) : ∃ es, GRun H.sm g (pl H b m) es ⟨if j then n else d, 0, H.emb m'⟩ :=
  ⟨_, .step (c' := ⟨if j then n else d, 0, H.emb m'⟩) (by simp [gstep, pl, h, H.test_eq, he, Except.map]; rfl) .refl⟩

theorem pl_branchForward (b : Bld O T) (m : Mach Γ S) : pl H b.branchForward m = ⟨b.done.length + 1, 0, H.emb m⟩ := by
  simp [pl, Bld.branchForward]
theorem pl_joinForward (b : Bld O T) (i : Nat) (ty : Graph.BranchType T) (m : Mach Γ S) : pl H (b.joinForward i ty) m = ⟨b.done.length + 1, 0, H.emb m⟩ := by
  simp only [pl, joinForward_len]; rfl

end Cordy.Codegen
