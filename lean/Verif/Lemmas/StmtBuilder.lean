import Verif.Model.Stmt
import Verif.Lemmas.Bld
/-! The graph under construction, and runs along it: C64. -/
namespace Cordy.Stmts
open Cordy.Builder
open Cordy.Graph (Place gstep Code Built GRun GHalts)
variable {O T S R : Type}

/-! ## Agreeing with the finished graph -/

/-- The finished graph has the blocks from `lo` on as they are in the builder, up to the ends of those in `ex`; and the last block begins with what was emitted. -/
structure Agree (lo : Nat) (b : Bld O T) (g : Code O T Unit) (ex : Nat → Prop) : Prop where
  blocks : ∀ (i : Nat), lo ≤ i → i < b.done.length → ¬ ex i → g[i]? = b.done[i]?
  codes : ∀ (i : Nat), lo ≤ i → i < b.done.length → codeAt g i = codeAt b.done i
  last : ∃ r, codeAt g b.done.length = some (b.cur ++ r)

theorem Agree.mono {lo lo' : Nat} {b : Bld O T} {g : Code O T Unit} {ex ex' : Nat → Prop} (h : Agree lo b g ex) (hl : lo ≤ lo')
    (he : ∀ i, lo' ≤ i → i < b.done.length → ex i → ex' i) : Agree lo' b g ex' :=
  ⟨fun i hi hi' hx => h.blocks i (by omega) hi' (fun hh => hx (he i hi hi' hh)), fun i hi hi' => h.codes i (by omega) hi', h.last⟩

theorem Agree.back {lo : Nat} {b b' : Bld O T} {g : Code O T Unit} {ex : Nat → Prop} (h : Agree lo b' g ex) (hg : Grow b b') (hl : lo ≤ b.done.length) : Agree lo b g ex := by
  refine ⟨fun i hi hi' hx => ?_, fun i hi hi' => ?_, ?_⟩
  · rw [h.blocks i hi (by have := hg.le; omega) hx, hg.keep i hi']
  · rw [h.codes i hi (by have := hg.le; omega), codeAt, hg.keep i hi', codeAt]
  · obtain ⟨r, hr⟩ := hg.cur
    rcases Nat.lt_or_eq_of_le hg.le with he | he
    · refine ⟨r, ?_⟩
      rw [h.codes _ hl he, codeAt, ← graph_get_lt _ _ he]; exact hr
    · rw [he, codeAt, graph_get_len] at hr
      simp at hr
      obtain ⟨r', hr'⟩ := h.last
      exact ⟨r ++ r', by rw [he, hr', hr]; simp⟩

/-- Around a forward branch that is joined. -/
theorem Agree.joinForward {lo : Nat} {b : Bld O T} {g : Code O T Unit} {ex : Nat → Prop} {i : Nat} {ty : Graph.BranchType T} (h : Agree lo (b.joinForward i ty) g ex)
    (hlo : lo ≤ i) (hi : i < b.done.length) (hx : ¬ ex i) (hx' : ¬ ex b.done.length) :
    Agree lo b g (fun k => ex k ∨ k = i) ∧ (∃ c, codeAt b.done i = some c ∧ g[i]? = some ⟨c, Graph.mkBranch ty (i + 1) (b.done.length + 1)⟩) ∧
    g[b.done.length]? = some ⟨b.cur, .next (b.done.length + 1)⟩ := by
  have hl := joinForward_len b i ty
  obtain ⟨x, hxi⟩ : ∃ x, b.done[i]? = some x := ⟨_, List.getElem?_eq_getElem hi⟩
  have h1 : g[i]? = some ⟨x.code, Graph.mkBranch ty (i + 1) (b.done.length + 1)⟩ := by
    rw [h.blocks i hlo (by omega) hx, joinForward_get_i _ _ _ hi x hxi]
  have h2 : g[b.done.length]? = some ⟨b.cur, .next (b.done.length + 1)⟩ := by
    rw [h.blocks _ (by omega) (by omega) hx', joinForward_get_len _ _ _ hi]
  refine ⟨⟨fun k hk hk' hne => ?_, fun k hk hk' => ?_, [], by simp [codeAt, h2]⟩, ⟨x.code, by simp [codeAt, hxi], h1⟩, h2⟩
  · simp only [not_or] at hne
    rw [h.blocks k hk (by omega) hne.1, joinForward_get _ _ _ _ hk' hne.2]
  · by_cases hki : k = i
    · subst hki; simp [codeAt, h1, hxi]
    · rw [h.codes k hk (by omega), codeAt, joinForward_get _ _ _ _ hk' hki, codeAt]

theorem Agree.append {lo : Nat} {b : Bld O T} {g : Code O T Unit} {ex : Nat → Prop} {e : Graph.End T} (h : Agree lo ⟨b.done ++ [⟨b.cur, e⟩], []⟩ g ex) (hlo : lo ≤ b.done.length)
    (hx : ¬ ex b.done.length) : Agree lo b g ex ∧ g[b.done.length]? = some ⟨b.cur, e⟩ := by
  refine ⟨h.back ((Grow.refl b).append e) hlo, ?_⟩
  rw [h.blocks _ hlo (by simp) hx]
  simp

theorem Agree.branchForward {lo : Nat} {b : Bld O T} {g : Code O T Unit} {ex : Nat → Prop} (h : Agree lo b.branchForward g ex) (hlo : lo ≤ b.done.length) : Agree lo b g ex :=
  h.back (Grow.refl b).branchForward hlo

/-! ## Running -/

variable {sm : Graph.Sem O T S R} {g : Code O T Unit}

/-- A number of steps along the graph. -/
inductive Steps (sm : Graph.Sem O T S R) (g : Code O T Unit) : Nat → Place S → Place S → Prop
  | refl {c} : Steps sm g 0 c c
  | step {n c e c' c''} : gstep sm g c = some (e, .ok c') → Steps sm g n c' c'' → Steps sm g (n + 1) c c''

theorem Steps.trans {n m : Nat} {a b c : Place S} (h : Steps sm g n a b) (h' : Steps sm g m b c) : Steps sm g (n + m) a c := by
  induction h with
  | refl => simpa using h'
  | step h1 _ ih => rw [Nat.add_right_comm]; exact .step h1 (ih h')

/-- The place `c'` is reached, after some steps. -/
def Reach (sm : Graph.Sem O T S R) (g : Code O T Unit) (c c' : Place S) : Prop := ∃ n, Steps sm g n c c'
/-- The run stops with `r`. -/
def Halt (sm : Graph.Sem O T S R) (g : Code O T Unit) (c : Place S) (r : R) : Prop := ∃ c' e, Reach sm g c c' ∧ gstep sm g c' = some (e, .error r)
/-- The run takes at least `n` steps. -/
def Long (sm : Graph.Sem O T S R) (g : Code O T Unit) (n : Nat) (c : Place S) : Prop := ∃ k c', n ≤ k ∧ Steps sm g k c c'

theorem Reach.refl (c : Place S) : Reach sm g c c := ⟨0, .refl⟩
theorem Reach.trans {a b c : Place S} (h : Reach sm g a b) (h' : Reach sm g b c) : Reach sm g a c := by
  obtain ⟨n, h⟩ := h; obtain ⟨m, h'⟩ := h'; exact ⟨_, h.trans h'⟩
theorem Reach.halt {a b : Place S} {r : R} (h : Reach sm g a b) (h' : Halt sm g b r) : Halt sm g a r := by
  obtain ⟨c, e, h1, h2⟩ := h'; exact ⟨c, e, h.trans h1, h2⟩
theorem Reach.long {a b : Place S} {n : Nat} (h : Reach sm g a b) (h' : Long sm g n b) : Long sm g n a := by
  obtain ⟨m, h⟩ := h; obtain ⟨k, c, hk, h'⟩ := h'; exact ⟨m + k, c, by omega, h.trans h'⟩
theorem Reach.one {a b : Place S} {e} (h : gstep sm g a = some (e, .ok b)) : Reach sm g a b := ⟨1, .step h .refl⟩

theorem Steps.run {n : Nat} {a b : Place S} (h : Steps sm g n a b) : ∃ es, GRun sm g a es b := by
  induction h with
  | refl => exact ⟨_, .refl⟩
  | step h1 _ ih => obtain ⟨es, h2⟩ := ih; exact ⟨_, .step h1 h2⟩

theorem Halt.halts {a : Place S} {r : R} (h : Halt sm g a r) : ∃ es, GHalts sm g a es r := by
  obtain ⟨c, e, ⟨n, h1⟩, h2⟩ := h
  obtain ⟨es, h1⟩ := h1.run
  exact ⟨_, _, c, e, h1, h2, rfl⟩

theorem run_steps {a b : Place S} {es} (h : GRun sm g a es b) : Reach sm g a b := by
  induction h with
  | refl => exact .refl _
  | step h1 _ ih => exact (Reach.one h1).trans ih

theorem halts_halt {a : Place S} {es} {r : R} (h : GHalts sm g a es r) : Halt sm g a r := by
  obtain ⟨es1, c, e, h1, h2, _⟩ := h
  exact ⟨c, e, run_steps h1, h2⟩

/-- A run that stops takes no more steps than that. -/
theorem steps_bound {n m : Nat} {a b c : Place S} (h : Steps sm g n a b) (hb : ∀ e c', gstep sm g b ≠ some (e, .ok c')) (h' : Steps sm g m a c) : m ≤ n := by
  induction h generalizing m with
  | refl =>
    cases h' with
    | refl => exact Nat.le_refl _
    | step h1 _ => exact absurd h1 (hb _ _)
  | step h1 _ ih =>
    cases h' with
    | refl => omega
    | step h2 h3 =>
      rw [h1] at h2
      simp only [Option.some.injEq, Prod.mk.injEq, Except.ok.injEq] at h2
      obtain ⟨_, rfl⟩ := h2
      have := ih hb h3
      omega

theorem halt_not_long {a : Place S} {r : R} (h : Halt sm g a r) : ∃ n, ¬ Long sm g n a := by
  obtain ⟨c, e, ⟨n, h1⟩, h2⟩ := h
  refine ⟨n + 1, ?_⟩
  rintro ⟨k, c', hk, h3⟩
  have := steps_bound h1 (by intro e' c' hc; rw [h2] at hc; simp at hc) h3
  omega

theorem steps_det {n m : Nat} {a b c : Place S} {r r' : R} {e e'} (h : Steps sm g n a b) (hb : gstep sm g b = some (e, .error r)) (h' : Steps sm g m a c) (hc : gstep sm g c = some (e', .error r')) : r = r' := by
  induction h generalizing m with
  | refl =>
    cases h' with
    | refl => rw [hb] at hc; simp at hc; exact hc.2
    | step h1 _ => rw [hb] at h1; simp at h1
  | step h1 _ ih =>
    cases h' with
    | refl => rw [h1] at hc; simp at hc
    | step h2 h3 =>
      rw [h1] at h2
      simp only [Option.some.injEq, Prod.mk.injEq, Except.ok.injEq] at h2
      obtain ⟨_, rfl⟩ := h2
      exact ih hb h3

theorem halt_det {a : Place S} {r r' : R} (h : Halt sm g a r) (h' : Halt sm g a r') : r = r' := by
  obtain ⟨c, e, ⟨n, h1⟩, h2⟩ := h
  obtain ⟨c', e', ⟨n', h1'⟩, h2'⟩ := h'
  exact steps_det h1 h2 h1' h2'

/-- The place reached when everything emitted so far has run. -/
def pl (b : Bld O T) (m : S) : Place S := ⟨b.done.length, b.cur.length, m⟩

theorem gstep_push {lo : Nat} {b : Bld O T} {ex} (o : O) (h : Agree lo (b.push o) g ex) (m : S) :
    gstep sm g (pl b m) = some ([.op o m], (sm.op o m).map (fun m' => pl (b.push o) m')) := by
  obtain ⟨r, hr⟩ := h.last
  simp only [codeAt, Bld.push] at hr
  obtain ⟨x, hx, hx'⟩ := Option.map_eq_some_iff.1 hr
  simp only [gstep, pl, hx, hx']
  simp [Bld.push]

theorem reach_push {lo : Nat} {b : Bld O T} {ex} {o : O} (h : Agree lo (b.push o) g ex) {m m' : S} (he : sm.op o m = .ok m') : Reach sm g (pl b m) (pl (b.push o) m') := by
  have := gstep_push (sm := sm) o h m
  rw [he] at this
  exact .one this

theorem halt_push {lo : Nat} {b : Bld O T} {ex} {o : O} (h : Agree lo (b.push o) g ex) {m : S} {r : R} (he : sm.op o m = .error r) : Halt sm g (pl b m) r := by
  have := gstep_push (sm := sm) o h m
  rw [he] at this
  exact ⟨_, _, .refl _, this⟩

theorem reach_next {b : Bld O T} {n : Nat} (h : g[b.done.length]? = some ⟨b.cur, .next n⟩) (m : S) : Reach sm g (pl b m) ⟨n, 0, m⟩ :=
  .one (e := []) (by simp [gstep, pl, h])

theorem steps_next {b : Bld O T} {n : Nat} (h : g[b.done.length]? = some ⟨b.cur, .next n⟩) (m : S) : Steps sm g 1 (pl b m) ⟨n, 0, m⟩ :=
  .step (e := []) (by simp [gstep, pl, h]) .refl

theorem steps_test {b : Bld O T} {c : List (Unit × O)} {t : T} {d n : Nat} (h : g[b.done.length]? = some ⟨c, .branch t d n⟩) (hc : c = b.cur) {m m' : S} {j : Bool}
    (he : sm.test t m = .ok (j, m')) : Steps sm g 1 (pl b m) ⟨if j then n else d, 0, m'⟩ := by
  subst hc
  exact .step (e := [.test t m]) (c' := ⟨if j then n else d, 0, m'⟩) (by simp [gstep, pl, h, he, Except.map]) .refl

theorem reach_test {b : Bld O T} {c : List (Unit × O)} {t : T} {d n : Nat} (h : g[b.done.length]? = some ⟨c, .branch t d n⟩) (hc : c = b.cur) {m m' : S} {j : Bool}
    (he : sm.test t m = .ok (j, m')) : Reach sm g (pl b m) ⟨if j then n else d, 0, m'⟩ := ⟨1, steps_test h hc he⟩

theorem pl_branchForward (b : Bld O T) (m : S) : pl b.branchForward m = ⟨b.done.length + 1, 0, m⟩ := by simp [pl, Bld.branchForward]
theorem pl_branchReverse (b : Bld O T) (m : S) : pl b.branchReverse m = ⟨b.done.length + 1, 0, m⟩ := by simp [pl, Bld.branchReverse]
theorem pl_joinReverse (b : Bld O T) (i : Nat) (ty) (m : S) : pl (b.joinReverse i ty) m = ⟨b.done.length + 1, 0, m⟩ := by simp [pl, Bld.joinReverse]
theorem pl_joinForward (b : Bld O T) (i : Nat) (ty) (m : S) : pl (b.joinForward i ty) m = ⟨b.done.length + 1, 0, m⟩ := by
  simp only [pl, joinForward_len]; rfl

end Cordy.Stmts
