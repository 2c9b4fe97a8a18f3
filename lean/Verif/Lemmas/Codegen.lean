import Verif.Model.Expr
import Verif.Lemmas.Bld
/-! Lemmas on building code and running it: C36–C38, C45. -/
namespace Cordy.Codegen
open Cordy.Builder
open Cordy.Graph (GRun GHalts Place gstep)
variable {Γ : Sig} {E S O T M R : Type}

/-! ## Agreeing with the finished graph -/

abbrev GCode (O T : Type) := Graph.Code O T Unit

/-- The finished graph has the blocks from `lo` on as they are in the builder, and the last block begins with what was emitted. -/
structure Agree (lo : Nat) (b : Bld O T) (g : GCode O T) : Prop where
  blocks : ∀ (i : Nat), lo ≤ i → i < b.done.length → g[i]? = b.done[i]?
  last : ∃ r, codeAt g b.done.length = some (b.cur ++ r)

theorem Agree.mono {lo lo' : Nat} {b : Bld O T} {g : GCode O T} (h : Agree lo b g) (hl : lo ≤ lo') : Agree lo' b g :=
  ⟨fun i hi hi' => h.blocks i (by omega) hi', h.last⟩

theorem Agree.back {lo : Nat} {b b' : Bld O T} {g : GCode O T} (h : Agree lo b' g) (hg : Grow b b') (hl : lo ≤ b.done.length) : Agree lo b g := by
  refine ⟨fun i hi hi' => ?_, ?_⟩
  · rw [h.blocks i hi (by have := hg.le; omega), hg.keep i hi']
  · obtain ⟨r, hr⟩ := hg.cur
    rcases Nat.lt_or_eq_of_le hg.le with he | he
    · refine ⟨r, ?_⟩
      rw [codeAt, h.blocks _ hl he, ← graph_get_lt _ _ he]; exact hr
    · rw [he, codeAt, graph_get_len] at hr
      simp at hr
      obtain ⟨r', hr'⟩ := h.last
      exact ⟨r ++ r', by rw [he, hr', hr]; simp⟩

/-! ## Running -/

/-- A machine that runs the code of expressions as a part of its code: its opcodes and states, and what ends its runs. -/
structure Host (P : Prims Γ E S) (O T M R : Type) where
  em : Target Γ O T
  sm : Graph.Sem O T M R
  emb : Mach Γ S → M
  halt : Halt E S → R
  exec_eq : ∀ o m, sm.op (em.op o) (emb m) = match exec P o m with | .ok m' => .ok (emb m') | .error h => .error (halt h)
  test_eq : ∀ t m, sm.test (em.br t) (emb m) = match execTest P t m with | .ok r => .ok (r.1, emb r.2) | .error h => .error (halt h)
  ofCmp : em.ofCmp = P.ofCmp
  ne : em.ne = P.ne

variable {P : Prims Γ E S} (H : Host P O T M R)

/-- The place reached when everything emitted so far has run. -/
def pl (b : Bld O T) (m : Mach Γ S) : Place M := ⟨b.done.length, b.cur.length, H.emb m⟩

/-- From `c` the machine does what the outcome says: it reaches the place given by `k`, or stops. -/
def Runs {α : Type} (g : GCode O T) (c : Place M) (o : Out E S α) (k : α → S → Place M) : Prop :=
  match o with
  | .ok a s => ∃ es, GRun H.sm g c es (k a s)
  | .stop r s => ∃ es, GHalts H.sm g c es (H.halt (r, s))

variable {H}

theorem GRun.append {O T L S R : Type} {sm : Graph.Sem O T S R} {g : Graph.Code O T L} {a b c : Place S} {es fs} (h : GRun sm g a es b) (h' : GRun sm g b fs c) : GRun sm g a (es ++ fs) c := by
  induction h with
  | refl => exact h'
  | step h1 _ ih => rw [List.append_assoc]; exact .step h1 (ih h')

theorem Runs.after {α : Type} {g : GCode O T} {c c' : Place M} {o : Out E S α} {k : α → S → Place M}
    (h : ∃ es, GRun H.sm g c es c') (h' : Runs H g c' o k) : Runs H g c o k := by
  obtain ⟨es, h⟩ := h
  unfold Runs at h' ⊢
  cases o with
  | ok a s => obtain ⟨fs, h'⟩ := h'; exact ⟨_, GRun.append h h'⟩
  | stop r s =>
    obtain ⟨fs, es1, c2, e, h1, h2, rfl⟩ := h'
    exact ⟨_, _, c2, e, GRun.append h h1, h2, rfl⟩

theorem Runs.bind {α β : Type} {g : GCode O T} {c : Place M} {o : Out E S α} {k : α → S → Place M} {f : α → S → Out E S β} {k' : β → S → Place M}
    (h : Runs H g c o k) (h' : ∀ a s, Runs H g (k a s) (f a s) k') : Runs H g c (o.bind f) k' := by
  cases o with
  | ok a s => exact Runs.after h (h' a s)
  | stop r s => exact h

theorem Runs.weaken {α : Type} {g : GCode O T} {c : Place M} {o : Out E S α} {k k' : α → S → Place M}
    (h : Runs H g c o k) (hk : ∀ a s, o = .ok a s → ∃ es, GRun H.sm g (k a s) es (k' a s)) : Runs H g c o k' := by
  cases o with
  | ok a s =>
    obtain ⟨es, h⟩ := h
    obtain ⟨fs, h'⟩ := hk a s rfl
    exact ⟨_, GRun.append h h'⟩
  | stop r s => exact h

theorem Runs.ok {α : Type} {g : GCode O T} {c : Place M} {a : α} {s : S} {k : α → S → Place M} (h : c = k a s) : Runs H g c (.ok a s) k := by
  subst h; exact ⟨_, .refl⟩

theorem gstep_push {lo : Nat} {b : Bld O T} {g : GCode O T} (o : Op Γ) (h : Agree lo (b.push (H.em.op o)) g) (m : Mach Γ S) :
    gstep H.sm g (pl H b m) = some ([.op (H.em.op o) (H.emb m)], match exec P o m with | .ok m' => .ok (pl H (b.push (H.em.op o)) m') | .error e => .error (H.halt e)) := by
  obtain ⟨r, hr⟩ := h.last
  simp only [codeAt, Bld.push] at hr
  obtain ⟨x, hx, hx'⟩ := Option.map_eq_some_iff.1 hr
  simp only [gstep, pl, hx, hx']
  simp [Bld.push, H.exec_eq]
  cases exec P o m <;> rfl

theorem run_push_ok {lo : Nat} {b : Bld O T} {g : GCode O T} (o : Op Γ) (h : Agree lo (b.push (H.em.op o)) g) {m m' : Mach Γ S} (he : exec P o m = .ok m') :
    ∃ es, GRun H.sm g (pl H b m) es (pl H (b.push (H.em.op o)) m') := by
  have := gstep_push o h (H := H) m
  rw [he] at this
  exact ⟨_, .step this .refl⟩

theorem runs_push_err {α : Type} {lo : Nat} {b : Bld O T} {g : GCode O T} (o : Op Γ) (h : Agree lo (b.push (H.em.op o)) g) {m : Mach Γ S} {r : Stop E} {s : S}
    (he : exec P o m = .error (r, s)) (k : α → S → Place M) : Runs H g (pl H b m) (.stop r s) k := by
  have := gstep_push o h (H := H) m
  rw [he] at this
  exact ⟨_, [], _, _, .refl, this, rfl⟩

theorem runs_pushOut {lo : Nat} {b : Bld O T} {g : GCode O T} (o : Op Γ) (h : Agree lo (b.push (H.em.op o)) g) {m m₁ : Mach Γ S} {st : List Γ.V} {out : Out E S Γ.V}
    (he : exec P o m = pushOut m₁ st out) : Runs H g (pl H b m) out (fun v s => pl H (b.push (H.em.op o)) { m₁ with stack := v :: st, s := s }) := by
  cases out with
  | ok v s => exact run_push_ok o h he
  | stop r s => exact runs_push_err o h he _

theorem runs_doOut {lo : Nat} {b : Bld O T} {g : GCode O T} (o : Op Γ) (h : Agree lo (b.push (H.em.op o)) g) {m m₁ : Mach Γ S} {st : List Γ.V} {out : Out E S Unit}
    (he : exec P o m = doOut m₁ st out) : Runs H g (pl H b m) out (fun _ s => pl H (b.push (H.em.op o)) { m₁ with stack := st, s := s }) := by
  cases out with
  | ok v s => exact run_push_ok o h he
  | stop r s => exact runs_push_err o h he _

/-! ## Joining several branches -/

theorem joinAll_spec (pend : List (Γ.C × Nat)) : ∀ (lo : Nat) (b : Bld O T) (g : GCode O T), Agree lo (joinAll H.em pend b) g →
    (∀ p ∈ pend, lo ≤ p.2 ∧ p.2 < b.done.length) → (pend.map (·.2)).Nodup →
    (∀ (i : Nat), lo ≤ i → i < b.done.length → i ∉ pend.map (·.2) → g[i]? = b.done[i]?) ∧
    (∀ p ∈ pend, ∃ x t, b.done[p.2]? = some x ∧ g[p.2]? = some ⟨x.code, .branch (H.em.br (.compare p.1)) (p.2 + 1) t⟩ ∧
      ∀ m : Mach Γ S, ∃ es, GRun H.sm g ⟨t, 0, H.emb m⟩ es (pl H (joinAll H.em pend b) m)) ∧
    (∃ r, codeAt g b.done.length = some (b.cur ++ r)) ∧
    (∀ m : Mach Γ S, ∃ es, GRun H.sm g (pl H b m) es (pl H (joinAll H.em pend b) m)) := by
  induction pend with
  | nil => exact fun lo b g h _ _ => ⟨fun i hi hi' _ => h.blocks i hi hi', by simp, h.last, fun m => ⟨_, .refl⟩⟩
  | cons p ps ih =>
    intro lo b g h hp hn
    obtain ⟨hp1, hp2⟩ := hp p (by simp)
    simp only [List.map_cons, List.nodup_cons] at hn
    have hj : joinAll H.em (p :: ps) b = joinAll H.em ps (b.joinForward p.2 (some (H.em.br (.compare p.1)))) := rfl
    rw [hj] at h ⊢
    have hl := joinForward_len b p.2 (some (H.em.br (.compare p.1)))
    have hpl : ∀ m : Mach Γ S, pl H (b.joinForward p.2 (some (H.em.br (.compare p.1)))) m = ⟨b.done.length + 1, 0, H.emb m⟩ := by
      intro m; simp only [pl, hl]; rfl
    obtain ⟨i1, i2, i3, i4⟩ := ih lo _ g h (fun q hq => by have := hp q (by simp [hq]); rw [hl]; omega) hn.2
    have hlen : g[b.done.length]? = some ⟨b.cur, .next (b.done.length + 1)⟩ := by
      rw [i1 b.done.length (by omega) (by omega) ?_, joinForward_get_len _ _ _ hp2]
      intro hm
      obtain ⟨q, hq, he⟩ := List.mem_map.1 hm
      have := hp q (by simp [hq]); omega
    have hnext : ∀ m : Mach Γ S, ∃ es, GRun H.sm g (pl H b m) es (pl H (joinAll H.em ps (b.joinForward p.2 (some (H.em.br (.compare p.1))))) m) := by
      intro m
      obtain ⟨es, hes⟩ := i4 m
      refine ⟨[] ++ es, .step (c' := ⟨b.done.length + 1, 0, H.emb m⟩) ?_ ?_⟩
      · simp [gstep, pl, hlen]
      · rw [hpl] at hes; exact hes
    refine ⟨fun i hi hi' hm => ?_, ?_, ⟨[], by simp [codeAt, hlen]⟩, hnext⟩
    · simp only [List.map_cons, List.mem_cons, not_or] at hm
      rw [i1 i hi (by omega) hm.2, joinForward_get _ _ _ _ hi' hm.1]
    · intro q hq
      rcases List.mem_cons.1 hq with rfl | hq
      · obtain ⟨x, hx⟩ : ∃ x, b.done[q.2]? = some x := ⟨_, List.getElem?_eq_getElem hp2⟩
        refine ⟨x, b.done.length + 1, hx, ?_, fun m => ?_⟩
        · rw [i1 q.2 hp1 (by omega) hn.1, joinForward_get_i _ _ _ hp2 x hx]; rfl
        · obtain ⟨es, hes⟩ := i4 m
          rw [hpl] at hes
          exact ⟨es, hes⟩
      · obtain ⟨x, t, h1, h2, h3⟩ := i2 q hq
        have hqp : q.2 ≠ p.2 := fun he => hn.1 (he ▸ List.mem_map_of_mem hq)
        have hq' := hp q (by simp [hq])
        rw [joinForward_get _ _ _ _ hq'.2 hqp] at h1
        exact ⟨x, t, h1, h2, h3⟩

end Cordy.Codegen
