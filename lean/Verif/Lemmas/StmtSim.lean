import Verif.Lemmas.StmtGrow
import Verif.Spec.Exec
/-! Tools for the simulation: C64. -/
namespace Cordy.Stmts
open Cordy.Builder
open Cordy.Graph (Place gstep Code Built GRun GHalts)
variable {Γ : Sig} {S R : Type} {Λ : Machine Γ S R} {g : Code (Op Γ) (Br Γ) Unit}

/-- The code of expressions does what they mean, in any code it is a part of: `rest` is what there is on the stack beside the variables. -/
class Compiles (Λ : Machine Γ S R) (em : Em Γ) : Prop extends EmOk em where
  run : ∀ (g : Code (Op Γ) (Br Γ) Unit) (k : Nat) (e : Γ.X) (b : Bld (Op Γ) (Br Γ)) (ex : Nat → Prop), Agree b.done.length (em k e b) g ex →
    (∀ i, b.done.length ≤ i → i < (em k e b).done.length → ¬ ex i) → ∀ (env rest : List Γ.V) (s : S), env.length = k →
    match Λ.eval e env s with
    | .ok (v, env', s') => Reach (sem Λ) g (pl b ⟨env ++ rest, s⟩) (pl (em k e b) ⟨env' ++ rest ++ [v], s'⟩)
    | .error r => Halt (sem Λ) g (pl b ⟨env ++ rest, s⟩) (.err r)

variable {em : Em Γ} [Compiles Λ em]

/-- At least one step. -/
def Reach1 (Λ : Machine Γ S R) (g : Code (Op Γ) (Br Γ) Unit) (c c' : Place (Mach Γ S)) : Prop := ∃ n, 1 ≤ n ∧ Steps (sem Λ) g n c c'
theorem Reach1.reach {c c' : Place (Mach Γ S)} (h : Reach1 Λ g c c') : Reach (sem Λ) g c c' := by
  obtain ⟨n, _, h⟩ := h; exact ⟨n, h⟩
theorem Reach.one_right {a b c : Place (Mach Γ S)} (h : Reach (sem Λ) g a b) (h' : Reach1 Λ g b c) : Reach1 Λ g a c := by
  obtain ⟨n, h⟩ := h; obtain ⟨m, hm, h'⟩ := h'; exact ⟨n + m, by omega, h.trans h'⟩
theorem Reach1.trans {a b c : Place (Mach Γ S)} (h : Reach1 Λ g a b) (h' : Reach (sem Λ) g b c) : Reach1 Λ g a c := by
  obtain ⟨n, hn, h⟩ := h; obtain ⟨m, h'⟩ := h'; exact ⟨n + m, by omega, h.trans h'⟩

/-- Where `break` and `continue` lead, and how many variables there are there. -/
structure K (Γ : Sig) (S : Type) where
  lp : Option Bool
  D : Mach Γ S → Place (Mach Γ S)
  C : Mach Γ S → Place (Mach Γ S)
  eN : Nat
  iN : Nat

/-- The code, started at `p`, does what the result says; `q` is the state of the parser after it. -/
def Out (Λ : Machine Γ S R) (g : Code (Op Γ) (Br Γ) Unit) (n : Nat) (k : K Γ S) (q : PS Γ) (p : Place (Mach Γ S)) : Option (Res Γ S R) → Prop
  | none => Long (sem Λ) g n p
  | some (.normal env val s) => env.length = q.locals.length ∧ val.isSome = q.flag ∧ Reach (sem Λ) g p (pl q.b ⟨env ++ val.toList, s⟩)
  | some (.brk env s) => k.lp ≠ none ∧ k.eN ≤ env.length ∧ Reach (sem Λ) g p (k.D ⟨env.take k.eN, s⟩)
  | some (.cont env s) => k.lp = some true ∧ k.iN ≤ env.length ∧ Reach1 Λ g p (k.C ⟨env.take k.iN, s⟩)
  | some (.ret v s) => Halt (sem Λ) g p (.ret v s)
  | some (.stop r) => Halt (sem Λ) g p (.err r)

theorem Out.pre {n : Nat} {k : K Γ S} {q : PS Γ} {p p' : Place (Mach Γ S)} (h : Reach (sem Λ) g p p') {r : Option (Res Γ S R)} (ho : Out Λ g n k q p' r) : Out Λ g n k q p r := by
  rcases r with _ | (_ | _ | _ | _ | _)
  · exact h.long ho
  · exact ⟨ho.1, ho.2.1, h.trans ho.2.2⟩
  · exact ⟨ho.1, ho.2.1, h.trans ho.2.2⟩
  · exact ⟨ho.1, ho.2.1, h.one_right ho.2.2⟩
  · exact h.halt ho
  · exact h.halt ho

theorem Out.mono {n n' : Nat} (hn : n' ≤ n) {k : K Γ S} {q : PS Γ} {p : Place (Mach Γ S)} {r : Option (Res Γ S R)} (ho : Out Λ g n k q p r) : Out Λ g n' k q p r := by
  rcases r with _ | (_ | _ | _ | _ | _)
  · obtain ⟨m, c, hm, h⟩ := ho; exact ⟨m, c, by omega, h⟩
  all_goals exact ho

/-- Going on after a block or clause. -/
theorem Out.post {n : Nat} {k : K Γ S} {q q' : PS Γ} {p : Place (Mach Γ S)} (hl : q'.locals.length = q.locals.length) (hf : q.flag = false) (hf' : q'.flag = false)
    (h : ∀ m, Reach (sem Λ) g (pl q.b m) (pl q'.b m)) {r : Option (Res Γ S R)} (ho : Out Λ g n k q p r) : Out Λ g n k q' p r := by
  rcases r with _ | (_ | _ | _ | _ | _)
  · exact ho
  · exact ⟨ho.1.trans hl.symm, by rw [ho.2.1, hf, hf'], ho.2.2.trans (h _)⟩
  all_goals exact ho

/-! ## Variables of the loop around -/

/-- The variables outside of the loop around, as the tables tell. -/
structure Ctx (n : Nat) (k : K Γ S) (ps : PS Γ) : Prop where
  brk : k.lp ≠ none → ∃ l ls, ps.loops = l :: ls ∧ ps.above l.enclosing + k.eN = ps.locals.length ∧ l.enclosing ≤ ps.scope + n
  cont : k.lp = some true → ∃ l ls, ps.loops = l :: ls ∧ ps.above l.inner + k.iN = ps.locals.length ∧ l.inner ≤ ps.scope + n ∧ k.C = fun m => ⟨l.start, 0, m⟩

theorem above_append {ps ps' : PS Γ} {d j x : Nat} (hl : ps'.locals = ps.locals ++ List.replicate j x) (hd : d ≤ x ∨ j = 0) : ps'.above d = ps.above d + j := by
  unfold PS.above
  rw [hl, List.filter_append, List.length_append, List.filter_replicate]
  rcases hd with hd | hd
  · simp [hd]
  · subst hd; simp

theorem Ctx.step {n n' j x : Nat} {k : K Γ S} {ps ps' : PS Γ} (h : Ctx n k ps) (he : Ext ps ps') (hl : ps'.locals = ps.locals ++ List.replicate j x)
    (hj : ps.scope + n ≤ x ∨ j = 0) (hs : ps.scope + n ≤ ps'.scope + n') : Ctx n' k ps' := by
  constructor
  · intro hk
    obtain ⟨l, ls, h1, h2, h3⟩ := h.brk hk
    rcases he.loops with ⟨e1, _⟩ | ⟨l', ls', new, e1, e2, _⟩
    · rw [h1] at e1; simp at e1
    · rw [h1] at e1
      simp only [List.cons.injEq] at e1
      obtain ⟨rfl, rfl⟩ := e1
      refine ⟨_, _, e2, ?_, by simp only; omega⟩
      rw [above_append hl (by simp only; omega), hl, List.length_append, List.length_replicate]
      simp only
      omega
  · intro hk
    obtain ⟨l, ls, h1, h2, h3, h4⟩ := h.cont hk
    rcases he.loops with ⟨e1, _⟩ | ⟨l', ls', new, e1, e2, _⟩
    · rw [h1] at e1; simp at e1
    · rw [h1] at e1
      simp only [List.cons.injEq] at e1
      obtain ⟨rfl, rfl⟩ := e1
      refine ⟨_, _, e2, ?_, by simp only; omega, h4⟩
      rw [above_append hl (by simp only; omega), hl, List.length_append, List.length_replicate]
      simp only
      omega

theorem Ctx.tab {k : K Γ S} {ps ps' : PS Γ} (h : Ctx 0 k ps) (ht : Tab ps ps') : Ctx 0 k ps' := by
  obtain ⟨j, hj⟩ := ht.locals
  exact h.step ht.ext hj (.inl (Nat.le_refl _)) (Nat.le_of_eq (by rw [ht.scope]))

theorem Ctx.same {n : Nat} {k : K Γ S} {ps ps' : PS Γ} (h : Ctx n k ps) (he : Ext ps ps') (hl : ps'.locals = ps.locals) (hs : ps'.scope = ps.scope) : Ctx n k ps' :=
  h.step (j := 0) (x := 0) he (by simpa using hl) (.inr rfl) (Nat.le_of_eq (by rw [hs]))

theorem Ctx.one {k : K Γ S} {ps : PS Γ} (h : Ctx 0 k ps) : Ctx 1 k ps := h.step (j := 0) (x := 0) (.refl _) (by simp) (.inr rfl) (by omega)
theorem Ctx.enter {k : K Γ S} {ps : PS Γ} (h : Ctx 1 k ps) : Ctx 0 k ps.enter := h.step (j := 0) (x := 0) (ext_enter ps) (by simp) (.inr rfl) (by simp)

/-! ## The finished graph -/

theorem Agree.sub {q q' : PS Γ} {lo : Nat} (he : Ext q q') (h : Agree lo q'.b g (· ∈ brks q')) (hl : lo ≤ q.b.done.length) : Agree lo q.b g (· ∈ brks q) := by
  refine (h.back he.grow hl).mono (Nat.le_refl _) ?_
  intro i _ hi hb
  rcases he.brks hb with hh | hh
  · exact hh
  · omega

theorem Agree.up {q : PS Γ} {lo lo' : Nat} (h : Agree lo q.b g (· ∈ brks q)) (hl : lo ≤ lo') : Agree lo' q.b g (· ∈ brks q) := h.mono hl (fun _ _ _ h => h)

/-- A joined branch. -/
theorem agree_jF {a q : PS Γ} {lo i : Nat} {ty} (h : Agree lo (q.joinForward i ty).b g (· ∈ brks q)) (hlo : lo ≤ i) (hgr : Grow a.branchForward.b q.b)
    (hai : a.b.done.length = i) (hb : ∀ k ∈ brks q, k < q.b.done.length) (hib : i ∉ brks q) :
    Agree (i + 1) q.b g (· ∈ brks q) ∧ Agree lo a.b g (fun k => k ∈ brks q ∨ k = i) ∧ g[a.b.done.length]? = some ⟨a.b.cur, Graph.mkBranch ty (i + 1) (q.b.done.length + 1)⟩ ∧
    (∀ m, Reach (sem Λ) g (pl q.b m) (pl (q.joinForward i ty).b m)) := by
  have hlen := hgr.le
  rw [bF_b, branchForward_len] at hlen
  obtain ⟨h1, ⟨c, h2, h3⟩, h4⟩ := h.joinForward hlo (by omega) hib (fun hh => absurd (hb _ hh) (Nat.lt_irrefl _))
  refine ⟨h1.mono (by omega) ?_, ?_, ?_, ?_⟩
  · intro k hk _ hh
    rcases hh with hh | hh
    · exact hh
    · omega
  · exact h1.back ((Grow.refl a.b).branchForward.trans hgr) (by omega)
  · rw [hai, h3]
    have : c = a.b.cur := by
      rw [codeAt, hgr.keep i (by rw [bF_b, branchForward_len]; omega)] at h2
      simp [bF_b, Bld.branchForward, ← hai] at h2
      exact h2.symm
    rw [this]
  · intro m
    rw [jF_b, pl_joinForward]
    exact reach_next h4 m

/-- Where the breaks lead. -/
def Brk (Λ : Machine Γ S R) (g : Code (Op Γ) (Br Γ) Unit) (k : K Γ S) (lo : Nat) (bs : List Nat) : Prop :=
  k.lp ≠ none → ∀ i ∈ bs, lo ≤ i → ∃ c t, g[i]? = some ⟨c, .next t⟩ ∧ ∀ m, Reach (sem Λ) g ⟨t, 0, m⟩ (k.D m)

theorem Brk.sub {k : K Γ S} {lo lo' : Nat} {q q' : PS Γ} (h : Brk Λ g k lo (brks q')) (he : Ext q q') (hl : lo ≤ lo') : Brk Λ g k lo' (brks q) :=
  fun hk i hi hlo => h hk i (he.brks_sub hi) (by omega)

theorem joinAll_sim {ex : Nat → Prop} {lo : Nat} (is : List Nat) : ∀ (q : PS Γ), is.Nodup → (∀ i ∈ is, lo ≤ i ∧ i < q.b.done.length ∧ ¬ ex i) → (∀ j, q.b.done.length ≤ j → ¬ ex j) →
    Agree lo (q.joinAll is).b g ex →
    Agree lo q.b g (fun i => ex i ∨ i ∈ is) ∧ (∀ i ∈ is, ∃ c t, g[i]? = some ⟨c, .next t⟩ ∧ ∀ m, Reach (sem Λ) g ⟨t, 0, m⟩ (pl (q.joinAll is).b m)) ∧
    ∀ m, Reach (sem Λ) g (pl q.b m) (pl (q.joinAll is).b m) := by
  induction is with
  | nil => exact fun q _ _ _ h => ⟨h.mono (Nat.le_refl _) (fun _ _ _ h => .inl h), by simp, fun m => .refl _⟩
  | cons i is ih =>
    intro q hn hi hx h
    have hi0 := hi i (by simp)
    obtain ⟨hni, hn⟩ := List.nodup_cons.1 hn
    have hlen : (q.joinForward i none).b.done.length = q.b.done.length + 1 := by rw [jF_b, joinForward_len]
    obtain ⟨h1, h2, h3⟩ := ih (q.joinForward i none) hn (fun j hj => by have := hi j (by simp [hj]); exact ⟨this.1, by omega, this.2.2⟩) (fun j hj => hx j (by omega)) h
    obtain ⟨h4, ⟨c, h5, h6⟩, h7⟩ := h1.joinForward (b := q.b) hi0.1 hi0.2.1 (by
      rintro (hh | hh)
      · exact hi0.2.2 hh
      · exact hni hh) (by
      rintro (hh | hh)
      · exact hx _ (Nat.le_refl _) hh
      · exact absurd (hi _ (by simp [hh])).2.1 (Nat.lt_irrefl _))
    have hend : ∀ m, Reach (sem Λ) g ⟨q.b.done.length + 1, 0, m⟩ (pl (q.joinAll (i :: is)).b m) := by
      intro m
      have := h3 m
      rw [jF_b, pl_joinForward] at this
      exact this
    refine ⟨h4.mono (Nat.le_refl _) ?_, ?_, ?_⟩
    · rintro k _ _ ((hh | hh) | hh)
      · exact .inl hh
      · exact .inr (by simp [hh])
      · exact .inr (by simp [hh])
    · intro j hj
      rcases List.mem_cons.1 hj with rfl | hj
      · exact ⟨c, _, h6, hend⟩
      · exact h2 j hj
    · intro m
      exact (reach_next h7 m).trans (hend m)

/-- The end of a loop. -/
theorem endLoop_sim {ps a q : PS Γ} (hi : Inv ps) (hg : Grow ps.b a.b) {st e i : Nat} (ha : a.loops = ⟨st, [], e, i⟩ :: ps.loops) (h : Ext a q) (hal : ps.b.done.length ≤ a.b.done.length)
    (hag : Agree ps.b.done.length q.endLoop.b g (· ∈ brks ps)) (k : K Γ S) (hD : k.D = pl q.endLoop.b) :
    Agree ps.b.done.length q.b g (· ∈ brks q) ∧ Brk Λ g k 0 (brks q) ∧ ∀ m, Reach (sem Λ) g (pl q.b m) (pl q.endLoop.b m) := by
  obtain ⟨new, e2, e3, e4, hend, _⟩ := ext_endLoop hg ha h
  have hb : brks q = new := by simp [brks, e2]
  rw [hend] at hag hD ⊢
  have hle := hg.le
  have hle' := h.grow.le
  obtain ⟨h1, h2, h3⟩ := joinAll_sim (Λ := Λ) new { q with loops := ps.loops } e4
    (fun j hj => by
      have := e3 j hj
      refine ⟨by omega, this.2, fun hh => ?_⟩
      have := hi.brk j hh
      omega)
    (fun j hj hh => by have := hi.brk j hh; simp only at hj; omega) hag
  refine ⟨h1.mono (Nat.le_refl _) ?_, ?_, h3⟩
  · rintro k hk _ (hh | hh)
    · have := hi.brk k hh; omega
    · rw [hb]; exact hh
  · intro _ j hj _
    rw [hb] at hj
    obtain ⟨c, t, h4, h5⟩ := h2 j hj
    exact ⟨c, t, h4, by rw [hD]; exact h5⟩

/-! ## Single opcodes -/

theorem reach_pops {lo : Nat} {ex : Nat → Prop} (n : Nat) : ∀ (q : PS Γ), Agree lo (q.pops n).b g ex → lo ≤ q.b.done.length → ∀ (st : List Γ.V) (s : S), n ≤ st.length →
    Reach (sem Λ) g (pl q.b ⟨st, s⟩) (pl (q.pops n).b ⟨st.take (st.length - n), s⟩) := by
  induction n with
  | zero => intro q _ _ st s _; simp [PS.pops]; exact .refl _
  | succ n ih =>
    intro q h hlo st s hn
    have h1 : Agree lo (q.push .pop).b g ex := h.back (pops_grow (q.push .pop) n) hlo
    have h2 : Reach (sem Λ) g (pl q.b ⟨st, s⟩) (pl (q.push .pop).b ⟨st.dropLast, s⟩) := by
      refine reach_push (sm := sem Λ) h1 ?_
      have : st ≠ [] := by rintro rfl; simp at hn
      simp [sem, exec, this]
    have h3 := ih (q.push .pop) h hlo st.dropLast s (by simp; omega)
    rw [List.length_dropLast, List.dropLast_eq_take, List.take_take] at h3
    rw [List.dropLast_eq_take] at h2
    have e : min (st.length - 1 - n) (st.length - 1) = st.length - (n + 1) := by omega
    rw [e] at h3
    exact h2.trans h3

theorem reach_nils {lo : Nat} {ex : Nat → Prop} (n : Nat) : ∀ (q : PS Γ), Agree lo (q.nils n).b g ex → lo ≤ q.b.done.length → ∀ (st : List Γ.V) (s : S),
    Reach (sem Λ) g (pl q.b ⟨st, s⟩) (pl (q.nils n).b ⟨st ++ List.replicate n Λ.nil, s⟩) := by
  induction n with
  | zero => intro q _ _ st s; simp [PS.nils]; exact .refl _
  | succ n ih =>
    intro q h hlo st s
    have h1 : Agree lo (q.push .nil).b g ex := h.back (nils_grow (q.push .nil) n) hlo
    have h2 : Reach (sem Λ) g (pl q.b ⟨st, s⟩) (pl (q.push .nil).b ⟨st ++ [Λ.nil], s⟩) := reach_push (sm := sem Λ) h1 (by simp [sem, exec])
    have h3 := ih (q.push .nil) h hlo (st ++ [Λ.nil]) s
    rw [List.append_assoc, List.singleton_append, ← List.replicate_succ] at h3
    exact h2.trans h3

/-- The pending value goes away. -/
theorem reach_dp {lo : Nat} {ex : Nat → Prop} {q : PS Γ} (h : Agree lo q.delayedPop.b g ex) (env : List Γ.V) (pend : Option Γ.V) (hp : pend.isSome = q.flag) (s : S) :
    Reach (sem Λ) g (pl q.b ⟨env ++ pend.toList, s⟩) (pl q.delayedPop.b ⟨env, s⟩) := by
  unfold PS.delayedPop at h ⊢
  split at h
  · rename_i hf
    rw [if_pos hf]
    rw [hf] at hp
    obtain ⟨v, rfl⟩ := Option.isSome_iff_exists.1 hp
    exact reach_push (sm := sem Λ) (b := q.b) h (by simp [sem, exec])
  · rename_i hf
    rw [if_neg hf]
    have : pend = none := by
      cases pend with
      | none => rfl
      | some v => simp only [Option.isSome_some] at hp; exact absurd hp.symm hf
    subst this
    simp
    exact .refl _

/-- An expression. -/
theorem out_expr {lo : Nat} {ex : Nat → Prop} {q q' : PS Γ} {n : Nat} {k : K Γ S} {e : Γ.X} {j : Nat} (h : Agree lo (q.expr em j e).b g ex) (hlo : lo ≤ q.b.done.length) (hx : ∀ i, q.b.done.length ≤ i → i < (q.expr em j e).b.done.length → ¬ ex i)
    {env rest : List Γ.V} {s : S} (hl : env.length = j) {f : Γ.V → List Γ.V → S → Option (Res Γ S R)}
    (hf : ∀ v env' s', env'.length = j → Out Λ g n k q' (pl (q.expr em j e).b ⟨env' ++ rest ++ [v], s'⟩) (f v env' s')) :
    Out Λ g n k q' (pl q.b ⟨env ++ rest, s⟩) (withVal Λ e env s fail f) := by
  unfold withVal
  have hr := Compiles.run (Λ := Λ) (em := em) g j e q.b ex (h.mono hlo (fun _ _ _ h => h)) hx env rest s hl
  cases hv : Λ.eval e env s with
  | error r =>
    rw [hv] at hr
    simp only [fail, Out]
    exact hr
  | ok x =>
    obtain ⟨v, env', s'⟩ := x
    rw [hv] at hr
    simp only
    have hlen := Λ.eval_len _ _ _ _ _ _ hv
    exact Out.pre hr (hf v env' s' (by omega))

end Cordy.Stmts
