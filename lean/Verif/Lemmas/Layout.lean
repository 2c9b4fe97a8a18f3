import Verif.Model.Layout
import Verif.Props.Graph
/-! Code that is emitted in the middle of other code. -/
namespace Cordy.Graph
variable {O T L S R : Type}

/-- The opcode ends the run whatever the state is (`Return`, `Exit`, `Yield`). -/
def Stops (sem : Sem O T S R) (o : O) : Prop := ∀ s, ∃ r, sem.op o s = .error r

/-- A finished graph whose last block ends with an opcode that stops: what the compiler makes of a function body (`Return`, mod.rs:659-668) and of a
program (`Exit`, `Yield` or `Return`, mod.rs:201-226). -/
structure Closed (sem : Sem O T S R) (g : Code O T L) : Prop where
  wf : WF g
  last : ∃ b init l o, g[g.length - 1]? = some b ∧ b.code = init ++ [(l, o)] ∧ Stops sem o

theorem Closed.pos {sem : Sem O T S R} {g : Code O T L} (h : Closed sem g) : 0 < g.length := by
  obtain ⟨b, _, _, _, hb, _⟩ := h.last
  cases g with
  | nil => simp at hb
  | cons _ _ => simp

/-- A place that is not the end of the graph. -/
def Inside (g : Code O T L) (c : Place S) : Prop :=
  c.blk < g.length ∧ ∀ b, g[c.blk]? = some b → c.pos ≤ b.code.length ∧ (c.blk + 1 = g.length → c.pos < b.code.length)

theorem Inside.start {sem : Sem O T S R} {g : Code O T L} (h : Closed sem g) (blk : Nat) (hb : blk < g.length) (s : S) : Inside g ⟨blk, 0, s⟩ := by
  refine ⟨hb, fun b hg => ⟨Nat.zero_le _, fun hl => ?_⟩⟩
  obtain ⟨b', init, l, o, hb', hc, _⟩ := h.last
  simp only [] at hg hl
  rw [show g.length - 1 = blk by omega, hg] at hb'
  cases hb'
  rw [hc]; simp

theorem Inside.gstep {sem : Sem O T S R} {g : Code O T L} (h : Closed sem g) {c c' : Place S} {e} (hi : Inside g c) (hs : gstep sem g c = some (e, .ok c')) :
    Inside g c' := by
  obtain ⟨hb, hp⟩ := hi
  obtain ⟨b, hg⟩ : ∃ b, g[c.blk]? = some b := ⟨g[c.blk], List.getElem?_eq_getElem hb⟩
  obtain ⟨hp1, hp2⟩ := hp b hg
  unfold Graph.gstep at hs
  rw [hg] at hs
  simp only [] at hs
  cases hc : b.code[c.pos]? with
  | some p =>
    obtain ⟨l, o⟩ := p
    rw [hc] at hs
    simp only [Option.some.injEq, Prod.mk.injEq] at hs
    obtain ⟨_, hs⟩ := hs
    have hlt : c.pos < b.code.length := by
      by_contra hh; rw [List.getElem?_eq_none (by omega)] at hc; simp at hc
    cases ho : sem.op o c.st with
    | error r => rw [ho] at hs; simp [Except.map] at hs
    | ok s' =>
      rw [ho] at hs
      simp [Except.map] at hs
      subst hs
      refine ⟨hb, fun b' hg' => ?_⟩
      simp only [] at hg'
      rw [hg] at hg'; cases hg'
      refine ⟨by simp; omega, fun hl => ?_⟩
      simp only [] at hl ⊢
      obtain ⟨b2, init, l2, o2, hb2, hc2, hst⟩ := h.last
      rw [show g.length - 1 = c.blk by omega, hg] at hb2
      cases hb2
      by_contra hh
      have : c.pos = init.length := by rw [hc2] at hlt hh; simp at hlt hh; omega
      rw [hc2, this] at hc
      simp at hc
      obtain ⟨r, hr⟩ := hst c.st
      rw [hc.2, ho] at hr
      cases hr
  | none =>
    rw [hc] at hs
    cases hf : b.fin with
    | exit => rw [hf] at hs; simp at hs
    | next n =>
      rw [hf] at hs
      simp at hs
      rw [← hs.2]
      exact Inside.start h n (h.wf.next _ _ _ hg hf) _
    | branch ty d br =>
      rw [hf] at hs
      simp only [Option.some.injEq, Prod.mk.injEq] at hs
      obtain ⟨_, hs⟩ := hs
      obtain ⟨h1, h2⟩ := h.wf.branch _ _ _ _ _ hg hf
      cases ho : sem.test ty c.st with
      | error r => rw [ho] at hs; simp [Except.map] at hs
      | ok q =>
        rw [ho] at hs
        simp only [Except.map, Except.ok.injEq] at hs
        subst hs
        refine Inside.start h _ ?_ _
        split <;> assumption

theorem Inside.run {sem : Sem O T S R} {g : Code O T L} (h : Closed sem g) {c c' : Place S} {es} (hr : GRun sem g c es c') (hi : Inside g c) : Inside g c' := by
  induction hr with
  | refl => exact hi
  | step hs _ ih => exact ih (hi.gstep h hs)

theorem startsOf_ge : ∀ (bs : Code O T L) (id pos j st : Nat), (startsOf id pos bs)[j]? = some st → pos ≤ st
  | [], _, _, j, st, h => by simp [startsOf] at h
  | b :: bs, id, pos, 0, st, h => by simp [startsOf] at h; omega
  | b :: bs, id, pos, j + 1, st, h => by
    simp [startsOf] at h
    have := startsOf_ge bs _ _ j st h
    omega

section
variable (ph : O) (noLoc : L) (g : Code O T L) (code : List (Instr O T)) (locs : List L)

theorem at_ge (j : Nat) (hj : j < g.length) : code.length ≤ at' (emit ph noLoc g code locs).2.2 j := by
  have := (starts_get g _ _ (emitted_block ph noLoc g code locs) j hj).1
  refine startsOf_ge g 0 code.length j _ ?_
  rw [emit_eq] at this ⊢
  exact this

theorem at_le_last : ∀ (k j : Nat), j + k + 1 = g.length →
    at' (emit ph noLoc g code locs).2.2 j ≤ at' (emit ph noLoc g code locs).2.2 (g.length - 1)
  | 0, j, h => by rw [show g.length - 1 = j by omega]; exact Nat.le_refl _
  | k + 1, j, h => by
    refine Nat.le_trans ?_ (at_le_last k (j + 1) (by omega))
    have hE := emitted_block ph noLoc g code locs
    obtain ⟨st, h1, _, _, h4, _, _⟩ := hE j g[j] (List.getElem?_eq_getElem (by omega))
    have := h4 _ (starts_get g _ _ hE (j + 1) (by omega)).1
    rw [at', List.getD_eq_getElem?_getD, h1]
    simp only [at', Option.getD_some]
    omega

theorem at_lt (sem : Sem O T S R) (h : Closed sem g) (c : Place S) (hi : Inside g c) :
    at' (emit ph noLoc g code locs).2.2 c.blk + c.pos < (emit ph noLoc g code locs).1.length := by
  have hE := emitted_block ph noLoc g code locs
  obtain ⟨hb, hp⟩ := hi
  have hg : g[c.blk]? = some g[c.blk] := List.getElem?_eq_getElem hb
  obtain ⟨hp1, hp2⟩ := hp _ hg
  obtain ⟨st, h1, _, _, h4, h5, _⟩ := hE c.blk _ hg
  have hat : at' (emit ph noLoc g code locs).2.2 c.blk = st := by rw [at', List.getD_eq_getElem?_getD, h1]; rfl
  by_cases hl : c.blk + 1 = g.length
  · have := h5 hl.symm
    have := hp2 hl
    rw [hat]; simp only [size] at *; omega
  · have hn := h4 _ (starts_get g _ _ hE (c.blk + 1) (by omega)).1
    have hm := at_le_last ph noLoc g code locs (g.length - 1 - (c.blk + 1)) (c.blk + 1) (by omega)
    obtain ⟨b, init, l, o, hb2, hc2, _⟩ := h.last
    obtain ⟨st2, k1, _, _, _, k5, _⟩ := hE _ _ hb2
    have hat2 : at' (emit ph noLoc g code locs).2.2 (g.length - 1) = st2 := by rw [at', List.getD_eq_getElem?_getD, k1]; rfl
    have := k5 (by have := h.pos; omega)
    rw [hat2] at hm
    rw [hat]
    simp only [at'] at hm
    have hz : size (g.length - 1) b = init.length + 1 + endSize (g.length - 1) b.fin := by simp [size, hc2]
    simp only [size] at hn
    omega

theorem lstep_ext (sem : Sem O T S R) (cd post : List (Instr O T)) (ip : Nat) (s : S) (h : ip < cd.length) : lstep sem (cd ++ post) ip s = lstep sem cd ip s := by
  unfold lstep
  rw [List.getElem?_append_left h]

theorem lstep_lt {sem : Sem O T S R} {cd : List (Instr O T)} {ip : Nat} {s : S} {x} (h : lstep sem cd ip s = some x) : ip < cd.length := by
  by_contra hh
  unfold lstep at h
  rw [List.getElem?_eq_none (by omega)] at h
  simp at h

theorem LRun.ext {sem : Sem O T S R} {cd : List (Instr O T)} (post : List (Instr O T)) {ip s es ip' s'} (h : LRun sem cd ip s es ip' s') :
    LRun sem (cd ++ post) ip s es ip' s' := by
  induction h with
  | refl => exact .refl
  | step hs _ ih => exact .step (by rw [lstep_ext _ _ _ _ _ (lstep_lt hs)]; exact hs) ih

theorem stay (sem : Sem O T S R) (h : Closed sem g) (hsz : (emit ph noLoc g code locs).1.length < 2 ^ 31) (post : List (Instr O T)) {ip ip' : Nat} {s s' : S} {es}
    (hr : LRun sem ((emit ph noLoc g code locs).1 ++ post) ip s es ip' s') :
    ∀ c : Place S, c.st = s → Stands g (emit ph noLoc g code locs).1 (emit ph noLoc g code locs).2.2 ip c → Inside g c →
      LRun sem (emit ph noLoc g code locs).1 ip s es ip' s' ∧ code.length ≤ ip' ∧ ip' < (emit ph noLoc g code locs).1.length := by
  have hE := emitted_block ph noLoc g code locs
  have bounds : ∀ (n : Nat) (c : Place S), Stands g (emit ph noLoc g code locs).1 (emit ph noLoc g code locs).2.2 n c → Inside g c →
      code.length ≤ n ∧ n < (emit ph noLoc g code locs).1.length := by
    intro n c hst hi
    obtain ⟨hb, hp, ho⟩ := hst
    rcases ho with ho | ⟨_, ⟨j, hj, hj2⟩, off, hjmp, _⟩
    · have h1 := at_ge ph noLoc g code locs c.blk hb
      have h2 := at_lt ph noLoc g code locs sem h c hi
      omega
    · have h1 := at_ge ph noLoc g code locs j hj
      refine ⟨by omega, ?_⟩
      by_contra hh
      rw [List.getElem?_eq_none (by omega)] at hjmp
      simp at hjmp
  induction hr with
  | refl => intro c _ hst hi; exact ⟨.refl, bounds _ c hst hi⟩
  | step hs _ ih =>
    intro c hc hst hi
    subst hc
    rw [lstep_ext _ _ _ _ _ (bounds _ c hst hi).2] at hs
    obtain ⟨n, c1, hn, hs1, hr1, hst1⟩ := (back_step sem g _ _ hE h.wf hsz _ c hst _ _ hs).1 _ _ rfl
    have hn' := Int.ofNat.inj hn
    subst hn'
    obtain ⟨h1, h2⟩ := ih c1 hs1 hst1 (hi.run h hr1)
    exact ⟨.step hs h1, h2⟩

/-- Running the code of a graph that stands anywhere in a program. -/
theorem run_in (sem : Sem O T S R) (h : Closed sem g) (hsz : (emit ph noLoc g code locs).1.length < 2 ^ 31) (post : List (Instr O T)) (blk : Nat)
    (hblk : blk < g.length) (s : S) :
    (∀ es r, LHalts sem ((emit ph noLoc g code locs).1 ++ post) (at' (emit ph noLoc g code locs).2.2 blk) s es r ↔ GHalts sem g ⟨blk, 0, s⟩ es r) ∧
    (∀ es ip' s', LRun sem ((emit ph noLoc g code locs).1 ++ post) (at' (emit ph noLoc g code locs).2.2 blk) s es ip' s' →
      code.length ≤ ip' ∧ ip' < (emit ph noLoc g code locs).1.length ∧ ∃ c', c'.st = s' ∧ GRun sem g ⟨blk, 0, s⟩ es c') ∧
    (∀ es c', GRun sem g ⟨blk, 0, s⟩ es c' → LRun sem ((emit ph noLoc g code locs).1 ++ post) (at' (emit ph noLoc g code locs).2.2 blk) s es
      (at' (emit ph noLoc g code locs).2.2 c'.blk + c'.pos) c'.st) := by
  have h0 : Stands g (emit ph noLoc g code locs).1 (emit ph noLoc g code locs).2.2 (at' (emit ph noLoc g code locs).2.2 blk) (⟨blk, 0, s⟩ : Place S) :=
    ⟨hblk, fun _ _ => Nat.zero_le _, .inl rfl⟩
  have hi := Inside.start h blk hblk s
  have hf := C33_graph_to_code sem ph noLoc g code locs h.wf hsz blk hblk s
  have hb := C33_code_to_graph sem ph noLoc g code locs h.wf hsz blk hblk s
  refine ⟨fun es r => ⟨?_, ?_⟩, ?_, fun es c' hr => (hf.1 es c' hr).ext post⟩
  · rintro ⟨es1, ip', s', e, h1, h2, h3⟩
    obtain ⟨k1, k2, k3⟩ := stay ph noLoc g code locs sem h hsz post h1 _ rfl h0 hi
    rw [lstep_ext _ _ _ _ _ k3] at h2
    exact hb.2 _ _ ⟨es1, ip', s', e, k1, h2, h3⟩
  · intro hg
    obtain ⟨es1, ip', s', e, h1, h2, h3⟩ := hf.2.1 _ _ hg
    exact ⟨es1, ip', s', e, h1.ext post, by rw [lstep_ext _ _ _ _ _ (lstep_lt h2)]; exact h2, h3⟩
  · intro es ip' s' hr
    obtain ⟨k1, k2, k3⟩ := stay ph noLoc g code locs sem h hsz post hr _ rfl h0 hi
    exact ⟨k2, k3, hb.1 _ _ _ k1⟩
end
end Cordy.Graph
