import Verif.Lemmas.Graph
import Mathlib.Tactic.ByContra
import Mathlib.Tactic.Push
/-! # C33: the emitted code follows the control flow graph -/
namespace Cordy.Graph
variable {O T L S R : Type}

/-! ## Specification: running the graph along its edges -/

/-- A place in the graph: the next opcode is number `pos` of block `blk`; and the machine state. -/
structure Place (S : Type) where
  blk : Nat
  pos : Nat
  st : S

/-- One step along the graph: the opcode at the place, or at the end of the block its edge. `none` at the end of an `exit` block. -/
def gstep (sem : Sem O T S R) (g : Code O T L) (c : Place S) : Option (List (Event O T S) × Except R (Place S)) :=
  match g[c.blk]? with
  | none => none
  | some b =>
    match b.code[c.pos]? with
    | some (_, o) => some ([.op o c.st], (sem.op o c.st).map (fun s => ⟨c.blk, c.pos + 1, s⟩))
    | none =>
      match b.fin with
      | .exit => none
      | .next n => some ([], .ok ⟨n, 0, c.st⟩)
      | .branch ty d br => some ([.test ty c.st], (sem.test ty c.st).map (fun p => ⟨if p.1 then br else d, 0, p.2⟩))

/-- Running: the events of any number of steps. -/
inductive GRun (sem : Sem O T S R) (g : Code O T L) : Place S → List (Event O T S) → Place S → Prop
  | refl {c} : GRun sem g c [] c
  | step {c e c' es c''} : gstep sem g c = some (e, .ok c') → GRun sem g c' es c'' → GRun sem g c (e ++ es) c''

/-- Running the linear code. -/
inductive LRun (sem : Sem O T S R) (code : List (Instr O T)) : Nat → S → List (Event O T S) → Nat → S → Prop
  | refl {ip s} : LRun sem code ip s [] ip s
  | step {ip : Nat} {s : S} {e} {ip' : Nat} {s' : S} {es} {ip'' : Nat} {s'' : S} : lstep sem code ip s = some (e, .ok ((ip' : Int), s')) → LRun sem code ip' s' es ip'' s'' →
      LRun sem code ip s (e ++ es) ip'' s''

/-- The run stops with a result. -/
def GHalts (sem : Sem O T S R) (g : Code O T L) (c : Place S) (es : List (Event O T S)) (r : R) : Prop :=
  ∃ es1 c' e, GRun sem g c es1 c' ∧ gstep sem g c' = some (e, .error r) ∧ es = es1 ++ e
def LHalts (sem : Sem O T S R) (code : List (Instr O T)) (ip : Nat) (s : S) (es : List (Event O T S)) (r : R) : Prop :=
  ∃ es1 ip' s' e, LRun sem code ip s es1 ip' s' ∧ lstep sem code ip' s' = some (e, .error r) ∧ es = es1 ++ e

/-- The run reaches the end of the (only) `exit` block, in state `s`. -/
def GEnds (sem : Sem O T S R) (g : Code O T L) (c : Place S) (es : List (Event O T S)) (s : S) : Prop :=
  ∃ c', GRun sem g c es c' ∧ gstep sem g c' = none ∧ c'.st = s
def LEnds (sem : Sem O T S R) (code : List (Instr O T)) (ip : Nat) (s : S) (es : List (Event O T S)) (s' : S) : Prop :=
  ∃ ip', LRun sem code ip s es ip' s' ∧ ip' = code.length

/-- A finished graph: all edges lead to blocks, and only the last block ends with `exit`. -/
structure WF (g : Code O T L) : Prop where
  next : ∀ (i : Nat) b n, g[i]? = some b → b.fin = .next n → n < g.length
  branch : ∀ (i : Nat) b ty d n, g[i]? = some b → b.fin = .branch ty d n → d < g.length ∧ n < g.length
  exit : ∀ (i : Nat) b, g[i]? = some b → b.fin = .exit → i + 1 = g.length

/-! ## The builder makes finished graphs -/

/-- The operations of the builder, as the parser may use them: a forward branch is joined later, once; a reverse branch may be joined
any number of times. `open` are the forward branches that are not joined yet. -/
inductive Built : Code O T L → List Nat → Prop
  | new : Built new []
  | push {g op} (l : L) (o : O) : Built g op → Built (push g l o) op
  | branchForward {g op} : Built g op → Built (branchForward g).1 ((branchForward g).2 :: op)
  | joinForward {g op} (i : Nat) (ty : BranchType T) : Built g op → i ∈ op → Built (joinForward g i ty) (op.erase i)
  | branchReverse {g op} : Built g op → Built (branchReverse g).1 op
  | joinReverse {g op} (i : Nat) (ty : BranchType T) : Built g op → i < g.length → Built (joinReverse g i ty) op

/-- The invariant: edges lead to blocks; the last block is open-ended and so are exactly the open branches, which are other blocks. -/
structure Inv (g : Code O T L) (op : List Nat) : Prop where
  pos : 0 < g.length
  nodup : op.Nodup
  lt : ∀ i ∈ op, i + 1 < g.length
  next : ∀ (i : Nat) b n, g[i]? = some b → b.fin = .next n → n < g.length
  branch : ∀ (i : Nat) b ty d n, g[i]? = some b → b.fin = .branch ty d n → d < g.length ∧ n < g.length
  exit : ∀ (i : Nat) b, g[i]? = some b → b.fin = .exit → i + 1 = g.length ∨ i ∈ op

theorem setEnd_length (g : Code O T L) (i : Nat) (e : End T) : (setEnd g i e).length = g.length := by simp [setEnd]

theorem setEnd_get (g : Code O T L) (i j : Nat) (e : End T) (b : Block O T L) (h : (setEnd g i e)[j]? = some b) :
    (j = i ∧ b.fin = e) ∨ (j ≠ i ∧ g[j]? = some b) := by
  unfold setEnd at h
  rw [List.getElem?_modify] at h
  by_cases hij : i = j
  · subst hij
    simp only [if_pos] at h
    cases hg : g[i]? with
    | none => rw [hg] at h; simp at h
    | some x => rw [hg] at h; simp at h; subst h; exact .inl ⟨rfl, rfl⟩
  · simp only [if_neg hij] at h
    cases hg : g[j]? with
    | none => rw [hg] at h; simp at h
    | some x => rw [hg] at h; simp at h; subst h; exact .inr ⟨fun e => hij e.symm, rfl⟩

theorem append_get (g : Code O T L) (x b : Block O T L) (j : Nat) (h : (g ++ [x])[j]? = some b) : (j = g.length ∧ b = x) ∨ (j < g.length ∧ g[j]? = some b) := by
  rcases Nat.lt_trichotomy j g.length with hj | hj | hj
  · rw [List.getElem?_append_left hj] at h; exact .inr ⟨hj, h⟩
  · subst hj; simp at h; exact .inl ⟨rfl, h.symm⟩
  · rw [List.getElem?_append_right (by omega)] at h
    have : (j - g.length) = (j - g.length - 1) + 1 := by omega
    rw [this] at h; simp at h

theorem mkBranch_next (ty : BranchType T) (d b n : Nat) (h : mkBranch ty d b = .next n) : n = b := by
  cases ty <;> simp [mkBranch] at h; exact h.symm
theorem mkBranch_branch (ty : BranchType T) (d b d' n : Nat) (t : T) (h : mkBranch ty d b = .branch t d' n) : d' = d ∧ n = b := by
  cases ty <;> simp [mkBranch] at h; exact ⟨h.2.1.symm, h.2.2.symm⟩
theorem mkBranch_exit (ty : BranchType T) (d b : Nat) : mkBranch ty d b ≠ .exit := by cases ty <;> simp [mkBranch]

theorem built_inv (g : Code O T L) (op : List Nat) (h : Built g op) : Inv g op := by
  induction h with
  | new =>
    refine ⟨by simp [new], List.nodup_nil, by simp, ?_, ?_, ?_⟩
    · intro i b n h e
      cases i <;> simp [new] at h
      subst h; cases e
    · intro i b ty d n h e
      cases i <;> simp [new] at h
      subst h; cases e
    · intro i b h e
      cases i <;> simp [new] at h
      exact .inl rfl
  | @push g op l o _ ih =>
    have key : ∀ (j : Nat) b, (push g l o)[j]? = some b → ∃ b', g[j]? = some b' ∧ b.fin = b'.fin := by
      intro j b hb
      unfold push at hb
      rw [List.getElem?_modify] at hb
      cases hg : g[j]? with
      | none => rw [hg] at hb; simp at hb
      | some x =>
        rw [hg] at hb
        by_cases hj : g.length - 1 = j
        · simp [hj] at hb; subst hb; exact ⟨x, rfl, rfl⟩
        · simp [hj] at hb; subst hb; exact ⟨x, rfl, rfl⟩
    have hlen : (push g l o).length = g.length := by simp [push]
    refine ⟨by rw [hlen]; exact ih.pos, ih.nodup, by rw [hlen]; exact ih.lt, ?_, ?_, ?_⟩
    · intro i b n h e
      obtain ⟨b', h1, h2⟩ := key i b h
      rw [hlen]; exact ih.next i b' n h1 (h2 ▸ e)
    · intro i b ty d n h e
      obtain ⟨b', h1, h2⟩ := key i b h
      rw [hlen]; exact ih.branch i b' ty d n h1 (h2 ▸ e)
    · intro i b h e
      obtain ⟨b', h1, h2⟩ := key i b h
      rw [hlen]; exact ih.exit i b' h1 (h2 ▸ e)
  | @branchForward g op _ ih =>
    have hlen : (branchForward g).1.length = g.length + 1 := by simp [branchForward]
    have hp := ih.pos
    refine ⟨by omega, ?_, ?_, ?_, ?_, ?_⟩
    · refine List.nodup_cons.2 ⟨fun hm => ?_, ih.nodup⟩
      have := ih.lt _ hm; simp [branchForward] at this; omega
    · intro i hi
      rw [hlen]
      rcases List.mem_cons.1 hi with rfl | hi
      · simp [branchForward]; omega
      · have := ih.lt i hi; omega
    · intro i b n h e
      rw [hlen]
      rcases append_get _ _ _ _ h with ⟨_, rfl⟩ | ⟨_, h⟩
      · cases e
      · have := ih.next i b n h e; omega
    · intro i b ty d n h e
      rw [hlen]
      rcases append_get _ _ _ _ h with ⟨_, rfl⟩ | ⟨_, h⟩
      · cases e
      · have := ih.branch i b ty d n h e; omega
    · intro i b h e
      rw [hlen]
      rcases append_get _ _ _ _ h with ⟨rfl, _⟩ | ⟨_, h⟩
      · exact .inl rfl
      · rcases ih.exit i b h e with h | h
        · right; simp [branchForward]; left; omega
        · right; simp [h]
  | @joinForward g op i ty _ hi ih =>
    have hlen : (joinForward g i ty).length = g.length + 1 := by simp [joinForward, setEnd_length]
    have hp := ih.pos
    have hli := ih.lt i hi
    have key : ∀ (j : Nat) b, (joinForward g i ty)[j]? = some b → (j = g.length ∧ b.fin = .exit) ∨ (j = i ∧ b.fin = mkBranch ty (i + 1) g.length) ∨
        (j = g.length - 1 ∧ b.fin = .next g.length) ∨ (j ≠ i ∧ j ≠ g.length - 1 ∧ g[j]? = some b) := by
      intro j b h
      rcases append_get _ _ _ _ h with ⟨h1, rfl⟩ | ⟨_, h⟩
      · rw [setEnd_length, setEnd_length] at h1; exact .inl ⟨h1, rfl⟩
      · rcases setEnd_get _ _ _ _ _ h with h | ⟨h1, h⟩
        · exact .inr (.inl h)
        · rcases setEnd_get _ _ _ _ _ h with h | ⟨h2, h⟩
          · exact .inr (.inr (.inl h))
          · exact .inr (.inr (.inr ⟨h1, h2, h⟩))
    refine ⟨by omega, ih.nodup.erase _, ?_, ?_, ?_, ?_⟩
    · intro j hj; have := ih.lt j (List.mem_of_mem_erase hj); omega
    · intro j b n h e
      rcases key j b h with ⟨_, h'⟩ | ⟨_, h'⟩ | ⟨_, h'⟩ | ⟨_, _, h'⟩
      · rw [h'] at e; cases e
      · have := mkBranch_next _ _ _ _ (h' ▸ e); omega
      · rw [h'] at e; cases e; omega
      · have := ih.next j b n h' e; omega
    · intro j b ty' d n h e
      rcases key j b h with ⟨_, h'⟩ | ⟨_, h'⟩ | ⟨_, h'⟩ | ⟨_, _, h'⟩
      · rw [h'] at e; cases e
      · have := mkBranch_branch _ _ _ _ _ _ (h' ▸ e); omega
      · rw [h'] at e; cases e
      · have := ih.branch j b ty' d n h' e; omega
    · intro j b h e
      rcases key j b h with ⟨h1, h'⟩ | ⟨_, h'⟩ | ⟨_, h'⟩ | ⟨h1, h2, h'⟩
      · left; omega
      · exact absurd (h' ▸ e) (mkBranch_exit _ _ _)
      · rw [h'] at e; cases e
      · rcases ih.exit j b h' e with h3 | h3
        · omega
        · right; exact (List.mem_erase_of_ne h1).2 h3
  | @branchReverse g op _ ih =>
    have hlen : (branchReverse g).1.length = g.length + 1 := by simp [branchReverse, setEnd_length]
    have hp := ih.pos
    have key : ∀ (j : Nat) b, (branchReverse g).1[j]? = some b → (j = g.length ∧ b.fin = .exit) ∨
        (j = g.length - 1 ∧ b.fin = .next g.length) ∨ (j ≠ g.length - 1 ∧ g[j]? = some b) := by
      intro j b h
      rcases append_get _ _ _ _ h with ⟨h1, rfl⟩ | ⟨_, h⟩
      · rw [setEnd_length] at h1; exact .inl ⟨h1, rfl⟩
      · exact .inr (setEnd_get _ _ _ _ _ h)
    refine ⟨by omega, ih.nodup, fun j hj => by have := ih.lt j hj; omega, ?_, ?_, ?_⟩
    · intro j b n h e
      rcases key j b h with ⟨_, h'⟩ | ⟨_, h'⟩ | ⟨_, h'⟩
      · rw [h'] at e; cases e
      · rw [h'] at e; cases e; omega
      · have := ih.next j b n h' e; omega
    · intro j b ty' d n h e
      rcases key j b h with ⟨_, h'⟩ | ⟨_, h'⟩ | ⟨_, h'⟩
      · rw [h'] at e; cases e
      · rw [h'] at e; cases e
      · have := ih.branch j b ty' d n h' e; omega
    · intro j b h e
      rcases key j b h with ⟨h1, h'⟩ | ⟨_, h'⟩ | ⟨h1, h'⟩
      · left; omega
      · rw [h'] at e; cases e
      · rcases ih.exit j b h' e with h3 | h3
        · omega
        · exact .inr h3
  | @joinReverse g op i ty _ hi ih =>
    have hlen : (joinReverse g i ty).length = g.length + 1 := by simp [joinReverse, setEnd_length]
    have hp := ih.pos
    have key : ∀ (j : Nat) b, (joinReverse g i ty)[j]? = some b → (j = g.length ∧ b.fin = .exit) ∨
        (j = g.length - 1 ∧ b.fin = mkBranch ty g.length i) ∨ (j ≠ g.length - 1 ∧ g[j]? = some b) := by
      intro j b h
      rcases append_get _ _ _ _ h with ⟨h1, rfl⟩ | ⟨_, h⟩
      · rw [setEnd_length] at h1; exact .inl ⟨h1, rfl⟩
      · exact .inr (setEnd_get _ _ _ _ _ h)
    refine ⟨by omega, ih.nodup, fun j hj => by have := ih.lt j hj; omega, ?_, ?_, ?_⟩
    · intro j b n h e
      rcases key j b h with ⟨_, h'⟩ | ⟨_, h'⟩ | ⟨_, h'⟩
      · rw [h'] at e; cases e
      · have := mkBranch_next _ _ _ _ (h' ▸ e); omega
      · have := ih.next j b n h' e; omega
    · intro j b ty' d n h e
      rcases key j b h with ⟨_, h'⟩ | ⟨_, h'⟩ | ⟨_, h'⟩
      · rw [h'] at e; cases e
      · have := mkBranch_branch _ _ _ _ _ _ (h' ▸ e); omega
      · have := ih.branch j b ty' d n h' e; omega
    · intro j b h e
      rcases key j b h with ⟨h1, h'⟩ | ⟨_, h'⟩ | ⟨h1, h'⟩
      · left; omega
      · exact absurd (h' ▸ e) (mkBranch_exit _ _ _)
      · rcases ih.exit j b h' e with h3 | h3
        · omega
        · exact .inr h3

/-- **C33** however the builder is used, once every forward branch has been joined the graph is finished. -/
theorem C33_builder (g : Code O T L) (h : Built g []) : WF g := by
  have i := built_inv g [] h
  refine ⟨i.next, i.branch, fun j b h1 h2 => ?_⟩
  rcases i.exit j b h1 h2 with h | h
  · exact h
  · simp at h

/-! ## Simulation -/

/-- What is known of the emitted code at a block. -/
theorem emitted_block (ph : O) (noLoc : L) (g : Code O T L) (code : List (Instr O T)) (locs : List L) (j : Nat) (b : Block O T L) (hb : g[j]? = some b) :
    ∃ st, (emit ph noLoc g code locs).2.2[j]? = some st ∧
      (∀ i p, b.code[i]? = some p → (emit ph noLoc g code locs).1[st + i]? = some (.op p.2)) ∧
      (∀ i x, (finEnd (emit ph noLoc g code locs).2.2 j (st + b.code.length) b.fin)[i]? = some x →
        (emit ph noLoc g code locs).1[st + b.code.length + i]? = some x) ∧
      (∀ st', (emit ph noLoc g code locs).2.2[j + 1]? = some st' → st' = st + size j b) ∧
      (g.length = j + 1 → (emit ph noLoc g code locs).1.length = st + size j b) ∧
      st + size j b ≤ (emit ph noLoc g code locs).1.length := by
  rw [emit_eq]
  simp only []
  obtain ⟨st, c1, c2, h1, h2, h3, h4, h5⟩ := block_at (startsOf 0 code.length g) g 0 code j b hb
  rw [Nat.zero_add] at h3 h4
  refine ⟨st, h1, ?_, ?_, h4, ?_, ?_⟩
  · intro i p hp
    have hi : i < b.code.length := by
      by_contra hh; rw [List.getElem?_eq_none (by omega)] at hp; simp at hp
    rw [h3, List.getElem?_append_right (by omega), List.append_assoc, List.getElem?_append_left (by simp; omega)]
    rw [show st + i - c1.length = i by omega]
    simp [hp]
  · intro i x hx
    have hi : i < (finEnd (O := O) (startsOf 0 code.length g) j (st + b.code.length) b.fin).length := by
      by_contra hh; rw [List.getElem?_eq_none (by omega)] at hx; simp at hx
    rw [h3, List.getElem?_append_right (by omega), List.append_assoc, List.getElem?_append_right (by simp; omega),
      List.getElem?_append_left (by simp; omega)]
    rw [show st + b.code.length + i - c1.length - (b.code.map (fun p => Instr.op (T := T) p.2)).length = i by simp; omega]
    exact hx
  · intro hl
    rw [h3, h5 hl]; simp [finEnd_length, size, h2]
  · rw [h3]; simp [finEnd_length, size, h2, Nat.add_assoc]

/-- **C33** the locations stay with their opcodes: the emitted code and locations have the same length and each opcode of a block has
its own location. -/
theorem C33_locations (ph : O) (noLoc : L) (g : Code O T L) (code : List (Instr O T)) (locs : List L) (hl : code.length = locs.length) :
    (emit ph noLoc g code locs).1.length = (emit ph noLoc g code locs).2.1.length ∧
    ∀ (j : Nat) b, g[j]? = some b → ∃ st, (emit ph noLoc g code locs).2.2[j]? = some st ∧
      ∀ (i : Nat) p, b.code[i]? = some p → (emit ph noLoc g code locs).1[st + i]? = some (.op p.2) ∧ (emit ph noLoc g code locs).2.1[st + i]? = some p.1 := by
  constructor
  · rw [emit_eq]; simp [fin_length, locsOf_length, hl]
  · intro j b hb
    obtain ⟨st, h1, h2, _⟩ := emitted_block ph noLoc g code locs j b hb
    refine ⟨st, h1, fun i p hp => ⟨h2 i p hp, ?_⟩⟩
    rw [emit_eq] at h1 ⊢
    simp only [] at h1 ⊢
    obtain ⟨st', l1, l2, g1, g2, g3⟩ := locs_at noLoc g 0 locs j b hb
    rw [hl, g1] at h1
    cases h1
    have hi : i < b.code.length := by
      by_contra hh; rw [List.getElem?_eq_none (by omega)] at hp; simp at hp
    rw [g3, List.getElem?_append_right (by omega), List.getElem?_append_left (by simp; omega), show st + i - l1.length = i by omega]
    simp [hp]

theorem finEnd_second (starts : List Nat) (id pos : Nat) (ty : T) (d b : Nat) (h : ¬ id + 1 = d) :
    (finEnd (O := O) starts id pos (.branch ty d b))[1]? = some (patchInstr (starts.getD d 0) (pos + 1) none) := by
  rw [finEnd, if_pos h, List.getElem?_cons_succ, List.getElem?_cons_zero]

/-- What is known of the emitted code. -/
def Emitted (g : Code O T L) (cd : List (Instr O T)) (starts : List Nat) : Prop :=
  ∀ (j : Nat) (b : Block O T L), g[j]? = some b →
    ∃ st, starts[j]? = some st ∧
      (∀ i p, b.code[i]? = some p → cd[st + i]? = some (.op p.2)) ∧
      (∀ i x, (finEnd starts j (st + b.code.length) b.fin)[i]? = some x → cd[st + b.code.length + i]? = some x) ∧
      (∀ st', starts[j + 1]? = some st' → st' = st + size j b) ∧
      (g.length = j + 1 → cd.length = st + size j b) ∧
      st + size j b ≤ cd.length

theorem starts_get (g : Code O T L) (cd : List (Instr O T)) (starts : List Nat) (hE : Emitted g cd starts) (j : Nat) (hj : j < g.length) :
    starts[j]? = some (starts.getD j 0) ∧
    starts.getD j 0 ≤ cd.length := by
  obtain ⟨b, hb⟩ : ∃ b, g[j]? = some b := ⟨g[j], List.getElem?_eq_getElem hj⟩
  obtain ⟨st, h1, _, _, _, _, h6⟩ := hE j b hb
  rw [List.getD_eq_getElem?_getD, h1]
  exact ⟨rfl, by simp; omega⟩

theorem lstep_jump (sem : Sem O T S R) (cd : List (Instr O T)) (ip n : Nat) (off : Int) (s : S) (h : cd[ip]? = some (.jump off))
    (hn : (ip : Int) + 1 + off = n) : lstep sem cd ip s = some ([], .ok ((n : Int), s)) := by
  unfold lstep; rw [h]; simp only [hn]

theorem lstep_cjump (sem : Sem O T S R) (cd : List (Instr O T)) (ip n : Nat) (ty : T) (off : Int) (s : S) (h : cd[ip]? = some (.cjump ty off))
    (hn : (ip : Int) + 1 + off = n) : lstep sem cd ip s = some ([.test ty s], (sem.test ty s).map (fun p =>
      (if p.1 then (n : Int) else (ip : Int) + 1, p.2))) := by
  unfold lstep; rw [h]; simp only [hn]

theorem LRun.trans {sem : Sem O T S R} {code ip s e1 ip' s' e2 ip'' s''} (h1 : LRun sem code ip s e1 ip' s') (h2 : LRun sem code ip' s' e2 ip'' s'') :
    LRun sem code ip s (e1 ++ e2) ip'' s'' := by
  induction h1 with
  | refl => exact h2
  | step h _ ih => rw [List.append_assoc]; exact .step h (ih h2)

theorem GRun.trans {sem : Sem O T S R} {g : Code O T L} {c e1 c' e2 c''} (h1 : GRun sem g c e1 c') (h2 : GRun sem g c' e2 c'') :
    GRun sem g c (e1 ++ e2) c'' := by
  induction h1 with
  | refl => exact h2
  | step h _ ih => rw [List.append_assoc]; exact .step h (ih h2)

/-- The position of a block in the emitted code. -/
abbrev at' (starts : List Nat) (j : Nat) : Nat := starts.getD j 0

/-- The places of the graph that an instruction pointer can stand for: a place of a block, or the jump that leads to a block. -/
def Stands (g : Code O T L) (cd : List (Instr O T)) (starts : List Nat) (ip : Nat) (c : Place S) : Prop :=
  c.blk < g.length ∧ (∀ b, g[c.blk]? = some b → c.pos ≤ b.code.length) ∧
  (ip = at' starts c.blk + c.pos ∨
    (c.pos = 0 ∧ (∃ j, j < g.length ∧ at' starts j ≤ ip) ∧ ∃ off, cd[ip]? = some (.jump off) ∧ (ip : Int) + 1 + off = (at' starts c.blk : Nat)))

section
variable (sem : Sem O T S R) (g : Code O T L) (cd : List (Instr O T)) (starts : List Nat) (hE : Emitted g cd starts)
include hE

/-- A jump instruction to a block goes to the block's start. -/
theorem jump_lands (hsz : cd.length < 2 ^ 31) (n idx : Nat) (hn : n < g.length)
    (hidx : idx < cd.length) :
    (idx : Int) + 1 + i32 (i32 (i32 (at' starts n) - i32 idx) - 1) = (at' starts n : Nat) := by
  have := (starts_get g cd starts hE n hn).2
  rw [patchInstr_off _ _ (by simp only [at']; omega) (by omega)]
  omega

theorem jump_at (hsz : cd.length < 2 ^ 31) (n idx : Nat) (hn : n < g.length) (h : cd[idx]? = some (patchInstr (starts.getD n 0) idx none)) :
    ∃ off, cd[idx]? = some (.jump off) ∧ (idx : Int) + 1 + off = (at' starts n : Nat) := by
  have hidx : idx < cd.length := by
    by_contra hh; rw [List.getElem?_eq_none (by omega)] at h; simp at h
  exact ⟨_, h, jump_lands g cd starts hE hsz n idx hn hidx⟩

/-- One step of the graph is matched by the linear code. -/
theorem sim_step (hw : WF g) (hsz : cd.length < 2 ^ 31) (c : Place S) (hblk : c.blk < g.length)
    (hpos : ∀ b, g[c.blk]? = some b → c.pos ≤ b.code.length) (e : List (Event O T S)) (r : Except R (Place S)) (h : gstep sem g c = some (e, r)) :
    (∀ c', r = .ok c' → c'.blk < g.length ∧ (∀ b, g[c'.blk]? = some b → c'.pos ≤ b.code.length) ∧
      LRun sem cd (at' starts c.blk + c.pos) c.st e (at' starts c'.blk + c'.pos) c'.st) ∧
    (∀ x, r = .error x → lstep sem cd (at' starts c.blk + c.pos) c.st = some (e, .error x)) := by
  obtain ⟨b, hb⟩ : ∃ b, g[c.blk]? = some b := ⟨g[c.blk], List.getElem?_eq_getElem hblk⟩
  obtain ⟨st, h1, h2, h3, h4, h5, h6⟩ := hE c.blk b hb
  have hat : at' starts c.blk = st := by rw [at', List.getD_eq_getElem?_getD, h1]; rfl
  rw [hat]
  have hp := hpos b hb
  unfold gstep at h
  rw [hb] at h
  simp only [] at h
  cases hc : b.code[c.pos]? with
  | some p =>
    rw [hc] at h
    obtain ⟨l, o⟩ := p
    simp only [Option.some.injEq, Prod.mk.injEq] at h
    obtain ⟨he, hr⟩ := h
    have hlt : c.pos < b.code.length := by
      by_contra hh; rw [List.getElem?_eq_none (by omega)] at hc; simp at hc
    have hl := h2 c.pos (l, o) hc
    constructor
    · intro c' hc'
      rw [hc'] at hr
      cases hs : sem.op o c.st with
      | error x => rw [hs] at hr; simp [Except.map] at hr
      | ok s' =>
        rw [hs] at hr
        simp [Except.map] at hr
        subst hr; subst he
        refine ⟨hblk, fun b' hb' => by rw [hb] at hb'; cases hb'; simp; omega, ?_⟩
        have : lstep sem cd (st + c.pos) c.st = some ([.op o c.st], .ok (((st + (c.pos + 1) : Nat) : Int), s')) := by
          unfold lstep; rw [hl]; simp only [hs, Except.map]; congr 4
        rw [← List.append_nil [Event.op o c.st], hat]
        exact .step this .refl
    · intro x hx
      rw [hx] at hr
      unfold lstep; rw [hl]
      simp only [← he]
      cases hs : sem.op o c.st with
      | ok s' => rw [hs] at hr; simp [Except.map] at hr
      | error y => rw [hs] at hr; simp [Except.map] at hr; subst hr; rfl
  | none =>
    rw [hc] at h
    simp only [] at h
    have hpe : c.pos = b.code.length := by
      have := List.getElem?_eq_none_iff.1 hc; omega
    cases hf : b.fin with
    | exit => rw [hf] at h; simp at h
    | next n =>
      rw [hf] at h
      simp only [Option.some.injEq, Prod.mk.injEq] at h
      obtain ⟨he, hr⟩ := h
      subst he; subst hr
      have hn := hw.next _ _ _ hb hf
      refine ⟨fun c' hc' => ?_, fun x hx => by cases hx⟩
      cases hc'
      refine ⟨hn, fun _ _ => Nat.zero_le _, ?_⟩
      simp only [Nat.add_zero]
      by_cases hid : c.blk + 1 = n
      · subst hid
        have := h4 _ (starts_get g cd starts hE (c.blk + 1) hn).1
        have hz : size c.blk b = b.code.length := by simp [size, hf, endSize]
        rw [hz] at this
        rw [hpe, ← this]; exact .refl
      · have hx := h3 0 (patchInstr (starts.getD n 0) (st + b.code.length) none) (by rw [hf]; simp [finEnd, hid])
        have hlen : size c.blk b = b.code.length + 1 := by simp [size, hf, endSize, hid]
        have hj := jump_lands g cd starts hE hsz n (st + b.code.length) hn (by omega)
        have : lstep sem cd (st + c.pos) c.st = some ([], .ok ((at' starts n : Int), c.st)) := by
          rw [hpe]; exact lstep_jump _ _ _ _ _ _ hx hj
        rw [← List.append_nil ([] : List (Event O T S))]
        exact .step this .refl
    | branch ty d br =>
      rw [hf] at h
      simp only [Option.some.injEq, Prod.mk.injEq] at h
      obtain ⟨he, hr⟩ := h
      obtain ⟨hd, hbr⟩ := hw.branch _ _ _ _ _ hb hf
      have hx := h3 0 (patchInstr (starts.getD br 0) (st + b.code.length) (some ty)) (by rw [hf]; simp [finEnd])
      rw [Nat.add_zero] at hx
      have hlen : b.code.length + 1 ≤ size c.blk b := by simp [size, hf, endSize]; split <;> omega
      have hj := jump_lands g cd starts hE hsz br (st + b.code.length) hbr (by omega)
      have hls : lstep sem cd (st + c.pos) c.st = some ([.test ty c.st], (sem.test ty c.st).map (fun p =>
          (if p.1 then ((at' starts br : Nat) : Int) else ((st + b.code.length : Nat) : Int) + 1, p.2))) := by
        rw [hpe]; exact lstep_cjump _ _ _ _ _ _ _ hx hj
      constructor
      · intro c' hc'
        rw [hc'] at hr
        cases hs : sem.test ty c.st with
        | error x => rw [hs] at hr; simp [Except.map] at hr
        | ok q =>
          obtain ⟨t, s'⟩ := q
          rw [hs] at hr hls
          simp only [Except.map, Except.ok.injEq] at hr hls
          subst hr
          rw [← he]
          cases t with
          | true =>
            simp only [if_true]
            refine ⟨hbr, fun _ _ => Nat.zero_le _, ?_⟩
            rw [← List.append_nil [Event.test ty c.st]]
            exact .step hls .refl
          | false =>
            simp only [Bool.false_eq_true, if_false]
            refine ⟨hd, fun _ _ => Nat.zero_le _, ?_⟩
            simp only [Bool.false_eq_true, if_false] at hls
            rw [← List.append_nil [Event.test ty c.st]]
            have hcast : ((st + b.code.length : Nat) : Int) + 1 = ((st + b.code.length + 1 : Nat) : Int) := by omega
            rw [hcast] at hls
            refine .step hls ?_
            simp only [Nat.add_zero]
            by_cases hid : c.blk + 1 = d
            · subst hid
              have := h4 _ (starts_get g cd starts hE (c.blk + 1) hd).1
              have hz : size c.blk b = b.code.length + 1 := by simp [size, hf, endSize]
              rw [hz, ← Nat.add_assoc] at this
              rw [← this]; exact .refl
            · have hx := h3 1 (patchInstr (starts.getD d 0) (st + b.code.length + 1) none) (by rw [hf]; exact finEnd_second _ _ _ _ _ _ hid)
              generalize st + b.code.length + 1 = idx at hx ⊢
              obtain ⟨off, ho, hj⟩ := jump_at g cd starts hE hsz d idx hd hx
              have : lstep sem cd idx s' = some ([], .ok ((at' starts d : Int), s')) :=
                lstep_jump _ _ _ _ _ _ ho hj
              rw [← List.append_nil ([] : List (Event O T S))]
              exact .step this .refl
      · intro x hx
        rw [hx] at hr
        cases hs : sem.test ty c.st with
        | ok q => rw [hs] at hr; simp [Except.map] at hr
        | error y => rw [hs] at hr hls; simp [Except.map] at hr hls; rw [hls, ← he, hr]

theorem sim_run (hw : WF g) (hsz : cd.length < 2 ^ 31) {c c' : Place S} {es : List (Event O T S)}
    (h : GRun sem g c es c') (hblk : c.blk < g.length) (hpos : ∀ b, g[c.blk]? = some b → c.pos ≤ b.code.length) :
    c'.blk < g.length ∧ (∀ b, g[c'.blk]? = some b → c'.pos ≤ b.code.length) ∧
      LRun sem cd (at' starts c.blk + c.pos) c.st es (at' starts c'.blk + c'.pos) c'.st := by
  induction h with
  | refl => exact ⟨hblk, hpos, .refl⟩
  | step hs _ ih =>
    obtain ⟨h1, h2, h3⟩ := (sim_step sem g cd starts hE hw hsz _ hblk hpos _ _ hs).1 _ rfl
    obtain ⟨h4, h5, h6⟩ := ih h1 h2
    exact ⟨h4, h5, h3.trans h6⟩

theorem graph_to_code_of (hw : WF g) (hsz : cd.length < 2 ^ 31) (blk : Nat) (hblk : blk < g.length) (s : S) :
    (∀ es c', GRun sem g ⟨blk, 0, s⟩ es c' → LRun sem cd (at' starts blk) s es
      (at' starts c'.blk + c'.pos) c'.st) ∧
    (∀ es r, GHalts sem g ⟨blk, 0, s⟩ es r → LHalts sem cd (at' starts blk) s es r) ∧
    (∀ es s', GEnds sem g ⟨blk, 0, s⟩ es s' → LEnds sem cd (at' starts blk) s es s') := by
  refine ⟨fun es c' h => ?_, fun es r h => ?_, fun es s' h => ?_⟩
  · exact (sim_run sem g cd starts hE hw hsz h hblk (fun _ _ => Nat.zero_le _)).2.2
  · obtain ⟨es1, c', e, h1, h2, h3⟩ := h
    obtain ⟨a, b, d⟩ := sim_run sem g cd starts hE hw hsz h1 hblk (fun _ _ => Nat.zero_le _)
    exact ⟨es1, _, _, e, d, (sim_step sem g cd starts hE hw hsz _ a b _ _ h2).2 _ rfl, h3⟩
  · obtain ⟨c', h1, h2, h3⟩ := h
    obtain ⟨a, b, d⟩ := sim_run sem g cd starts hE hw hsz h1 hblk (fun _ _ => Nat.zero_le _)
    refine ⟨_, h3 ▸ d, ?_⟩
    obtain ⟨bb, hb⟩ : ∃ b, g[c'.blk]? = some b := ⟨g[c'.blk], List.getElem?_eq_getElem a⟩
    obtain ⟨st, h1, _, _, _, h5, _⟩ := hE c'.blk bb hb
    have hat : at' starts c'.blk = st := by rw [at', List.getD_eq_getElem?_getD, h1]; rfl
    unfold gstep at h2
    rw [hb] at h2
    simp only [] at h2
    cases hc : bb.code[c'.pos]? with
    | some p => rw [hc] at h2; simp at h2
    | none =>
      rw [hc] at h2
      cases hf : bb.fin with
      | next _ => rw [hf] at h2; simp at h2
      | branch _ _ _ => rw [hf] at h2; simp at h2
      | exit =>
        have := hw.exit _ _ hb hf
        rw [hat, h5 this.symm]
        have := List.getElem?_eq_none_iff.1 hc
        have := b bb hb
        simp [size, hf, endSize]; omega

/-- From the end of a block whose next block follows directly one may go on to the next block. -/
theorem settle (hw : WF g) (hsz : cd.length < 2 ^ 31) (ip : Nat) (s : S) :
    ∀ (k : Nat) (c : Place S), g.length - c.blk = k → c.st = s → c.blk < g.length → (∀ b, g[c.blk]? = some b → c.pos ≤ b.code.length) →
      ip = at' starts c.blk + c.pos →
    ∃ c', GRun sem g c [] c' ∧ c'.st = s ∧ c'.blk < g.length ∧ (∀ b, g[c'.blk]? = some b → c'.pos ≤ b.code.length) ∧
      ip = at' starts c'.blk + c'.pos ∧
      ∀ b, g[c'.blk]? = some b → c'.pos < b.code.length ∨ (c'.pos = b.code.length ∧ b.fin ≠ .next (c'.blk + 1)) := by
  intro k
  induction k with
  | zero => intro c hk _ hb; omega
  | succ k ih =>
    intro c hk hst hblk hpos hip
    obtain ⟨b, hb⟩ : ∃ b, g[c.blk]? = some b := ⟨g[c.blk], List.getElem?_eq_getElem hblk⟩
    have hp := hpos b hb
    by_cases hlt : c.pos < b.code.length
    · exact ⟨c, .refl, hst, hblk, hpos, hip, fun b' hb' => by rw [hb] at hb'; cases hb'; exact .inl hlt⟩
    by_cases hf : b.fin = .next (c.blk + 1)
    · have hn := hw.next _ _ _ hb hf
      have hg : gstep sem g c = some ([], .ok ⟨c.blk + 1, 0, c.st⟩) := by
        unfold gstep; rw [hb]; simp only []
        rw [List.getElem?_eq_none (by omega)]; simp only [hf]
      obtain ⟨st, h1, _, _, h4, _, _⟩ := hE c.blk b hb
      have hat : at' starts c.blk = st := by rw [at', List.getD_eq_getElem?_getD, h1]; rfl
      have h4' := h4 _ (starts_get g cd starts hE (c.blk + 1) hn).1
      have hz : size c.blk b = b.code.length := by simp [size, hf, endSize]
      obtain ⟨c', r1, r2⟩ := ih ⟨c.blk + 1, 0, c.st⟩ (by simp; omega) hst hn (fun _ _ => Nat.zero_le _) (by
        simp only [Nat.add_zero]; rw [hip, hat, at', h4']; omega)
      exact ⟨c', by have := GRun.step hg r1; simpa using this, r2⟩
    · exact ⟨c, .refl, hst, hblk, hpos, hip, fun b' hb' => by rw [hb] at hb'; cases hb'; exact .inr ⟨by omega, hf⟩⟩

/-- One step of the linear code is matched by the graph. -/
theorem back_step (hw : WF g) (hsz : cd.length < 2 ^ 31) (ip : Nat) (c : Place S) (h : Stands g cd starts ip c)
    (e : List (Event O T S)) (r : Except R (Int × S)) (hl : lstep sem cd ip c.st = some (e, r)) :
    (∀ ip' s', r = .ok (ip', s') → ∃ (n : Nat) (c' : Place S), ip' = n ∧ c'.st = s' ∧ GRun sem g c e c' ∧ Stands g cd starts n c') ∧
    (∀ x, r = .error x → GHalts sem g c e x) := by
  obtain ⟨hblk, hpos, hor⟩ := h
  rcases hor with hip | ⟨hp0, _, off, hj, hoff⟩
  · obtain ⟨c1, hr1, hst1, hb1, hp1, hip1, hend⟩ := settle sem g cd starts hE hw hsz ip c.st _ c rfl rfl hblk hpos hip
    obtain ⟨b, hb⟩ : ∃ b, g[c1.blk]? = some b := ⟨g[c1.blk], List.getElem?_eq_getElem hb1⟩
    obtain ⟨st, h1, h2, h3, h4, h5, h6⟩ := hE c1.blk b hb
    have hat : at' starts c1.blk = st := by rw [at', List.getD_eq_getElem?_getD, h1]; rfl
    rw [hat] at hip1
    -- go on from `c1`, with a graph step that matches
    have fwd : ∀ es c', GRun sem g c1 es c' → GRun sem g c es c' := fun es c' h => by simpa using hr1.trans h
    have one : ∀ es c', gstep sem g c1 = some (es, .ok c') → GRun sem g c es c' := fun es c' h => by
      have := fwd _ _ (GRun.step h .refl); simpa using this
    have halt : ∀ es x, gstep sem g c1 = some (es, .error x) → GHalts sem g c es x := fun es x h => ⟨[], c1, es, hr1, h, rfl⟩
    rcases hend b hb with hlt | ⟨hpe, hnn⟩
    · obtain ⟨p, hp⟩ : ∃ p, b.code[c1.pos]? = some p := ⟨_, List.getElem?_eq_getElem hlt⟩
      have hc := h2 _ _ hp
      have hg : gstep sem g c1 = some ([.op p.2 c1.st], (sem.op p.2 c1.st).map (fun s => ⟨c1.blk, c1.pos + 1, s⟩)) := by
        unfold gstep; rw [hb]; simp only [hp]
      unfold lstep at hl
      rw [hip1, hc] at hl
      simp only [Option.some.injEq, Prod.mk.injEq] at hl
      obtain ⟨he, hr⟩ := hl
      rw [hst1] at hg
      constructor
      · intro ip' s' hrr
        rw [hrr] at hr
        cases hs : sem.op p.2 c.st with
        | error x => rw [hs] at hr; simp [Except.map] at hr
        | ok s2 =>
          rw [hs] at hr hg
          simp [Except.map] at hr hg
          obtain ⟨hr1, hr2⟩ := hr
          subst hr2
          refine ⟨st + c1.pos + 1, ⟨c1.blk, c1.pos + 1, s2⟩, by rw [← hr1]; push_cast; omega, rfl, he ▸ one _ _ hg, hb1, ?_, ?_⟩
          · intro b' hb'; rw [hb] at hb'; cases hb'; simp; omega
          · left; simp only [hat]; omega
      · intro x hx
        rw [hx] at hr
        cases hs : sem.op p.2 c.st with
        | ok s2 => rw [hs] at hr; simp [Except.map] at hr
        | error y =>
          rw [hs] at hr hg
          simp [Except.map] at hr hg
          subst hr
          exact he ▸ halt _ _ hg
    · have hnone : b.code[c1.pos]? = none := List.getElem?_eq_none (by omega)
      cases hf : b.fin with
      | exit =>
        -- the end of the code: no instruction there
        have := hw.exit _ _ hb hf
        have hlen := h5 this.symm
        have hz : size c1.blk b = b.code.length := by simp [size, hf, endSize]
        unfold lstep at hl
        rw [List.getElem?_eq_none (by omega)] at hl
        simp at hl
      | next n =>
        have hne : c1.blk + 1 ≠ n := fun e => hnn (by rw [hf, e])
        have hn := hw.next _ _ _ hb hf
        have hx := h3 0 (patchInstr (starts.getD n 0) (st + b.code.length) none) (by rw [hf]; simp [finEnd, hne])
        rw [Nat.add_zero] at hx
        have hlen : size c1.blk b = b.code.length + 1 := by simp [size, hf, endSize, hne]
        have hjl := jump_lands g cd starts hE hsz n (st + b.code.length) hn (by omega)
        have hg : gstep sem g c1 = some ([], .ok ⟨n, 0, c1.st⟩) := by
          unfold gstep; rw [hb]; simp only [hnone, hf]
        rw [hip1, hpe, lstep_jump _ _ _ _ _ _ hx hjl] at hl
        simp only [Option.some.injEq, Prod.mk.injEq] at hl
        obtain ⟨he, hr⟩ := hl
        constructor
        · intro ip' s' hrr
          rw [hrr] at hr
          simp at hr
          refine ⟨_, ⟨n, 0, c1.st⟩, hr.1.symm, by rw [hst1]; exact hr.2, he ▸ one _ _ hg, hn, fun _ _ => Nat.zero_le _, .inl ?_⟩
          simp
        · intro x hx; rw [hx] at hr; cases hr
      | branch ty d br =>
        obtain ⟨hd, hbr⟩ := hw.branch _ _ _ _ _ hb hf
        have hx := h3 0 (patchInstr (starts.getD br 0) (st + b.code.length) (some ty)) (by rw [hf]; simp [finEnd])
        rw [Nat.add_zero] at hx
        have hlen : b.code.length + 1 ≤ size c1.blk b := by simp [size, hf, endSize]; split <;> omega
        have hjl := jump_lands g cd starts hE hsz br (st + b.code.length) hbr (by omega)
        have hg : gstep sem g c1 = some ([.test ty c1.st], (sem.test ty c1.st).map (fun p => ⟨if p.1 then br else d, 0, p.2⟩)) := by
          unfold gstep; rw [hb]; simp only [hnone, hf]
        rw [hst1] at hg
        rw [hip1, hpe, lstep_cjump _ _ _ _ _ _ _ hx hjl] at hl
        simp only [Option.some.injEq, Prod.mk.injEq] at hl
        obtain ⟨he, hr⟩ := hl
        constructor
        · intro ip' s' hrr
          rw [hrr] at hr
          cases hs : sem.test ty c.st with
          | error x => rw [hs] at hr; simp [Except.map] at hr
          | ok q =>
            obtain ⟨t, s2⟩ := q
            rw [hs] at hr hg
            simp only [Except.map, Except.ok.injEq, Prod.mk.injEq] at hr hg
            obtain ⟨hr1, hr2⟩ := hr
            subst hr2
            cases t with
            | true =>
              simp only [if_true] at hr1 hg
              refine ⟨_, _, hr1.symm, rfl, he ▸ one _ _ hg, hbr, fun _ _ => Nat.zero_le _, .inl rfl⟩
            | false =>
              simp only [Bool.false_eq_true, if_false] at hr1 hg
              refine ⟨st + b.code.length + 1, ⟨d, 0, s2⟩, by rw [← hr1]; rfl, rfl, he ▸ one _ _ hg, hd, fun _ _ => Nat.zero_le _, ?_⟩
              by_cases hid : c1.blk + 1 = d
              · left
                subst hid
                have := h4 _ (starts_get g cd starts hE (c1.blk + 1) hd).1
                have hz : size c1.blk b = b.code.length + 1 := by simp [size, hf, endSize]
                simp only [Nat.add_zero, at']; rw [this, hz, Nat.add_assoc]
              · right
                have hx := h3 1 (patchInstr (starts.getD d 0) (st + b.code.length + 1) none) (by rw [hf]; exact finEnd_second _ _ _ _ _ _ hid)
                have hge : at' starts c1.blk ≤ st + b.code.length + 1 := by omega
                generalize st + b.code.length + 1 = idx at hx hge ⊢
                exact ⟨rfl, ⟨c1.blk, hb1, hge⟩, jump_at g cd starts hE hsz d idx hd hx⟩
        · intro x hx
          rw [hx] at hr
          cases hs : sem.test ty c.st with
          | ok q => rw [hs] at hr; simp [Except.map] at hr
          | error y =>
            rw [hs] at hr hg
            simp [Except.map] at hr hg
            subst hr
            exact he ▸ halt _ _ hg
  · -- at a jump that leads to the place
    unfold lstep at hl
    rw [hj] at hl
    simp only [Option.some.injEq, Prod.mk.injEq] at hl
    obtain ⟨he, hr⟩ := hl
    constructor
    · intro ip' s' hrr
      rw [hrr] at hr
      simp at hr
      refine ⟨at' starts c.blk, c, by rw [← hr.1]; exact hoff, hr.2, he ▸ .refl, hblk, hpos, .inl (by omega)⟩
    · intro x hx; rw [hx] at hr; cases hr

theorem back_run (hw : WF g) (hsz : cd.length < 2 ^ 31) {ip ip' : Nat} {s s' : S} {es : List (Event O T S)}
    (h : LRun sem cd ip s es ip' s') : ∀ c : Place S, c.st = s → Stands g cd starts ip c →
    ∃ c', c'.st = s' ∧ GRun sem g c es c' ∧ Stands g cd starts ip' c' := by
  induction h with
  | refl => intro c hs hc; exact ⟨c, hs, .refl, hc⟩
  | step hl _ ih =>
    intro c hs hc
    subst hs
    obtain ⟨n, c1, hn, hs1, hr1, hst1⟩ := (back_step sem g cd starts hE hw hsz _ c hc _ _ hl).1 _ _ rfl
    have hn' := Int.ofNat.inj hn
    subst hn'
    obtain ⟨c', h1, h2, h3⟩ := ih c1 hs1 hst1
    exact ⟨c', h1, hr1.trans h2, h3⟩

theorem code_to_graph_of (hw : WF g) (hsz : cd.length < 2 ^ 31) (blk : Nat) (hblk : blk < g.length) (s : S) :
    (∀ es ip' s', LRun sem cd (at' starts blk) s es ip' s' → ∃ c', c'.st = s' ∧ GRun sem g ⟨blk, 0, s⟩ es c') ∧
    (∀ es r, LHalts sem cd (at' starts blk) s es r → GHalts sem g ⟨blk, 0, s⟩ es r) := by
  have h0 : Stands g cd starts (at' starts blk) (⟨blk, 0, s⟩ : Place S) :=
    ⟨hblk, fun _ _ => Nat.zero_le _, .inl rfl⟩
  refine ⟨fun es ip' s' h => ?_, fun es r h => ?_⟩
  · obtain ⟨c', h1, h2, _⟩ := back_run sem g cd starts hE hw hsz h _ rfl h0
    exact ⟨c', h1, h2⟩
  · obtain ⟨es1, ip', s', e, h1, h2, h3⟩ := h
    obtain ⟨c', g1, g2, g3⟩ := back_run sem g cd starts hE hw hsz h1 _ rfl h0
    subst g1
    obtain ⟨es2, c2, e2, k1, k2, k3⟩ := (back_step sem g cd starts hE hw hsz _ _ g3 _ _ h2).2 _ rfl
    exact ⟨es1 ++ es2, c2, e2, g2.trans k1, k2, by rw [h3, k3, List.append_assoc]⟩

end

/-- **C33** from the start of any block, a run along the graph is a run of the emitted code: the same opcodes and tests on the same
states in the same order, ending at the corresponding place, with the same result if it stops, and at the end of the code if it reaches
the end of the graph. -/
theorem C33_graph_to_code (sem : Sem O T S R) (ph : O) (noLoc : L) (g : Code O T L) (code : List (Instr O T)) (locs : List L) (hw : WF g) (hsz : (emit ph noLoc g code locs).1.length < 2 ^ 31) (blk : Nat) (hblk : blk < g.length) (s : S) :
    (∀ es c', GRun sem g ⟨blk, 0, s⟩ es c' → LRun sem (emit ph noLoc g code locs).1 ((emit ph noLoc g code locs).2.2.getD blk 0) s es
      ((emit ph noLoc g code locs).2.2.getD c'.blk 0 + c'.pos) c'.st) ∧
    (∀ es r, GHalts sem g ⟨blk, 0, s⟩ es r → LHalts sem (emit ph noLoc g code locs).1 ((emit ph noLoc g code locs).2.2.getD blk 0) s es r) ∧
    (∀ es s', GEnds sem g ⟨blk, 0, s⟩ es s' → LEnds sem (emit ph noLoc g code locs).1 ((emit ph noLoc g code locs).2.2.getD blk 0) s es s') :=
  graph_to_code_of sem g _ _ (emitted_block ph noLoc g code locs) hw hsz blk hblk s

/-- **C33** conversely every run of the emitted code from the start of a block is a run along the graph: nothing else can happen. -/
theorem C33_code_to_graph (sem : Sem O T S R) (ph : O) (noLoc : L) (g : Code O T L) (code : List (Instr O T)) (locs : List L) (hw : WF g) (hsz : (emit ph noLoc g code locs).1.length < 2 ^ 31) (blk : Nat) (hblk : blk < g.length) (s : S) :
    (∀ es ip' s', LRun sem (emit ph noLoc g code locs).1 ((emit ph noLoc g code locs).2.2.getD blk 0) s es ip' s' → ∃ c', c'.st = s' ∧ GRun sem g ⟨blk, 0, s⟩ es c') ∧
    (∀ es r, LHalts sem (emit ph noLoc g code locs).1 ((emit ph noLoc g code locs).2.2.getD blk 0) s es r → GHalts sem g ⟨blk, 0, s⟩ es r) :=
  code_to_graph_of sem g _ _ (emitted_block ph noLoc g code locs) hw hsz blk hblk s

/-- A loop (`while`): test, body, back: the graph the builder makes, and the code emitted for it after two opcodes that are already there. -/
example :
    let g0 : Code String Unit Nat := new
    let (g1, start) := branchReverse g0
    let g2 := push g1 1 "cond"
    let (g3, test) := branchForward g2
    let g4 := push g3 2 "body"
    let g5 := joinReverse g4 start none
    let g6 := joinForward g5 test (some ())
    Built g6 [] ∧ (emit "placeholder" 0 g6 [.op "a", .op "b"] [7, 8]) =
      ([.op "a", .op "b", .op "cond", .cjump () 2, .op "body", .jump (-4)], [7, 8, 1, 0, 2, 0], [2, 2, 4, 6, 6]) := by
  refine ⟨?_, by decide⟩
  exact .joinForward (op := [1]) 1 (some ()) (.joinReverse 1 none (.push 2 "body" (.branchForward (.push 1 "cond" (.branchReverse .new)))) (by decide)) (by decide)

end Cordy.Graph
