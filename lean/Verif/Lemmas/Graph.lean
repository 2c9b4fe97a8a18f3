import Verif.Model.Graph
/-! The emitted code, described block by block. -/
namespace Cordy.Graph
variable {O T L : Type}

/-- How many jumps the end of block `id` needs. -/
def endSize (id : Nat) : End T → Nat
  | .exit => 0
  | .next n => if id + 1 ≠ n then 1 else 0
  | .branch _ d _ => if id + 1 ≠ d then 2 else 1

/-- The jumps of the end of a block, at position `pos`. -/
def finEnd (starts : List Nat) (id pos : Nat) : End T → List (Instr O T)
  | .exit => []
  | .next n => if id + 1 ≠ n then [patchInstr (starts.getD n 0) pos none] else []
  | .branch ty d b =>
    patchInstr (starts.getD b 0) pos (some ty) :: (if id + 1 ≠ d then [patchInstr (starts.getD d 0) (pos + 1) none] else [])

theorem finEnd_length (starts : List Nat) (id pos : Nat) (e : End T) : (finEnd (O := O) starts id pos e).length = endSize id e := by
  cases e <;> simp only [finEnd, endSize]
  · rfl
  · split <;> rfl
  · split <;> rfl

def size (id : Nat) (b : Block O T L) : Nat := b.code.length + endSize id b.fin

/-- The final code of the blocks from `id`, at position `pos`. -/
def fin (starts : List Nat) : Nat → Nat → Code O T L → List (Instr O T)
  | _, _, [] => []
  | id, pos, b :: bs => b.code.map (fun p => .op p.2) ++ finEnd starts id (pos + b.code.length) b.fin ++ fin starts (id + 1) (pos + size id b) bs

def startsOf : Nat → Nat → Code O T L → List Nat
  | _, _, [] => []
  | id, pos, b :: bs => pos :: startsOf (id + 1) (pos + size id b) bs

def locsOf (noLoc : L) : Nat → Code O T L → List L
  | _, [] => []
  | id, b :: bs => b.code.map Prod.fst ++ List.replicate (endSize id b.fin) noLoc ++ locsOf noLoc (id + 1) bs

def rawOf (ph : O) : Nat → Code O T L → List (Instr O T)
  | _, [] => []
  | id, b :: bs => b.code.map (fun p => .op p.2) ++ List.replicate (endSize id b.fin) (.op ph) ++ rawOf ph (id + 1) bs

def brsEnd (id pos : Nat) : End T → List (Nat × Nat × BranchType T)
  | .exit => []
  | .next n => if id + 1 ≠ n then [(pos, n, none)] else []
  | .branch ty d b => (pos, b, some ty) :: (if id + 1 ≠ d then [(pos + 1, d, none)] else [])

def brsOf : Nat → Nat → Code O T L → List (Nat × Nat × BranchType T)
  | _, _, [] => []
  | id, pos, b :: bs => brsEnd id (pos + b.code.length) b.fin ++ brsOf (id + 1) (pos + size id b) bs

theorem emitEnd_eq (ph : O) (noLoc : L) (e : Emit O T L) (id : Nat) (f : End T) :
    emitEnd ph noLoc e id f = ⟨e.code ++ List.replicate (endSize id f) (.op ph), e.locs ++ List.replicate (endSize id f) noLoc, e.starts,
      e.branches ++ brsEnd id e.code.length f⟩ := by
  cases f with
  | exit => simp [emitEnd, endSize, brsEnd]
  | next n => simp only [emitEnd, endSize, brsEnd]; split <;> simp [hole]
  | branch ty d b => simp only [emitEnd, endSize, brsEnd]; split <;> simp [hole, List.replicate]

theorem emitBlocks_eq (ph : O) (noLoc : L) : ∀ (bs : Code O T L) (id : Nat) (e : Emit O T L),
    emitBlocks ph noLoc id e bs = ⟨e.code ++ rawOf ph id bs, e.locs ++ locsOf noLoc id bs, e.starts ++ startsOf id e.code.length bs,
      e.branches ++ brsOf id e.code.length bs⟩
  | [], id, e => by simp [emitBlocks, rawOf, locsOf, startsOf, brsOf]
  | b :: bs, id, e => by
    rw [emitBlocks, emitBlocks_eq ph noLoc bs, emitEnd_eq]
    simp [emitOps, rawOf, locsOf, startsOf, brsOf, size, Nat.add_assoc]

theorem patch_append (starts : List Nat) (a b : List (Nat × Nat × BranchType T)) (c : List (Instr O T)) :
    patch starts (a ++ b) c = patch starts b (patch starts a c) := by
  induction a generalizing c with
  | nil => rfl
  | cons x a ih => obtain ⟨i, t, ty⟩ := x; simp only [List.cons_append, patch]; exact ih _

theorem patch_end (starts : List Nat) (ph : O) (id : Nat) (f : End T) (c0 suf : List (Instr O T)) :
    patch starts (brsEnd id c0.length f) (c0 ++ (List.replicate (endSize id f) (.op ph) ++ suf)) = c0 ++ (finEnd starts id c0.length f ++ suf) := by
  cases f with
  | exit => simp [brsEnd, patch, endSize, finEnd]
  | next n => simp only [brsEnd, endSize, finEnd]; split <;> simp [patch]
  | branch ty d b =>
    simp only [brsEnd, endSize, finEnd]; split
    · simp only [patch, List.replicate, List.cons_append, List.nil_append]
      rw [List.set_append_right _ _ (by simp), List.set_append_right _ _ (by omega)]
      simp
    · simp [patch]

theorem patch_fin (starts : List Nat) (ph : O) : ∀ (bs : Code O T L) (id : Nat) (c0 : List (Instr O T)),
    patch starts (brsOf id c0.length bs) (c0 ++ rawOf ph id bs) = c0 ++ fin starts id c0.length bs
  | [], id, c0 => by simp [brsOf, patch, rawOf, fin]
  | b :: bs, id, c0 => by
    rw [brsOf, patch_append, rawOf]
    have h := patch_end starts ph id b.fin (c0 ++ b.code.map (fun p => .op p.2)) (rawOf ph (id + 1) bs)
    simp only [List.length_append, List.length_map] at h
    rw [show c0 ++ (b.code.map (fun p => Instr.op p.2) ++ List.replicate (endSize id b.fin) (Instr.op ph) ++ rawOf ph (id + 1) bs) =
      c0 ++ b.code.map (fun p => Instr.op p.2) ++ (List.replicate (endSize id b.fin) (Instr.op ph) ++ rawOf ph (id + 1) bs) by simp, h]
    have h2 := patch_fin starts ph bs (id + 1) (c0 ++ b.code.map (fun p => .op p.2) ++ finEnd starts id (c0.length + b.code.length) b.fin)
    simp only [List.length_append, List.length_map, finEnd_length] at h2
    rw [← List.append_assoc, size, ← Nat.add_assoc, h2, fin, size]
    simp [Nat.add_assoc]

/-- The emitted code. -/
theorem emit_eq (ph : O) (noLoc : L) (g : Code O T L) (code : List (Instr O T)) (locs : List L) :
    emit ph noLoc g code locs = (code ++ fin (startsOf 0 code.length g) 0 code.length g, locs ++ locsOf noLoc 0 g, startsOf 0 code.length g) := by
  unfold emit
  simp only [emitBlocks_eq, List.nil_append]
  rw [patch_fin]

theorem startsOf_length : ∀ (bs : Code O T L) (id pos : Nat), (startsOf id pos bs).length = bs.length
  | [], _, _ => rfl
  | b :: bs, id, pos => by simp [startsOf, startsOf_length bs]

/-- The start of block `b` and its code. -/
theorem block_at (starts : List Nat) : ∀ (bs : Code O T L) (id : Nat) (c0 : List (Instr O T)) (j : Nat) (b : Block O T L), bs[j]? = some b →
    ∃ st c1 c2, (startsOf id c0.length bs)[j]? = some st ∧ c1.length = st ∧
      c0 ++ fin starts id c0.length bs = c1 ++ (b.code.map (fun p => .op p.2) ++ finEnd starts (id + j) (st + b.code.length) b.fin ++ c2) ∧
      (∀ st', (startsOf id c0.length bs)[j + 1]? = some st' → st' = st + size (id + j) b) ∧
      (bs.length = j + 1 → c2 = [])
  | [], _, _, j, b, h => by simp at h
  | x :: bs, id, c0, 0, b, h => by
    simp at h; subst h
    refine ⟨c0.length, c0, fin starts (id + 1) (c0.length + size id x) bs, by simp [startsOf], rfl, by simp [fin], ?_, ?_⟩
    · intro st' hst
      cases bs with
      | nil => simp [startsOf] at hst
      | cons y bs => simp [startsOf] at hst; exact hst.symm
    · intro hl; simp at hl; subst hl; rfl
  | x :: bs, id, c0, j + 1, b, h => by
    simp at h
    obtain ⟨st, c1, c2, h1, h2, h3, h4, h5⟩ := block_at starts bs (id + 1)
      (c0 ++ x.code.map (fun p => .op p.2) ++ finEnd starts id (c0.length + x.code.length) x.fin) j b h
    simp only [List.length_append, List.length_map, finEnd_length] at h1 h3 h4
    rw [Nat.add_assoc] at h1 h3 h4
    refine ⟨st, c1, c2, by simpa [startsOf, size] using h1, h2, ?_, ?_, ?_⟩
    · rw [fin, show id + (j + 1) = id + 1 + j by omega, ← h3]; simp [size]
    · intro st' hst
      simp [startsOf, size] at hst
      rw [show id + (j + 1) = id + 1 + j by omega]
      exact h4 st' hst
    · intro hl; exact h5 (by simpa using hl)

theorem locs_at (noLoc : L) : ∀ (bs : Code O T L) (id : Nat) (l0 : List L) (j : Nat) (b : Block O T L), bs[j]? = some b →
    ∃ st l1 l2, (startsOf id l0.length bs)[j]? = some st ∧ l1.length = st ∧ l0 ++ locsOf noLoc id bs = l1 ++ (b.code.map Prod.fst ++ l2)
  | [], _, _, j, b, h => by simp at h
  | x :: bs, id, l0, 0, b, h => by
    simp at h; subst h
    exact ⟨l0.length, l0, _, by simp [startsOf], rfl, by simp [locsOf]; rfl⟩
  | x :: bs, id, l0, j + 1, b, h => by
    simp at h
    obtain ⟨st, l1, l2, h1, h2, h3⟩ := locs_at noLoc bs (id + 1) (l0 ++ x.code.map Prod.fst ++ List.replicate (endSize id x.fin) noLoc) j b h
    simp only [List.length_append, List.length_map, List.length_replicate] at h1
    rw [Nat.add_assoc] at h1
    exact ⟨st, l1, l2, by simpa [startsOf, size] using h1, h2, by rw [locsOf, ← h3]; simp⟩

theorem locsOf_length (noLoc : L) : ∀ (bs : Code O T L) (id : Nat), (locsOf noLoc id bs).length = (bs.zipIdx id).foldr (fun p n => size p.2 p.1 + n) 0
  | [], _ => rfl
  | b :: bs, id => by simp [locsOf, locsOf_length noLoc bs, size, Nat.add_assoc]
theorem fin_length (starts : List Nat) : ∀ (bs : Code O T L) (id pos : Nat), (fin starts id pos bs).length = (bs.zipIdx id).foldr (fun p n => size p.2 p.1 + n) 0
  | [], _, _ => rfl
  | b :: bs, id, pos => by simp [fin, fin_length starts bs, size, finEnd_length, Nat.add_assoc]

theorem i32_small (i : Int) (h : -(2 ^ 31) ≤ i) (h' : i < 2 ^ 31) : i32 i = i := by
  unfold i32; omega

theorem patchInstr_off (start index : Nat) (h1 : start < 2 ^ 31) (h2 : index < 2 ^ 31) :
    i32 (i32 (i32 start - i32 index) - 1) = (start : Int) - index - 1 := by
  rw [i32_small start (by omega) (by omega), i32_small index (by omega) (by omega), i32_small (start - index : Int) (by omega) (by omega),
    i32_small _ (by omega) (by omega)]

end Cordy.Graph
