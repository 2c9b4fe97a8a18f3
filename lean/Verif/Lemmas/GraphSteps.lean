import Verif.Props.Stmt
/-!
# A long run of the graph is a long run of the code (for C76)
-/
namespace Cordy.Graph
open Cordy.Builder
variable {O T L S R : Type}

/-- As `LRun`, with the number of steps. -/
inductive LRunN (sem : Sem O T S R) (code : List (Instr O T)) : Nat → Nat → S → Nat → S → Prop
  | refl {ip s} : LRunN sem code 0 ip s ip s
  | step {n : Nat} {ip : Nat} {s : S} {e} {ip' : Nat} {s' : S} {ip'' : Nat} {s'' : S} : lstep sem code ip s = some (e, .ok ((ip' : Int), s')) → LRunN sem code n ip' s' ip'' s'' →
      LRunN sem code (n + 1) ip s ip'' s''

theorem LRunN.trans {sem : Sem O T S R} {code n ip s ip' s' m ip'' s''} (h1 : LRunN sem code n ip s ip' s') (h2 : LRunN sem code m ip' s' ip'' s'') :
    LRunN sem code (n + m) ip s ip'' s'' := by
  induction h1 with
  | refl => rw [Nat.zero_add]; exact h2
  | step h _ ih => rw [Nat.add_right_comm]; exact .step h (ih h2)

theorem LRun.count {sem : Sem O T S R} {code ip s es ip' s'} (h : LRun sem code ip s es ip' s') : ∃ n, LRunN sem code n ip s ip' s' ∧ (es ≠ [] → 1 ≤ n) := by
  induction h with
  | refl => exact ⟨0, .refl, fun h => absurd rfl h⟩
  | step h _ ih =>
    obtain ⟨n, hn, _⟩ := ih
    exact ⟨n + 1, .step h hn, fun _ => by omega⟩

section
variable (sem : Sem O T S R) (g : Code O T L) (cd : List (Instr O T)) (starts : List Nat) (hE : Emitted g cd starts)
include hE

theorem count_step (hw : WF g) (hsz : cd.length < 2 ^ 31) (c : Place S) (hblk : c.blk < g.length)
    (hpos : ∀ b, g[c.blk]? = some b → c.pos ≤ b.code.length) (e : List (Event O T S)) (c' : Place S) (h : gstep sem g c = some (e, .ok c')) :
    ∃ n, LRunN sem cd n (at' starts c.blk + c.pos) c.st (at' starts c'.blk + c'.pos) c'.st ∧ (1 ≤ n ∨ c'.blk = c.blk + 1) := by
  obtain ⟨h1, h2, h3⟩ := (sim_step sem g cd starts hE hw hsz c hblk hpos e _ h).1 c' rfl
  obtain ⟨n, hn, hne⟩ := h3.count
  by_cases he : e = []
  · subst he
    obtain ⟨b, hb⟩ : ∃ b, g[c.blk]? = some b := ⟨g[c.blk], List.getElem?_eq_getElem hblk⟩
    unfold gstep at h
    rw [hb] at h
    simp only at h
    cases hc : b.code[c.pos]? with
    | some p => rw [hc] at h; simp at h
    | none =>
      rw [hc] at h
      simp only at h
      cases hf : b.fin with
      | exit => rw [hf] at h; simp at h
      | branch ty d br => rw [hf] at h; simp at h
      | next k =>
        rw [hf] at h
        simp only [Option.some.injEq, Prod.mk.injEq, Except.ok.injEq, true_and] at h
        subst h
        by_cases hid : c.blk + 1 = k
        · exact ⟨n, hn, .inr hid.symm⟩
        · obtain ⟨st, g1, g2, g3, g4, g5, g6⟩ := hE c.blk b hb
          have hat : at' starts c.blk = st := by rw [at', List.getD_eq_getElem?_getD, g1]; rfl
          have hpe : c.pos = b.code.length := by
            have := List.getElem?_eq_none_iff.1 hc; have := hpos b hb; omega
          have hx := g3 0 (patchInstr (starts.getD k 0) (st + b.code.length) none) (by rw [hf]; simp [finEnd, hid])
          have hlen : size c.blk b = b.code.length + 1 := by simp [size, hf, endSize, hid]
          have hj := jump_lands g cd starts hE hsz k (st + b.code.length) h1 (by omega)
          have : lstep sem cd (at' starts c.blk + c.pos) c.st = some ([], .ok ((at' starts k : Int), c.st)) := by
            rw [hpe, hat]; exact lstep_jump _ _ _ _ _ _ hx hj
          exact ⟨1, .step this .refl, .inl (Nat.le_refl _)⟩
  · exact ⟨n, hn, .inl (hne he)⟩
end

section
variable {sem : Sem O T S R} {g : Code O T Unit} {cd : List (Instr O T)} {starts : List Nat} (hE : Emitted g cd starts)
include hE

theorem count_steps (hw : WF g) (hsz : cd.length < 2 ^ 31) {k : Nat} {c c' : Place S} (h : Stmts.Steps sem g k c c') (hblk : c.blk < g.length)
    (hpos : ∀ b, g[c.blk]? = some b → c.pos ≤ b.code.length) :
    c'.blk < g.length ∧ ∃ n, LRunN sem cd n (at' starts c.blk + c.pos) c.st (at' starts c'.blk + c'.pos) c'.st ∧ k + c.blk ≤ n * g.length + c'.blk := by
  induction h with
  | refl => exact ⟨hblk, 0, .refl, by omega⟩
  | step hs _ ih =>
    obtain ⟨h1, h2, _⟩ := (sim_step sem g cd starts hE hw hsz _ hblk hpos _ _ hs).1 _ rfl
    obtain ⟨n, hn, hor⟩ := count_step sem g cd starts hE hw hsz _ hblk hpos _ _ hs
    obtain ⟨h4, m, hm, hle⟩ := ih h1 h2
    refine ⟨h4, n + m, hn.trans hm, ?_⟩
    rw [Nat.add_mul]
    rcases hor with hor | hor
    · have : g.length ≤ n * g.length := Nat.le_mul_of_pos_left _ hor
      omega
    · omega

/-- A run of the graph of `n` steps or more: the code takes at least `n / g.length` steps, less one. -/
theorem long_code (hw : WF g) (hsz : cd.length < 2 ^ 31) {n i : Nat} {s : S} (h0 : i < g.length) (h : Stmts.Long sem g n ⟨i, 0, s⟩) :
    ∃ l ip' s', n < (l + 1) * g.length ∧ LRunN sem cd l (at' starts i) s ip' s' := by
  obtain ⟨k, c', hk, hs⟩ := h
  obtain ⟨h1, l, hl, hle⟩ := count_steps hE hw hsz hs h0 (fun _ _ => Nat.zero_le _)
  refine ⟨l, _, _, ?_, hl⟩
  rw [Nat.add_mul]
  simp only at hle
  omega
end

end Cordy.Graph
