import Verif.Lemmas.ProgramSeg
/-! What the block optimiser does to a block, and to the layout. -/
namespace Cordy.Program
open Cordy.Codegen (Out Prims LitTy)
open Cordy.Full (Runtime Vars sig St decode encode machine em)
open Cordy.Stmts (Op Br emitProgram)
open Cordy.Graph (Instr)
variable {Γ : Codegen.Sig} {E S : Type}

/-- Variables are variables: those of the function that runs are in its frame, and a variable that has been assigned has that value. -/
structure AccessLaws (A : Access Γ) (P : Prog Γ E S) : Prop where
  load_slot : ∀ x i, A.slot x = some i → ∀ k (p : Vars Γ.V k × World Γ.V S) v, p.1.1[i]? = some v → (P.base.prims k).load x p = .ok v p
  store_slot : ∀ x i, A.slot x = some i → ∀ k (p : Vars Γ.V k × World Γ.V S) v, i < k → ∃ p', (P.base.prims k).store x v p = .ok () p' ∧ p'.1.1 = p.1.1.set i v ∧ p'.2 = p.2
  store_load : ∀ x k (p p' : Vars Γ.V k × World Γ.V S) v, (P.base.prims k).store x v p = .ok () p' → (P.base.prims k).load x p' = .ok v p'

section
variable {A : Access Γ} {P : Prog Γ E S}

theorem last_split {α : Type} (st : List α) : st = [] ∨ ∃ a v, st = a ++ [v] := by
  rcases List.eq_nil_or_concat st with h | ⟨a, v, h⟩
  · exact .inl h
  · exact .inr ⟨a, v, by rw [h]; simp⟩

/-- The frame of a machine that was decoded. -/
theorem decode_append {k : Nat} (vs : List Γ.V) (ops : List Γ.V) (hk : vs.length = k) (t : St Γ (World Γ.V S)) :
    decode k (⟨vs ++ ops, t⟩ : MSt Γ S) = some ⟨ops.reverse, t.lits, t.unroll, (⟨vs, hk⟩, t.s)⟩ := by
  subst hk
  simp [decode]

theorem decode_cases (k : Nat) (m : MSt Γ S) : decode k m = none ∨ ∃ vs ops t, ∃ hk : vs.length = k, m = ⟨vs ++ ops, t⟩ ∧ decode k m = some ⟨ops.reverse, t.lits, t.unroll, (⟨vs, hk⟩, t.s)⟩ := by
  obtain ⟨st, t⟩ := m
  by_cases h : k ≤ st.length
  · refine .inr ⟨st.take k, st.drop k, t, by simp [h], by simp, ?_⟩
    simp [decode, h]
  · exact .inl (by simp [decode, h])

theorem grp_storePop (P : Prog Γ E S) (i : Nat) : Grp P [.store i, .pop] (.storePop i) := by
  refine .inr ⟨by simp, by simp [plain], by simp [plain], fun m => .inr ?_⟩
  obtain ⟨st, t⟩ := m
  rcases last_split st with rfl | ⟨a, v, rfl⟩
  · simp [execs, Stmts.exec]
  · by_cases hi : i < a.length
    · simp [execs, Stmts.exec, hi, List.set_append_left]
    · simp [execs, Stmts.exec, hi]

theorem grp_xPop (P : Prog Γ E S) (k : Nat) (x : Γ.X) : Grp P [.x (k, .store x), .pop] (.xPop (k, .store x)) := by
  refine .inr ⟨by simp, by simp [plain, asks], by simp [plain], fun m => .inr ?_⟩
  rcases decode_cases k m with h | ⟨vs, ops, t, hk, rfl, h⟩
  · simp only [execs, Stmts.exec, machine, h]
  · simp only [execs, Stmts.exec, machine, h]
    rcases last_split ops with rfl | ⟨a, v, rfl⟩
    · rfl
    · simp only [List.reverse_append, List.reverse_cons, List.reverse_nil, List.nil_append, List.singleton_append, Codegen.exec, Codegen.doOut]
      cases (P.base.prims k).store x v (⟨vs, hk⟩, t.s) with
      | stop r p => rfl
      | ok u p => simp [encode]

theorem grp_pops (P : Prog Γ E S) (n : Nat) (hn : 1 ≤ n) : Grp P (List.replicate n .pop) (.popN n) := by
  refine .inr ⟨by simp; omega, by simp [plain], by simp [plain], fun m => .inr ?_⟩
  clear hn
  induction n generalizing m with
  | zero => simp [execs, Stmts.exec]
  | succ n ih =>
    obtain ⟨st, t⟩ := m
    rcases last_split st with rfl | ⟨a, v, rfl⟩
    · simp [execs, Stmts.exec, List.replicate]
    · simp only [List.replicate, execs, Stmts.exec]
      have he : ((a ++ [v]).isEmpty = true) = False := by simp
      simp only [he, if_false, List.dropLast_concat]
      rw [ih]
      simp only [Stmts.exec, List.length_append, List.length_cons, List.length_nil]
      by_cases h : n ≤ a.length
      · rw [if_pos h, if_pos (by omega)]
        rw [show a.length + (0 + 1) - (n + 1) = a.length - n by omega, List.take_append_of_le_length (by omega)]
      · rw [if_neg h, if_neg (by omega)]

variable [DecidableEq Γ.X]

theorem grp_storePopLoad (hA : AccessLaws A P) (a b : Op (sig Γ)) (h : sameVar A a b = true) : Grp P [a, .pop, b] a := by
  cases a <;> try (simp [sameVar] at h; done)
  case store i =>
    have hst : ∀ (m : MSt Γ S), execs P [.store i, .pop] m = Stmts.exec (machine P.base id) (.storePop i) m := by
      intro m
      rcases grp_storePop P i with h | ⟨_, _, _, h⟩
      · simp at h
      · obtain ⟨st, t⟩ := m
        rcases last_split st with rfl | ⟨a, v, rfl⟩
        · simp [execs, Stmts.exec]
        · by_cases hi : i < a.length
          · simp [execs, Stmts.exec, hi, List.set_append_left]
          · simp [execs, Stmts.exec, hi]
    cases b <;> try (simp [sameVar] at h; done)
    case load j =>
      simp [sameVar] at h
      subst h
      refine .inr ⟨by simp, by simp [plain], by simp [plain], fun m => .inr ?_⟩
      rw [show [Op.store i, .pop, .load i] = [Op.store i, .pop] ++ [.load i] from rfl, execs_append, hst]
      obtain ⟨st, t⟩ := m
      rcases last_split st with rfl | ⟨a, v, rfl⟩
      · simp [Stmts.exec]
      · by_cases hi : i < a.length
        · simp [execs, Stmts.exec, hi, List.set_append_left]
        · simp [Stmts.exec, hi]
    case x p =>
      obtain ⟨k, o⟩ := p
      cases o <;> try (simp [sameVar] at h; done)
      rename_i x
      simp [sameVar] at h
      obtain ⟨hx, hik⟩ := h
      refine .inr ⟨by simp, by simp [plain, asks], by simp [plain], fun m => ?_⟩
      rw [show ([.store i, .pop, .x (k, .load x)] : List (Op (sig Γ))) = [.store i, .pop] ++ [.x (k, .load x)] from rfl, execs_append, hst]
      obtain ⟨st, t⟩ := m
      rcases last_split st with rfl | ⟨a, v, rfl⟩
      · exact .inr (by simp [Stmts.exec])
      · by_cases hi : i < a.length
        · have hl : (a ++ [v]).getLast? = some v := by simp
          simp only [Stmts.exec, hl, List.dropLast_concat, hi, if_true, execs, machine]
          rcases decode_cases k (⟨a.set i v, t⟩ : MSt Γ S) with h | ⟨vs, ops, t', hk, he, h⟩
          · rw [h]; exact .inl rfl
          · right
            rw [h]
            injection he with he1 he2
            subst he2
            have hv : vs[i]? = some v := by
              have : (a.set i v)[i]? = some v := by simp [hi]
              rw [he1, List.getElem?_append_left (by omega)] at this
              exact this
            simp only [Codegen.exec, hA.load_slot x i hx k (⟨vs, hk⟩, t.s) v hv, Codegen.pushOut, encode]
            simp only [List.reverse_cons, List.reverse_reverse, ← List.append_assoc, ← he1, List.set_append_left _ _ hi]
        · exact .inr (by simp [Stmts.exec, hi])
  case x p =>
    obtain ⟨k, o⟩ := p
    cases o <;> try (simp [sameVar] at h; done)
    rename_i x
    have hst : ∀ (m : MSt Γ S), execs P [.x (k, .store x), .pop] m = Stmts.exec (machine P.base id) (.xPop (k, .store x)) m := by
      intro m
      rcases decode_cases k m with h | ⟨vs, ops, t, hk, rfl, h⟩
      · simp only [execs, Stmts.exec, machine, h]
      · simp only [execs, Stmts.exec, machine, h]
        rcases last_split ops with rfl | ⟨a, v, rfl⟩
        · rfl
        · simp only [List.reverse_append, List.reverse_cons, List.reverse_nil, List.nil_append, List.singleton_append, Codegen.exec, Codegen.doOut]
          cases (P.base.prims k).store x v (⟨vs, hk⟩, t.s) with
          | stop r p => rfl
          | ok u p => simp [encode]
    cases b <;> try (simp [sameVar] at h; done)
    case load j =>
      simp [sameVar] at h
      obtain ⟨hx, hjk⟩ := h
      refine .inr ⟨by simp, by simp [plain, asks], by simp [plain, asks], fun m => .inr ?_⟩
      rw [show ([.x (k, .store x), .pop, .load j] : List (Op (sig Γ))) = [.x (k, .store x), .pop] ++ [.load j] from rfl, execs_append, hst]
      rcases decode_cases k m with h | ⟨vs, ops, t, hk, rfl, h⟩
      · simp only [Stmts.exec, machine, h]
      · simp only [Stmts.exec, machine, h]
        rcases last_split ops with rfl | ⟨a, v, rfl⟩
        · rfl
        · simp only [List.reverse_append, List.reverse_cons, List.reverse_nil, List.nil_append, List.singleton_append, Codegen.exec, Codegen.doOut]
          obtain ⟨p', hp, h1, h2⟩ := hA.store_slot x j hx k (⟨vs, hk⟩, t.s) v hjk
          rw [hp]
          have hv : (p'.1.1 ++ a)[j]? = some v := by
            rw [h1, List.getElem?_append_left (by simp; omega)]
            have : j < vs.length := by omega
            simp [this]
          simp [execs, Stmts.exec, encode, hv]
    case x p =>
      obtain ⟨k', o⟩ := p
      cases o <;> try (simp [sameVar] at h; done)
      rename_i y
      simp [sameVar] at h
      obtain ⟨rfl, rfl⟩ := h
      refine .inr ⟨by simp, by simp [plain, asks], by simp [plain, asks], fun m => .inr ?_⟩
      rw [show ([.x (k, .store x), .pop, .x (k, .load x)] : List (Op (sig Γ))) = [.x (k, .store x), .pop] ++ [.x (k, .load x)] from rfl, execs_append, hst]
      rcases decode_cases k m with h | ⟨vs, ops, t, hk, rfl, h⟩
      · simp only [Stmts.exec, machine, h]
      · simp only [Stmts.exec, machine, h]
        rcases last_split ops with rfl | ⟨a, v, rfl⟩
        · rfl
        · simp only [List.reverse_append, List.reverse_cons, List.reverse_nil, List.nil_append, List.singleton_append, Codegen.exec, Codegen.doOut]
          cases hp : (P.base.prims k).store x v (⟨vs, hk⟩, t.s) with
          | stop r p => rfl
          | ok u p =>
            have hl := hA.store_load x k _ _ _ hp
            simp only [execs, Stmts.exec, machine, encode, List.reverse_reverse]
            rw [decode_append p.1.1 a p.1.2 ⟨t.lits, t.unroll, p.2⟩]
            simp [Codegen.exec, hl, Codegen.pushOut, encode]

/-! ## The passes -/
variable {L : Type}

def ops (b : List (L × Op (sig Γ))) : List (Op (sig Γ)) := b.map Prod.snd

theorem seg1 (hA : AccessLaws A P) (b : List (L × Op (sig Γ))) : Seg P (ops b) (ops (mergeStorePopLoad A b)) := by
  induction b using mergeStorePopLoad.induct A with
  | case1 l a l1 l2 b rest h ih =>
    rw [mergeStorePopLoad, if_pos h]
    exact .cons (g := [a, .pop, b]) (grp_storePopLoad hA a b h) ih
  | case2 l a l1 l2 b rest h ih =>
    rw [mergeStorePopLoad, if_neg h]
    exact ih.one a
  | case3 x rest h ih =>
    rw [mergeStorePopLoad]
    · exact ih.one x.2
    · exact h
  | case4 => rw [mergeStorePopLoad]; exact .nil

omit [DecidableEq Γ.X] in
theorem seg2 (P : Prog Γ E S) (b : List (L × Op (sig Γ))) : Seg P (ops b) (ops (mergeStorePop A b)) := by
  induction b using mergeStorePop.induct A with
  | case1 l i l1 rest ih =>
    rw [mergeStorePop]
    exact .cons (g := [.store i, .pop]) (grp_storePop P i) ih
  | case2 l k x l1 rest h ih =>
    rw [mergeStorePop, if_pos h]
    exact ih.one _
  | case3 l k x l1 rest h ih =>
    rw [mergeStorePop, if_neg h]
    exact .cons (g := [.x (k, .store x), .pop]) (grp_xPop P k x) ih
  | case4 x rest h1 h2 ih =>
    rw [mergeStorePop]
    · exact ih.one x.2
    · exact h1
    · exact h2
  | case5 => rw [mergeStorePop]; exact .nil

omit [DecidableEq Γ.X] in
theorem takePops_ops : ∀ b : List (L × Op (sig Γ)), ops b = List.replicate (takePops b).1 .pop ++ ops (takePops b).2
  | [] => by simp [takePops, ops]
  | (l, o) :: rest => by
    have ih := takePops_ops rest
    cases o <;> simp only [takePops, List.replicate_zero, List.nil_append]
    simp only [ops, List.map_cons, List.replicate, List.cons_append] at ih ⊢
    rw [ih]

omit [DecidableEq Γ.X] in
theorem seg3 (P : Prog Γ E S) (b : List (L × Op (sig Γ))) : Seg P (ops b) (ops (mergePops b)) := by
  induction b using mergePops.induct with
  | case1 l rest h1 h ih =>
    rw [mergePops, if_pos h]
    have := takePops_ops rest
    show Seg P (.pop :: ops rest) _
    rw [this]
    exact .cons (g := List.replicate ((takePops rest).1 + 1) .pop) (grp_pops P _ (by omega)) ih
  | case2 l rest h1 h ih =>
    rw [mergePops, if_neg h]
    exact ih.one _
  | case3 x rest h ih =>
    rw [mergePops]
    · exact ih.one x.2
    · exact h
  | case4 => rw [mergePops]; exact .nil

theorem seg_block (hA : AccessLaws A P) (b : List (L × Op (sig Γ))) : Seg P (ops b) (ops (optBlock A b)) :=
  (seg3 P _).trans ((seg2 P _).trans (seg1 hA b))

end

end Cordy.Program
