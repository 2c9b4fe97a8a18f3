import Verif.Model.Peephole
/-! # C34: the block optimiser is invisible -/
namespace Cordy.VM
variable {A W E O T L : Type}

/-! ## Specification -/

/-- What is left of a machine after an error: everything, except the stack above the global variables. -/
def rest (s : St A W) : St A W := { s with stack := s.stack.take s.globals }

/-- The same outcome: the same final state, or the same error leaving the same global variables, heap and world (the operands and local
variables above the globals are discarded after an error). -/
def Same : Option (Res E (St A W)) → Option (Res E (St A W)) → Prop
  | some (.ok s), some (.ok s') => s' = s
  | some (.err e s), some (.err e' s') => e' = e ∧ rest s' = rest s
  | none, none => True
  | some .panic, some .panic => True
  | _, _ => False

/-- A store that would overwrite its own operand (for a global variable: whose operand is in the place of a global variable), or the
function that is running. -/
def storesOverOperand (s : St A W) : Op O → Bool
  | .storeLocal i false => s.fp + i + 1 == s.stack.length
  | .storeGlobal _ false => decide (s.stack.length ≤ s.globals)
  | .storeUp i =>
    match (cellOf i s).bind (fun c => s.cells[c]?) with
    | some (.opened j) => j == s.fp - 1
    | _ => false
  | _ => false

/-- The machine, stopping at once at a store over its own operand or over the running function: compiled code never does this, because
variables have slots of their own below the operands. -/
def stepM (P : Prims A W E O T) (o : Op O) (s : St A W) : Comp A W E := if storesOverOperand s o then .ret .panic else step P o s

/-! ## Proof -/

theorem Same.rfl' (r : Option (Res E (St A W))) : Same r r := by
  match r with
  | none => trivial
  | some (.ok s) => exact rfl
  | some (.err e s) => exact ⟨rfl, rfl⟩
  | some .panic => trivial

theorem runCode_cons (rc : Comp A W E → Option (Res E (St A W))) (st : Op O → St A W → Comp A W E) (l : L) (o : Op O) (b : List (L × Op O)) (s s' : St A W)
    (h : rc (st o s) = some (.ok s')) : runCode rc st ((l, o) :: b) s = runCode rc st b s' := by
  rw [runCode, h]

theorem runCode_stop (rc : Comp A W E → Option (Res E (St A W))) (st : Op O → St A W → Comp A W E) (l : L) (o : Op O) (b : List (L × Op O)) (s : St A W)
    (h : ∀ s', rc (st o s) ≠ some (.ok s')) : runCode rc st ((l, o) :: b) s = rc (st o s) := by
  rw [runCode]
  split
  · next s' h' => exact absurd h' (h s')
  · rfl

/-- Replace the head: equal heads with the same rest. -/
theorem runCode_congr (rc : Comp A W E → Option (Res E (St A W))) (st : Op O → St A W → Comp A W E) (l : L) (o : Op O) (b b' : List (L × Op O)) (s : St A W)
    (R : Option (Res E (St A W)) → Option (Res E (St A W)) → Prop) (hR : ∀ r, R r r)
    (h : ∀ s, runCode rc st b s ≠ some .panic → R (runCode rc st b s) (runCode rc st b' s))
    (hp : runCode rc st ((l, o) :: b) s ≠ some .panic) :
    R (runCode rc st ((l, o) :: b) s) (runCode rc st ((l, o) :: b') s) := by
  cases hc : rc (st o s) with
  | none => rw [runCode_stop _ _ _ _ _ _ (by simp [hc]), runCode_stop _ _ _ _ _ _ (by simp [hc])]; exact hR _
  | some r =>
    cases r with
    | ok s' =>
      rw [runCode_cons _ _ _ _ _ _ _ hc] at hp ⊢
      rw [runCode_cons _ _ _ _ _ _ _ hc]
      exact h _ hp
    | err e s' => rw [runCode_stop _ _ _ _ _ _ (by simp [hc]), runCode_stop _ _ _ _ _ _ (by simp [hc])]; exact hR _
    | panic => rw [runCode_stop _ _ _ _ _ _ (by simp [hc]), runCode_stop _ _ _ _ _ _ (by simp [hc])]; exact hR _

section
variable (P : Prims A W E O T) (rf : Nat → Nat → St A W → Option (Res E (St A W)))
local notation "run" => runCode (L := L) (runComp rf) (stepM P)

/-- An opcode that is not `other` runs no function. -/
theorem rc_ret (r : Res E (St A W)) : runComp rf (.ret r) = some r := by rw [runComp]

theorem set_dropLast (xs : List (Val A)) (i : Nat) (v : Val A) (h : i + 1 < xs.length) : (xs.set i v).dropLast = xs.dropLast.set i v := by
  rw [List.dropLast_eq_take, List.dropLast_eq_take, List.length_set, List.take_set]

/-- Go on after an outcome. -/
def cont (r : Res E (St A W)) (k : St A W → Option (Res E (St A W))) : Option (Res E (St A W)) :=
  match r with
  | .ok s => k s
  | .err e s => some (.err e s)
  | .panic => some .panic

theorem cont_bind (r : Res E (St A W)) (f : St A W → Res E (St A W)) (k : St A W → Option (Res E (St A W))) :
    cont (r.bind f) k = cont r (fun s => cont (f s) k) := by cases r <;> rfl

theorem run_cons_ret (l : L) (o : Op O) (b : List (L × Op O)) (s : St A W) (r : Res E (St A W)) (h : stepM P o s = .ret r) :
    run ((l, o) :: b) s = cont r (run b) := by
  unfold runCode
  simp only [h, rc_ret]
  cases r <;> rfl

theorem stepM_of (o : Op O) (s : St A W) (h : storesOverOperand s o = false) : stepM P o s = step P o s := by simp [stepM, h]

/-- A block that does not end in a panic does not start with a store over its operand. -/
theorem no_panic_head (l : L) (o : Op O) (b : List (L × Op O)) (s : St A W) (h : run ((l, o) :: b) s ≠ some .panic) : storesOverOperand s o = false := by
  cases hs : storesOverOperand s o with
  | false => rfl
  | true => exact absurd (by rw [run_cons_ret P rf l o b s .panic (by simp [stepM, hs])]; rfl) h

theorem getLast_push (xs : List (Val A)) (v : Val A) (h : xs.getLast? = some v) : xs.dropLast ++ [v] = xs := by
  have hne : xs ≠ [] := by intro e; subst e; simp at h
  rw [List.getLast?_eq_some_getLast hne] at h
  cases h
  exact List.dropLast_concat_getLast hne

/-- Storing into a slot below the operand, dropping the operand and loading the slot again. -/
theorem store_pop_push (s : St A W) (i : Nat) (v : Val A) (hv : s.stack.getLast? = some v) (r : Res E (St A W))
    (h : ((storeAt i v s : Res E (St A W)).bind pop).bind (pushAt i) = r) (hr : r ≠ .panic) : storeAt i v s = r := by
  unfold storeAt at h ⊢
  by_cases hi : i < s.stack.length
  · rw [if_pos hi] at h ⊢
    have hne : s.stack.set i v ≠ [] := by intro e; have := congrArg List.length e; simp at this; rw [this] at hi; simp at hi
    simp only [Res.bind, pop, if_neg hne] at h
    unfold pushAt at h
    rw [← h] at hr ⊢
    simp only [] at hr ⊢
    by_cases hl : i + 1 < s.stack.length
    · have hg : (s.stack.set i v).dropLast[i]? = some v := by
        rw [set_dropLast _ _ _ hl, List.getElem?_set_self (by simp; omega)]
      rw [hg]
      simp only [push]
      congr 2
      rw [set_dropLast _ _ _ hl]
      have := getLast_push _ _ hv
      conv => lhs; rw [← this]
      rw [List.set_append_left _ _ (by simp; omega)]
    · have hg : (s.stack.set i v).dropLast[i]? = none := by
        rw [List.getElem?_eq_none]; simp; omega
      rw [hg] at hr; exact absurd rfl hr
  · rw [if_neg hi] at h; simp [Res.bind] at h; exact absurd h.symm hr


theorem pop_cases (s : St A W) : (pop s : Res E (St A W)) = .panic ∨ (pop s : Res E (St A W)) = .ok { s with stack := s.stack.dropLast } := by
  unfold pop; split <;> simp

theorem spl_local (i : Nat) (s : St A W) (r : Res E (St A W)) (h : ((storeLocal i false s : Res E (St A W)).bind pop).bind (pushLocal i) = r) (hr : r ≠ .panic) :
    storeLocal i false s = r := by
  unfold storeLocal operand at h ⊢
  cases hv : s.stack.getLast? with
  | none => simp only [hv, Res.bind] at h; exact absurd h.symm hr
  | some v =>
    simp only [hv, Bool.false_eq_true, if_false] at h ⊢
    refine store_pop_push s (s.fp + i) v hv r ?_ hr
    rw [← h]
    unfold storeAt
    split
    · simp only [Res.bind]
      rcases pop_cases (E := E) { s with stack := s.stack.set (s.fp + i) v } with hp | hp <;> rw [hp] <;> rfl
    · rfl

theorem spl_global (e : Nat → E) (i : Nat) (s : St A W) (r : Res E (St A W))
    (h : ((storeGlobal e i false s : Res E (St A W)).bind pop).bind (pushGlobal e i) = r) (hr : r ≠ .panic) :
    storeGlobal e i false s = r := by
  unfold storeGlobal operand at h ⊢
  cases hv : s.stack.getLast? with
  | none => simp only [hv, Res.bind] at h; exact absurd h.symm hr
  | some v =>
    simp only [hv, Bool.false_eq_true, if_false] at h ⊢
    by_cases hg : i < s.globals
    · rw [if_pos hg] at h ⊢
      refine store_pop_push s i v hv r ?_ hr
      rw [← h]
      unfold storeAt
      split
      · simp only [Res.bind]
        rcases pop_cases (E := E) { s with stack := s.stack.set i v } with hp | hp <;> rw [hp] <;> simp [pushGlobal, hg]
      · rfl
    · rw [if_neg hg] at h ⊢; exact h

theorem cellOf_dropLast (i : Nat) (s : St A W) : cellOf i { s with stack := s.stack.dropLast } = none ∨ cellOf i { s with stack := s.stack.dropLast } = cellOf i s := by
  unfold cellOf
  by_cases h : s.fp - 1 < s.stack.dropLast.length
  · right
    simp only []
    rw [List.getElem?_dropLast, if_pos (by simpa using h)]
  · left
    simp only []
    rw [List.getElem?_eq_none (by omega)]

theorem cellOf_set (i j : Nat) (v : Val A) (s : St A W) (h : j ≠ s.fp - 1) : cellOf i { s with stack := s.stack.set j v } = cellOf i s := by
  unfold cellOf
  simp only []
  rw [List.getElem?_set_ne h]

theorem spl_up (i : Nat) (s : St A W) (r : Res E (St A W)) (hm : storesOverOperand s (.storeUp i : Op O) = false)
    (h : ((storeUp i s : Res E (St A W)).bind pop).bind (pushUp i) = r) (hr : r ≠ .panic) :
    storeUp i s = r := by
  unfold storeUp at h ⊢
  unfold storesOverOperand at hm
  cases hv : s.stack.getLast? with
  | none => simp only [hv, Res.bind] at h; exact absurd h.symm hr
  | some v =>
    simp only [hv] at h ⊢
    cases hc : cellOf i s with
    | none => simp only [hc, Res.bind] at h; exact absurd h.symm hr
    | some c =>
      simp only [hc, Option.bind] at h hm ⊢
      cases hcc : s.cells[c]? with
      | none => simp only [hcc, Res.bind] at h; exact absurd h.symm hr
      | some u =>
        cases u with
        | opened j =>
          simp only [hcc, beq_eq_false_iff_ne] at h hm ⊢
          refine store_pop_push s j v hv r ?_ hr
          rw [← h]
          unfold storeAt
          split
          · simp only [Res.bind]
            rcases pop_cases (E := E) { s with stack := s.stack.set j v } with hp | hp
            · rw [hp]
            · rw [hp]
              simp only []
              have h1 := cellOf_dropLast i { s with stack := s.stack.set j v }
              have h2 := cellOf_set i j v s hm
              simp only [] at h1 h2
              rcases h1 with h1 | h1
              · exfalso
                apply hr
                rw [← h]
                unfold storeAt
                rw [if_pos (by assumption)]
                simp only [Res.bind, hp, pushUp, h1]
              · rw [h2, hc] at h1
                simp only [pushUp, h1, hcc]
          · rfl
        | closed w =>
          simp only [hcc] at h ⊢
          rw [← h]
          simp only [Res.bind] at h ⊢
          rcases pop_cases (E := E) { s with cells := s.cells.set c (.closed v) } with hp | hp
          · rw [hp] at h; exact absurd h.symm hr
          · rw [hp] at h ⊢
            simp only [] at h ⊢
            have h1 := cellOf_dropLast i { s with cells := s.cells.set c (.closed v) }
            simp only [] at h1
            rcases h1 with h1 | h1
            · simp only [pushUp, h1] at h; exact absurd h.symm hr
            · have h2 : cellOf i { s with cells := s.cells.set c (.closed v) } = some c := by rw [← hc]; rfl
              rw [h2] at h1
              have hlt : c < s.cells.length := by
                have := List.getElem?_eq_some_iff.1 hcc; exact this.1
              simp only [pushUp, h1, List.getElem?_set_self hlt, push, getLast_push _ _ hv]

/-! ### The three passes, on a block -/

theorem cont_eq (r : Res E (St A W)) (k k' : St A W → Option (Res E (St A W))) (h : ∀ s, r = .ok s → k s = k' s) : cont r k = cont r k' := by
  cases r with
  | ok s => exact h s rfl
  | err => rfl
  | panic => rfl

theorem merge3 (l l1 l2 : L) (o1 o3 : Op O) (rest b' : List (L × Op O)) (f1 f3 : St A W → Res E (St A W))
    (h1 : ∀ s, step P o1 s = .ret (f1 s)) (h3 : ∀ s, stepM P o3 s = .ret (f3 s))
    (hs : ∀ s r, storesOverOperand s o1 = false → ((f1 s).bind pop).bind f3 = r → r ≠ .panic → f1 s = r)
    (ih : ∀ s, run rest s ≠ some .panic → run b' s = run rest s) (s : St A W)
    (hp : run ((l, o1) :: (l1, .pop) :: (l2, o3) :: rest) s ≠ some .panic) :
    run ((l, o1) :: b') s = run ((l, o1) :: (l1, .pop) :: (l2, o3) :: rest) s := by
  have hm := no_panic_head P rf _ _ _ _ hp
  have hstep := (stepM_of P o1 s hm).trans (h1 s)
  have e : run ((l, o1) :: (l1, .pop) :: (l2, o3) :: rest) s = cont (((f1 s).bind pop).bind f3) (run rest) := by
    rw [run_cons_ret P rf _ _ _ _ _ hstep, cont_bind, cont_bind]
    apply cont_eq
    intro s1 _
    rw [run_cons_ret P rf _ _ _ _ (pop s1) rfl]
    apply cont_eq
    intro s2 _
    rw [run_cons_ret P rf _ _ _ _ _ (h3 s2)]
  rw [e] at hp ⊢
  have hr : ((f1 s).bind pop).bind f3 ≠ .panic := by intro e; rw [e] at hp; exact hp rfl
  have hf := hs s _ hm rfl hr
  rw [← hf] at hp ⊢
  rw [run_cons_ret P rf _ _ _ _ _ hstep]
  apply cont_eq
  intro s1 h1
  apply ih
  rw [h1] at hp
  exact hp

theorem pass1 : ∀ (b : List (L × Op O)) (s : St A W), run b s ≠ some .panic → run (mergeStorePopLoad b) s = run b s := by
  intro b
  fun_induction mergeStorePopLoad b with
  | case1 l i l1 l2 rest ih =>
    exact merge3 P rf _ _ _ (.storeGlobal _ false) (.pushGlobal _) rest _ (storeGlobal P.undeclared _ false) (pushGlobal P.undeclared _)
      (fun _ => rfl) (fun _ => rfl) (fun s r _ => spl_global _ _ s r) ih
  | case3 l i l1 l2 rest ih =>
    exact merge3 P rf _ _ _ (.storeLocal _ false) (.pushLocal _) rest _ (storeLocal _ false) (pushLocal _)
      (fun _ => rfl) (fun _ => rfl) (fun s r _ => spl_local _ s r) ih
  | case5 l i l1 l2 rest ih =>
    exact merge3 P rf _ _ _ (.storeUp _) (.pushUp _) rest _ (storeUp _) (pushUp _)
      (fun _ => rfl) (fun _ => rfl) (fun s r hm => spl_up _ s r hm) ih
  | case2 l i l1 l2 j rest _ ih => intro s hp; exact (runCode_congr _ _ _ _ _ _ s (fun a b => b = a) (fun _ => rfl) ih hp)
  | case4 l i l1 l2 j rest _ ih => intro s hp; exact (runCode_congr _ _ _ _ _ _ s (fun a b => b = a) (fun _ => rfl) ih hp)
  | case6 l i l1 l2 j rest _ ih => intro s hp; exact (runCode_congr _ _ _ _ _ _ s (fun a b => b = a) (fun _ => rfl) ih hp)
  | case7 x rest _ _ _ ih => intro s hp; exact (runCode_congr _ _ _ _ _ _ s (fun a b => b = a) (fun _ => rfl) ih hp)
  | case8 => intro s _; rfl

theorem merge2 (l l1 : L) (o1 o1' : Op O) (rest b' : List (L × Op O)) (f1 f1' : St A W → Res E (St A W))
    (h1 : ∀ s, step P o1 s = .ret (f1 s)) (h1' : ∀ s, stepM P o1' s = .ret (f1' s))
    (hs : ∀ s, storesOverOperand s o1 = false → (∀ k k' : St A W → Option (Res E (St A W)), (∀ s, k s ≠ some .panic → Same (k s) (k' s)) →
      cont ((f1 s).bind pop) k ≠ some .panic → Same (cont ((f1 s).bind pop) k) (cont (f1' s) k')))
    (ih : ∀ s, run rest s ≠ some .panic → Same (run rest s) (run b' s)) (s : St A W)
    (hp : run ((l, o1) :: (l1, .pop) :: rest) s ≠ some .panic) :
    Same (run ((l, o1) :: (l1, .pop) :: rest) s) (run ((l, o1') :: b') s) := by
  have hm := no_panic_head P rf _ _ _ _ hp
  have hstep := (stepM_of P o1 s hm).trans (h1 s)
  have e : run ((l, o1) :: (l1, .pop) :: rest) s = cont ((f1 s).bind pop) (run rest) := by
    rw [run_cons_ret P rf _ _ _ _ _ hstep, cont_bind]
    apply cont_eq
    intro s1 _
    rw [run_cons_ret P rf _ _ _ _ (pop s1) rfl]
  rw [e] at hp ⊢
  rw [run_cons_ret P rf _ _ _ _ _ (h1' s)]
  exact hs s hm _ _ ih hp

theorem sp_store (i : Nat) (v : Val A) (s : St A W) (hm : i + 1 ≠ s.stack.length) (hv : s.stack.getLast? = some v) :
    ((storeAt i v s : Res E (St A W)).bind pop) = storeAt i v { s with stack := s.stack.dropLast } := by
  unfold storeAt
  by_cases hi : i < s.stack.length
  · rw [if_pos hi, if_pos (by simp; omega)]
    have hne : s.stack.set i v ≠ [] := by intro e; have := congrArg List.length e; simp at this; rw [this] at hi; simp at hi
    simp only [Res.bind, pop, if_neg hne, set_dropLast _ _ _ (by omega : i + 1 < s.stack.length)]
  · rw [if_neg hi, if_neg (by simp; omega)]; rfl

theorem same_cont (r : Res E (St A W)) (k k' : St A W → Option (Res E (St A W))) (h : ∀ s, k s ≠ some .panic → Same (k s) (k' s)) (hp : cont r k ≠ some .panic) :
    Same (cont r k) (cont r k') := by
  cases r with
  | ok s => exact h s hp
  | err e s => exact Same.rfl' _
  | panic => trivial

theorem pass2 : ∀ (b : List (L × Op O)) (s : St A W), run b s ≠ some .panic → Same (run b s) (run (mergeStorePop b) s) := by
  intro b
  fun_induction mergeStorePop b with
  | case1 l i l1 rest ih =>
    refine merge2 P rf l l1 (.storeGlobal i false) (.storeGlobal i true) rest _ (storeGlobal P.undeclared i false) (storeGlobal P.undeclared i true)
      (fun _ => rfl) (fun _ => rfl) (fun s hm k k' hk hp => ?_) ih
    simp only [storesOverOperand, decide_eq_false_iff_not] at hm
    unfold storeGlobal operand at hp ⊢
    cases hv : s.stack.getLast? with
    | none => simp only [hv] at hp; exact absurd rfl hp
    | some v =>
      simp only [hv, Bool.false_eq_true, if_false, if_true] at hp ⊢
      by_cases hg : i < s.globals
      · simp only [if_pos hg] at hp ⊢
        rw [sp_store i v s (by omega) hv] at hp ⊢
        exact same_cont _ _ _ hk hp
      · simp only [if_neg hg, Res.bind, cont]
        refine ⟨rfl, ?_⟩
        unfold VM.rest
        simp only []
        rw [List.dropLast_eq_take, List.take_take, Nat.min_eq_left (by omega)]
  | case2 l i l1 rest ih =>
    refine merge2 P rf l l1 (.storeLocal i false) (.storeLocal i true) rest _ (storeLocal i false) (storeLocal i true)
      (fun _ => rfl) (fun _ => rfl) (fun s hm k k' hk hp => ?_) ih
    simp only [storesOverOperand, beq_eq_false_iff_ne] at hm
    unfold storeLocal operand at hp ⊢
    cases hv : s.stack.getLast? with
    | none => simp only [hv] at hp; exact absurd rfl hp
    | some v =>
      simp only [hv, Bool.false_eq_true, if_false, if_true] at hp ⊢
      rw [sp_store (s.fp + i) v s hm hv] at hp ⊢
      exact same_cont _ _ _ hk hp
  | case3 x rest _ _ ih => intro s hp; exact (runCode_congr _ _ _ _ _ _ s Same Same.rfl' ih hp)
  | case4 => intro s _; exact Same.rfl' _

/-- `n` pops are one `PopN`. -/
theorem run_pops : ∀ (b : List (L × Op O)) (s : St A W), run b s ≠ some .panic →
    (takePops b).1 ≤ s.stack.length ∧ run b s = run (takePops b).2 { s with stack := s.stack.take (s.stack.length - (takePops b).1) } := by
  intro b
  fun_induction takePops b with
  | case1 l rest ih =>
    intro s hp
    have e : run ((l, .pop) :: rest) s = cont (pop s) (run rest) := run_cons_ret P rf _ _ _ _ (pop s) rfl
    rw [e] at hp ⊢
    unfold pop at hp ⊢
    by_cases he : s.stack = []
    · rw [if_pos he] at hp; exact absurd rfl hp
    · rw [if_neg he] at hp ⊢
      obtain ⟨h1, h2⟩ := ih { s with stack := s.stack.dropLast } hp
      have hl : 0 < s.stack.length := List.length_pos_iff.2 he
      simp only [List.length_dropLast] at h1 h2
      refine ⟨by omega, ?_⟩
      show run rest _ = _
      rw [h2]
      congr 2
      rw [List.dropLast_eq_take, List.take_take]
      congr 1; omega
  | case2 rest _ =>
    intro s _
    refine ⟨Nat.zero_le _, ?_⟩
    simp

theorem pass3 : ∀ (b : List (L × Op O)) (s : St A W), run b s ≠ some .panic → run (mergePops b) s = run b s := by
  intro b
  fun_induction mergePops b with
  | case1 l rest _ hgt ih =>
    intro s hp
    obtain ⟨h1, h2⟩ := run_pops P rf _ s hp
    rw [h2] at hp ⊢
    simp only [takePops] at h1 hp ⊢
    rw [run_cons_ret P rf _ _ _ _ (popN ((takePops rest).1 + 1) s) rfl]
    simp only [popN, if_pos h1, cont]
    exact ih _ hp
  | case2 l rest _ hgt ih => intro s hp; exact (runCode_congr _ _ _ _ _ _ s (fun a b => b = a) (fun _ => rfl) ih hp)
  | case3 x rest _ ih => intro s hp; exact (runCode_congr _ _ _ _ _ _ s (fun a b => b = a) (fun _ => rfl) ih hp)
  | case4 => intro s _; rfl

theorem same_ne_panic (r r' : Option (Res E (St A W))) (h : Same r r') (hp : r ≠ some .panic) : r' ≠ some .panic := by
  rintro rfl
  match r with
  | none => exact h
  | some (.ok s) => exact h
  | some (.err e s) => exact h
  | some .panic => exact hp rfl

/-- One block. -/
theorem block_same (b : List (L × Op O)) (s : St A W) (hp : run b s ≠ some .panic) : Same (run b s) (run (optBlock b) s) := by
  unfold optBlock
  have h1 := pass1 P rf b s hp
  have h2 := pass2 P rf (mergeStorePopLoad b) s (by rw [h1]; exact hp)
  rw [h1] at h2
  rw [pass3 P rf _ s (same_ne_panic _ _ h2 hp)]
  exact h2

end

theorem runComp_congr (rf rf' : Nat → Nat → St A W → Option (Res E (St A W)))
    (h : ∀ f b s, rf f b s ≠ some .panic → Same (rf f b s) (rf' f b s)) : ∀ c : Comp A W E, runComp rf c ≠ some .panic → Same (runComp rf c) (runComp rf' c)
  | .ret r, _ => by rw [runComp, runComp]; exact Same.rfl' _
  | .run f b s k, hp => by
    have ih := fun s' => runComp_congr rf rf' h (k s')
    rw [runComp] at hp ⊢
    rw [runComp]
    have hf := h f b s
    match hr : rf f b s with
    | none => rw [hr] at hf; have := hf (by simp); revert this; match rf' f b s with | none => simp [Same] | some (.ok _) => simp [Same] | some (.err _ _) => simp [Same] | some .panic => simp [Same]
    | some (.ok s') =>
      rw [hr] at hf hp
      have hf := hf (by simp)
      match hr' : rf' f b s with
      | none => rw [hr'] at hf; exact hf.elim
      | some (.ok s'') => rw [hr'] at hf; simp only [Same] at hf; subst hf; exact ih _ hp
      | some (.err _ _) => rw [hr'] at hf; exact hf.elim
      | some .panic => rw [hr'] at hf; exact hf.elim
    | some (.err e s') =>
      rw [hr] at hf
      have hf := hf (by simp)
      match hr' : rf' f b s with
      | none => rw [hr'] at hf; exact hf.elim
      | some (.ok _) => rw [hr'] at hf; exact hf.elim
      | some (.err _ _) => rw [hr'] at hf; exact hf
      | some .panic => rw [hr'] at hf; exact hf.elim
    | some .panic => rw [hr] at hp; exact absurd rfl hp

/-- Two machines with the same outcomes of opcodes have the same outcomes of code. -/
theorem runCode_same (rc rc' : Comp A W E → Option (Res E (St A W))) (st : Op O → St A W → Comp A W E)
    (h : ∀ o s, rc (st o s) ≠ some .panic → Same (rc (st o s)) (rc' (st o s))) : ∀ (b : List (L × Op O)) (s : St A W), runCode rc st b s ≠ some .panic →
    Same (runCode rc st b s) (runCode rc' st b s)
  | [], s, _ => rfl
  | (l, o) :: b, s, hp => by
    have ih := runCode_same rc rc' st h b
    have h := h o s
    match hr : rc (st o s) with
    | none =>
      rw [hr] at h
      have h := h (by simp)
      have : rc' (st o s) = none := by
        match hr' : rc' (st o s) with
        | none => rfl
        | some (.ok _) => rw [hr'] at h; exact h.elim
        | some (.err _ _) => rw [hr'] at h; exact h.elim
        | some .panic => rw [hr'] at h; exact h.elim
      rw [runCode_stop _ _ _ _ _ _ (by simp [hr]), runCode_stop _ _ _ _ _ _ (by simp [this]), hr, this]; trivial
    | some (.ok s') =>
      rw [hr] at h
      have h := h (by simp)
      rw [runCode_cons _ _ _ _ _ _ _ hr] at hp ⊢
      match hr' : rc' (st o s) with
      | none => rw [hr'] at h; exact h.elim
      | some (.ok s'') => rw [hr'] at h; simp only [Same] at h; subst h; rw [runCode_cons _ _ _ _ _ _ _ hr']; exact ih _ hp
      | some (.err _ _) => rw [hr'] at h; exact h.elim
      | some .panic => rw [hr'] at h; exact h.elim
    | some (.err e s') =>
      rw [hr] at h
      have h := h (by simp)
      rw [runCode_stop _ _ _ _ _ _ (by simp [hr]), hr]
      match hr' : rc' (st o s) with
      | none => rw [hr'] at h; exact h.elim
      | some (.ok _) => rw [hr'] at h; exact h.elim
      | some (.err _ _) => rw [runCode_stop _ _ _ _ _ _ (by simp [hr']), hr']; rw [hr'] at h; exact h
      | some .panic => rw [hr'] at h; exact h.elim
    | some .panic =>
      rw [runCode_stop _ _ _ _ _ _ (by simp [hr]), hr] at hp; exact absurd rfl hp

theorem same_trans (a b c : Option (Res E (St A W))) (h1 : Same a b) (h2 : Same b c) : Same a c := by
  match a, b, c with
  | none, none, none => trivial
  | some (.ok _), some (.ok _), some (.ok _) => exact h2.trans h1
  | some (.err _ _), some (.err _ _), some (.err _ _) => exact ⟨h2.1.trans h1.1, h2.2.trans h1.2⟩
  | some .panic, some .panic, some .panic => trivial
  | some (.ok _), some (.ok _), none => exact h2.elim
  | some (.ok _), some (.ok _), some (.err _ _) => exact h2.elim
  | some (.ok _), some (.ok _), some .panic => exact h2.elim
  | some (.err _ _), some (.err _ _), none => exact h2.elim
  | some (.err _ _), some (.err _ _), some (.ok _) => exact h2.elim
  | some (.err _ _), some (.err _ _), some .panic => exact h2.elim
  | some .panic, some .panic, none => exact h2.elim
  | some .panic, some .panic, some (.err _ _) => exact h2.elim
  | some .panic, some .panic, some (.ok _) => exact h2.elim
  | none, none, some _ => exact h2.elim
  | none, some _, _ => exact h1.elim
  | some (.ok _), none, _ => exact h1.elim
  | some (.ok _), some (.err _ _), _ => exact h1.elim
  | some (.ok _), some .panic, _ => exact h1.elim
  | some (.err _ _), none, _ => exact h1.elim
  | some (.err _ _), some (.ok _), _ => exact h1.elim
  | some (.err _ _), some .panic, _ => exact h1.elim
  | some .panic, none, _ => exact h1.elim
  | some .panic, some (.ok _), _ => exact h1.elim
  | some .panic, some (.err _ _), _ => exact h1.elim

/-- Go on after running code. -/
def contO (r : Option (Res E (St A W))) (k : St A W → Option (Res E (St A W))) : Option (Res E (St A W)) :=
  match r with
  | some (.ok s) => k s
  | r => r

theorem contO_same (r r' : Option (Res E (St A W))) (k k' : St A W → Option (Res E (St A W))) (h : r ≠ some .panic → Same r r')
    (hk : ∀ s, k s ≠ some .panic → Same (k s) (k' s)) (hp : contO r k ≠ some .panic) : Same (contO r k) (contO r' k') := by
  match r, r' with
  | none, none => trivial
  | some (.ok s), some (.ok s') => have : s' = s := h (by simp); subst this; exact hk _ hp
  | some (.err _ _), some (.err _ _) => exact h (by simp)
  | some .panic, _ => exact absurd rfl hp
  | none, some _ => exact (h (by simp)).elim
  | some (.ok _), none => exact (h (by simp)).elim
  | some (.ok _), some (.err _ _) => exact (h (by simp)).elim
  | some (.ok _), some .panic => exact (h (by simp)).elim
  | some (.err _ _), none => exact (h (by simp)).elim
  | some (.err _ _), some (.ok _) => exact (h (by simp)).elim
  | some (.err _ _), some .panic => exact (h (by simp)).elim

theorem runFn_succ (st : Op O → St A W → Comp A W E) (test : T → St A W → Res E (St A W) × Bool) (prog : List (Graph.Code (Op O) T L)) (n f blk : Nat) (s : St A W)
    (b : Graph.Block (Op O) T L) (hb : (prog.getD f [])[blk]? = some b) :
    runFn st test prog (n + 1) f blk s = contO (runCode (runComp (runFn st test prog n)) st b.code s) (fun s' => runEnd (runFn st test prog n f) test s' b.fin) := by
  rw [runFn, hb]
  simp only [contO]
  split <;> simp_all

theorem runEnd_same (rf rf' : Nat → St A W → Option (Res E (St A W))) (test : T → St A W → Res E (St A W) × Bool) (s : St A W) (e : Graph.End T)
    (h : ∀ b s, rf b s ≠ some .panic → Same (rf b s) (rf' b s)) (hp : runEnd rf test s e ≠ some .panic) : Same (runEnd rf test s e) (runEnd rf' test s e) := by
  cases e with
  | exit => exact rfl
  | next n => exact h _ _ hp
  | branch ty d br =>
    rw [runEnd] at hp ⊢
    rw [runEnd]
    match ht : test ty s with
    | (.ok s', t) => rw [ht] at hp; exact h _ _ hp
    | (.err e s', t) => exact Same.rfl' _
    | (.panic, t) => trivial

theorem runFn_same (P : Prims A W E O T) (prog : List (Graph.Code (Op O) T L)) : ∀ (n f blk : Nat) (s : St A W), runFn (stepM P) P.test prog n f blk s ≠ some .panic →
    Same (runFn (stepM P) P.test prog n f blk s) (runFn (stepM P) P.test (prog.map optimize) n f blk s)
  | 0, _, _, _, _ => trivial
  | n + 1, f, blk, s, hp => by
    have ih := runFn_same P prog n
    cases hb : (prog.getD f [])[blk]? with
    | none => rw [runFn, hb] at hp; exact absurd rfl hp
    | some b =>
      have hb' : ((prog.map optimize).getD f [])[blk]? = some { b with code := optBlock b.code } := by
        rw [List.getD_eq_getElem?_getD] at hb ⊢
        rw [List.getElem?_map]
        cases hf : prog[f]? with
        | none => rw [hf] at hb; simp at hb
        | some g => rw [hf] at hb; simp at hb; simp [optimize, hb]
      rw [runFn_succ _ _ _ _ _ _ _ _ hb] at hp ⊢
      rw [runFn_succ _ _ _ _ _ _ _ _ hb']
      refine contO_same _ _ _ _ (fun hne => ?_) (fun s' hs' => runEnd_same _ _ _ _ _ (ih f) hs') hp
      have h1 := block_same P (runFn (stepM P) P.test prog n) b.code s hne
      refine same_trans _ _ _ h1 ?_
      exact runCode_same _ _ _ (fun o s => runComp_congr _ _ ih _) _ _ (same_ne_panic _ _ h1 hne)

theorem runComp_eq (rf rf' : Nat → Nat → St A W → Option (Res E (St A W)))
    (h : ∀ f b s, rf f b s ≠ some .panic → rf' f b s = rf f b s) : ∀ c : Comp A W E, runComp rf c ≠ some .panic → runComp rf' c = runComp rf c
  | .ret r, _ => by rw [runComp, runComp]
  | .run f b s k, hp => by
    have ih := fun s' => runComp_eq rf rf' h (k s')
    rw [runComp] at hp ⊢
    rw [runComp]
    have hf := h f b s
    by_cases hn : rf f b s = some .panic
    · rw [hn] at hp; exact absurd rfl hp
    · rw [hf hn]
      split
      · next s' hs' => rw [hs'] at hp; exact ih _ hp
      · rfl

theorem runCode_checked (P : Prims A W E O T) (rf rf' : Nat → Nat → St A W → Option (Res E (St A W)))
    (h : ∀ f b s, rf f b s ≠ some .panic → rf' f b s = rf f b s) : ∀ (b : List (L × Op O)) (s : St A W),
    runCode (runComp rf) (stepM P) b s ≠ some .panic → runCode (runComp rf') (step P) b s = runCode (runComp rf) (stepM P) b s
  | [], _, _ => rfl
  | (l, o) :: b, s, hp => by
    have ih := runCode_checked P rf rf' h b
    have hm := stepM_of P o s (no_panic_head P rf l o b s hp)
    rw [runCode] at hp ⊢
    rw [runCode]
    rw [hm] at hp ⊢
    by_cases hn : runComp rf (step P o s) = some .panic
    · rw [hn] at hp; exact absurd rfl hp
    · rw [runComp_eq rf rf' h _ hn]
      split
      · next s' hs' => rw [hs'] at hp; exact ih _ hp
      · rfl

/-- As long as the checks do not stop it, the checking machine is the machine. -/
theorem runFn_checked (P : Prims A W E O T) (prog : List (Graph.Code (Op O) T L)) : ∀ (n f blk : Nat) (s : St A W), runFn (stepM P) P.test prog n f blk s ≠ some .panic →
    runFn (step P) P.test prog n f blk s = runFn (stepM P) P.test prog n f blk s
  | 0, _, _, _, _ => rfl
  | n + 1, f, blk, s, hp => by
    have ih := runFn_checked P prog n
    cases hb : (prog.getD f [])[blk]? with
    | none => rw [runFn, hb] at hp; exact absurd rfl hp
    | some b =>
      rw [runFn_succ _ _ _ _ _ _ _ _ hb] at hp ⊢
      rw [runFn_succ _ _ _ _ _ _ _ _ hb]
      have hne : runCode (runComp (runFn (stepM P) P.test prog n)) (stepM P) b.code s ≠ some .panic := by
        intro e; rw [e] at hp; exact hp rfl
      rw [runCode_checked P _ _ ih _ _ hne]
      match hr : runCode (runComp (runFn (stepM P) P.test prog n)) (stepM P) b.code s with
      | none => rfl
      | some (.err _ _) => rfl
      | some .panic => rfl
      | some (.ok s') =>
        rw [hr] at hp
        simp only [contO] at hp ⊢
        cases hf : b.fin with
        | exit => rfl
        | next m => rw [hf] at hp; exact ih f _ _ hp
        | branch ty d br =>
          rw [hf] at hp
          rw [runEnd] at hp ⊢
          rw [runEnd]
          match ht : P.test ty s' with
          | (.ok s2, t) => rw [ht] at hp; exact ih f _ _ hp
          | (.err e s2, t) => rfl
          | (.panic, t) => rfl

/-- **C34** for every program and every state it is started in: as long as the program as written neither panics nor stores a variable over
an operand (`stepM` stops there), running it optimised is the same as running it as written, for any number of steps: it stops when
the other stops, in the same state or with the same error leaving the same variables. -/
theorem C34_program (P : Prims A W E O T) (prog : List (Graph.Code (Op O) T L)) (n f blk : Nat) (s : St A W)
    (hp : runFn (stepM P) P.test prog n f blk s ≠ some .panic) :
    Same (runFn (step P) P.test prog n f blk s) (runFn (step P) P.test (prog.map optimize) n f blk s) := by
  have h := runFn_same P prog n f blk s hp
  rw [runFn_checked P prog n f blk s hp, runFn_checked P _ n f blk s (same_ne_panic _ _ h hp)]
  exact h

/-- A block: the same for every meaning of the other opcodes and of the functions they run. -/
theorem C34_block (P : Prims A W E O T) (rf : Nat → Nat → St A W → Option (Res E (St A W))) (b : List (L × Op O)) (s : St A W)
    (hp : runCode (runComp rf) (stepM P) b s ≠ some .panic) :
    Same (runCode (runComp rf) (step P) b s) (runCode (runComp rf) (step P) (optBlock b) s) := by
  have h := block_same P rf b s hp
  rw [runCode_checked P rf rf (fun _ _ _ _ => rfl) b s hp, runCode_checked P rf rf (fun _ _ _ _ => rfl) _ s (same_ne_panic _ _ h hp)]
  exact h

/-- The optimiser only drops opcodes: it keeps the locations of those it keeps, and never makes a block longer. -/
theorem C34_no_longer (b : List (L × Op O)) : ((optBlock b).map Prod.fst).Sublist (b.map Prod.fst) := by
  have h1 : ∀ b : List (L × Op O), ((mergeStorePopLoad b).map Prod.fst).Sublist (b.map Prod.fst) := by
    intro b
    fun_induction mergeStorePopLoad b <;> simp_all
    all_goals exact .cons _ (.cons _ (by assumption))
  have h2 : ∀ b : List (L × Op O), ((mergeStorePop b).map Prod.fst).Sublist (b.map Prod.fst) := by
    intro b
    fun_induction mergeStorePop b <;> simp_all
    all_goals exact .cons _ (by assumption)
  have h3 : ∀ b : List (L × Op O), ((takePops b).2.map Prod.fst).Sublist (b.map Prod.fst) := by
    intro b
    fun_induction takePops b
    · exact .cons _ (by assumption)
    · exact List.Sublist.refl _
  have h4 : ∀ b : List (L × Op O), ((mergePops b).map Prod.fst).Sublist (b.map Prod.fst) := by
    intro b
    fun_induction mergePops b with
    | case1 l rest _ _ ih => exact .cons_cons _ (ih.trans (h3 _))
    | case2 l rest _ _ ih => exact .cons_cons _ ih
    | case3 x rest _ ih => exact .cons_cons _ ih
    | case4 => exact .slnil
  exact (h4 _).trans ((h2 _).trans (h1 _))

/-- `x = 1; y = x; x` and two operands dropped: what the optimiser makes of it. -/
example : optBlock (L := Nat) (O := Unit) [(0, .other ()), (1, .storeLocal 0 false), (2, .pop), (3, .pushLocal 0), (4, .storeGlobal 1 false), (5, .pop),
    (6, .pop), (7, .pop), (8, .pushLocal 0)] =
    [(0, .other ()), (1, .storeLocal 0 false), (4, .storeGlobal 1 true), (6, .popN 2), (8, .pushLocal 0)] := by
  simp [optBlock, mergeStorePopLoad, mergeStorePop, mergePops, takePops]

/-- A run of it that meets the hypotheses: two globals, a frame at 2 with a local, and two operands. -/
example : ∃ s', runCode (L := Nat) (runComp (fun _ _ _ => none))
    (stepM (⟨fun _ s => .ret (.ok (push s (.atom 7))), fun _ s => (.ok s, false), id⟩ : Prims Nat Unit Nat Unit Unit))
    [(0, .other ()), (1, .storeLocal 0 false), (2, .pop), (3, .pushLocal 0), (4, .storeGlobal 1 false), (5, .pop), (6, .pop), (7, .pop), (8, .pushLocal 0)]
    ⟨[.atom 1, .atom 2, .func 0, .atom 3, .atom 4, .atom 5], 3, 2, fun _ => none, [], [], ()⟩ = some (.ok s') ∧
    s'.stack = [.atom 1, .atom 7, .func 0, .atom 7, .atom 7] := ⟨_, rfl, rfl⟩

end Cordy.VM
