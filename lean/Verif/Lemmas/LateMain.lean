import Verif.Lemmas.LateStep
/-!
# Whole histories
-/
namespace Cordy.Late
open Cordy.LateSpec

variable {O : Type}

theorem useFound (c : Code O) (f : Nat) (store : Bool) (this : This) (r : Bound) :
    (if store then c.storeFound f this r else c.loadFound f this r).fns = (pushAll c f ((useCode store this (some r)).getD [])).fns := by
  cases r with
  | global i => cases store <;> rfl
  | method id inst =>
    cases inst with
    | false => cases store <;> rfl
    | true => cases store <;> cases this <;> rfl

theorem Inv.step {h : List (Ev O)} {f b : Nat} {past fut : List (Ev O)} {e : Ev O} {opened closed cur : Nat} {s : State O}
    {dn : List (Item O)} {tr : List (Entry O)} (inv : Inv h f b past (e :: fut) opened closed cur s dn tr) (hd : DistinctGlobals h)
    (single : Single (lateOf 0 (items h f b))) (s' : State O) (hs : step s e = some s') :
    ∃ opened' closed' cur' dn' tr', Inv h f b (past ++ [e]) fut opened' closed' cur' s' dn' tr' := by
  have hwf := inv.wf
  have hdp : DistinctGlobals past := by have := hd; rw [inv.hist] at this; exact DistinctGlobals.left this
  cases e with
  | openFn =>
    simp only [Late.step, Option.some.injEq] at hs
    subst hs
    simp only [WellFormedFrom] at hwf
    refine ⟨opened + 1, closed, cur, dn, tr, inv.idle _ _ _ _ [] (fun _ => rfl) (by rw [itemsFrom]; all_goals simp) hwf ?_ (by have := inv.bound; omega) ?_ ?_ ?_
      (blk_openFn _ _ _) id ?_ (by simp) (by simp) (tables_other _ inv.tables ⟨rfl, rfl, by simp⟩ rfl rfl)⟩
    · simp [Code.openFn, inv.nfns]
    · intro hh
      rw [nblocks_openFn, inv.nfns]
      by_cases hf : f = opened
      · rw [if_pos hf]; have := inv.unopened (by omega); omega
      · rw [if_neg hf]; exact inv.blocks (by omega)
    · intro hh; exact inv.unopened (by omega)
    · intro g hg
      show 0 < nblocks s.code.openFn g
      rw [nblocks_openFn, inv.nfns]
      by_cases hf : g = opened
      · rw [if_pos hf]; omega
      · rw [if_neg hf]; exact inv.nonempty g (by omega)
    · omega
  | emit f' o =>
    simp only [Late.step, Option.some.injEq] at hs
    subst hs
    simp only [WellFormedFrom] at hwf
    obtain ⟨dn', i⟩ := inv.pushes f' [.op o] { s with code := s.code.push f' (.op o) } (fun _ => rfl) (by rw [itemsFrom]; rfl) hwf.2.2 hwf.1 hwf.2.1 rfl rfl
      (tables_other _ inv.tables ⟨rfl, rfl, by simp⟩ rfl rfl)
    exact ⟨_, _, _, dn', tr, i⟩
  | branch f' =>
    simp only [Late.step, Option.some.injEq] at hs
    subst hs
    simp only [WellFormedFrom] at hwf
    have hf2 := hwf.2.1
    refine ⟨opened, closed, if f' = f then cur + 1 else cur, dn, tr, inv.idle _ _ _ _ [] (fun _ => rfl) (by rw [itemsFrom]) hwf.2.2 ?_ inv.bound ?_ ?_ ?_
      (blk_branch _ _ _ _) id ?_ (by simp) (by simp) (tables_other _ inv.tables ⟨rfl, rfl, by simp⟩ rfl rfl)⟩
    · simp [Code.branch, inv.nfns]
    · intro hh
      show nblocks (s.code.branch f') f = _
      rw [nblocks_branch _ _ _ (by rw [inv.nfns]; exact hf2), inv.blocks hh]
      split <;> rfl
    · intro hh
      rw [if_neg (by omega)]; exact inv.unopened hh
    · intro g hg
      show 0 < nblocks (s.code.branch f') g
      rw [nblocks_branch _ _ _ (by rw [inv.nfns]; exact hf2)]
      have := inv.nonempty g hg
      split <;> omega
    · split <;> omega
  | use f' store name mod this =>
    simp only [Late.step, Option.some.injEq] at hs
    cases hl : isLate past mod name with
    | true =>
      have hr := resolve_late inv.tables mod name hl
      obtain ⟨dn', i⟩ := inv.addLate f' store name mod this hl s' (by rw [← hs]; unfold State.use; rw [hr])
      exact ⟨_, _, _, dn', tr, i⟩
    | false =>
      obtain ⟨r, hm, hr⟩ := resolve_found (fut := .use f' store name mod this :: fut) inv.tables hdp mod name hl
      rw [← inv.hist] at hm
      simp only [WellFormedFrom] at hwf
      have hcode : s'.code = (if store then s.code.storeFound f' this r else s.code.loadFound f' this r) ∧ s'.late = s.late ∧
          s'.methods = s.methods ∧ s'.globals = s.globals := by
        rw [← hs]; unfold State.use; rw [hr]
        cases r <;> exact ⟨rfl, rfl, rfl, rfl⟩
      obtain ⟨dn', i⟩ := inv.pushes f' ((useCode store this (some r)).getD []) s' (fun _ => rfl) (by rw [itemsFrom]; simp [hl, hm])
        hwf.2.2 hwf.1 hwf.2.1 (by rw [hcode.1]; exact useFound _ _ _ _ _) hcode.2.1
        (tables_other _ inv.tables ⟨rfl, rfl, by simp⟩ hcode.2.2.1 hcode.2.2.2)
      exact ⟨_, _, _, dn', tr, i⟩
  | pattern names mod this =>
    simp only [Late.step] at hs
    unfold State.pattern at hs
    cases ht : s.targets s.code.patterns.length mod this names with
    | none => rw [ht] at hs; cases hs
    | some x =>
      obtain ⟨s1, l⟩ := x
      rw [ht] at hs
      simp only [Option.some.injEq] at hs
      subst hs
      obtain ⟨a1, a2, a3, extra, a4, a5⟩ := targets_spec _ _ _ _ _ _ _ ht
      have hfns : s1.code.fns = s.code.fns := by rw [a1]
      refine ⟨opened, closed, cur, dn, tr, inv.idle _ _ _ _ extra (fun _ => rfl) (by rw [itemsFrom]; all_goals simp) hwf ?_ inv.bound ?_ inv.unopened ?_ ?_ id id a4 ?_
        (tables_other _ inv.tables ⟨rfl, rfl, by simp⟩ a2 a3)⟩
      · show s1.code.fns.length = _; rw [hfns, inv.nfns]
      · intro hh
        show (s1.code.fns.getD f []).length = _
        rw [hfns]; exact inv.blocks hh
      · intro g hg
        show 0 < (s1.code.fns.getD g []).length
        rw [hfns]; exact inv.nonempty g hg
      · show (s1.code.fns.getD f []).getD b [] = _
        rw [hfns]; rfl
      · intro β hβ
        obtain ⟨q, hq⟩ := a5 β hβ
        simp [entryAt, Binding.entry, hq]
  | global name i =>
    simp only [Late.step] at hs
    obtain ⟨tr', iv⟩ := inv.declare single name (.global i) { s with globals := s.globals ++ [⟨name, i, false⟩] } s' (fun n => rfl) (by rw [itemsFrom]; all_goals simp) hwf rfl rfl
      (tables_global name i inv.tables rfl rfl) hs
    exact ⟨_, _, _, dn, tr', iv⟩
  | initialised name =>
    simp only [Late.step, Option.some.injEq] at hs
    subst hs
    exact ⟨opened, closed, cur, dn, tr, inv.idle _ _ _ _ [] (fun _ => rfl) (by rw [itemsFrom]; all_goals simp) hwf inv.nfns inv.bound inv.blocks inv.unopened inv.nonempty
      rfl id id (by simp [State.initialise]) (by simp) (tables_init name inv.tables hdp)⟩
  | method mod name id inst =>
    simp only [Late.step] at hs
    obtain ⟨tr', iv⟩ := inv.declare single name (.method id inst) { s with methods := s.methods ++ [⟨mod, name, id, inst⟩] } s' (fun n => rfl) (by rw [itemsFrom]; all_goals simp) hwf rfl rfl
      (tables_method mod name id inst inv.tables rfl rfl) hs
    exact ⟨_, _, _, dn, tr', iv⟩

theorem Inv.run {h : List (Ev O)} {f b : Nat} (hd : DistinctGlobals h) (single : Single (lateOf 0 (items h f b))) :
    ∀ (fut past : List (Ev O)) (opened closed cur : Nat) (s s' : State O) (dn : List (Item O)) (tr : List (Entry O)),
    Inv h f b past fut opened closed cur s dn tr → run s fut = some s' →
    ∃ opened' closed' cur' dn' tr', Inv h f b (past ++ fut) [] opened' closed' cur' s' dn' tr' := by
  intro fut
  induction fut with
  | nil => intro past opened closed cur s s' dn tr inv hr; cases hr; exact ⟨_, _, _, _, _, by simpa using inv⟩
  | cons e fut ih =>
    intro past opened closed cur s s' dn tr inv hr
    unfold Late.run at hr
    cases h1 : Late.step s e with
    | none => rw [h1] at hr; cases hr
    | some s1 =>
      rw [h1] at hr
      obtain ⟨_, _, _, _, _, i⟩ := inv.step hd single s1 h1
      obtain ⟨_, _, _, _, _, j⟩ := ih _ _ _ _ _ _ _ _ i hr
      exact ⟨_, _, _, _, _, by simpa using j⟩

theorem inv_init (h : List (Ev O)) (hw : WellFormedFrom 0 0 h) (f b : Nat) : Inv h f b [] h 0 0 0 init [] [] := by
  refine ⟨by simp, hw, rfl, le_refl _, by omega, fun _ => rfl, by omega, rfl, ?_, fun _ => rfl, fun _ => rfl, List.Perm.refl _, List.Pairwise.nil, by simp,
    ⟨rfl, rfl, fun _ => rfl⟩⟩
  simp [blk, init, opsOf, plainFrom, seqOf, insertAll]

theorem entryAt_nil (past : List (Ev O)) (f b : Nat) (β : Binding) :
    entryAt past [] f b β = β.entry f b (β.fallback.map .global) past.length := by
  simp [entryAt]

/-- The final code of a block with late uses of one opcode each: insertions in the order of time. -/
theorem compile_block (h : List (Ev O)) (hw : WellFormed h) (f b : Nat) (single : Single (lateOf 0 (items h f b))) (c : Code O)
    (hc : compile h = some c) :
    ∃ t : List (Entry O), t.Perm (lateOf 0 (items h f b)) ∧ t.Pairwise (fun a b => a.when ≤ b.when) ∧
      blk c f b = insertAll (plainFrom 0 (opsOf (items h f b))) (seqOf t) := by
  unfold compile at hc
  cases hr : run init h with
  | none => rw [hr] at hc; cases hc
  | some s =>
    rw [hr] at hc
    simp only at hc
    obtain ⟨opened, closed, cur, dn, tr, inv⟩ := Inv.run hw.distinct single h [] 0 0 0 init s [] [] (inv_init h hw.order f b) hr
    simp only [List.nil_append] at inv
    have hdn : items h f b = dn := by rw [inv.rest]; simp [itemsFrom]
    have hl := inv.late
    have he : s.late.filterMap (entryAt h [] f b) = s.late.filterMap (fun β => β.entry f b (β.fallback.map .global) h.length) :=
      List.filterMap_congr (fun β _ => entryAt_nil h f b β)
    rw [he] at hl
    obtain ⟨sh, hb⟩ := resolveRemaining_blk f b h.length s.late s.code c hc (by
      intro β hβ en hen
      have hm : en ∈ lateOf 0 dn := by
        apply hl.symm.subset
        rw [List.mem_append]; right
        rw [List.mem_filterMap]; exact ⟨β, hβ, hen⟩
      have hne : dn ≠ [] := by rintro rfl; simp [lateOf] at hm
      have h2 : ¬ (opened ≤ f ∨ cur < b) := fun hh => hne (inv.new hh)
      refine ⟨single en (by rw [hdn]; exact hm), by rw [inv.nfns]; omega, by rw [inv.blocks (by omega)]; omega⟩)
    refine ⟨tr ++ s.late.filterMap (fun β => β.entry f b (β.fallback.map .global) h.length), ?_, ?_, ?_⟩
    · rw [hdn]; exact hl.symm
    · rw [List.pairwise_append]
      refine ⟨inv.sorted, ?_, ?_⟩
      · apply List.pairwise_of_forall_mem_list
        intro x hx y hy
        rw [List.mem_filterMap] at hx hy
        obtain ⟨_, _, hx⟩ := hx
        obtain ⟨_, _, hy⟩ := hy
        rw [entry_when hx, entry_when hy]
      · intro x hx y hy
        rw [List.mem_filterMap] at hy
        obtain ⟨_, _, hy⟩ := hy
        rw [entry_when hy]
        exact le_of_lt (inv.before x hx)
    · rw [hb, inv.block, hdn, insertAll_seqOf]

theorem flat_append (l r : List (Item O)) : flat (l ++ r) = flat l ++ flat r := by
  induction l with
  | nil => rfl
  | cons i l ih => cases i <;> simp [flat, ih]

theorem flat_ops (l : List (Op O)) : flat (l.map .op) = l := by
  induction l with
  | nil => rfl
  | cons o l ih => simp [flat, ih]

theorem flat_blockCode (h : List (Ev O)) (f b : Nat) : ∀ (fut past : List (Ev O)) (cur : Nat) (code : List (Op O)),
    (∀ u, .late u ∈ itemsFrom h f b past cur fut → u.settled = u.wanted) → blockCodeFrom h f b cur fut = some code →
    flat (itemsFrom h f b past cur fut) = code := by
  intro fut
  induction fut with
  | nil => intro past cur code _ hc; cases hc; rfl
  | cons e fut ih =>
    intro past cur code hu hc
    cases e with
    | emit f' o =>
      rw [itemsFrom] at hu ⊢
      rw [blockCodeFrom] at hc
      rw [flat_append]
      by_cases hh : f' = f ∧ cur = b
      · rw [if_pos hh] at hc ⊢
        cases hr : blockCodeFrom h f b cur fut with
        | none => rw [hr] at hc; cases hc
        | some rest =>
          rw [hr] at hc
          cases hc
          rw [ih _ _ _ (fun u hm => hu u (List.mem_append_right _ hm)) hr]
          rfl
      · rw [if_neg hh] at hc ⊢
        exact ih _ _ _ (fun u hm => hu u (List.mem_append_right _ hm)) hc
    | branch f' =>
      rw [itemsFrom] at hu ⊢
      rw [blockCodeFrom] at hc
      exact ih _ _ _ hu hc
    | use f' store name mod this =>
      rw [itemsFrom] at hu ⊢
      rw [blockCodeFrom] at hc
      rw [flat_append]
      by_cases hh : f' = f ∧ cur = b
      · rw [if_pos hh] at hc hu ⊢
        cases hcd : (useCode store this (means h mod name) : Option (List (Op O))) with
        | none => rw [hcd] at hc; cases hc
        | some cd =>
          cases hr : blockCodeFrom h f b cur fut with
          | none => rw [hr, hcd] at hc; cases hc
          | some rest =>
            rw [hr, hcd] at hc
            cases hc
            rw [ih _ _ _ (fun u hm => hu u (List.mem_append_right _ hm)) hr]
            congr 1
            cases hl : isLate past mod name with
            | true =>
              rw [hl] at hu
              have := hu _ (List.mem_append_left _ (by simp; rfl))
              simp only at this
              simp only [if_true, flat, this, hcd]; simp
            | false => simp only [Bool.false_eq_true, if_false, Option.getD_some]; exact flat_ops cd
      · rw [if_neg hh] at hc ⊢
        exact ih _ _ _ (fun u hm => hu u (List.mem_append_right _ hm)) hc
    | openFn => rw [itemsFrom] at hu ⊢ <;> first | (rw [blockCodeFrom] at hc <;> first | exact ih _ _ _ hu hc | simp) | simp
    | pattern _ _ _ => rw [itemsFrom] at hu ⊢ <;> first | (rw [blockCodeFrom] at hc <;> first | exact ih _ _ _ hu hc | simp) | simp
    | global _ _ => rw [itemsFrom] at hu ⊢ <;> first | (rw [blockCodeFrom] at hc <;> first | exact ih _ _ _ hu hc | simp) | simp
    | initialised _ => rw [itemsFrom] at hu ⊢ <;> first | (rw [blockCodeFrom] at hc <;> first | exact ih _ _ _ hu hc | simp) | simp
    | method _ _ _ _ => rw [itemsFrom] at hu ⊢ <;> first | (rw [blockCodeFrom] at hc <;> first | exact ih _ _ _ hu hc | simp) | simp

end Cordy.Late
