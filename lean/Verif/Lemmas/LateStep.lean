import Verif.Lemmas.LateInv
/-!
# Each event keeps the invariant
-/
namespace Cordy.Late
open Cordy.LateSpec

variable {O : Type}

/-- what a binding will insert into block `b` of function `f`, and when -/
def entryAt (past fut : List (Ev O)) (f b : Nat) (β : Binding) : Option (Entry O) :=
  β.entry f b ((fut.findSome? (declares β.name)).or (β.fallback.map .global)) (past.length + fut.findIdx (fun e => (declares β.name e).isSome))

theorem entryAt_skip (past fut : List (Ev O)) (e : Ev O) (f b : Nat) (β : Binding) (h : declares β.name e = none) :
    entryAt past (e :: fut) f b β = entryAt (past ++ [e]) fut f b β := by
  unfold entryAt
  rw [List.findSome?_cons, h, List.findIdx_cons, h]
  simp [Nat.add_comm, Nat.add_left_comm, Nat.add_assoc]

theorem entryAt_hit (past fut : List (Ev O)) (e : Ev O) (f b : Nat) (β : Binding) (r : Bound) (h : declares β.name e = some r) :
    entryAt past (e :: fut) f b β = β.entry f b (some r) past.length := by
  unfold entryAt
  rw [List.findSome?_cons, h, List.findIdx_cons, h]
  simp

theorem entry_when {f b : Nat} {r : Option Bound} {k : Nat} {β : Binding} {e : Entry O} (h : β.entry f b r k = some e) : e.when = k := by
  unfold Binding.entry at h
  split at h
  · split at h
    · cases h; rfl
    · cases h
  · split at h
    · cases h; rfl
    · cases h
  · cases h

structure Inv (h : List (Ev O)) (f b : Nat) (past fut : List (Ev O)) (opened closed cur : Nat) (s : State O) (dn : List (Item O))
    (tr : List (Entry O)) : Prop where
  hist : h = past ++ fut
  wf : WellFormedFrom opened closed fut
  nfns : s.code.fns.length = opened
  bound : closed ≤ opened
  blocks : f < opened → nblocks s.code f = cur + 1
  unopened : opened ≤ f → cur = 0
  nonempty : ∀ g, g < opened → 0 < nblocks s.code g
  rest : items h f b = dn ++ itemsFrom h f b past cur fut
  block : blk s.code f b = insertAll (plainFrom 0 (opsOf dn)) (seqOf tr)
  fresh : closed ≤ f → tr = []
  new : opened ≤ f ∨ cur < b → dn = []
  late : (lateOf 0 dn).Perm (tr ++ s.late.filterMap (entryAt past fut f b))
  sorted : tr.Pairwise (fun a b => a.when ≤ b.when)
  before : ∀ e ∈ tr, e.when < past.length
  tables : Tables past s

theorem filterMap_skip (past fut : List (Ev O)) (e : Ev O) (f b : Nat) (l : List Binding) (h : ∀ β ∈ l, declares β.name e = none) :
    l.filterMap (entryAt past (e :: fut) f b) = l.filterMap (entryAt (past ++ [e]) fut f b) := by
  apply List.filterMap_congr
  intro β hβ
  exact entryAt_skip past fut e f b β (h β hβ)

/-- An event that declares nothing, adds nothing to this block and keeps its code. -/
theorem Inv.idle {h : List (Ev O)} {f b : Nat} {past fut : List (Ev O)} {e : Ev O} {opened closed cur : Nat} {s : State O}
    {dn : List (Item O)} {tr : List (Entry O)} (inv : Inv h f b past (e :: fut) opened closed cur s dn tr)
    (opened' closed' cur' : Nat) (s' : State O) (extra : List Binding) (hdecl : ∀ n, declares n e = none)
    (hit : itemsFrom h f b past cur (e :: fut) = itemsFrom h f b (past ++ [e]) cur' fut)
    (hwf : WellFormedFrom opened' closed' fut) (hop : s'.code.fns.length = opened') (hcl : closed' ≤ opened')
    (hblocks : f < opened' → nblocks s'.code f = cur' + 1) (hun : opened' ≤ f → cur' = 0)
    (hne : ∀ g, g < opened' → 0 < nblocks s'.code g) (hblk : blk s'.code f b = blk s.code f b)
    (hfresh : closed' ≤ f → closed ≤ f) (hnew : opened' ≤ f ∨ cur' < b → opened ≤ f ∨ cur < b)
    (hlate : s'.late = s.late ++ extra) (hextra : ∀ β ∈ extra, entryAt (past ++ [e]) fut f b β = none)
    (htab : Tables (past ++ [e]) s') :
    Inv h f b (past ++ [e]) fut opened' closed' cur' s' dn tr := by
  refine ⟨by rw [inv.hist]; simp, hwf, hop, hcl, hblocks, hun, hne, by rw [inv.rest, hit], by rw [hblk, inv.block],
    fun hh => inv.fresh (hfresh hh), fun hh => inv.new (hnew hh), ?_, inv.sorted, ?_, htab⟩
  · have h1 := inv.late
    rw [filterMap_skip _ _ _ _ _ _ (fun β _ => hdecl β.name)] at h1
    rw [hlate, List.filterMap_append]
    have h2 : extra.filterMap (entryAt (past ++ [e]) fut f b) = [] := by
      rw [List.filterMap_eq_nil_iff]; exact hextra
    rw [h2, List.append_nil]; exact h1
  · intro x hx; have := inv.before x hx; simp; omega

theorem blk_openFn (c : Code O) (f b : Nat) : blk c.openFn f b = blk c f b := by
  unfold blk Code.openFn
  simp only
  by_cases h : f < c.fns.length
  · rw [List.getD_append _ _ _ _ h]
  · rw [List.getD_append_right _ _ _ _ (by omega), List.getD_eq_default c.fns _ (by omega)]
    cases hk : f - c.fns.length with
    | zero => cases b <;> rfl
    | succ k => simp

theorem nblocks_openFn (c : Code O) (f : Nat) : nblocks c.openFn f = if f = c.fns.length then 1 else nblocks c f := by
  unfold nblocks Code.openFn
  simp only
  by_cases h : f < c.fns.length
  · rw [List.getD_append _ _ _ _ h, if_neg (by omega)]
  · rw [List.getD_append_right _ _ _ _ (by omega), List.getD_eq_default c.fns _ (by omega)]
    by_cases h2 : f = c.fns.length
    · simp [h2]
    · rw [if_neg h2]
      cases hk : f - c.fns.length with
      | zero => omega
      | succ k => simp

theorem nblocks_branch (c : Code O) (f' f : Nat) (hf : f' < c.fns.length) :
    nblocks (c.branch f') f = if f' = f then nblocks c f + 1 else nblocks c f := by
  unfold nblocks Code.branch
  simp only
  by_cases h : f < c.fns.length
  · rw [getD_modify _ _ _ _ _ h]; split <;> simp
  · rw [getD_modify_out _ _ _ _ _ h, List.getD_eq_default c.fns _ (by omega), if_neg (by omega)]

theorem blk_branch (c : Code O) (f' f b : Nat) : blk (c.branch f') f b = blk c f b := by
  unfold blk Code.branch
  simp only
  by_cases h : f < c.fns.length
  · rw [getD_modify _ _ _ _ _ h]
    split
    · by_cases hb : b < (c.fns.getD f []).length
      · rw [List.getD_append _ _ _ _ hb]
      · rw [List.getD_append_right _ _ _ _ (by omega), List.getD_eq_default _ _ (by omega : (c.fns.getD f []).length ≤ b)]
        cases hk : b - (c.fns.getD f []).length with
        | zero => rfl
        | succ k => simp
    · rfl
  · rw [getD_modify_out _ _ _ _ _ h, List.getD_eq_default c.fns _ (by omega)]

/-- opcodes that a use or an `emit` pushes to the block -/
def pushAll (c : Code O) (f : Nat) (os : List (Op O)) : Code O := os.foldl (fun c o => c.push f o) c

theorem pushAll_spec (f' : Nat) : ∀ (os : List (Op O)) (c : Code O), f' < c.fns.length → 0 < nblocks c f' →
    (pushAll c f' os).fns.length = c.fns.length ∧ (∀ g, nblocks (pushAll c f' os) g = nblocks c g) ∧
    ∀ f b, blk (pushAll c f' os) f b = if f' = f ∧ b = nblocks c f - 1 then os.foldl Block.push (blk c f b) else blk c f b := by
  intro os
  induction os with
  | nil => intro c _ _; exact ⟨rfl, fun _ => rfl, fun f b => by simp [pushAll]⟩
  | cons o os ih =>
    intro c h1 h2
    obtain ⟨a1, a2, a3⟩ := ih (c.push f' o) (by simpa [Code.push] using h1) (by rw [nblocks_push]; exact h2)
    refine ⟨?_, ?_, ?_⟩
    · show (pushAll (c.push f' o) f' os).fns.length = _
      rw [a1]; simp [Code.push]
    · intro g
      show nblocks (pushAll (c.push f' o) f' os) g = _
      rw [a2, nblocks_push]
    · intro f b
      show blk (pushAll (c.push f' o) f' os) f b = _
      rw [a3, nblocks_push, blk_push _ _ _ _ _ h1 h2]
      split <;> rfl

theorem foldl_push_plain (os : List (Op O)) : ∀ ps : List (Op O), os.foldl Block.push (plainFrom 0 ps) = plainFrom 0 (ps ++ os) := by
  induction os with
  | nil => intro ps; simp
  | cons o os ih => intro ps; rw [List.foldl_cons, push_plain, ih]; simp

theorem nblocks_last {cur n b : Nat} (h : n = cur + 1) : b = n - 1 ↔ cur = b := by omega

/-- An event that pushes the opcodes `os` to function `f'`. -/
theorem Inv.pushes {h : List (Ev O)} {f b : Nat} {past fut : List (Ev O)} {e : Ev O} {opened closed cur : Nat} {s : State O}
    {dn : List (Item O)} {tr : List (Entry O)} (inv : Inv h f b past (e :: fut) opened closed cur s dn tr)
    (f' : Nat) (os : List (Op O)) (s' : State O) (hdecl : ∀ n, declares n e = none)
    (hit : itemsFrom h f b past cur (e :: fut) = (if f' = f ∧ cur = b then os.map .op else []) ++ itemsFrom h f b (past ++ [e]) cur fut)
    (hwf : WellFormedFrom opened closed fut) (hf1 : closed ≤ f') (hf2 : f' < opened)
    (hfns : s'.code.fns = (pushAll s.code f' os).fns) (hlate : s'.late = s.late) (htab : Tables (past ++ [e]) s') :
    ∃ dn', Inv h f b (past ++ [e]) fut opened closed cur s' dn' tr := by
  obtain ⟨p1, p2, p3⟩ := pushAll_spec f' os s.code (by rw [inv.nfns]; exact hf2) (inv.nonempty f' hf2)
  have hblk : ∀ f b, blk s'.code f b = blk (pushAll s.code f' os) f b := by intro f b; unfold blk; rw [hfns]
  have hnb : ∀ g, nblocks s'.code g = nblocks s.code g := by intro g; rw [← p2 g]; unfold nblocks; rw [hfns]
  by_cases hc : f' = f ∧ cur = b
  · obtain ⟨rfl, rfl⟩ := hc
    rw [if_pos ⟨rfl, rfl⟩] at hit
    have htr := inv.fresh hf1
    refine ⟨dn ++ os.map .op, ⟨by rw [inv.hist]; simp, hwf, by rw [hfns, p1, inv.nfns], inv.bound, ?_, inv.unopened, ?_, ?_, ?_, inv.fresh, ?_, ?_,
      inv.sorted, ?_, htab⟩⟩
    · intro hh; rw [hnb]; exact inv.blocks hh
    · intro g hg; rw [hnb]; exact inv.nonempty g hg
    · rw [inv.rest, hit]; simp
    · rw [hblk, p3, if_pos ⟨rfl, by rw [inv.blocks hf2]; simp⟩, inv.block, htr]
      simp only [seqOf, List.filterMap_nil, insertAll, List.foldl_nil]
      rw [foldl_push_plain, opsOf_append, opsOf_ops]
    · intro hh; omega
    · rw [lateOf_append, lateOf_ops, List.append_nil, hlate]
      have h1 := inv.late
      rw [filterMap_skip _ _ _ _ _ _ (fun β _ => hdecl β.name)] at h1
      exact h1
    · intro x hx; have := inv.before x hx; simp; omega
  · rw [if_neg hc] at hit
    refine ⟨dn, inv.idle opened closed cur s' [] hdecl (by simpa using hit) hwf (by rw [hfns, p1, inv.nfns]) inv.bound ?_ inv.unopened ?_ ?_
      id id (by simp [hlate]) (by simp) htab⟩
    · intro hh; rw [hnb]; exact inv.blocks hh
    · intro g hg; rw [hnb]; exact inv.nonempty g hg
    · rw [hblk, p3]
      by_cases hff : f' = f
      · subst hff
        rw [if_neg]
        intro hh
        exact hc ⟨rfl, by have := inv.blocks hf2; omega⟩
      · rw [if_neg (by simp [hff])]

/-- a late use -/
theorem Inv.addLate {h : List (Ev O)} {f b : Nat} {past fut : List (Ev O)} {opened closed cur : Nat} {s : State O}
    {dn : List (Item O)} {tr : List (Entry O)} (f' : Nat) (store : Bool) (name : String) (mod : Option Nat) (this : This)
    (inv : Inv h f b past (.use f' store name mod this :: fut) opened closed cur s dn tr) (hl : isLate past mod name = true)
    (s' : State O) (hs : s' = s.addLate name this (if store then .store (s.code.nextOpcode f') else .load (s.code.nextOpcode f'))
      (if mod.isSome then globalReady name past else none)) :
    ∃ dn', Inv h f b (past ++ [.use f' store name mod this]) fut opened closed cur s' dn' tr := by
  have hwf := inv.wf
  simp only [WellFormedFrom] at hwf
  obtain ⟨hf1, hf2, hwf⟩ := hwf
  have hdecl : ∀ n, declares n (.use f' store name mod this : Ev O) = none := fun _ => rfl
  have htab : Tables (past ++ [.use f' store name mod this]) s' := by
    refine tables_other _ inv.tables ⟨rfl, rfl, by simp⟩ ?_ ?_ <;> rw [hs] <;> rfl
  have hcode : s'.code = s.code := by rw [hs]; rfl
  let β : Binding := ⟨s.next, name, this, (if store then .store (s.code.nextOpcode f') else .load (s.code.nextOpcode f')),
    if mod.isSome then globalReady name past else none⟩
  have hlate : s'.late = s.late ++ [β] := by rw [hs]; rfl
  have hentry : entryAt (past ++ [.use f' store name mod this]) fut f b β =
      if f' = f ∧ cur = b then some ⟨(blk s.code f b).length, useCode store this (settledBy past fut mod name),
        past.length + 1 + fut.findIdx (fun e => (declares name e).isSome)⟩ else none := by
    have hb : (fut.findSome? (declares name)).or (Option.map Bound.global (if mod.isSome then globalReady name past else none)) =
        settledBy past fut mod name := by
      unfold settledBy
      cases fut.findSome? (declares name) with
      | some r => rfl
      | none => cases mod <;> rfl
    have hpos : (s.code.nextOpcode f').fn = f' ∧ (s.code.nextOpcode f').block = nblocks s.code f' - 1 ∧
        (s.code.nextOpcode f').opcode = (blk s.code f' (nblocks s.code f' - 1)).length := ⟨rfl, rfl, rfl⟩
    have hiff : ((s.code.nextOpcode f').fn = f ∧ (s.code.nextOpcode f').block = b) ↔ (f' = f ∧ cur = b) := by
      rw [hpos.1, hpos.2.1]
      constructor
      · rintro ⟨rfl, h2⟩; exact ⟨rfl, by have := inv.blocks hf2; omega⟩
      · rintro ⟨rfl, h2⟩; exact ⟨rfl, by have := inv.blocks hf2; omega⟩
    have hop : f' = f ∧ cur = b → (s.code.nextOpcode f').opcode = (blk s.code f b).length := by
      rintro ⟨rfl, rfl⟩
      rw [hpos.2.2, inv.blocks hf2]; rfl
    unfold entryAt Binding.entry
    show (match (if store then Kind.store (s.code.nextOpcode f') else Kind.load (s.code.nextOpcode f')) with
      | .load pos => _ | .store pos => _ | .pattern _ => _) = _
    cases store with
    | true =>
      simp only [if_true]
      by_cases hc : f' = f ∧ cur = b
      · rw [if_pos (hiff.2 hc), if_pos hc, hop hc, hb]; simp [β]
      · rw [if_neg (fun hh => hc (hiff.1 hh)), if_neg hc]
    | false =>
      simp only [Bool.false_eq_true, if_false]
      by_cases hc : f' = f ∧ cur = b
      · rw [if_pos (hiff.2 hc), if_pos hc, hop hc, hb]; simp [β]
      · rw [if_neg (fun hh => hc (hiff.1 hh)), if_neg hc]
  by_cases hc : f' = f ∧ cur = b
  · rw [if_pos hc] at hentry
    obtain ⟨rfl, rfl⟩ := hc
    have htr := inv.fresh hf1
    refine ⟨dn ++ [.late ⟨useCode store this (means h mod name), useCode store this (settledBy past fut mod name),
          past.length + 1 + fut.findIdx (fun e => (declares name e).isSome)⟩],
      ⟨by rw [inv.hist]; simp, hwf, by rw [hcode, inv.nfns], inv.bound, ?_, inv.unopened, ?_, ?_, ?_, inv.fresh, ?_, ?_, inv.sorted, ?_, htab⟩⟩
    · rw [hcode]; exact inv.blocks
    · rw [hcode]; exact inv.nonempty
    · rw [inv.rest, itemsFrom]; simp [hl]
    · rw [hcode, inv.block, opsOf_append]; simp [opsOf]
    · intro hh; omega
    · rw [lateOf_append, hlate, List.filterMap_append]
      have h1 := inv.late
      rw [filterMap_skip _ _ _ _ _ _ (fun β _ => hdecl β.name)] at h1
      have h2 : List.filterMap (entryAt (past ++ [.use f' store name mod this]) fut f' cur) [β] =
          lateOf (0 + (opsOf dn).length) [.late ⟨useCode store this (means h mod name), useCode store this (settledBy past fut mod name),
          past.length + 1 + fut.findIdx (fun e => (declares name e).isSome)⟩] := by
        have hlen : (blk s.code f' cur).length = 0 + (opsOf dn).length := by
          rw [inv.block, htr]; simp [seqOf, insertAll, plainFrom_length]
        rw [List.filterMap_cons, hentry, hlen]; rfl
      rw [h2, ← List.append_assoc]
      exact h1.append_right _
    · intro x hx; have := inv.before x hx; simp; omega
  · rw [if_neg hc] at hentry
    refine ⟨dn, inv.idle opened closed cur s' [β] hdecl ?_ hwf (by rw [hcode, inv.nfns]) inv.bound ?_ inv.unopened ?_ (by rw [hcode]) id id hlate ?_ htab⟩
    · rw [itemsFrom]; simp [hc]
    · rw [hcode]; exact inv.blocks
    · rw [hcode]; exact inv.nonempty
    · intro β' hβ'; simp only [List.mem_singleton] at hβ'; rw [hβ']; exact hentry

theorem targets_spec (p : Nat) (mod : Option Nat) (this : This) : ∀ (ns : List String) (s s' : State O) (l : List PStore),
    s.targets p mod this ns = some (s', l) →
    s'.code = s.code ∧ s'.methods = s.methods ∧ s'.globals = s.globals ∧ ∃ extra, s'.late = s.late ++ extra ∧ ∀ β ∈ extra, ∃ q, β.kind = .pattern q := by
  intro ns
  induction ns with
  | nil => intro s s' l h; cases h; exact ⟨rfl, rfl, rfl, [], by simp, by simp⟩
  | cons n ns ih =>
    intro s s' l h
    unfold State.targets at h
    cases h1 : s.target p n mod this with
    | none => rw [h1] at h; cases h
    | some x =>
      obtain ⟨s1, st⟩ := x
      rw [h1] at h
      simp only at h
      cases h2 : s1.targets p mod this ns with
      | none => rw [h2] at h; cases h
      | some y =>
        obtain ⟨s2, sts⟩ := y
        rw [h2] at h
        cases h
        obtain ⟨a1, a2, a3, ex, a4, a5⟩ := ih s1 s' sts h2
        have h3 : s1.code = s.code ∧ s1.methods = s.methods ∧ s1.globals = s.globals ∧
            ∃ extra, s1.late = s.late ++ extra ∧ ∀ β ∈ extra, ∃ q, β.kind = .pattern q := by
          unfold State.target at h1
          split at h1
          · cases h1; exact ⟨rfl, rfl, rfl, [], by simp, by simp⟩
          · cases h1
          · cases h1; exact ⟨rfl, rfl, rfl, _, rfl, by simp⟩
        obtain ⟨b1, b2, b3, ex', b4, b5⟩ := h3
        refine ⟨a1.trans b1, a2.trans b2, a3.trans b3, ex' ++ ex, by rw [a4, b4]; simp, ?_⟩
        intro β hβ
        rcases List.mem_append.1 hβ with hβ | hβ
        · exact b5 β hβ
        · exact a5 β hβ

/-- a declaration -/
theorem Inv.declare {h : List (Ev O)} {f b : Nat} {past fut : List (Ev O)} {e : Ev O} {opened closed cur : Nat} {s : State O}
    {dn : List (Item O)} {tr : List (Entry O)} (inv : Inv h f b past (e :: fut) opened closed cur s dn tr)
    (single : Single (lateOf 0 (items h f b))) (name : String) (r : Bound) (s0 s' : State O)
    (hdecl : ∀ n, declares n e = if name = n then some r else none)
    (hit : itemsFrom h f b past cur (e :: fut) = itemsFrom h f b (past ++ [e]) cur fut)
    (hwf : WellFormedFrom opened opened fut) (hcode : s0.code = s.code) (hlate : s0.late = s.late)
    (htab : Tables (past ++ [e]) s0) (hs : s0.resolveLate name r = some s') :
    ∃ tr', Inv h f b (past ++ [e]) fut opened opened cur s' dn tr' := by
  unfold State.resolveLate at hs
  cases hl : resolveLoop name r s0.code s0.late 0 with
  | none => rw [hl] at hs; cases hs
  | some x =>
    obtain ⟨c, late'⟩ := x
    rw [hl] at hs
    simp only [Option.some.injEq] at hs
    subst hs
    obtain ⟨ms, p1, p2, p3⟩ := resolveLoop_spec name r _ s0.code s0.late 0 rfl (by intro j hj; omega) c late' hl
    rw [hcode] at p3
    rw [hlate] at p1 p2
    have hms : ∀ β ∈ ms, β.name = name ∧ β ∈ s.late := by
      intro β hβ
      have := p1.subset hβ
      rw [List.mem_filter] at this
      exact ⟨by simpa using this.2, this.1⟩
    have hhit : ∀ β ∈ ms, entryAt past (e :: fut) f b β = β.entry f b (some r) past.length := by
      intro β hβ
      exact entryAt_hit past fut e f b β r (by rw [hdecl, if_pos (hms β hβ).1.symm])
    have hsub : ∀ x ∈ lateOf 0 dn, x ∈ lateOf 0 (items h f b) := by
      intro x hx
      rw [inv.rest, lateOf_append]
      exact List.mem_append_left _ hx
    have hmem : ∀ β ∈ ms, ∀ en : Entry O, β.entry f b (some r) past.length = some en → en ∈ lateOf 0 dn := by
      intro β hβ en hen
      apply inv.late.symm.subset
      rw [List.mem_append]
      right
      rw [List.mem_filterMap]
      exact ⟨β, (hms β hβ).2, by rw [hhit β hβ, hen]⟩
    have hex : ∀ β ∈ ms, ∀ en : Entry O, β.entry f b (some r) past.length = some en →
        (∃ o, en.code = some [o]) ∧ f < s.code.fns.length ∧ b < nblocks s.code f := by
      intro β hβ en hen
      have hm := hmem β hβ en hen
      have hne : dn ≠ [] := by rintro rfl; simp [lateOf] at hm
      have h2 : ¬ (opened ≤ f ∨ cur < b) := fun hh => hne (inv.new hh)
      refine ⟨single en (hsub en hm), by rw [inv.nfns]; omega, by rw [inv.blocks (by omega)]; omega⟩
    obtain ⟨sh, hb⟩ := resolveAll_blk r f b past.length ms s.code c p3 hex
    refine ⟨tr ++ ms.filterMap (Binding.entry f b (some r) past.length), ⟨by rw [inv.hist]; simp, hwf, by rw [← inv.nfns]; exact sh.1, le_refl _,
      ?_, inv.unopened, ?_, by rw [inv.rest, hit], ?_, ?_, inv.new, ?_, ?_, ?_, ?_⟩⟩
    · intro hh; show nblocks c f = _; rw [sh.2]; exact inv.blocks hh
    · intro g hg; show 0 < nblocks c g; rw [sh.2]; exact inv.nonempty g hg
    · show blk c f b = _
      rw [hb, inv.block, insertAll_seqOf]
    · intro hh
      have hc := inv.bound
      have htr := inv.fresh (by omega)
      have hdn := inv.new (Or.inl hh)
      rw [htr, List.nil_append, List.filterMap_eq_nil_iff]
      intro β hβ
      cases hen : (β.entry f b (some r) past.length : Option (Entry O)) with
      | none => rfl
      | some en => have := hmem β hβ en hen; rw [hdn] at this; simp [lateOf] at this
    · refine inv.late.trans ?_
      rw [List.append_assoc]
      refine List.Perm.append_left _ ?_
      have hsplit : s.late.Perm (ms ++ late') := by
        refine (List.filter_append_perm (fun β => decide (β.name = name)) s.late).symm.trans ?_
        refine List.Perm.append p1.symm ?_
        have : (fun β : Binding => !decide (β.name = name)) = fun β => decide (¬ β.name = name) := by funext β; simp
        rw [this]; exact p2.symm
      refine (hsplit.filterMap _).trans ?_
      rw [List.filterMap_append]
      have e1 : ms.filterMap (entryAt past (e :: fut) f b) = ms.filterMap (Binding.entry f b (some r) past.length) :=
        List.filterMap_congr hhit
      have e2 : late'.filterMap (entryAt past (e :: fut) f b) = late'.filterMap (entryAt (past ++ [e]) fut f b) := by
        apply filterMap_skip
        intro β hβ
        have := p2.subset hβ
        rw [List.mem_filter] at this
        have hne : ¬ β.name = name := by simpa using this.2
        rw [hdecl, if_neg (fun hh => hne hh.symm)]
      rw [e1, e2]
    · rw [List.pairwise_append]
      refine ⟨inv.sorted, ?_, ?_⟩
      · apply List.pairwise_of_forall_mem_list
        intro x hx y hy
        rw [List.mem_filterMap] at hx hy
        obtain ⟨_, _, hx⟩ := hx
        obtain ⟨_, _, hy⟩ := hy
        rw [entry_when hx, entry_when hy]
      · intro x hx y hy
        rw [List.mem_filterMap] at hy
        obtain ⟨_, _, hy⟩ := hy
        rw [entry_when hy]
        exact le_of_lt (inv.before x hx)
    · intro x hx
      rw [List.mem_append] at hx
      rcases hx with hx | hx
      · have := inv.before x hx; simp; omega
      · rw [List.mem_filterMap] at hx
        obtain ⟨_, _, hx⟩ := hx
        rw [entry_when hx]; simp
    · exact ⟨htab.methods, htab.names, htab.ready⟩

end Cordy.Late
