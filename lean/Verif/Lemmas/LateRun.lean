import Verif.Lemmas.LateBlock
import Mathlib.Data.List.GetD
/-!
# Histories: what is inserted into one block, and when
-/
namespace Cordy.Late
open Cordy.LateSpec

variable {O : Type}

/-! ## `swap_remove` and the loop -/

theorem swapRemove_perm {α : Type} (l : List α) (i : Nat) (h : i < l.length) : (l[i] :: swapRemove l i).Perm l := by
  rcases List.eq_nil_or_concat l with rfl | ⟨l', x, rfl⟩
  · simp at h
  · unfold swapRemove
    simp only [List.concat_eq_append, List.getLast?_append, List.getLast?_singleton, Option.some_or] at *
    by_cases hi : i < l'.length
    · rw [List.set_append_left _ _ hi, List.dropLast_concat]
      rw [List.getElem_append_left hi]
      rw [List.set_eq_take_cons_drop _ hi]
      have h1 : l' = l'.take i ++ l'[i] :: l'.drop (i + 1) := by simp
      have h2 : (l'[i] :: (l'.take i ++ x :: l'.drop (i + 1))).Perm (x :: (l'.take i ++ l'[i] :: l'.drop (i + 1))) := by
        have a := List.perm_middle (a := x) (l₁ := l'.take i) (l₂ := l'.drop (i + 1))
        have b := List.perm_middle (a := l'[i]) (l₁ := l'.take i) (l₂ := l'.drop (i + 1))
        exact ((a.cons l'[i]).trans (List.Perm.swap _ _ _)).trans ((b.symm).cons x)
      refine h2.trans ?_
      rw [← h1]
      exact (List.perm_append_comm (l₁ := [x]) (l₂ := l'))
    · have : i = l'.length := by simp at h; omega
      subst this
      simp
      exact (List.perm_append_comm (l₁ := [x]) (l₂ := l'))

theorem swapRemove_take {α : Type} (l : List α) (i j : Nat) (h : i < l.length) (hj : j < i) : (swapRemove l i)[j]? = l[j]? := by
  unfold swapRemove
  cases hl : l.getLast? with
  | none => rfl
  | some x =>
    simp only
    rw [List.getElem?_dropLast]
    rw [if_pos (by simp; omega), List.getElem?_set_ne (by omega)]

/-- `resolveOne` for each of a list of bindings -/
def resolveAll (r : Bound) : Code O → List Binding → Option (Code O)
  | c, [] => some c
  | c, b :: bs =>
    match resolveOne c b r with
    | some c' => resolveAll r c' bs
    | none => none

theorem filter_eq_nil_below (name : String) (late : List Binding) (i : Nat) (hi : ¬ i < late.length)
    (h : ∀ j, j < i → ∀ b, late[j]? = some b → b.name ≠ name) : late.filter (fun b => b.name = name) = [] := by
  rw [List.filter_eq_nil_iff]
  intro b hb
  obtain ⟨j, hj⟩ := List.mem_iff_getElem?.1 hb
  have := h j (by have := (List.getElem?_eq_some_iff.1 hj).1; omega) b hj
  simpa using this

/-- Every binding of the name is resolved exactly once, the others stay. -/
theorem resolveLoop_spec (name : String) (r : Bound) : ∀ (n : Nat) (c : Code O) (late : List Binding) (i : Nat), late.length - i = n →
    (∀ j, j < i → ∀ b, late[j]? = some b → b.name ≠ name) →
    ∀ c' late', resolveLoop name r c late i = some (c', late') →
    ∃ ms, ms.Perm (late.filter (fun b => b.name = name)) ∧ late'.Perm (late.filter (fun b => ¬ b.name = name)) ∧
      resolveAll r c ms = some c' := by
  intro n
  induction n with
  | zero =>
    intro c late i hn hj c' late' h
    rw [resolveLoop, dif_neg (by omega)] at h
    cases h
    have h0 := filter_eq_nil_below name late i (by omega) hj
    refine ⟨[], by rw [h0], ?_, rfl⟩
    rw [List.filter_eq_self.2]
    intro b hb
    have := List.filter_eq_nil_iff.1 h0 b hb
    simpa using this
  | succ n ih =>
    intro c late i hn hj c' late' h
    have hi : i < late.length := by omega
    rw [resolveLoop, dif_pos hi] at h
    by_cases hname : late[i].name = name
    · rw [if_pos hname] at h
      cases h1 : resolveOne c late[i] r with
      | none => rw [h1] at h; cases h
      | some c1 =>
        rw [h1] at h
        have hp := swapRemove_perm late i hi
        obtain ⟨ms, p1, p2, p3⟩ := ih c1 (swapRemove late i) i (by rw [swapRemove_length]; omega)
          (fun j hj' b hb => hj j hj' b (by rwa [swapRemove_take late i j hi hj'] at hb)) c' late' h
        refine ⟨late[i] :: ms, ?_, ?_, ?_⟩
        · have := hp.filter (fun b => decide (b.name = name))
          rw [List.filter_cons_of_pos (by simpa using hname)] at this
          exact (p1.cons _).trans this
        · have := hp.filter (fun b => decide (¬ b.name = name))
          rw [List.filter_cons_of_neg (by simpa using hname)] at this
          exact p2.trans this
        · simp [resolveAll, h1, p3]
    · rw [if_neg hname] at h
      refine ih c late (i + 1) (by omega) ?_ c' late' h
      intro j hj' b hb
      by_cases hji : j = i
      · subst hji
        rw [List.getElem?_eq_getElem hi] at hb
        cases hb; exact hname
      · exact hj j (by omega) b hb

/-! ## One block of the code -/

def blk (c : Code O) (f b : Nat) : Block O := (c.fns.getD f []).getD b []

def nblocks (c : Code O) (f : Nat) : Nat := (c.fns.getD f []).length

theorem getD_modify {α : Type} (l : List α) (i j : Nat) (g : α → α) (d : α) (hj : j < l.length) :
    (l.modify i g).getD j d = if i = j then g (l.getD j d) else l.getD j d := by
  simp only [List.getD_eq_getElem?_getD, List.getElem?_modify]
  rw [List.getElem?_eq_getElem hj]
  by_cases h : i = j <;> simp [h]

theorem getD_modify_out {α : Type} (l : List α) (i j : Nat) (g : α → α) (d : α) (hj : ¬ j < l.length) :
    (l.modify i g).getD j d = d := by
  rw [List.getD_eq_default]
  simp; omega

theorem blk_push (c : Code O) (f' f b : Nat) (o : Op O) (hf : f' < c.fns.length) (hn : 0 < nblocks c f') :
    blk (c.push f' o) f b = if f' = f ∧ b = nblocks c f - 1 then (blk c f b).push o else blk c f b := by
  unfold blk nblocks Code.push at *
  simp only
  by_cases hff : f' = f
  · subst hff
    rw [getD_modify _ _ _ _ _ hf, if_pos rfl]
    by_cases hb : b = (c.fns.getD f' []).length - 1
    · rw [getD_modify _ _ _ _ _ (by omega)]
      simp [hb]
    · rw [if_neg (by simpa using hb)]
      by_cases hb2 : b < (c.fns.getD f' []).length
      · rw [getD_modify _ _ _ _ _ hb2, if_neg (by omega)]
      · rw [getD_modify_out _ _ _ _ _ hb2, List.getD_eq_default _ _ (by omega)]
  · rw [if_neg (by simp [hff])]
    by_cases h2 : f < c.fns.length
    · rw [getD_modify _ _ _ _ _ h2, if_neg hff]
    · rw [getD_modify_out _ _ _ _ _ h2, List.getD_eq_default c.fns _ (by omega)]

theorem nblocks_push (c : Code O) (f' f : Nat) (o : Op O) : nblocks (c.push f' o) f = nblocks c f := by
  unfold nblocks Code.push
  by_cases h2 : f < c.fns.length
  · simp only; rw [getD_modify _ _ _ _ _ h2]; split <;> simp
  · simp only; rw [getD_modify_out _ _ _ _ _ h2, List.getD_eq_default c.fns _ (by omega)]

theorem blk_insert (c : Code O) (pos : OpcodeId) (f b : Nat) (o : Op O) (h : pos.fn = f → pos.block = b → f < c.fns.length ∧ b < nblocks c f) :
    blk (c.insert pos o) f b = if pos.fn = f ∧ pos.block = b then (blk c f b).insert pos.opcode o else blk c f b := by
  unfold blk nblocks Code.insert at *
  simp only
  by_cases hff : pos.fn = f
  · by_cases hb : pos.block = b
    · obtain ⟨h1, h2⟩ := h hff hb
      rw [getD_modify _ _ _ _ _ h1, if_pos hff, getD_modify _ _ _ _ _ h2, if_pos hb, if_pos ⟨hff, hb⟩]
    · rw [if_neg (by simp [hb])]
      by_cases h2 : f < c.fns.length
      · rw [getD_modify _ _ _ _ _ h2, if_pos hff]
        by_cases h3 : b < (c.fns.getD f []).length
        · rw [getD_modify _ _ _ _ _ h3, if_neg hb]
        · rw [getD_modify_out _ _ _ _ _ h3, List.getD_eq_default _ _ (by omega)]
      · rw [getD_modify_out _ _ _ _ _ h2, List.getD_eq_default c.fns _ (by omega)]
  · rw [if_neg (by simp [hff])]
    by_cases h2 : f < c.fns.length
    · rw [getD_modify _ _ _ _ _ h2, if_neg hff]
    · rw [getD_modify_out _ _ _ _ _ h2, List.getD_eq_default c.fns _ (by omega)]

theorem nblocks_insert (c : Code O) (pos : OpcodeId) (f : Nat) (o : Op O) : nblocks (c.insert pos o) f = nblocks c f := by
  unfold nblocks Code.insert
  by_cases h2 : f < c.fns.length
  · simp only; rw [getD_modify _ _ _ _ _ h2]; split <;> simp
  · simp only; rw [getD_modify_out _ _ _ _ _ h2, List.getD_eq_default c.fns _ (by omega)]

theorem fns_insert (c : Code O) (pos : OpcodeId) (o : Op O) : (c.insert pos o).fns.length = c.fns.length := by
  simp [Code.insert]

/-- the same functions and blocks -/
def SameShape (c c' : Code O) : Prop := c'.fns.length = c.fns.length ∧ ∀ f, nblocks c' f = nblocks c f

theorem SameShape.refl (c : Code O) : SameShape c c := ⟨rfl, fun _ => rfl⟩

theorem SameShape.trans {a b c : Code O} (h : SameShape a b) (h' : SameShape b c) : SameShape a c :=
  ⟨h'.1.trans h.1, fun f => (h'.2 f).trans (h.2 f)⟩

theorem sameShape_insert (c : Code O) (pos : OpcodeId) (o : Op O) : SameShape c (c.insert pos o) :=
  ⟨fns_insert c pos o, fun f => nblocks_insert c pos f o⟩

theorem sameShape_error (c : Code O) (e : Err) : SameShape c (c.error e) := ⟨rfl, fun _ => rfl⟩

theorem resolveOne_shape {c c' : Code O} {β : Binding} {r : Bound} (h : resolveOne c β r = some c') : SameShape c c' := by
  unfold resolveOne at h
  split at h
  all_goals first
    | (cases h; exact sameShape_insert _ _ _)
    | (cases h; exact sameShape_error _ _)
    | (cases h; exact ⟨rfl, fun _ => rfl⟩)
    | cases h
  rename_i pos id _ _
  unfold loadSelfMethod
  split
  · exact sameShape_error _ _
  · exact (sameShape_insert _ _ _).trans (sameShape_insert _ _ _)
  · exact (sameShape_insert _ _ _).trans (sameShape_insert _ _ _)

theorem resolveRemainingOne_shape {c c' : Code O} {β : Binding} (h : resolveRemainingOne c β = some c') : SameShape c c' := by
  unfold resolveRemainingOne at h
  split at h
  all_goals first
    | (cases h; exact sameShape_insert _ _ _)
    | (cases h; exact sameShape_error _ _)
    | cases h

/-! ## The entries of bindings -/

/-- what a binding inserts into block `b` of function `f` when it is settled by `bound` -/
def Binding.entry (f b : Nat) (bound : Option Bound) (when : Nat) (β : Binding) : Option (Entry O) :=
  match β.kind with
  | .load pos => if pos.fn = f ∧ pos.block = b then some ⟨pos.opcode, useCode false β.this bound, when⟩ else none
  | .store pos => if pos.fn = f ∧ pos.block = b then some ⟨pos.opcode, useCode true β.this bound, when⟩ else none
  | .pattern _ => none

/-- insert an entry that is one opcode -/
def insertEntry (bl : Block O) (e : Entry O) : Block O :=
  match e.code with
  | some [o] => bl.insert e.anchor o
  | _ => bl

theorem resolveOne_blk {c c' : Code O} {β : Binding} {r : Bound} (h : resolveOne c β r = some c') (f b k : Nat)
    (hex : ∀ e : Entry O, β.entry f b (some r) k = some e → (∃ o, e.code = some [o]) ∧ f < c.fns.length ∧ b < nblocks c f) :
    blk c' f b = match (β.entry f b (some r) k : Option (Entry O)) with | some e => insertEntry (blk c f b) e | none => blk c f b := by
  unfold resolveOne at h
  cases hk : β.kind with
  | pattern p =>
    have he : (β.entry f b (some r) k : Option (Entry O)) = none := by simp [Binding.entry, hk]
    rw [he]
    cases r with
    | global i => rw [hk] at h; simp at h; subst h; rfl
    | method id inst => rw [hk] at h; simp at h
  | load pos =>
    by_cases hp : pos.fn = f ∧ pos.block = b
    · have he : (β.entry f b (some r) k : Option (Entry O)) = some ⟨pos.opcode, useCode false β.this (some r), k⟩ := by
        simp [Binding.entry, hk, hp]
      obtain ⟨⟨o, ho⟩, h1, h2⟩ := hex _ he
      simp only at ho
      rw [he]
      simp only [insertEntry, ho]
      cases r with
      | global i =>
        rw [hk] at h; simp at h; subst h
        simp [useCode] at ho; subst ho
        rw [blk_insert _ _ _ _ _ (fun _ _ => ⟨h1, h2⟩), if_pos hp]
      | method id inst =>
        cases inst with
        | false =>
          rw [hk] at h; simp at h; subst h
          simp [useCode] at ho; subst ho
          rw [blk_insert _ _ _ _ _ (fun _ _ => ⟨h1, h2⟩), if_pos hp]
        | true =>
          cases ht : β.this <;> simp [useCode, ht] at ho
    · have he : (β.entry f b (some r) k : Option (Entry O)) = none := by simp [Binding.entry, hk, hp]
      have hins : ∀ (c : Code O) (o : Op O), blk (c.insert pos o) f b = blk c f b := by
        intro c o
        rw [blk_insert _ _ _ _ _ (fun a b => absurd ⟨a, b⟩ hp), if_neg hp]
      rw [he]
      cases r with
      | global i => rw [hk] at h; simp at h; subst h; exact hins _ _
      | method id inst =>
        cases inst with
        | false => rw [hk] at h; simp at h; subst h; exact hins _ _
        | true =>
          rw [hk] at h; simp at h; subst h
          unfold loadSelfMethod
          split
          · rfl
          · rw [hins, hins]
          · rw [hins, hins]
  | store pos =>
    by_cases hp : pos.fn = f ∧ pos.block = b
    · have he : (β.entry f b (some r) k : Option (Entry O)) = some ⟨pos.opcode, useCode true β.this (some r), k⟩ := by
        simp [Binding.entry, hk, hp]
      obtain ⟨⟨o, ho⟩, h1, h2⟩ := hex _ he
      simp only at ho
      rw [he]
      simp only [insertEntry, ho]
      cases r with
      | global i =>
        rw [hk] at h; simp at h; subst h
        simp [useCode] at ho; subst ho
        rw [blk_insert _ _ _ _ _ (fun _ _ => ⟨h1, h2⟩), if_pos hp]
      | method id inst => cases inst <;> simp [useCode] at ho
    · have he : (β.entry f b (some r) k : Option (Entry O)) = none := by simp [Binding.entry, hk, hp]
      rw [he]
      cases r with
      | global i =>
        rw [hk] at h; simp at h; subst h
        rw [blk_insert _ _ _ _ _ (fun a b => absurd ⟨a, b⟩ hp), if_neg hp]
      | method id inst => rw [hk] at h; simp at h; subst h; rfl

theorem resolveRemainingOne_blk {c c' : Code O} {β : Binding} (h : resolveRemainingOne c β = some c') (f b k : Nat)
    (hex : ∀ e : Entry O, β.entry f b (β.fallback.map .global) k = some e → (∃ o, e.code = some [o]) ∧ f < c.fns.length ∧ b < nblocks c f) :
    blk c' f b = match (β.entry f b (β.fallback.map .global) k : Option (Entry O)) with
      | some e => insertEntry (blk c f b) e | none => blk c f b := by
  cases hfb : β.fallback with
  | some g =>
    rw [hfb] at hex
    have : resolveOne c β (.global g) = some c' := by
      unfold resolveRemainingOne at h
      unfold resolveOne
      rw [hfb] at h
      cases hk : β.kind with
      | load pos => rw [hk] at h; simpa using h
      | store pos => rw [hk] at h; simpa using h
      | pattern p => rw [hk] at h; simp at h
    exact resolveOne_blk this f b k hex
  | none =>
    rw [hfb] at hex
    unfold resolveRemainingOne at h
    rw [hfb] at h
    simp only [Option.some.injEq] at h
    subst h
    cases he : (β.entry f b (Option.map Bound.global none) k : Option (Entry O)) with
    | none => rfl
    | some e =>
      obtain ⟨⟨o, ho⟩, _⟩ := hex e he
      unfold Binding.entry at he
      split at he
      · split at he
        · cases he; simp [useCode] at ho
        · cases he
      · split at he
        · cases he; simp [useCode] at ho
        · cases he
      · cases he

theorem insertAll_seqOf (bl : Block O) (t t' : List (Entry O)) :
    insertAll bl (seqOf (t ++ t')) = insertAll (insertAll bl (seqOf t)) (seqOf t') := by
  simp [insertAll, seqOf]

theorem insertAll_cons (bl : Block O) (e : Entry O) (t : List (Entry O)) :
    insertAll bl (seqOf (e :: t)) = insertAll (insertEntry bl e) (seqOf t) := by
  unfold seqOf insertEntry insertAll
  rw [List.filterMap_cons]
  split
  · rename_i hx
    split at hx
    · cases hx
    · rename_i h2
      split
      · rename_i o ho; exact absurd ho (h2 o)
      · rfl
  · rename_i x hx
    split at hx
    · rename_i o ho; cases hx; simp [ho]
    · cases hx

theorem resolveAll_blk (r : Bound) (f b k : Nat) : ∀ (ms : List Binding) (c c' : Code O), resolveAll r c ms = some c' →
    (∀ β ∈ ms, ∀ e : Entry O, β.entry f b (some r) k = some e → (∃ o, e.code = some [o]) ∧ f < c.fns.length ∧ b < nblocks c f) →
    SameShape c c' ∧ blk c' f b = insertAll (blk c f b) (seqOf (ms.filterMap (Binding.entry f b (some r) k))) := by
  intro ms
  induction ms with
  | nil => intro c c' h _; cases h; exact ⟨SameShape.refl _, rfl⟩
  | cons β ms ih =>
    intro c c' h hex
    unfold resolveAll at h
    cases h1 : resolveOne c β r with
    | none => rw [h1] at h; cases h
    | some c1 =>
      rw [h1] at h
      have sh := resolveOne_shape h1
      have hb := resolveOne_blk h1 f b k (hex β (by simp))
      obtain ⟨s2, b2⟩ := ih c1 c' h (by
        intro β' hβ' e he
        have := hex β' (by simp [hβ']) e he
        rw [sh.1, sh.2]; exact this)
      refine ⟨sh.trans s2, ?_⟩
      rw [b2, hb, List.filterMap_cons]
      cases he : (β.entry f b (some r) k : Option (Entry O)) with
      | none => rfl
      | some e => simp only; rw [insertAll_cons]

theorem resolveRemaining_blk (f b k : Nat) : ∀ (ms : List Binding) (c c' : Code O), resolveRemaining c ms = some c' →
    (∀ β ∈ ms, ∀ e : Entry O, β.entry f b (β.fallback.map .global) k = some e → (∃ o, e.code = some [o]) ∧ f < c.fns.length ∧ b < nblocks c f) →
    SameShape c c' ∧ blk c' f b = insertAll (blk c f b) (seqOf (ms.filterMap (fun β => β.entry f b (β.fallback.map .global) k))) := by
  intro ms
  induction ms with
  | nil => intro c c' h _; cases h; exact ⟨SameShape.refl _, rfl⟩
  | cons β ms ih =>
    intro c c' h hex
    unfold resolveRemaining at h
    cases h1 : resolveRemainingOne c β with
    | none => rw [h1] at h; cases h
    | some c1 =>
      rw [h1] at h
      have sh := resolveRemainingOne_shape h1
      have hb := resolveRemainingOne_blk h1 f b k (hex β (by simp))
      obtain ⟨s2, b2⟩ := ih c1 c' h (by
        intro β' hβ' e he
        have := hex β' (by simp [hβ']) e he
        rw [sh.1, sh.2]; exact this)
      refine ⟨sh.trans s2, ?_⟩
      rw [b2, hb, List.filterMap_cons]
      cases he : (β.entry f b (β.fallback.map .global) k : Option (Entry O)) with
      | none => rfl
      | some e => simp only; rw [insertAll_cons]

end Cordy.Late
