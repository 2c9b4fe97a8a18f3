import Verif.Model.Refs
/-!
# C49: references and borrows
-/
namespace Cordy.Refs

/-! ## Borrows -/

/-- The lock tells which borrows exist: with a mutable borrow it is 0 and there is no other; else it counts the shared borrows, modulo 2^16. -/
def Lock.Ok (l : Lock) : Prop := (l.muts = 1 ∧ l.shared = 0 ∧ l.lock = 0) ∨ (l.muts = 0 ∧ l.shared ≤ 65535 ∧ l.lock = (1 + l.shared) % 65536)

theorem lock_step {l l' : Lock} (h : l.Ok) (op : LockOp) (hs : lockStep l op = some l') : l'.Ok := by
  unfold Lock.Ok at *
  obtain ⟨a, b, c⟩ := l
  obtain ⟨a', b', c'⟩ := l'
  cases op <;> simp only [lockStep] at hs <;> split at hs <;> simp only [Option.some.injEq, reduceCtorEq, Lock.mk.injEq] at hs <;> simp only at * <;> omega

theorem lock_run (ops : List LockOp) : (lockRun {} ops).Ok := by
  have : ∀ (l : Lock), l.Ok → (lockRun l ops).Ok := by
    induction ops with
    | nil => exact fun l h => h
    | cons op ops ih =>
      intro l h
      simp only [lockRun, List.foldl_cons] at ih ⊢
      refine ih _ ?_
      cases hs : lockStep l op with
      | none => exact h
      | some l' => exact lock_step h op hs
  exact this {} (.inr ⟨rfl, by simp, rfl⟩)

/-- C49: after every history of borrows and releases (including refused ones) there is at most one mutable borrow, and with it no shared one. -/
theorem C49_exclusive (ops : List LockOp) : (lockRun {} ops).muts ≤ 1 ∧ ((lockRun {} ops).muts = 1 → (lockRun {} ops).shared = 0) := by
  have := lock_run ops
  unfold Lock.Ok at this
  omega

/-- C49: a borrow is refused only if it is in conflict with another (or there are 2^16 - 1 shared borrows of that value at once): no borrow is left behind by a release. -/
theorem C49_refused (ops : List LockOp) (h : (lockRun {} ops).shared < 65535) :
    (lockStep (lockRun {} ops) .borrow = none ↔ (lockRun {} ops).muts = 1) ∧
    (lockStep (lockRun {} ops) .borrowMut = none ↔ (lockRun {} ops).muts = 1 ∨ 0 < (lockRun {} ops).shared) := by
  have hok := lock_run ops
  generalize lockRun {} ops = l at *
  unfold Lock.Ok at hok
  simp only [lockStep]
  constructor
  · split
    · simp; omega
    · simp; omega
  · split
    · simp; omega
    · simp; omega

example : lockRun {} [.borrow, .borrow, .releaseShared, .borrowMut, .releaseShared, .borrowMut] = ⟨0, 0, 1⟩ := rfl

/-! ## References -/

/-- All references: outside, to be dropped, and in the objects. -/
def all (h : Heap) (pend : List Nat) : List Nat := h.roots ++ pend ++ inner h

structure Inv (h : Heap) (pend : List Nat) : Prop where
  ids : (h.objs.map (·.id)).Nodup
  fresh : ∀ o ∈ h.objs, o.id < h.next ∧ o.id ∉ h.freed
  freshF : ∀ x ∈ h.freed, x < h.next
  freed : h.freed.Nodup
  count : ∀ o ∈ h.objs, o.refs = (all h pend).count o.id
  live : ∀ x ∈ all h pend, ∃ o ∈ h.objs, o.id = x
  pos : ∀ o ∈ h.objs, 0 < o.refs
  known : ∀ x < h.next, x ∈ h.freed ∨ x ∈ h.objs.map (·.id)

theorem take_perm {x : Nat} {os rest : List Obj} {o : Obj} (h : take x os = some (o, rest)) : os.Perm (o :: rest) ∧ o.id = x := by
  induction os generalizing rest with
  | nil => simp [take] at h
  | cons a os ih =>
    simp only [take] at h
    split at h
    · simp at h; obtain ⟨rfl, rfl⟩ := h; exact ⟨.refl _, ‹_›⟩
    · cases ht : take x os with
      | none => simp [ht] at h
      | some p =>
        simp [ht] at h
        obtain ⟨rfl, rfl⟩ := h
        obtain ⟨h1, h2⟩ := ih (rest := p.2) ht
        exact ⟨(List.Perm.cons a h1).trans (List.Perm.swap ..), h2⟩

theorem take_some {x : Nat} {os : List Obj} (h : ∃ o ∈ os, o.id = x) : ∃ o rest, take x os = some (o, rest) := by
  induction os with
  | nil => simp at h
  | cons a os ih =>
    simp only [take]
    split
    · exact ⟨_, _, rfl⟩
    · rename_i hne
      obtain ⟨o, ho, he⟩ := h
      rcases List.mem_cons.mp ho with rfl | ho
      · exact absurd he hne
      · obtain ⟨o', rest, h'⟩ := ih ⟨o, ho, he⟩
        exact ⟨o', a :: rest, by simp [h']⟩

theorem Inv.perm {h : Heap} {pend : List Nat} (hi : Inv h pend) {l : List Obj} (hp : h.objs.Perm l) : Inv { h with objs := l } pend := by
  have hin : (inner h).Perm (inner { h with objs := l }) := hp.flatMap_right _
  have hall : (all h pend).Perm (all { h with objs := l } pend) := List.Perm.append_left _ hin
  refine ⟨(hp.map _).nodup_iff.mp hi.ids, fun o ho => hi.fresh o (hp.mem_iff.mpr ho), hi.freshF, hi.freed, fun o ho => ?_, fun x hx => ?_, fun o ho => hi.pos o (hp.mem_iff.mpr ho), fun x hx => (hi.known x hx).imp id (hp.map _).mem_iff.mp⟩
  · rw [hi.count o (hp.mem_iff.mpr ho), hall.count_eq]
  · obtain ⟨o, ho, he⟩ := hi.live x (hall.mem_iff.mpr hx)
    exact ⟨o, hp.mem_iff.mp ho, he⟩

theorem inner_cons (h : Heap) (o : Obj) (rest : List Obj) : inner { h with objs := o :: rest } = o.kids ++ inner { h with objs := rest } := by
  simp [inner]

/-- Fewer than 2^32 references to each object. -/
def Small (h : Heap) (pend : List Nat) : Prop := ∀ x, (all h pend).count x < u32

theorem dec_refs {o : Obj} (h0 : 0 < o.refs) : (dec o).refs = o.refs - 1 := by
  unfold dec
  simp only
  rw [if_neg (by omega)]

theorem inc_refs {o : Obj} (h : o.refs + 1 < u32) : (inc o).refs = o.refs + 1 := by
  unfold inc
  simp only
  rw [if_neg (by omega)]

theorem dec_id (o : Obj) : (dec o).id = o.id := rfl
theorem inc_id (o : Obj) : (inc o).id = o.id := rfl
theorem dec_kids (o : Obj) : (dec o).kids = o.kids := rfl
theorem inc_kids (o : Obj) : (inc o).kids = o.kids := rfl
theorem u32_pos : 0 < u32 := by unfold u32; simp

/-- A list (1) in a list (2) that also holds the shared value 0; dropping the outer list frees 2, then 0 and 1. -/
example : run empty [.new [], .clone 0, .new [0], .new [1], .push 2 0, .get 2 0, .drop 1, .drop 2, .drop 2] = .ok ⟨[], [], 3, [0, 1, 2]⟩ := by decide

attribute [local irreducible] u32 inc dec

theorem dropAll_inv (n : Nat) (pend : List Nat) (h : Heap) (hi : Inv h pend) (hs : Small h pend) (hn : pend.length + (inner h).length ≤ n) :
    ∃ h', dropAll n pend h = some h' ∧ Inv h' [] ∧ Small h' [] := by
  induction n generalizing pend h with
  | zero =>
    cases pend with
    | nil => exact ⟨h, rfl, hi, hs⟩
    | cons x xs => simp at hn
  | succ n ih =>
    match pend, hi, hs, hn with
    | [], hi, hs, _ => exact ⟨h, rfl, hi, hs⟩
    | x :: xs, hi, hs, hn =>
      obtain ⟨o, rest, ht⟩ := take_some (hi.live x (by simp [all]))
      obtain ⟨hp, hox⟩ := take_perm ht
      subst hox
      have hi2 := hi.perm hp
      have hin : (inner h).length = o.kids.length + (inner { h with objs := rest }).length := by
        have : (inner h).length = (inner { h with objs := o :: rest }).length := (hp.flatMap_right _).length_eq
        rw [this, inner_cons, List.length_append]
      have hcnt : ∀ y, (all h (o.id :: xs)).count y = h.roots.count y + (if o.id = y then 1 else 0) + xs.count y + o.kids.count y + (inner { h with objs := rest }).count y := by
        intro y
        have : (all h (o.id :: xs)).count y = (all { h with objs := o :: rest } (o.id :: xs)).count y := (List.Perm.append_left _ (hp.flatMap_right _)).count_eq y
        rw [this]
        simp only [all, inner_cons, List.count_append, List.count_cons, beq_iff_eq]
        omega
      have hids := hi2.ids
      simp only [List.map_cons, List.nodup_cons] at hids
      have hne : ∀ o' ∈ rest, o'.id ≠ o.id := fun o' ho' e => hids.1 (List.mem_map.mpr ⟨o', ho', e⟩)
      have hrefs : o.refs = (all h (o.id :: xs)).count o.id := hi.count o (hp.mem_iff.mpr (by simp))
      have hpos := hi.pos o (hp.mem_iff.mpr (by simp))
      have hlt : o.refs < u32 := by rw [hrefs]; exact hs o.id
      have hd := dec_refs hpos
      simp only [dropAll, ht]
      split
      · rename_i hz
        have h1 : o.refs = 1 := by omega
        have hcnt' : ∀ y, (all { h with objs := rest, freed := o.id :: h.freed } (o.kids ++ xs)).count y = (all h (o.id :: xs)).count y - (if o.id = y then 1 else 0) := by
          intro y
          rw [hcnt y]
          simp only [all, inner, List.count_append]
          omega
        have hno : o.id ∉ all { h with objs := rest, freed := o.id :: h.freed } (o.kids ++ xs) := by
          rw [← List.count_eq_zero, hcnt' o.id]
          simp; omega
        refine ih (o.kids ++ xs) _ ⟨hids.2, fun o' ho' => ?_, fun y hy => ?_, ?_, fun o' ho' => ?_, fun y hy => ?_, fun o' ho' => hi2.pos o' (by simp [ho']), fun x hx => ?_⟩ ?_ ?_
        · have := hi2.fresh o' (by simp [ho'])
          exact ⟨this.1, by simp [this.2, hne o' ho']⟩
        · rcases List.mem_cons.mp hy with rfl | hy
          · exact (hi2.fresh o (by simp)).1
          · exact hi.freshF y hy
        · exact List.nodup_cons.mpr ⟨(hi2.fresh o (by simp)).2, hi.freed⟩
        · rw [hcnt' o'.id, if_neg (fun e => hne o' ho' e.symm)]
          have := hi.count o' (hp.mem_iff.mpr (by simp [ho']))
          omega
        · have hyne : o.id ≠ y := fun e => hno (e ▸ hy)
          have hy' : y ∈ all h (o.id :: xs) := by
            have : 0 < (all { h with objs := rest, freed := o.id :: h.freed } (o.kids ++ xs)).count y := List.count_pos_iff.mpr hy
            rw [hcnt' y, if_neg hyne] at this
            exact List.count_pos_iff.mp (by omega)
          obtain ⟨o', ho', he⟩ := hi.live y hy'
          rcases List.mem_cons.mp (hp.mem_iff.mp ho') with rfl | ho'
          · exact absurd he hyne
          · exact ⟨o', ho', he⟩
        · have := hi2.known x hx
          simp only [List.map_cons, List.mem_cons] at this ⊢
          rcases this with h1 | h1 | h1
          · exact .inl (.inr h1)
          · exact .inl (.inl h1)
          · exact .inr h1
        · intro y; rw [hcnt' y]; have := hs y; omega
        · simp only [List.length_append, List.length_cons] at hn ⊢
          have : (inner { h with objs := rest, freed := o.id :: h.freed }).length = (inner { h with objs := rest }).length := rfl
          omega
      · rename_i hz
        have hcnt' : ∀ y, (all { h with objs := dec o :: rest } xs).count y = (all h (o.id :: xs)).count y - (if o.id = y then 1 else 0) := by
          intro y
          rw [hcnt y]
          simp only [all, inner_cons, List.count_append, dec_kids]
          omega
        refine ih xs _ ⟨?_, fun o' ho' => ?_, hi.freshF, hi.freed, fun o' ho' => ?_, fun y hy => ?_, fun o' ho' => ?_, by simpa [dec_id] using hi2.known⟩ ?_ ?_
        · simpa [dec_id] using hids
        · rcases List.mem_cons.mp ho' with rfl | ho'
          · rw [dec_id]; exact hi2.fresh o (by simp)
          · exact hi2.fresh o' (by simp [ho'])
        · rcases List.mem_cons.mp ho' with rfl | ho'
          · have e := dec_id o
            rw [hcnt', hd, e, ← hrefs]; simp
          · rw [hcnt' o'.id, if_neg (fun e => hne o' ho' e.symm)]
            have := hi.count o' (hp.mem_iff.mpr (by simp [ho']))
            omega
        · have hy' : y ∈ all h (o.id :: xs) := by
            have : 0 < (all { h with objs := dec o :: rest } xs).count y := List.count_pos_iff.mpr hy
            rw [hcnt' y] at this
            exact List.count_pos_iff.mp (by omega)
          obtain ⟨o', ho', he⟩ := hi.live y hy'
          rcases List.mem_cons.mp (hp.mem_iff.mp ho') with rfl | ho'
          · exact ⟨dec o', by simp, (dec_id o').trans he⟩
          · exact ⟨o', by simp [ho'], he⟩
        · rcases List.mem_cons.mp ho' with rfl | ho'
          · omega
          · exact hi2.pos o' (by simp [ho'])
        · intro y; rw [hcnt' y]; have := hs y; omega
        · have : (inner { h with objs := dec o :: rest }).length = o.kids.length + (inner { h with objs := rest }).length := by
            rw [inner_cons, List.length_append, dec_kids]
          simp only [List.length_cons] at hn ⊢
          omega

theorem drops_inv (pend : List Nat) (h : Heap) (hi : Inv h pend) (hs : Small h pend) : ∃ h', drops pend h = some h' ∧ Inv h' [] ∧ Small h' [] :=
  dropAll_inv _ pend h hi hs (Nat.le_refl _)

/-- Moving references around: the counts do not change. -/
theorem Inv.move {h h' : Heap} {pend pend' : List Nat} (hi : Inv h pend) (hc : ∀ y, (all h' pend').count y = (all h pend).count y)
    (ho : h'.objs.map (fun o => (o.id, o.refs)) = h.objs.map (fun o => (o.id, o.refs))) (hn : h'.next = h.next) (hf : h'.freed = h.freed) : Inv h' pend' := by
  have hmem : ∀ y, y ∈ all h' pend' ↔ y ∈ all h pend := fun y => by rw [← List.count_pos_iff, hc y, List.count_pos_iff]
  have hex : ∀ o ∈ h'.objs, ∃ o' ∈ h.objs, o'.id = o.id ∧ o'.refs = o.refs := fun o hm => by
    have : (o.id, o.refs) ∈ h.objs.map (fun o => (o.id, o.refs)) := ho ▸ List.mem_map.mpr ⟨o, hm, rfl⟩
    obtain ⟨o', h1, h2⟩ := List.mem_map.mp this
    simp at h2; exact ⟨o', h1, h2.1, h2.2⟩
  have hex' : ∀ o ∈ h.objs, ∃ o' ∈ h'.objs, o'.id = o.id := fun o hm => by
    have : (o.id, o.refs) ∈ h'.objs.map (fun o => (o.id, o.refs)) := ho ▸ List.mem_map.mpr ⟨o, hm, rfl⟩
    obtain ⟨o', h1, h2⟩ := List.mem_map.mp this
    simp at h2; exact ⟨o', h1, h2.1⟩
  have hids : h'.objs.map (·.id) = h.objs.map (·.id) := by
    have := congrArg (List.map Prod.fst) ho
    simpa [Function.comp_def] using this
  refine ⟨hids ▸ hi.ids, fun o hm => ?_, fun x hx => ?_, hf ▸ hi.freed, fun o hm => ?_, fun x hx => ?_, fun o hm => ?_, fun x hx => by rw [hf, hids]; exact hi.known x (hn ▸ hx)⟩
  · obtain ⟨o', h1, h2, _⟩ := hex o hm
    rw [hn, hf, ← h2]; exact hi.fresh o' h1
  · rw [hn]; exact hi.freshF x (hf ▸ hx)
  · obtain ⟨o', h1, h2, h3⟩ := hex o hm
    rw [hc, ← h3, ← h2]; exact hi.count o' h1
  · obtain ⟨o, h1, h2⟩ := hi.live x ((hmem x).mp hx)
    obtain ⟨o', h3, h4⟩ := hex' o h1
    exact ⟨o', h3, h4.trans h2⟩
  · obtain ⟨o', h1, _, h3⟩ := hex o hm
    rw [← h3]; exact hi.pos o' h1

theorem clone_inv {x : Nat} {h : Heap} (hi : Inv h []) (hx : x ∈ all h []) : ∃ h', clone x h = some h' ∧ (Small h' [] → Inv h' []) := by
  obtain ⟨o, rest, ht⟩ := take_some (hi.live x hx)
  obtain ⟨hp, rfl⟩ := take_perm ht
  refine ⟨_, by simp [clone, ht]; rfl, fun hs => ?_⟩
  have hi2 := hi.perm hp
  have hids := hi2.ids
  simp only [List.map_cons, List.nodup_cons] at hids
  have hne : ∀ o' ∈ rest, o'.id ≠ o.id := fun o' ho' e => hids.1 (List.mem_map.mpr ⟨o', ho', e⟩)
  have hcnt : ∀ y, (all { h with objs := inc o :: rest, roots := o.id :: h.roots } []).count y = (all { h with objs := o :: rest } []).count y + (if o.id = y then 1 else 0) := by
    intro y
    simp only [all, inner, List.flatMap_cons, inc_kids, List.count_append, List.count_cons, beq_iff_eq, List.count_nil]
    omega
  have hrefs := hi2.count o (by simp)
  have hsm := hs o.id
  rw [hcnt] at hsm
  simp only [if_true] at hsm
  have hinc : (inc o).refs = o.refs + 1 := by
    exact inc_refs (by rw [hrefs]; exact hsm)
  refine ⟨by simpa [inc_id] using hids, fun o' ho' => ?_, hi.freshF, hi.freed, fun o' ho' => ?_, fun y hy => ?_, fun o' ho' => ?_, by simpa [inc_id] using hi2.known⟩
  · rcases List.mem_cons.mp ho' with rfl | ho'
    · rw [inc_id]; exact hi2.fresh o (by simp)
    · exact hi2.fresh o' (by simp [ho'])
  · rw [hcnt]
    rcases List.mem_cons.mp ho' with rfl | ho'
    · have e := inc_id o
      rw [hinc, e, hrefs]; simp
    · rw [if_neg (fun e => hne o' ho' e.symm)]
      exact hi2.count o' (by simp [ho'])
  · by_cases e : o.id = y
    · exact ⟨inc o, by simp, (inc_id o).trans e⟩
    · have : y ∈ all { h with objs := o :: rest } [] := by
        have h1 := List.count_pos_iff.mpr hy
        rw [hcnt y, if_neg e] at h1
        exact List.count_pos_iff.mp (by simpa using h1)
      obtain ⟨o', ho', he⟩ := hi2.live y this
      rcases List.mem_cons.mp ho' with rfl | ho'
      · exact ⟨inc o', by simp, (inc_id o').trans he⟩
      · exact ⟨o', by simp [ho'], he⟩
  · rcases List.mem_cons.mp ho' with rfl | ho'
    · omega
    · exact hi2.pos o' (by simp [ho'])

theorem takeAll_count {xs l l' : List Nat} (h : takeAll xs l = some l') (y : Nat) : l.count y = xs.count y + l'.count y := by
  induction xs generalizing l with
  | nil => simp [takeAll] at h; subst h; simp
  | cons x xs ih =>
    simp only [takeAll] at h
    split at h
    · rename_i hx
      have h1 := ih h
      have h2 : l.count y = (x :: l.erase x).count y := (List.perm_cons_erase hx).count_eq y
      rw [h2, List.count_cons, h1, List.count_cons]
      omega
    · simp at h

/-- The result of an operation on a heap that satisfies the invariant. -/
def Fine (r : Res) : Prop := r ≠ .ub ∧ ∀ h', r = .ok h' → Small h' [] → Inv h' []

theorem access_inv {x : Nat} {h : Heap} (hi : Inv h []) (f : Obj → List Obj → Res)
    (hf : ∀ o rest, x ∈ h.roots → h.objs.Perm (o :: rest) → o.id = x → Fine (f o rest)) : Fine (access x h f) := by
  unfold access
  split
  · rename_i hx
    obtain ⟨o, rest, ht⟩ := take_some (hi.live x (by simp [all, hx]))
    simp only [ht]
    obtain ⟨h1, h2⟩ := take_perm ht
    exact hf o rest hx h1 h2
  · exact ⟨by simp, by simp⟩

theorem fine_clone {x : Nat} {h : Heap} (hi : Inv h []) (hx : x ∈ all h []) : Fine (ofOption (clone x h)) := by
  obtain ⟨h', h1, h2⟩ := clone_inv hi hx
  rw [h1]
  exact ⟨by simp [ofOption], fun h'' he => by simp [ofOption] at he; subst he; exact h2⟩

theorem fine_drops {pend : List Nat} {h : Heap} (hi : Inv h pend) (hs : Small h pend) : Fine (ofOption (drops pend h)) := by
  obtain ⟨h', h1, h2, _⟩ := drops_inv pend h hi hs
  rw [h1]
  exact ⟨by simp [ofOption], fun h'' he _ => by simp [ofOption] at he; subst he; exact h2⟩

theorem kids_inner {h : Heap} {o : Obj} {rest : List Obj} (hp : h.objs.Perm (o :: rest)) {k : Nat} (hk : k ∈ o.kids) : k ∈ inner h :=
  (hp.flatMap_right _).mem_iff.mpr (by simp [hk])

theorem all_perm {h : Heap} {l : List Obj} (hp : h.objs.Perm l) (pend : List Nat) (y : Nat) : (all h pend).count y = (all { h with objs := l } pend).count y :=
  (List.Perm.append_left _ (hp.flatMap_right _)).count_eq y

theorem count_set (l : List Nat) (i v k y : Nat) (h : l[i]? = some k) : (l.set i v).count y + (if k = y then 1 else 0) = l.count y + (if v = y then 1 else 0) := by
  induction l generalizing i with
  | nil => simp at h
  | cons a l ih =>
    cases i with
    | zero => simp at h; subst h; simp only [List.set_cons_zero, List.count_cons, beq_iff_eq]; omega
    | succ i =>
      have := ih i (by simpa using h)
      simp only [List.set_cons_succ, List.count_cons, beq_iff_eq]
      omega

theorem count_eraseIdx (l : List Nat) (i k y : Nat) (h : l[i]? = some k) : (l.eraseIdx i).count y + (if k = y then 1 else 0) = l.count y := by
  induction l generalizing i with
  | nil => simp at h
  | cons a l ih =>
    cases i with
    | zero => simp at h; subst h; simp only [List.eraseIdx_cons_zero, List.count_cons, beq_iff_eq]
    | succ i =>
      have := ih i (by simpa using h)
      simp only [List.eraseIdx_cons_succ, List.count_cons, beq_iff_eq]
      omega

theorem count_erase_mem {l : List Nat} {x : Nat} (h : x ∈ l) (y : Nat) : (l.erase x).count y + (if x = y then 1 else 0) = l.count y := by
  have := (List.perm_cons_erase h).count_eq y
  rw [this, List.count_cons]
  simp

theorem step_inv {h : Heap} (hi : Inv h []) (hs : Small h []) (op : Op) : Fine (step h op) := by
  cases op with
  | new kids =>
    simp only [step]
    cases ht : takeAll kids h.roots with
    | none => exact ⟨by simp, by simp⟩
    | some roots =>
      refine ⟨by simp, fun h' he _ => ?_⟩
      simp at he; subst he
      have hc := takeAll_count ht
      have hcnt : ∀ y, (all { objs := ⟨h.next, 1, kids⟩ :: h.objs, roots := h.next :: roots, next := h.next + 1, freed := h.freed : Heap } []).count y =
          (all h []).count y + (if h.next = y then 1 else 0) := by
        intro y
        simp only [all, inner, List.flatMap_cons, List.count_append, List.count_cons, List.count_nil, hc y, beq_iff_eq]
        omega
      have hnext : (all h []).count h.next = 0 := by
        rw [List.count_eq_zero]
        intro hm
        obtain ⟨o, ho, he⟩ := hi.live _ hm
        have := (hi.fresh o ho).1
        omega
      refine ⟨?_, fun o ho => ?_, fun x hx => Nat.lt_succ_of_lt (hi.freshF x hx), hi.freed, fun o ho => ?_, fun y hy => ?_, fun o ho => ?_, fun x hx => ?_⟩
      · simp only [List.map_cons, List.nodup_cons]
        refine ⟨fun hm => ?_, hi.ids⟩
        obtain ⟨o, ho, he⟩ := List.mem_map.mp hm
        have := (hi.fresh o ho).1
        omega
      · rcases List.mem_cons.mp ho with rfl | ho
        · exact ⟨Nat.lt_succ_self _, fun hm => Nat.lt_irrefl _ (hi.freshF _ hm)⟩
        · have := hi.fresh o ho
          exact ⟨Nat.lt_succ_of_lt this.1, this.2⟩
      · rw [hcnt]
        rcases List.mem_cons.mp ho with rfl | ho
        · simp [hnext]
        · have h1 := hi.count o ho
          have h2 := (hi.fresh o ho).1
          rw [if_neg (by omega)]
          exact h1
      · by_cases e : h.next = y
        · exact ⟨_, List.mem_cons_self, e⟩
        · have h1 := List.count_pos_iff.mpr hy
          rw [hcnt, if_neg e] at h1
          obtain ⟨o, ho, he⟩ := hi.live y (List.count_pos_iff.mp (by simpa using h1))
          exact ⟨o, by simp [ho], he⟩
      · rcases List.mem_cons.mp ho with rfl | ho
        · simp
        · exact hi.pos o ho
      · simp only at hx
        rcases Nat.lt_succ_iff_lt_or_eq.mp hx with h1 | h1
        · exact (hi.known x h1).imp id (fun h2 => by simp only [List.map_cons]; exact List.mem_cons_of_mem _ h2)
        · exact .inr (by simp [h1])
  | clone x =>
    simp only [step]
    split
    · exact fine_clone hi (by simp [all, *])
    · exact ⟨by simp, by simp⟩
  | get x i =>
    simp only [step]
    refine access_inv hi _ fun o rest _ hp _ => ?_
    split
    · rename_i k hk
      exact fine_clone hi (by simp only [all, List.mem_append]; exact .inr (kids_inner hp (List.mem_of_getElem? hk)))
    · exact ⟨by simp, by simp⟩
  | drop x =>
    simp only [step]
    split
    · rename_i hx
      have hcnt : ∀ y, (all { h with roots := h.roots.erase x } [x]).count y = (all h []).count y := by
        intro y
        have := count_erase_mem hx y
        simp only [all, inner, List.count_append, List.count_cons, List.count_nil, beq_iff_eq]
        omega
      exact fine_drops (hi.move hcnt rfl rfl rfl) (fun y => by rw [hcnt]; exact hs y)
    · exact ⟨by simp, by simp⟩
  | push x v =>
    simp only [step]
    split
    · rename_i hv
      refine access_inv hi _ fun o rest _ hp _ => ⟨by simp, fun h' he _ => ?_⟩
      simp at he; subst he
      refine (hi.perm hp).move (fun y => ?_) rfl rfl rfl
      have := count_erase_mem hv y
      simp only [all, inner_cons, List.count_append, List.count_cons, List.count_nil, beq_iff_eq]
      have e : inner { h with objs := rest, roots := h.roots.erase v } = inner { h with objs := rest } := rfl
      simp only [inner, List.flatMap_cons, List.count_append, List.count_cons, List.count_nil, beq_iff_eq]
      omega
    · exact ⟨by simp, by simp⟩
  | takeOut x i =>
    simp only [step]
    refine access_inv hi _ fun o rest _ hp _ => ?_
    split
    · rename_i k hk
      refine ⟨by simp, fun h' he _ => ?_⟩
      simp at he; subst he
      refine (hi.perm hp).move (fun y => ?_) rfl rfl rfl
      have := count_eraseIdx o.kids i k y hk
      simp only [all, inner, List.flatMap_cons, List.count_append, List.count_cons, List.count_nil, beq_iff_eq]
      omega
    · exact ⟨by simp, by simp⟩
  | set x i v =>
    simp only [step]
    split
    · rename_i hv
      refine access_inv hi _ fun o rest _ hp _ => ?_
      split
      · rename_i k hk
        have hcnt : ∀ y, (all { h with objs := { o with kids := o.kids.set i v } :: rest, roots := h.roots.erase v } [k]).count y = (all { h with objs := o :: rest } []).count y := by
          intro y
          have h1 := count_erase_mem hv y
          have h2 := count_set o.kids i v k y hk
          simp only [all, inner, List.flatMap_cons, List.count_append, List.count_cons, List.count_nil, beq_iff_eq]
          omega
        exact fine_drops ((hi.perm hp).move hcnt rfl rfl rfl) (fun y => by rw [hcnt, ← all_perm hp]; exact hs y)
      · exact ⟨by simp, by simp⟩
    · exact ⟨by simp, by simp⟩

/-- At each point of the history there are fewer than 2^32 references to each object. -/
def SmallRun (ops : List Op) : Prop := ∀ l₁ l₂ h, ops = l₁ ++ l₂ → run empty l₁ = .ok h → Small h []

theorem run_append (h : Heap) (a b : List Op) : run h (a ++ b) = match run h a with
    | .ok h' => run h' b
    | .impossible => .impossible
    | .ub => .ub := by
  induction a generalizing h with
  | nil => rfl
  | cons op a ih =>
    simp only [List.cons_append, run]
    cases step h op with
    | ok h' => exact ih h'
    | impossible => exact ih h
    | ub => rfl

theorem run_inv (ops : List Op) (hs : SmallRun ops) : ∃ h, run empty ops = .ok h ∧ Inv h [] ∧ Small h [] := by
  have key : ∀ l₁ l₂, ops = l₁ ++ l₂ → ∃ h, run empty l₁ = .ok h ∧ Inv h [] ∧ Small h [] := by
    intro l₁
    generalize hn : l₁.length = n
    induction n generalizing l₁ with
    | zero =>
      intro l₂ _
      obtain rfl := List.length_eq_zero_iff.mp hn
      refine ⟨empty, rfl, ⟨by simp [empty], by simp [empty], by simp [empty], by simp [empty], by simp [empty], by simp [empty, all, inner], by simp [empty], by simp [empty]⟩, fun x => by simp [empty, all, inner, u32_pos]⟩
    | succ n ih =>
      intro l₂ he
      rcases List.eq_nil_or_concat l₁ with rfl | ⟨l, op, rfl⟩
      · simp at hn
      · rw [List.concat_eq_append] at *
        obtain ⟨h, h1, h2, h3⟩ := ih l (by simpa using hn) ([op] ++ l₂) (by simpa using he)
        obtain ⟨f1, f2⟩ := step_inv h2 h3 op
        have hr : run empty (l ++ [op]) = match step h op with
            | .ok h' => .ok h'
            | .impossible => .ok h
            | .ub => .ub := by
          rw [run_append, h1]
          simp only [run]
          cases step h op <;> rfl
        cases hst : step h op with
        | ub => exact absurd hst f1
        | impossible => exact ⟨h, by rw [hr, hst], h2, h3⟩
        | ok h' =>
          have hok : run empty (l ++ [op]) = .ok h' := by rw [hr, hst]
          have hsm := hs (l ++ [op]) l₂ h' he hok
          exact ⟨h', hok, f2 h' hst hsm, hsm⟩
  exact key ops [] (by simp)

/-- C49: in every history of creating, copying, storing and dropping references (with fewer than 2^32 references to one object): no freed object is used, an object exists exactly as long as there is a reference to it,
and it was freed (once) exactly if it existed and does not any more. -/
theorem C49_lifetime_partial (ops : List Op) (hs : SmallRun ops) : ∃ h, run empty ops = .ok h ∧
    (∀ x, (∃ o ∈ h.objs, o.id = x) ↔ x ∈ h.roots ∨ ∃ o ∈ h.objs, x ∈ o.kids) ∧
    (∀ x, x < h.next → (x ∈ h.freed ↔ ¬ ∃ o ∈ h.objs, o.id = x)) ∧ h.freed.Nodup := by
  obtain ⟨h, h1, hi, _⟩ := run_inv ops hs
  have hall : ∀ x, x ∈ all h [] ↔ x ∈ h.roots ∨ ∃ o ∈ h.objs, x ∈ o.kids := fun x => by simp [all, inner]
  refine ⟨h, h1, fun x => ?_, fun x hx => ?_, hi.freed⟩
  · rw [← hall]
    refine ⟨?_, hi.live x⟩
    rintro ⟨o, ho, rfl⟩
    refine List.count_pos_iff.mp ?_
    rw [← hi.count o ho]
    exact hi.pos o ho
  · refine ⟨?_, fun hn => ?_⟩
    · rintro hf ⟨o, ho, rfl⟩
      exact (hi.fresh o ho).2 hf
    · rcases hi.known x hx with h2 | h2
      · exact h2
      · exact absurd (by simpa using h2) hn

theorem take_inner {x : Nat} {h : Heap} {o : Obj} {rest : List Obj} (ht : take x h.objs = some (o, rest)) :
    (inner h).length = o.kids.length + (rest.flatMap (·.kids)).length := by
  have : (inner h).length = ((o :: rest).flatMap (·.kids)).length := ((take_perm ht).1.flatMap_right _).length_eq
  rw [this, List.flatMap_cons, List.length_append]

theorem dropAll_length (n : Nat) (pend : List Nat) (h h' : Heap) (he : dropAll n pend h = some h') : (all h' []).length ≤ (all h pend).length := by
  induction n generalizing pend h with
  | zero => cases pend <;> simp [dropAll] at he; subst he; exact Nat.le_refl _
  | succ n ih =>
    cases pend with
    | nil => simp [dropAll] at he; subst he; exact Nat.le_refl _
    | cons x xs =>
      simp only [dropAll] at he
      split at he
      · simp at he
      · rename_i o rest ht
        have h1 := take_inner ht
        split at he
        · have := ih _ _ he
          simp only [all, inner, List.length_append, List.length_cons] at this h1 ⊢
          omega
        · have := ih _ _ he
          simp only [all, inner, List.flatMap_cons, dec_kids, List.length_append, List.length_cons] at this h1 ⊢
          omega

theorem clone_length {x : Nat} {h h' : Heap} (he : ofOption (clone x h) = .ok h') : (all h' []).length ≤ (all h []).length + 1 := by
  unfold clone at he
  cases ht : take x h.objs with
  | none => simp [ht, ofOption] at he
  | some p =>
    obtain ⟨o, rest⟩ := p
    have h1 := take_inner ht
    simp only [ht, ofOption, Res.ok.injEq] at he
    subst he
    simp only [all, inner, List.flatMap_cons, inc_kids, List.length_append, List.length_cons] at h1 ⊢
    omega

theorem drops_length {pend : List Nat} {h h' : Heap} (he : ofOption (drops pend h) = .ok h') : (all h' []).length ≤ (all h pend).length := by
  unfold drops at he
  cases hd : dropAll (pend.length + (inner h).length) pend h with
  | none => simp [hd, ofOption] at he
  | some h'' =>
    simp only [hd, ofOption, Res.ok.injEq] at he
    subst he
    exact dropAll_length _ _ _ _ hd

theorem takeAll_length {xs l l' : List Nat} (h : takeAll xs l = some l') : l.length = xs.length + l'.length := by
  induction xs generalizing l with
  | nil => simp [takeAll] at h; subst h; simp
  | cons x xs ih =>
    simp only [takeAll] at h
    split at h
    · rename_i hx
      have h1 := ih h
      have h2 : l.length = (x :: l.erase x).length := (List.perm_cons_erase hx).length_eq
      rw [h2, List.length_cons, h1, List.length_cons]
      omega
    · simp at h

theorem access_length {x : Nat} {h h' : Heap} {f : Obj → List Obj → Res} (he : access x h f = .ok h') {n : Nat}
    (hf : ∀ o rest, take x h.objs = some (o, rest) → f o rest = .ok h' → n ≤ (all h []).length + 1) : n ≤ (all h []).length + 1 := by
  unfold access at he
  split at he
  · split at he
    · rename_i ht; exact hf _ _ ht he
    · simp at he
  · simp at he

/-- Each operation adds at most one reference. -/
theorem step_length {h h' : Heap} {op : Op} (he : step h op = .ok h') : (all h' []).length ≤ (all h []).length + 1 := by
  cases op with
  | new kids =>
    simp only [step] at he
    cases ht : takeAll kids h.roots with
    | none => simp [ht] at he
    | some roots =>
      simp only [ht, Res.ok.injEq] at he
      subst he
      have := takeAll_length ht
      simp only [all, inner, List.flatMap_cons, List.length_append, List.length_cons, List.length_nil]
      omega
  | clone x =>
    simp only [step] at he
    split at he
    · exact clone_length he
    · simp at he
  | get x i =>
    simp only [step] at he
    refine access_length he fun o rest _ he => ?_
    split at he
    · exact clone_length he
    · simp at he
  | drop x =>
    simp only [step] at he
    split at he
    · rename_i hx
      have h1 := drops_length he
      have h2 := List.length_erase_of_mem hx
      have h3 := List.length_pos_of_mem hx
      simp only [all, inner, List.length_append, List.length_cons, List.length_nil] at h1 ⊢
      omega
    · simp at he
  | push x v =>
    simp only [step] at he
    split at he
    · rename_i hx
      refine access_length he fun o rest ht he => ?_
      simp only [Res.ok.injEq] at he
      subst he
      have h1 := take_inner ht
      have h2 := List.length_erase_of_mem hx
      have h3 := List.length_pos_of_mem hx
      simp only [all, inner, List.flatMap_cons, List.length_append, List.length_cons, List.length_nil] at h1 ⊢
      omega
    · simp at he
  | takeOut x i =>
    simp only [step] at he
    refine access_length he fun o rest ht he => ?_
    split at he
    · rename_i k hk
      simp only [Res.ok.injEq] at he
      subst he
      have h1 := take_inner ht
      have h2 := List.length_eraseIdx_le o.kids i
      simp only [all, inner, List.flatMap_cons, List.length_append, List.length_cons, List.length_nil] at h1 ⊢
      omega
    · simp at he
  | set x i v =>
    simp only [step] at he
    split at he
    · rename_i hx
      refine access_length he fun o rest ht he => ?_
      split at he
      · have h0 := drops_length he
        have h1 := take_inner ht
        have h2 := List.length_erase_of_mem hx
        have h3 := List.length_pos_of_mem hx
        simp only [all, inner, List.flatMap_cons, List.length_append, List.length_cons, List.length_nil, List.length_set] at h0 h1 ⊢
        omega
      · simp at he
    · simp at he

theorem run_length (ops : List Op) (h h' : Heap) (he : run h ops = .ok h') : (all h' []).length ≤ (all h []).length + ops.length := by
  induction ops generalizing h with
  | nil => simp [run] at he; subst he; simp
  | cons op ops ih =>
    simp only [run] at he
    cases hst : step h op with
    | ub => simp [hst] at he
    | impossible => simp only [hst] at he; have := ih h he; simp only [List.length_cons]; omega
    | ok h1 => simp only [hst] at he; have := ih h1 he; have := step_length hst; simp only [List.length_cons]; omega

/-- A history of fewer than 2^32 operations has fewer than 2^32 references to each object. -/
theorem smallRun_of_short (ops : List Op) (hlen : ops.length < u32) : SmallRun ops := by
  rintro l₁ l₂ h rfl he x
  have h1 := run_length l₁ empty h he
  have h2 : (all h []).count x ≤ (all h []).length := List.count_le_length
  have h3 : (all empty []).length = 0 := rfl
  simp only [List.length_append] at hlen
  omega

/-- C49 without the assumption about the number of references, for all histories shorter than 2^32. -/
theorem C49_lifetime_short (ops : List Op) (hlen : ops.length < 4294967296) : ∃ h, run empty ops = .ok h ∧
    (∀ x, (∃ o ∈ h.objs, o.id = x) ↔ x ∈ h.roots ∨ ∃ o ∈ h.objs, x ∈ o.kids) ∧
    (∀ x, x < h.next → (x ∈ h.freed ↔ ¬ ∃ o ∈ h.objs, o.id = x)) ∧ h.freed.Nodup :=
  C49_lifetime_partial ops (smallRun_of_short ops (by unfold u32; exact hlen))

theorem run_clones (k : Nat) (hk : k + 1 < u32) : run ⟨[⟨0, 1, []⟩], [0], 1, []⟩ (List.replicate k (.clone 0)) = .ok ⟨[⟨0, k + 1, []⟩], List.replicate (k + 1) 0, 1, []⟩ := by
  induction k with
  | zero => rfl
  | succ k ih =>
    rw [List.replicate_succ', run_append, ih (by omega)]
    have e : inc ⟨0, k + 1, []⟩ = ⟨0, k + 2, []⟩ := by
      unfold inc; simp only; rw [if_neg (by omega)]
    simp [run, step, ofOption, clone, take, e, List.replicate_succ]

/-- C49: the counter is not checked: after 2^32 copies of a reference the object is freed with the first that is dropped, and the others are left without it. -/
theorem C49_violation_overflow : ∃ ops h, run empty ops = .ok h ∧ (0 ∈ h.roots ∧ 0 ∈ h.freed) ∧ run empty (ops ++ [.clone 0]) = .ub := by
  have hu : 2 < u32 := by unfold u32; simp
  obtain ⟨u, hu'⟩ : ∃ u, u32 = u + 2 := ⟨u32 - 2, by omega⟩
  have key : run empty (([.new []] ++ List.replicate u (.clone 0)) ++ [.clone 0, .clone 0, .drop 0]) = .ok ⟨[], List.replicate (u + 2) 0, 1, [0]⟩ := by
    rw [run_append, run_append]
    have e0 : run empty [.new []] = .ok ⟨[⟨0, 1, []⟩], [0], 1, []⟩ := rfl
    rw [e0]
    simp only
    rw [run_clones u (by omega)]
    have e1 : inc ⟨0, u + 1, []⟩ = ⟨0, 0, []⟩ := by
      unfold inc; simp only; rw [if_pos (by omega)]
    have e2 : inc ⟨0, 0, []⟩ = ⟨0, 1, []⟩ := by
      unfold inc; simp only; rw [if_neg (by omega)]
    have e3 : (dec ⟨0, 1, []⟩).refs = 0 := by rw [dec_refs (by simp)]; simp
    simp [run, step, ofOption, clone, take, e1, e2, e3, List.replicate_succ, drops, dropAll, inner]
  refine ⟨_, _, key, by simp [List.replicate_succ], ?_⟩
  rw [run_append, key]
  simp [run, step, ofOption, clone, take, List.replicate_succ]

end Cordy.Refs
