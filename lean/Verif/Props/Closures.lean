import Verif.Model.VM
import Mathlib.Tactic.ByContra
import Mathlib.Data.List.Nodup
/-! # C43: closures capture variables -/
namespace Cordy.VM
variable {A W E : Type}

/-! ## Specification: a machine with variables

Every place of the stack *is* a variable, that is a location of a store that is given out once. A closure holds the locations of the
variables it captured. There are no open and closed cells: reading or assigning a variable reads or updates its location, from
wherever it is done. Ending a scope (`lift`) gives the place of the variable a new location: the next execution of the scope has its
own variable. -/

structure Abs (A W : Type) where
  stack : List Nat
  store : Nat → Val A
  next : Nat
  fp : Nat
  globals : Nat
  closures : List Closure
  world : W

namespace Abs

/-- Give out a new location that holds `v`. -/
def push (a : Abs A W) (v : Val A) : Abs A W :=
  { a with stack := a.stack ++ [a.next], store := fun l => if l = a.next then v else a.store l, next := a.next + 1 }
def pop (a : Abs A W) : Res E (Abs A W) := if a.stack = [] then .panic else .ok { a with stack := a.stack.dropLast }
/-- The variable in a place. -/
def assign (a : Abs A W) (l : Nat) (v : Val A) : Abs A W := { a with store := fun k => if k = l then v else a.store k }
def pushAt (i : Nat) (a : Abs A W) : Res E (Abs A W) :=
  match a.stack[i]? with
  | some l => .ok (push a (a.store l))
  | none => .panic
def storeAt (i : Nat) (v : Val A) (a : Abs A W) : Res E (Abs A W) :=
  match a.stack[i]? with
  | some l => .ok (assign a l v)
  | none => .panic
def top (a : Abs A W) : Option (Val A) := a.stack.getLast?.map a.store
/-- The variable number `index` of the running closure. -/
def captured (index : Nat) (a : Abs A W) : Option Nat :=
  match a.stack[a.fp - 1]?.map a.store with
  | some (.closure c) => a.closures[c]?.bind (fun k => k.env[index]?)
  | _ => none
/-- The closure on top of the stack captures the variable `l`. -/
def capture (l : Nat) (a : Abs A W) : Res E (Abs A W) :=
  match a.top with
  | some (.closure c) => if c < a.closures.length then .ok { a with closures := a.closures.modify c (fun k => { k with env := k.env ++ [l] }) } else .panic
  | _ => .panic
def dropIf (p : Bool) (a : Abs A W) : Abs A W := if p then { a with stack := a.stack.dropLast } else a

def step (e : Nat → E) : VOp A → Abs A W → Res E (Abs A W)
  | .push v, a => .ok (push a v)
  | .pop, a => pop a
  | .swap, a =>
    match a.stack[a.stack.length - 1]?, a.stack[a.stack.length - 2]? with
    | some x, some y => if 2 ≤ a.stack.length then .ok (assign (assign a x (a.store y)) y (a.store x)) else .panic
    | _, _ => .panic
  | .pushLocal i, a => pushAt (a.fp + i) a
  | .storeLocal i p, a =>
    match a.top with
    | some v => storeAt (a.fp + i) v (dropIf p a)
    | none => .panic
  | .pushGlobal i, a => if i < a.globals then pushAt i a else .err (e i) a
  | .storeGlobal i p, a =>
    match a.top with
    | some v => if i < a.globals then storeAt i v (dropIf p a) else .err (e i) (dropIf p a)
    | none => .panic
  | .pushUp i, a =>
    match a.captured i with
    | some l => .ok (push a (a.store l))
    | none => .panic
  | .storeUp i, a =>
    match a.top, a.captured i with
    | some v, some l => .ok (assign a l v)
    | _, _ => .panic
  | .initGlobal, a => .ok { a with globals := a.globals + 1 }
  | .mkClosure, a =>
    match a.stack.getLast? with
    | some l =>
      match a.store l with
      | .func f => .ok { (assign a l (.closure a.closures.length)) with closures := a.closures ++ [⟨f, []⟩] }
      | _ => .panic
    | none => .panic
  | .closeLocal i, a =>
    match a.stack[a.fp + i]? with
    | some l => capture l a
    | none => .panic
  | .closeUp i, a =>
    match a.captured i with
    | some l => capture l a
    | none => .panic
  | .lift i, a =>
    match a.stack[a.fp + i]? with
    | some l => .ok { a with stack := a.stack.set (a.fp + i) a.next, store := fun k => if k = a.next then a.store l else a.store k, next := a.next + 1 }
    | none => .ok a
  | .frame fp, a => .ok { a with fp := fp }
  | .ret fp, a =>
    if a.fp = 0 ∨ a.stack.length < a.fp then .panic
    else if a.fp = a.stack.length then .ok { a with stack := a.stack.dropLast, fp := fp }
    else
      match a.top with
      | some v => .ok { (push { a with stack := a.stack.take (a.fp - 1) } v) with fp := fp }
      | none => .panic

end Abs

/-- The compiler's duty: a captured variable is lifted before its place goes away, and only existing places are captured. -/
def Safe (s : St A W) : VOp A → Bool
  | .pop | .storeLocal _ true | .storeGlobal _ true => (s.opens (s.stack.length - 1)).isNone
  | .closeLocal i => s.fp + i < s.stack.length
  | .ret _ => (List.range s.stack.length).all (fun j => j < s.fp - 1 || (s.opens j).isNone)
  | _ => true

/-- Run operations in the machine. -/
def crun (e : Nat → E) : List (VOp A) → St A W → Res E (St A W)
  | [], s => .ok s
  | o :: os, s => (cstep e o s).bind (crun e os)
def arun (e : Nat → E) : List (VOp A) → Abs A W → Res E (Abs A W)
  | [], s => .ok s
  | o :: os, s => (Abs.step e o s).bind (arun e os)
def SafeRun (e : Nat → E) : List (VOp A) → St A W → Bool
  | [], _ => true
  | o :: os, s => Safe s o && match cstep e o s with
    | .ok s' => SafeRun e os s'
    | _ => true

/-- What can be seen: the values on the stack, the globals count and the world; or the error. -/
inductive Seen (A W E : Type) where
  | ok (stack : List (Val A)) (globals : Nat) (world : W)
  | err (e : E) (stack : List (Val A)) (world : W)
  | panic
def seenC : Res E (St A W) → Seen A W E
  | .ok s => .ok s.stack s.globals s.world
  | .err e s => .err e s.stack s.world
  | .panic => .panic
def seenA : Res E (Abs A W) → Seen A W E
  | .ok s => .ok (s.stack.map s.store) s.globals s.world
  | .err e s => .err e (s.stack.map s.store) s.world
  | .panic => .panic

/-! ## Simulation -/

/-- What an upvalue cell stands for: the variable `l`. -/
def CellOk (s : St A W) (a : Abs A W) (c l : Nat) : UpVal A → Prop
  | .opened i => a.stack[i]? = some l ∧ s.opens i = some c
  | .closed v => a.store l = v ∧ l ∉ a.stack

structure Rel (s : St A W) (a : Abs A W) (m : Nat → Nat) : Prop where
  vals : s.stack = a.stack.map a.store
  fresh : ∀ l ∈ a.stack, l < a.next
  nodup : a.stack.Nodup
  mlt : ∀ c, c < s.cells.length → m c < a.next
  cells : ∀ c u, s.cells[c]? = some u → CellOk s a c (m c) u
  opens : ∀ i c, s.opens i = some c → s.cells[c]? = some (.opened i)
  inj : ∀ c c', c < s.cells.length → c' < s.cells.length → m c = m c' → c = c'
  clos : a.closures = s.closures.map (fun k => ⟨k.func, k.env.map m⟩)
  env : ∀ k ∈ s.closures, ∀ c ∈ k.env, c < s.cells.length
  fp : a.fp = s.fp
  globals : a.globals = s.globals
  world : a.world = s.world

/-- Related outcomes. -/
def RelR : Res E (St A W) → Res E (Abs A W) → Prop
  | .ok s, .ok a => ∃ m, Rel s a m
  | .err e s, .err e' a => e' = e ∧ ∃ m, Rel s a m
  | .panic, .panic => True
  | _, _ => False

variable {s : St A W} {a : Abs A W} {m : Nat → Nat}

theorem Rel.len (h : Rel s a m) : s.stack.length = a.stack.length := by rw [h.vals]; simp

theorem Rel.get (h : Rel s a m) (i : Nat) : s.stack[i]? = a.stack[i]?.map a.store := by rw [h.vals]; simp

theorem Rel.top (h : Rel s a m) : s.stack.getLast? = a.top := by rw [h.vals, Abs.top]; simp

theorem Rel.push (h : Rel s a m) (v : Val A) : Rel (push s v) (a.push v) m where
  vals := by
    have : a.stack.map (fun l => if l = a.next then v else a.store l) = a.stack.map a.store := by
      apply List.map_congr_left
      intro l hl
      rw [if_neg (by have := h.fresh l hl; omega)]
    simp only [VM.push, Abs.push, List.map_append, this, h.vals, List.map_cons, List.map_nil, if_pos]
  fresh := by
    intro l hl
    simp only [Abs.push, List.mem_append, List.mem_singleton] at hl ⊢
    rcases hl with hl | hl
    · have := h.fresh l hl; omega
    · omega
  nodup := by
    simp only [Abs.push]
    refine List.nodup_append.2 ⟨h.nodup, by simp, ?_⟩
    intro x hx y hy
    have := h.fresh x hx
    simp at hy
    omega
  mlt := fun c hc => by have := h.mlt c hc; simp only [Abs.push]; omega
  cells := by
    intro c u hc
    have hlt := h.mlt c (List.getElem?_eq_some_iff.1 hc).1
    have := h.cells c u hc
    cases u with
    | opened i =>
      refine ⟨?_, this.2⟩
      have h1 : i < a.stack.length := (List.getElem?_eq_some_iff.1 this.1).1
      simp only [Abs.push]
      rw [List.getElem?_append_left h1]; exact this.1
    | closed w =>
      simp only [CellOk, Abs.push] at this ⊢
      refine ⟨by rw [if_neg (by omega)]; exact this.1, ?_⟩
      intro hm
      rcases List.mem_append.1 hm with hm | hm
      · exact this.2 hm
      · simp at hm; omega
  opens := h.opens
  inj := h.inj
  clos := h.clos
  env := h.env
  fp := h.fp
  globals := h.globals
  world := h.world

theorem Rel.dropLast (h : Rel s a m) (ho : s.opens (s.stack.length - 1) = none) :
    Rel { s with stack := s.stack.dropLast } { a with stack := a.stack.dropLast } m where
  vals := by simp [h.vals]
  fresh := fun l hl => h.fresh l (List.dropLast_subset _ hl)
  nodup := h.nodup.sublist (List.dropLast_sublist _)
  mlt := h.mlt
  cells := by
    intro c u hc
    have := h.cells c u hc
    cases u with
    | opened i =>
      refine ⟨?_, this.2⟩
      have h1 : i < a.stack.length := (List.getElem?_eq_some_iff.1 this.1).1
      have hne : i ≠ a.stack.length - 1 := by
        intro e; rw [h.len, ← e, this.2] at ho; cases ho
      simp only []
      rw [List.getElem?_dropLast, if_pos (by omega)]; exact this.1
    | closed w => exact ⟨this.1, fun hm => this.2 (List.dropLast_subset _ hm)⟩
  opens := h.opens
  inj := h.inj
  clos := h.clos
  env := h.env
  fp := h.fp
  globals := h.globals
  world := h.world

theorem map_assign (xs : List Nat) (f : Nat → Val A) (i l : Nat) (v : Val A) (hn : xs.Nodup) (hi : xs[i]? = some l) :
    xs.map (fun k => if k = l then v else f k) = (xs.map f).set i v := by
  apply List.ext_getElem?
  intro j
  by_cases hj : i = j
  · subst hj
    have hlt := (List.getElem?_eq_some_iff.1 hi).1
    rw [List.getElem?_set_self (by simpa using hlt)]
    simp [hi]
  · rw [List.getElem?_set_ne hj, List.getElem?_map, List.getElem?_map]
    cases hx : xs[j]? with
    | none => rfl
    | some x =>
      have : x ≠ l := by
        intro e; subst e
        have h1 := (List.getElem?_eq_some_iff.1 hi)
        have h2 := (List.getElem?_eq_some_iff.1 hx)
        exact hj ((List.Nodup.getElem_inj_iff hn).1 (h1.2.trans h2.2.symm))
      simp [this]

/-- Assigning the variable in place `i`. -/
theorem Rel.set (h : Rel s a m) (i l : Nat) (v : Val A) (hi : a.stack[i]? = some l) : Rel { s with stack := s.stack.set i v } (a.assign l v) m where
  vals := by
    simp only [Abs.assign]
    rw [map_assign _ _ i l v h.nodup hi, h.vals]
  fresh := h.fresh
  nodup := h.nodup
  mlt := h.mlt
  cells := by
    intro c u hc
    have := h.cells c u hc
    cases u with
    | opened i => exact this
    | closed w =>
      refine ⟨?_, this.2⟩
      simp only [Abs.assign]
      rw [if_neg]
      · exact this.1
      · intro e; apply this.2; rw [e]; exact List.mem_of_getElem? hi
  opens := h.opens
  inj := h.inj
  clos := h.clos
  env := h.env
  fp := h.fp
  globals := h.globals
  world := h.world

/-- Assigning a closed variable. -/
theorem Rel.setCell (h : Rel s a m) (c : Nat) (v w : Val A) (hc : s.cells[c]? = some (.closed w)) :
    Rel { s with cells := s.cells.set c (.closed v) } (a.assign (m c) v) m where
  vals := by
    have := (h.cells c _ hc).2
    rw [h.vals]
    simp only [Abs.assign]
    apply List.map_congr_left
    intro l hl
    rw [if_neg]; intro e; exact this (e ▸ hl)
  fresh := h.fresh
  nodup := h.nodup
  mlt := fun k hk => h.mlt k (by simpa using hk)
  cells := by
    intro k u hk
    have hlt := (List.getElem?_eq_some_iff.1 hc).1
    by_cases e : c = k
    · subst e
      simp only [List.getElem?_set_self hlt, Option.some.injEq] at hk
      subst hk
      exact ⟨by simp [Abs.assign], (h.cells c _ hc).2⟩
    · simp only [List.getElem?_set_ne e] at hk
      have := h.cells k u hk
      cases u with
      | opened i => exact this
      | closed x =>
        refine ⟨?_, this.2⟩
        simp only [Abs.assign]
        rw [if_neg]
        · exact this.1
        · intro e'; exact e (h.inj k c (List.getElem?_eq_some_iff.1 hk).1 hlt e').symm
  opens := by
    intro i k hi
    have := h.opens i k hi
    have hne : c ≠ k := by intro e; subst e; rw [hc] at this; cases this
    simp only [List.getElem?_set_ne hne]; exact this
  inj := fun x y hx hy => h.inj x y (by simpa using hx) (by simpa using hy)
  clos := h.clos
  env := fun k hk c hc => by have := h.env k hk c hc; simpa using this
  fp := h.fp
  globals := h.globals
  world := h.world

theorem Rel.captured (h : Rel s a m) (i : Nat) : a.captured i = (cellOf i s).map m ∧ ∀ c, cellOf i s = some c → c < s.cells.length := by
  unfold Abs.captured cellOf
  rw [h.fp, h.get, h.clos]
  cases hx : a.stack[s.fp - 1]? with
  | none => simp
  | some l =>
    simp only [Option.map_some]
    cases hv : a.store l with
    | atom _ => simp
    | func _ => simp
    | closure k =>
      simp only [List.getElem?_map]
      cases hk : s.closures[k]? with
      | none => simp
      | some cl =>
        simp only [Option.map_some, Option.bind_some, List.getElem?_map, true_and]
        intro c hc
        exact h.env cl (List.mem_of_getElem? hk) c (List.mem_of_getElem? hc)

/-- What a cell holds. -/
def cellVal (s : St A W) : UpVal A → Option (Val A)
  | .opened i => s.stack[i]?
  | .closed v => some v

/-- Reading a captured variable. -/
theorem Rel.read (h : Rel s a m) (c : Nat) (u : UpVal A) (hc : s.cells[c]? = some u) : cellVal s u = some (a.store (m c)) := by
  have := h.cells c u hc
  cases u with
  | opened i => simp only [cellVal, h.get, this.1, Option.map_some]
  | closed v => simp only [cellVal, this.1]

theorem Rel.addCell (h : Rel s a m) (c : Nat) (hc : c < s.cells.length) : RelR (E := E) (addCell c s) (a.capture (m c)) := by
  unfold VM.addCell Abs.capture
  rw [h.top]
  cases ht : a.top with
  | none => trivial
  | some v =>
    cases v with
    | atom _ => trivial
    | func _ => trivial
    | closure k =>
      have hl : a.closures.length = s.closures.length := by rw [h.clos]; simp
      simp only [hl]
      split
      · refine ⟨m, h.vals, h.fresh, h.nodup, h.mlt, h.cells, h.opens, h.inj, ?_, ?_, h.fp, h.globals, h.world⟩
        · simp only [h.clos]
          apply List.ext_getElem?
          intro j
          simp only [List.getElem?_modify, List.getElem?_map]
          cases s.closures[j]? with
          | none => rfl
          | some x => by_cases hkj : k = j <;> simp [hkj]
        · intro x hx d hd
          obtain ⟨j, hj⟩ := List.getElem?_of_mem hx
          simp only [List.getElem?_modify] at hj
          cases hs : s.closures[j]? with
          | none => rw [hs] at hj; simp at hj
          | some y =>
            rw [hs] at hj
            have hy := h.env y (List.mem_of_getElem? hs)
            by_cases hkj : k = j
            · simp [hkj] at hj
              subst hj
              rcases List.mem_append.1 hd with hd | hd
              · exact hy d hd
              · simp at hd; subst hd; exact hc
            · simp [hkj] at hj
              subst hj; exact hy d hd
      · trivial

/-- Capturing a variable that is not captured yet. -/
theorem Rel.newCell (h : Rel s a m) (slot l : Nat) (hs : a.stack[slot]? = some l) (ho : s.opens slot = none) :
    Rel { s with cells := s.cells ++ [.opened slot], opens := fun i => if i = slot then some s.cells.length else s.opens i } a
      (fun c => if c = s.cells.length then l else m c) where
  vals := h.vals
  fresh := h.fresh
  nodup := h.nodup
  mlt := by
    intro c hc
    simp only [List.length_append, List.length_singleton] at hc
    split
    · exact h.fresh l (List.mem_of_getElem? hs)
    · exact h.mlt c (by omega)
  cells := by
    intro c u hc
    by_cases e : c = s.cells.length
    · subst e
      simp at hc
      subst hc
      exact ⟨by simp [hs], by simp⟩
    · have hlt : c < s.cells.length := by
        have := (List.getElem?_eq_some_iff.1 hc).1
        simp at this; omega
      simp only [List.getElem?_append_left hlt] at hc
      have := h.cells c u hc
      simp only [if_neg e]
      cases u with
      | opened i =>
        refine ⟨this.1, ?_⟩
        simp only []
        rw [if_neg]
        · exact this.2
        · intro e'; subst e'; rw [this.2] at ho; cases ho
      | closed v => exact this
  opens := by
    intro i c hi
    simp only [] at hi
    split at hi
    · next e => cases hi; simp [e]
    · have := h.opens i c hi
      simp only []
      rw [List.getElem?_append_left (List.getElem?_eq_some_iff.1 this).1]; exact this
  inj := by
    intro c c' hc hc' e
    simp only [List.length_append, List.length_singleton] at hc hc'
    -- a cell that is there already stands for another variable
    have key : ∀ k, k < s.cells.length → m k ≠ l := by
      intro k hk ek
      have hck : s.cells[k]? = some s.cells[k] := List.getElem?_eq_getElem hk
      have := h.cells k _ hck
      cases hu : s.cells[k] with
      | opened i =>
        rw [hu] at this
        have h1 := List.getElem?_eq_some_iff.1 (ek ▸ this.1)
        have h2 := List.getElem?_eq_some_iff.1 hs
        have hi := (List.Nodup.getElem_inj_iff h.nodup).1 (h1.2.trans h2.2.symm)
        have h3 := this.2
        rw [hi, ho] at h3; cases h3
      | closed v =>
        rw [hu] at this
        exact this.2 (ek ▸ List.mem_of_getElem? hs)
    by_cases e1 : c = s.cells.length <;> by_cases e2 : c' = s.cells.length
    · omega
    · simp only [if_pos e1, if_neg e2] at e; exact absurd e.symm (key c' (by omega))
    · simp only [if_neg e1, if_pos e2] at e; exact absurd e (key c (by omega))
    · simp only [if_neg e1, if_neg e2] at e; exact h.inj c c' (by omega) (by omega) e
  clos := by
    rw [h.clos]
    apply List.map_congr_left
    intro k hk
    congr 1
    apply List.map_congr_left
    intro c hc
    have := h.env k hk c hc
    rw [if_neg (by omega)]
  env := fun k hk c hc => by have := h.env k hk c hc; simp; omega
  fp := h.fp
  globals := h.globals
  world := h.world

/-- Ending the scope of a captured variable. -/
theorem Rel.lift (h : Rel s a m) (slot l c : Nat) (hs : a.stack[slot]? = some l) (ho : s.opens slot = some c) :
    Rel { s with opens := fun i => if i = slot then none else s.opens i, cells := s.cells.set c (.closed (a.store l)) }
      { a with stack := a.stack.set slot a.next, store := fun k => if k = a.next then a.store l else a.store k, next := a.next + 1 } m := by
  have hc := h.opens slot c ho
  have hcl := (List.getElem?_eq_some_iff.1 hc).1
  have hm : m c = l := by
    have := (h.cells c _ hc).1
    rw [hs] at this; exact (Option.some.inj this).symm
  have hmem : l ∈ a.stack := List.mem_of_getElem? hs
  have hslot := (List.getElem?_eq_some_iff.1 hs).1
  have hln : l ∉ a.stack.set slot a.next := by
    intro hx
    obtain ⟨j, hj⟩ := List.getElem?_of_mem hx
    by_cases e : slot = j
    · subst e
      rw [List.getElem?_set_self hslot] at hj
      have := h.fresh l hmem
      simp at hj; omega
    · rw [List.getElem?_set_ne e] at hj
      have h1 := List.getElem?_eq_some_iff.1 hs
      have h2 := List.getElem?_eq_some_iff.1 hj
      exact e ((List.Nodup.getElem_inj_iff h.nodup).1 (h1.2.trans h2.2.symm))
  refine ⟨?_, ?_, ?_, ?_, ?_, ?_, ?_, h.clos, ?_, h.fp, h.globals, h.world⟩
  · rw [h.vals]
    simp only []
    apply List.ext_getElem?
    intro j
    simp only [List.getElem?_map]
    by_cases e : slot = j
    · subst e
      rw [List.getElem?_set_self hslot, hs]; simp
    · rw [List.getElem?_set_ne e]
      cases hj : a.stack[j]? with
      | none => rfl
      | some x =>
        have := h.fresh x (List.mem_of_getElem? hj)
        simp; omega
  · intro x hx
    rcases List.mem_or_eq_of_mem_set hx with hx | hx
    · have := h.fresh x hx; simp only []; omega
    · simp only []; omega
  · simp only []
    rw [List.nodup_iff_injective_getElem]
    intro ⟨x, hx⟩ ⟨y, hy⟩ e
    simp only [List.length_set] at hx hy
    simp only [List.getElem_set] at e
    have hf := fun z (hz : z < a.stack.length) => h.fresh _ (List.getElem_mem hz)
    by_cases e1 : slot = x <;> by_cases e2 : slot = y
    · simp; omega
    · simp only [e1, if_true] at e
      rw [if_neg (by omega)] at e
      have := hf y hy; omega
    · simp only [e2, if_true] at e
      rw [if_neg (by omega)] at e
      have := hf x hx; omega
    · simp only [e1, e2, if_false] at e
      have := (List.Nodup.getElem_inj_iff h.nodup).1 e
      simp; omega
  · intro k hk
    have := h.mlt k (by simpa using hk)
    simp only []; omega
  · intro k u hk
    simp only [] at hk
    by_cases e : c = k
    · subst e
      rw [List.getElem?_set_self hcl] at hk
      cases hk
      refine ⟨?_, by rw [hm]; exact hln⟩
      simp only [hm]
      have := h.fresh l hmem
      rw [if_neg (by omega)]
    · rw [List.getElem?_set_ne e] at hk
      have hkl := (List.getElem?_eq_some_iff.1 hk).1
      have := h.cells k u hk
      cases u with
      | opened i =>
        have hi : i ≠ slot := by
          intro e'; subst e'
          have := this.2; rw [ho] at this; exact e (Option.some.inj this)
        refine ⟨?_, ?_⟩
        · simp only []; rw [List.getElem?_set_ne (fun e => hi e.symm)]; exact this.1
        · simp only [if_neg hi]; exact this.2
      | closed v =>
        refine ⟨?_, ?_⟩
        · simp only []
          have := h.mlt k hkl
          rw [if_neg (by omega)]; exact (h.cells k _ hk).1
        · intro hx
          rcases List.mem_or_eq_of_mem_set hx with hx | hx
          · exact this.2 hx
          · have := h.mlt k hkl; omega
  · intro i k hi
    simp only [] at hi ⊢
    split at hi
    · cases hi
    · next hne =>
      have := h.opens i k hi
      have : c ≠ k := by
        intro e; subst e; rw [this] at hc; cases hc; exact hne rfl
      rw [List.getElem?_set_ne this]; exact h.opens i k hi
  · intro x y hx hy
    exact h.inj x y (by simpa using hx) (by simpa using hy)
  · intro k hk d hd
    have := h.env k hk d hd
    simpa using this

/-- Ending the scope of a variable that was not captured: its place gets a new location, which is not seen. -/
theorem Rel.lift_none (h : Rel s a m) (slot l : Nat) (hs : a.stack[slot]? = some l) (ho : s.opens slot = none) :
    Rel s { a with stack := a.stack.set slot a.next, store := fun k => if k = a.next then a.store l else a.store k, next := a.next + 1 } m := by
  have hmem : l ∈ a.stack := List.mem_of_getElem? hs
  have hslot := (List.getElem?_eq_some_iff.1 hs).1
  refine ⟨?_, ?_, ?_, ?_, ?_, h.opens, h.inj, h.clos, h.env, h.fp, h.globals, h.world⟩
  · rw [h.vals]
    simp only []
    apply List.ext_getElem?
    intro j
    simp only [List.getElem?_map]
    by_cases e : slot = j
    · subst e
      rw [List.getElem?_set_self hslot, hs]; simp
    · rw [List.getElem?_set_ne e]
      cases hj : a.stack[j]? with
      | none => rfl
      | some x =>
        have := h.fresh x (List.mem_of_getElem? hj)
        simp; omega
  · intro x hx
    rcases List.mem_or_eq_of_mem_set hx with hx | hx
    · have := h.fresh x hx; simp only []; omega
    · simp only []; omega
  · simp only []
    rw [List.nodup_iff_injective_getElem]
    intro ⟨x, hx⟩ ⟨y, hy⟩ e
    simp only [List.length_set] at hx hy
    simp only [List.getElem_set] at e
    have hf := fun z (hz : z < a.stack.length) => h.fresh _ (List.getElem_mem hz)
    by_cases e1 : slot = x <;> by_cases e2 : slot = y
    · simp; omega
    · simp only [e1, if_true] at e
      rw [if_neg (by omega)] at e
      have := hf y hy; omega
    · simp only [e2, if_true] at e
      rw [if_neg (by omega)] at e
      have := hf x hx; omega
    · simp only [e1, e2, if_false] at e
      have := (List.Nodup.getElem_inj_iff h.nodup).1 e
      simp; omega
  · intro k hk
    have := h.mlt k hk
    simp only []; omega
  · intro k u hk
    have hkl := (List.getElem?_eq_some_iff.1 hk).1
    have := h.cells k u hk
    cases u with
    | opened i =>
      have hi : i ≠ slot := by
        intro e'; subst e'
        have := this.2; rw [ho] at this; cases this
      refine ⟨?_, this.2⟩
      simp only []; rw [List.getElem?_set_ne (fun e => hi e.symm)]; exact this.1
    | closed v =>
      refine ⟨?_, ?_⟩
      · simp only []
        have := h.mlt k hkl
        rw [if_neg (by omega)]; exact (h.cells k _ hk).1
      · intro hx
        rcases List.mem_or_eq_of_mem_set hx with hx | hx
        · exact this.2 hx
        · have := h.mlt k hkl; omega

/-- Dropping all places from `n` on. -/
theorem Rel.take (h : Rel s a m) (n : Nat) (ho : ∀ j, n ≤ j → j < s.stack.length → s.opens j = none) :
    Rel { s with stack := s.stack.take n } { a with stack := a.stack.take n } m where
  vals := by simp [h.vals, List.map_take]
  fresh := fun l hl => h.fresh l (List.mem_of_mem_take hl)
  nodup := h.nodup.sublist (List.take_sublist _ _)
  mlt := h.mlt
  cells := by
    intro c u hc
    have := h.cells c u hc
    cases u with
    | opened i =>
      refine ⟨?_, this.2⟩
      have : i < n := by
        by_contra hn
        have h3 := this.2
        have h4 := (List.getElem?_eq_some_iff.1 this.1).1
        rw [ho i (by omega) (by rw [h.len]; exact h4)] at h3; cases h3
      simp only []
      rw [List.getElem?_take_of_lt this]; exact (h.cells c _ hc).1
    | closed w => exact ⟨this.1, fun hm => this.2 (List.mem_of_mem_take hm)⟩
  opens := h.opens
  inj := h.inj
  clos := h.clos
  env := h.env
  fp := h.fp
  globals := h.globals
  world := h.world

theorem Rel.pushAt (h : Rel s a m) (i : Nat) : RelR (E := E) (pushAt i s) (a.pushAt i) := by
  unfold VM.pushAt Abs.pushAt
  rw [h.get]
  cases a.stack[i]? with
  | none => trivial
  | some l => exact ⟨m, h.push _⟩

theorem Rel.storeAt (h : Rel s a m) (i : Nat) (v : Val A) : RelR (E := E) (storeAt i v s) (a.storeAt i v) := by
  unfold VM.storeAt Abs.storeAt
  cases hl : a.stack[i]? with
  | none =>
    have := List.getElem?_eq_none_iff.1 hl
    rw [if_neg (by rw [h.len]; omega)]; trivial
  | some l =>
    have := (List.getElem?_eq_some_iff.1 hl).1
    rw [if_pos (by rw [h.len]; omega)]
    exact ⟨m, h.set i l v hl⟩

theorem Rel.operand (h : Rel s a m) (p : Bool) (ho : p = true → s.opens (s.stack.length - 1) = none) :
    match operand p s, a.top with
    | some (v, s'), some v' => v' = v ∧ Rel s' (a.dropIf p) m ∧ s'.fp = s.fp ∧ s'.globals = s.globals
    | none, none => True
    | _, _ => False := by
  unfold VM.operand
  rw [h.top]
  cases ht : a.top with
  | none => trivial
  | some v =>
    cases p with
    | false => exact ⟨rfl, h, rfl, rfl⟩
    | true => exact ⟨rfl, h.dropLast (ho rfl), rfl, rfl⟩

theorem set_last (xs : List Nat) (f : Nat → Val A) (l : Nat) (v : Val A) (hl : xs.getLast? = some l) : (xs.map f).dropLast ++ [v] = (xs.map f).set (xs.length - 1) v := by
  have hne : xs ≠ [] := by intro e; subst e; simp at hl
  have e : xs.map f = (xs.map f).dropLast ++ [f (xs.getLast hne)] := by
    rw [← List.map_dropLast]
    conv => lhs; rw [← List.dropLast_concat_getLast hne]
    simp
  conv => rhs; rw [e]
  rw [List.set_append_right _ _ (by simp)]
  simp

theorem getLast_get (xs : List Nat) (l : Nat) (hl : xs.getLast? = some l) : xs[xs.length - 1]? = some l := by
  rw [List.getLast?_eq_getElem?] at hl; exact hl

theorem step_rel (e : Nat → E) (o : VOp A) (h : Rel s a m) (hs : Safe s o = true) : RelR (cstep e o s) (Abs.step e o a) := by
  cases o with
  | push v => exact ⟨m, h.push v⟩
  | pop =>
    simp only [cstep, Abs.step, VM.pop, Abs.pop]
    have hl := h.len
    by_cases he : a.stack = []
    · rw [if_pos he, if_pos (by rw [h.vals, he]; rfl)]; trivial
    · rw [if_neg he, if_neg (by rw [h.vals]; simpa using he)]
      exact ⟨m, h.dropLast (Option.isNone_iff_eq_none.1 hs)⟩
  | swap =>
    simp only [cstep, Abs.step, VM.swap]
    rw [h.get, h.get, h.len]
    cases hx : a.stack[a.stack.length - 1]? with
    | none => trivial
    | some x =>
      cases hy : a.stack[a.stack.length - 2]? with
      | none => trivial
      | some y =>
        simp only [Option.map_some]
        split
        · refine ⟨m, ?_⟩
          have h1 := h.set _ x (a.store y) hx
          have h2 := h1.set (a.stack.length - 2) y (a.store x) (by simpa [Abs.assign] using hy)
          exact h2
        · trivial
  | pushLocal i =>
    simp only [cstep, Abs.step, VM.pushLocal, h.fp]; exact h.pushAt _
  | storeLocal i p =>
    simp only [cstep, Abs.step, VM.storeLocal]
    have ho := h.operand p (fun e => by subst e; exact Option.isNone_iff_eq_none.1 hs)
    revert ho
    cases operand p s with
    | none => cases a.top with
      | none => intro _; trivial
      | some _ => intro ho; exact ho.elim
    | some q =>
      obtain ⟨v, s'⟩ := q
      cases a.top with
      | none => intro ho; exact ho.elim
      | some v' =>
        intro ⟨h1, h2, h3, _⟩
        subst h1
        simp only [h3, h.fp]
        exact h2.storeAt _ _
  | pushGlobal i =>
    simp only [cstep, Abs.step, VM.pushGlobal, h.globals]
    split
    · exact h.pushAt _
    · exact ⟨rfl, m, h⟩
  | storeGlobal i p =>
    simp only [cstep, Abs.step, VM.storeGlobal]
    have ho := h.operand p (fun e => by subst e; exact Option.isNone_iff_eq_none.1 hs)
    revert ho
    cases operand p s with
    | none => cases a.top with
      | none => intro _; trivial
      | some _ => intro ho; exact ho.elim
    | some q =>
      obtain ⟨v, s'⟩ := q
      cases a.top with
      | none => intro ho; exact ho.elim
      | some v' =>
        intro ⟨h1, h2, _, h4⟩
        subst h1
        simp only [h4, h.globals]
        split
        · exact h2.storeAt _ _
        · exact ⟨rfl, m, h2⟩
  | pushUp i =>
    simp only [cstep, Abs.step, VM.pushUp]
    obtain ⟨hc, hlt⟩ := h.captured i
    rw [hc]
    cases hcc : cellOf i s with
    | none => trivial
    | some c =>
      have hu : s.cells[c]? = some (s.cells[c]'(hlt c hcc)) := List.getElem?_eq_getElem _
      have hr := h.read c _ hu
      simp only [Option.map_some, hu]
      cases hv : s.cells[c]'(hlt c hcc) with
      | opened j =>
        rw [hv] at hr
        simp only [cellVal] at hr
        simp only [VM.pushAt, hr]
        exact ⟨m, h.push _⟩
      | closed v =>
        rw [hv] at hr
        simp only [cellVal, Option.some.injEq] at hr
        simp only [hr]
        exact ⟨m, h.push _⟩
  | storeUp i =>
    simp only [cstep, Abs.step, VM.storeUp]
    obtain ⟨hc, hlt⟩ := h.captured i
    rw [hc, h.top]
    cases a.top with
    | none => trivial
    | some v =>
      cases hcc : cellOf i s with
      | none => trivial
      | some c =>
        have hu : s.cells[c]? = some (s.cells[c]'(hlt c hcc)) := List.getElem?_eq_getElem _
        simp only [Option.map_some, hu]
        cases hv : s.cells[c]'(hlt c hcc) with
        | opened j =>
          rw [hv] at hu
          have hk := (h.cells c _ hu).1
          have := h.storeAt (E := E) j v
          rw [Abs.storeAt, hk] at this
          exact this
        | closed w =>
          rw [hv] at hu
          exact ⟨m, h.setCell c v w hu⟩
  | initGlobal =>
    refine ⟨m, h.vals, h.fresh, h.nodup, h.mlt, h.cells, h.opens, h.inj, h.clos, h.env, h.fp, ?_, h.world⟩
    simp [h.globals]
  | mkClosure =>
    simp only [cstep, Abs.step, VM.mkClosure, h.top, Abs.top]
    cases hl : a.stack.getLast? with
    | none => trivial
    | some l =>
      simp only [Option.map_some]
      cases hv : a.store l with
      | atom _ => trivial
      | closure _ => trivial
      | func f =>
        have hg := getLast_get _ _ hl
        have h1 := h.set _ l (.closure s.closures.length) hg
        have hcl : a.closures.length = s.closures.length := by rw [h.clos]; simp
        refine ⟨m, ?_, h1.fresh, h1.nodup, h1.mlt, ?_, h1.opens, h1.inj, ?_, ?_, h1.fp, h1.globals, h1.world⟩
        · simp only [hcl]
          rw [← h1.vals, h.vals, set_last _ _ _ _ hl]
        · intro c u hc
          have := h1.cells c u hc
          rw [hcl]
          cases u with
          | opened i => exact this
          | closed v => exact this
        · simp [Abs.assign, h.clos]
        · intro k hk c hc
          simp only [List.mem_append, List.mem_singleton] at hk
          rcases hk with hk | rfl
          · exact h.env k hk c hc
          · simp at hc
  | closeLocal i =>
    simp only [cstep, Abs.step, VM.closeLocal, h.fp]
    have hs' : s.fp + i < a.stack.length := by rw [← h.len]; exact of_decide_eq_true hs
    have hl : a.stack[s.fp + i]? = some (a.stack[s.fp + i]'hs') := List.getElem?_eq_getElem _
    rw [hl]
    cases ho : s.opens (s.fp + i) with
    | some c =>
      have hc := h.opens _ _ ho
      have hm := (h.cells c _ hc).1
      rw [hl] at hm
      simp only [Option.some.injEq] at hm
      simp only [hm]
      exact h.addCell c (List.getElem?_eq_some_iff.1 hc).1
    | none =>
      have h1 := h.newCell _ _ hl ho
      have := h1.addCell (E := E) s.cells.length (by simp)
      simp only [if_true] at this
      exact this
  | closeUp i =>
    simp only [cstep, Abs.step, VM.closeUp]
    obtain ⟨hc, hlt⟩ := h.captured i
    rw [hc]
    cases hcc : cellOf i s with
    | none => trivial
    | some c => exact h.addCell c (hlt c hcc)
  | lift i =>
    simp only [cstep, Abs.step, VM.lift, h.fp]
    cases ho : s.opens (s.fp + i) with
    | none =>
      cases hl : a.stack[s.fp + i]? with
      | none => exact ⟨m, h⟩
      | some l => have := h.lift_none _ l hl ho; simp only [h.fp] at this; exact ⟨m, this⟩
    | some c =>
      have hc := h.opens _ _ ho
      have hl := (h.cells c _ hc).1
      simp only [h.get, hl, Option.map_some, hc]
      have := h.lift _ _ c hl ho
      simp only [h.fp] at this; exact ⟨m, this⟩
  | frame fp => exact ⟨m, h.vals, h.fresh, h.nodup, h.mlt, h.cells, h.opens, h.inj, h.clos, h.env, rfl, h.globals, h.world⟩
  | ret fp =>
    replace hs : ∀ j, s.fp - 1 ≤ j → j < s.stack.length → s.opens j = none := by
      intro j h1 h2
      have := List.all_eq_true.1 hs j (List.mem_range.2 h2)
      simp only [Bool.or_eq_true, decide_eq_true_eq] at this
      rcases this with h3 | h3
      · omega
      · exact Option.isNone_iff_eq_none.1 h3
    simp only [cstep, Abs.step, VM.ret, h.fp, h.len]
    by_cases hp : s.fp = 0 ∨ a.stack.length < s.fp
    · rw [if_pos hp, if_pos hp]; trivial
    · rw [if_neg hp, if_neg hp]
      simp only [not_or, Nat.not_lt] at hp
      obtain ⟨hp1, hp2⟩ := hp
      have hne : a.stack ≠ [] := by intro e; rw [e] at hp2; simp at hp2; omega
      have ht : a.top = some (a.store (a.stack.getLast hne)) := by
        unfold Abs.top; rw [List.getLast?_eq_some_getLast hne]; rfl
      have hsr := h.top
      rw [ht] at hsr
      have hw : ∀ {s' : St A W} {a' : Abs A W}, Rel s' a' m → Rel { s' with fp := fp } { a' with fp := fp } m := fun h =>
        ⟨h.vals, h.fresh, h.nodup, h.mlt, h.cells, h.opens, h.inj, h.clos, h.env, rfl, h.globals, h.world⟩
      by_cases hq : s.fp = a.stack.length
      · rw [if_pos hq]
        have e1 : (swapRemove s.stack (s.fp - 1)).take s.fp = s.stack.dropLast := by
          unfold swapRemove
          simp only [hsr]
          rw [if_pos (by rw [h.len]; omega), List.take_of_length_le (by simp [h.len]; omega)]
        rw [e1]
        exact ⟨m, hw (h.dropLast (hs _ (by rw [h.len]; omega) (by rw [h.len]; omega)))⟩
      · rw [if_neg hq, ht]
        have e1 : (swapRemove s.stack (s.fp - 1)).take s.fp = s.stack.take (s.fp - 1) ++ [a.store (a.stack.getLast hne)] := by
          unfold swapRemove
          simp only [hsr]
          rw [if_neg (by rw [h.len]; omega)]
          have hlen := h.len
          apply List.ext_getElem?
          intro j
          by_cases hj : j < s.fp - 1
          · rw [List.getElem?_take_of_lt (by omega), List.getElem?_set_ne (by omega), List.getElem?_append_left (by simp; omega),
              List.getElem?_take_of_lt hj, List.getElem?_dropLast, if_pos (by omega)]
          · by_cases hj' : j = s.fp - 1
            · subst hj'
              rw [List.getElem?_take_of_lt (by omega), List.getElem?_set_self (by simp; omega), List.getElem?_append_right (by simp; omega)]
              simp [Nat.min_eq_left (by omega : s.fp - 1 ≤ s.stack.length)]
            · rw [List.getElem?_eq_none (by simp; omega), List.getElem?_eq_none (by simp; omega)]
        rw [e1]
        have h1 := h.take (s.fp - 1) hs
        have h2 := h1.push (a.store (a.stack.getLast hne))
        simp only [h.fp]
        exact ⟨m, hw h2⟩

theorem run_rel (e : Nat → E) : ∀ (os : List (VOp A)) (s : St A W) (a : Abs A W) (m : Nat → Nat), Rel s a m → SafeRun e os s = true → RelR (crun e os s) (arun e os a)
  | [], s, a, m, h, _ => ⟨m, h⟩
  | o :: os, s, a, m, h, hs => by
    rw [SafeRun, Bool.and_eq_true] at hs
    obtain ⟨hs1, hs2⟩ := hs
    have h1 := step_rel e o h hs1
    rw [crun, arun]
    cases hc : cstep e o s with
    | ok s' =>
      rw [hc] at h1
      cases ha : Abs.step e o a with
      | ok a' =>
        rw [ha] at h1
        obtain ⟨m', h1⟩ := h1
        exact run_rel e os s' a' m' h1 (by rw [hc] at hs2; exact hs2)
      | err _ _ => rw [ha] at h1; exact h1.elim
      | panic => rw [ha] at h1; exact h1.elim
    | err x s' =>
      rw [hc] at h1
      cases ha : Abs.step e o a with
      | ok a' => rw [ha] at h1; exact h1.elim
      | err _ _ => rw [ha] at h1; exact h1
      | panic => rw [ha] at h1; exact h1.elim
    | panic =>
      rw [hc] at h1
      cases ha : Abs.step e o a with
      | ok a' => rw [ha] at h1; exact h1.elim
      | err _ _ => rw [ha] at h1; exact h1.elim
      | panic => trivial

/-- The machine at the start of a program, and the machine with variables. -/
def St.init (w : W) : St A W := ⟨[], 0, 0, fun _ => none, [], [], w⟩
def Abs.init (d : Val A) (w : W) : Abs A W := ⟨[], fun _ => d, 0, 0, 0, [], w⟩

theorem init_rel (d : Val A) (w : W) : Rel (St.init w) (Abs.init d w) id where
  vals := rfl
  fresh := by simp [Abs.init]
  nodup := by simp [Abs.init]
  mlt := by simp [St.init]
  cells := by simp [St.init]
  opens := by simp [St.init]
  inj := by simp [St.init]
  clos := rfl
  env := by simp [St.init]
  fp := rfl
  globals := rfl
  world := rfl

/-- **C43** for every sequence of operations in which captured variables are lifted before their place goes away, the machine with its
stack slots and open and closed cells behaves exactly as the machine in which closures capture variables: the same values on the stack,
the same errors, the same panics. -/
theorem C43_closures_capture_variables (e : Nat → E) (os : List (VOp A)) (d : Val A) (w : W) (h : SafeRun e os (St.init w) = true) :
    seenC (crun e os (St.init w)) = seenA (arun e os (Abs.init d w)) := by
  have h := run_rel e os _ _ _ (init_rel d w) h
  revert h
  cases crun e os (St.init w) with
  | ok s =>
    cases arun e os (Abs.init d w) with
    | ok a => intro ⟨m, h⟩; simp only [seenC, seenA, h.vals, h.globals, h.world]
    | err _ _ => intro h; exact h.elim
    | panic => intro h; exact h.elim
  | err x s =>
    cases arun e os (Abs.init d w) with
    | ok a => intro h; exact h.elim
    | err y a => intro ⟨h1, m, h⟩; subst h1; simp only [seenC, seenA, h.vals, h.world]
    | panic => intro h; exact h.elim
  | panic =>
    cases arun e os (Abs.init d w) with
    | ok a => intro h; exact h.elim
    | err _ _ => intro h; exact h.elim
    | panic => intro _; rfl

/-- A scope with the variable `1` in place 0: two closures capture it, the scope assigns it `2`, the first closure is called, sees that and
assigns `3`, the scope ends, the second closure is called: it sees `3`. -/
def exampleOps : List (VOp Nat) :=
  [.push (.atom 1),
   .push (.func 10), .mkClosure, .closeLocal 0, .push (.func 11), .mkClosure, .closeLocal 0,
   .push (.atom 2), .storeLocal 0 false, .pop,
   .pushLocal 1, .frame 4, .pushUp 0, .push (.atom 3), .storeUp 0, .ret 0,
   .lift 0,
   .push (.atom 9), .storeLocal 0 false, .pop,
   .pushLocal 2, .frame 5, .pushUp 0, .ret 0]

example : seenC (crun id exampleOps (St.init ())) = .ok [.atom 9, .closure 0, .closure 1, .atom 3, .atom 3] 0 () := by rfl

example : SafeRun (E := Nat) id exampleOps (St.init ()) = true := by rfl

end Cordy.VM
