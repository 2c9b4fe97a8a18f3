import Verif.Model.Pattern
/-!
# C39: destructuring
-/
namespace Cordy.Pattern

/-! ## Specification -/

/-- The elements of a sequence: those of a list or vector, or the characters of a string (of ASCII characters). -/
def elems (h : List Obj) : HV → Option (List HV)
  | .str s => if ∀ c ∈ s, c.utf8Size = 1 then some (s.map fun c => .str [c]) else none
  | .ref a => match h[a]? with
    | some (.list xs) | some (.vector xs) => some xs
    | _ => none
  | _ => none

/-- The part of a sequence with the elements from `lo` until `hi`, as a new value of the same kind. -/
def part (h : List Obj) (v : HV) (lo hi : Nat) : HV × List Obj :=
  match v with
  | .str s => (.str ((s.take hi).drop lo), h)
  | .ref a => match h[a]? with
    | some (.list xs) => (.ref h.length, h ++ [.list ((xs.take hi).drop lo)])
    | some (.vector xs) => (.ref h.length, h ++ [.vector ((xs.take hi).drop lo)])
    | _ => (v, h)
  | _ => (v, h)

inductive R where
  | ok (st : St)
  | err (e : Err) (st : St)

def R.bind (r : R) (k : St → R) : R :=
  match r with
  | .ok st => k st
  | .err e st => .err e st

def setVar (x : Nat) (v : HV) (st : St) : R :=
  if st.declared x then .ok { st with vars := fun y => if y = x then v else st.vars y } else .err .notDeclaredYet st

def update (r : Res (List Obj)) (st : St) : R :=
  match r with
  | .ok h => .ok { st with heap := h }
  | .error e => .err e st

/-- Term `j` of `m` terms gets element `j`, or, after a `*`, the element as far from the end. -/
def position (m n j : Nat) (afterStar : Bool) : Nat := if afterStar then n + j - m else j

/-- What happens for term `j`, after the terms to the right of it: `_` is skipped, `*` gets the middle part, and other targets the element at their position (`k`). -/
def assignTerm (m n j : Nat) (afterStar : Bool) (v : HV) (st : St) (t : LV) (k : HV → R) : R :=
  match t with
  | .empty | .starEmpty => .ok st
  | .star x => let p := part st.heap v j (n + (j + 1) - m); setVar x p.1 { st with heap := p.2 }
  | _ => match ((elems st.heap v).getD [])[position m n j afterStar]? with
    | some e => k e
    | none => .err .panic st

mutual
/-- What a pattern means (docs/language.md:551-600): the length must fit, then the elements are assigned, from right to left. -/
def assign (v : HV) (st : St) : LV → R
  | .empty | .starEmpty | .star _ => .ok st
  | .var x => setVar x v st
  | .arr a i => update (setIndex st.heap a i v) st
  | .field a f => update (setField st.heap a f v) st
  | .terms ts =>
    match elems st.heap v with
    | none => .err .argIterable st
    | some xs =>
      if ts.anyStar then (if xs.length + 1 < ts.length then .err .unpackGreater st else assignTerms ts.length xs.length 0 false v st ts)
      else (if ts.length ≠ xs.length then .err .unpackEqual st else assignTerms ts.length xs.length 0 false v st ts)
def assignTerms (m n j : Nat) (afterStar : Bool) (v : HV) (st : St) : LVs → R
  | .nil => .ok st
  | .cons t ts => (assignTerms m n (j + 1) (afterStar || t.isStar) v st ts).bind fun st => assignTerm m n j afterStar v st t fun e => assign e st t
end

mutual
/-- At most one `*` in each list of targets. -/
def LV.oneStar : LV → Bool
  | .terms ts => ts.oneStar
  | _ => true
def LVs.oneStar : LVs → Bool
  | .nil => true
  | .cons t ts => t.oneStar && ts.oneStar && !(t.isStar && ts.anyStar)
end

/-- Values that are no sequence have no length; the strings are ASCII. -/
def PlainV : HV → Prop
  | .str s => (∀ c ∈ s, c.utf8Size = 1) ∧ s.length < 2 ^ 63
  | .other _ len => len = none
  | _ => True

def PlainO : Obj → Prop
  | .list xs | .vector xs => (∀ v ∈ xs, PlainV v) ∧ xs.length < 2 ^ 63
  | .dict _ => False
  | .struct fs => ∀ p ∈ fs, PlainV p.2

def PlainH (h : List Obj) : Prop := ∀ o ∈ h, PlainO o

/-! ## Reading -/

theorem byteLen_ascii {s : List Char} (h : ∀ c ∈ s, c.utf8Size = 1) : byteLen s = s.length := by
  induction s with
  | nil => rfl
  | cons c s ih =>
    have h1 := ih (fun c hc => h c (by simp [hc]))
    have h2 := h c (by simp)
    simp only [byteLen, List.map_cons, List.sum_cons, List.length_cons] at *
    omega

theorem checkIndex_eq {n : Nat} {i : Int} {k : Nat} (hn : n < 2 ^ 63) (hk : k < n) (h : toIndex n i = k) : checkIndex n (.int i) = .ok k := by
  have h64 : (k : Int) % 2 ^ 64 = k := Int.emod_eq_of_lt (by omega) (by omega)
  simp only [checkIndex, asInt, bind, Except.bind, h, asUsize, h64, Int.toNat_natCast, hk, if_true]

theorem getIndex_eq {h : List Obj} {v : HV} {xs : List HV} {i : Int} {k : Nat} {e : HV} (he : elems h v = some xs) (hn : xs.length < 2 ^ 63) (hi : toIndex xs.length i = k)
    (hk : xs[k]? = some e) : getIndex h v i = .ok e := by
  have hlt : k < xs.length := (List.getElem?_eq_some_iff.mp hk).1
  cases v with
  | int | other => simp [elems] at he
  | str s =>
    simp only [elems] at he
    split at he
    · rename_i ha
      simp only [Option.some.injEq] at he
      subst he
      simp only [List.length_map] at hn hi hlt
      simp only [getIndex, byteLen_ascii ha, checkIndex_eq hn hlt hi, bind, Except.bind]
      simp only [List.getElem?_map] at hk
      cases hs : s[k]? with
      | none => simp [hs] at hk
      | some c => simp [hs] at hk; subst hk; rfl
    · simp at he
  | ref a =>
    simp only [elems] at he
    simp only [getIndex]
    split at he <;> simp only [Option.some.injEq, reduceCtorEq] at he <;> subst he <;> rename_i ho <;>
      simp only [ho, checkIndex_eq hn hlt hi, bind, Except.bind, hk]

theorem accept_ok {α : Type} {xs : List α} {k : Nat} {e : α} (hk : xs[k]? = some e) (out : List α) : accept xs.length xs out (k : Int) = .ok (out ++ [e]) := by
  have hlt : k < xs.length := (List.getElem?_eq_some_iff.mp hk).1
  simp only [accept]
  rw [if_pos (by omega)]
  simp [hk]

theorem upRange_accept {α : Type} (xs : List α) (d a : Nat) (out : List α) (h : a + d ≤ xs.length) :
    (upRange a ((a + d : Nat) : Int) 1).foldlM (accept xs.length xs) out = .ok (out ++ (xs.take (a + d)).drop a) := by
  induction d generalizing a out with
  | zero =>
    rw [upRange, dif_neg (by omega)]
    have e : ((xs.take (a + 0)).drop a) = [] := List.drop_eq_nil_of_le (by simp; omega)
    simp only [List.foldlM_nil, e, List.append_nil]; rfl
  | succ d ih =>
    obtain ⟨e, he⟩ : ∃ e, xs[a]? = some e := ⟨xs[a], List.getElem?_eq_getElem (by omega)⟩
    rw [upRange, dif_pos (by omega)]
    simp only [List.foldlM_cons, accept_ok he, bind, Except.bind]
    have h1 := ih (a + 1) (out ++ [e]) (by omega)
    have e1 : ((a + 1 + d : Nat) : Int) = ((a + (d + 1) : Nat) : Int) := by omega
    have e2 : ((a : Int) + (1 : Nat)) = ((a + 1 : Nat) : Int) := by omega
    rw [e1] at h1
    rw [e2, h1]
    congr 1
    have e3 : (xs.take (a + (d + 1))).drop a = e :: (xs.take (a + (d + 1))).drop (a + 1) := by
      have hl : a < (xs.take (a + (d + 1))).length := by simp; omega
      rw [List.drop_eq_getElem_cons hl]
      congr 1
      simp only [List.getElem_take]
      exact (List.getElem?_eq_some_iff.mp he).2
    rw [e3, show a + (d + 1) = a + 1 + d by omega]
    simp

theorem sliceCore_eq {α : Type} (xs : List α) (a b : Nat) (hi : Int) (hab : a ≤ b) (hb : b ≤ xs.length) (hh : hi ≤ 0) (he : (xs.length : Int) + hi = b) :
    sliceCore xs.length xs (.int a) (highOf hi) (.int 1) = .ok ((xs.take b).drop a) := by
  obtain ⟨d, rfl⟩ := Nat.exists_eq_add_of_le hab
  have hs : toIndex xs.length a = a := by simp [toIndex]
  have hu : ∃ u, unwrapOr (highOf hi) (xs.length : Int) = .ok u ∧ toIndex xs.length u = ((a + d : Nat) : Int) := by
    by_cases h0 : hi = 0
    · refine ⟨xs.length, by simp [highOf, h0, unwrapOr], ?_⟩
      simp only [toIndex]; split <;> omega
    · refine ⟨hi, by simp [highOf, h0, unwrapOr], ?_⟩
      simp only [toIndex]; rw [if_neg (by omega)]; omega
  obtain ⟨u, hu1, hu2⟩ := hu
  have := upRange_accept xs d a [] (by omega)
  simp only [List.nil_append] at this
  have w : ∀ (i d : Int), unwrapOr (.int i) d = .ok i := fun _ _ => rfl
  simp only [sliceCore, w, bind, Except.bind]
  rw [if_neg (by decide), if_pos (by decide)]
  simp only [hs, hu1, hu2]
  rw [if_pos (by decide)]
  exact this

theorem getSlice_eq {h : List Obj} {v : HV} {xs : List HV} {a b : Nat} {hi : Int} (he : elems h v = some xs) (hab : a ≤ b) (hb : b ≤ xs.length) (hh : hi ≤ 0) (e : (xs.length : Int) + hi = b) :
    getSlice h v a hi = .ok (part h v a b) := by
  cases v with
  | int | other => simp [elems] at he
  | str s =>
    simp only [elems] at he
    split at he
    · rename_i ha
      simp only [Option.some.injEq] at he
      subst he
      simp only [List.length_map] at hb e
      simp only [getSlice, byteLen_ascii ha, sliceCore_eq s a b hi hab hb hh e, bind, Except.bind, part]
    · simp at he
  | ref a' =>
    simp only [elems] at he
    simp only [getSlice, part]
    split at he <;> simp only [Option.some.injEq, reduceCtorEq] at he <;> subst he <;> rename_i ho <;>
      simp only [ho, sliceCore_eq _ a b hi hab hb hh e, bind, Except.bind]

/-! ## Effects on the heap -/

/-- Every sequence keeps its length, and everything stays plain. -/
def Keeps (h h' : List Obj) : Prop := (PlainH h → PlainH h') ∧ ∀ v xs, elems h v = some xs → ∃ xs', elems h' v = some xs' ∧ xs'.length = xs.length

theorem Keeps.refl (h : List Obj) : Keeps h h := ⟨id, fun _ xs hx => ⟨xs, hx, rfl⟩⟩
theorem Keeps.trans {a b c : List Obj} (h1 : Keeps a b) (h2 : Keeps b c) : Keeps a c :=
  ⟨h2.1 ∘ h1.1, fun v xs hx => by
    obtain ⟨ys, hy, e1⟩ := h1.2 v xs hx
    obtain ⟨zs, hz, e2⟩ := h2.2 v ys hy
    exact ⟨zs, hz, e2.trans e1⟩⟩

theorem elems_append {h l : List Obj} {v : HV} {xs : List HV} (hx : elems h v = some xs) : elems (h ++ l) v = some xs := by
  cases v with
  | int | other => simp [elems] at hx
  | str => exact hx
  | ref a =>
    simp only [elems] at hx ⊢
    cases ha : h[a]? with
    | none => simp [ha] at hx
    | some o =>
      have : (h ++ l)[a]? = some o := by
        rw [List.getElem?_append_left (List.getElem?_eq_some_iff.mp ha).1]; exact ha
      rw [this]; rw [ha] at hx; exact hx

theorem elems_plain {h : List Obj} {v : HV} {xs : List HV} (hp : PlainH h) (hv : PlainV v) (hx : elems h v = some xs) : (∀ e ∈ xs, PlainV e) ∧ xs.length < 2 ^ 63 := by
  cases v with
  | int | other => simp [elems] at hx
  | str s =>
    simp only [PlainV] at hv
    simp only [elems] at hx
    rw [if_pos hv.1] at hx
    simp only [Option.some.injEq] at hx
    subst hx
    refine ⟨fun e he => ?_, by simpa using hv.2⟩
    obtain ⟨c, hc, rfl⟩ := List.mem_map.mp he
    refine ⟨fun c' hc' => ?_, by simp⟩
    simp only [List.mem_singleton] at hc'
    subst hc'; exact hv.1 _ hc
  | ref a =>
    simp only [elems] at hx
    split at hx <;> simp only [Option.some.injEq, reduceCtorEq] at hx <;> subst hx <;> rename_i ho <;> exact hp _ (List.mem_of_getElem? ho)

theorem part_heap {h : List Obj} {v : HV} (hv : PlainV v) (a b : Nat) : Keeps h (part h v a b).2 ∧ (PlainH h → PlainV (part h v a b).1) := by
  have hlen : ∀ (xs : List HV), ((xs.take b).drop a).length ≤ xs.length := fun xs => by simp; omega
  have hmem : ∀ (xs : List HV) (e : HV), e ∈ (xs.take b).drop a → e ∈ xs := fun xs e he => List.mem_of_mem_take (List.mem_of_mem_drop he)
  cases v with
  | int | other => exact ⟨Keeps.refl h, fun _ => hv⟩
  | str s =>
    refine ⟨Keeps.refl h, fun _ => ⟨fun c hc => hv.1 c (List.mem_of_mem_take (List.mem_of_mem_drop hc)), ?_⟩⟩
    have := hv.2
    simp only [List.length_drop, List.length_take]
    omega
  | ref i =>
    simp only [part]
    split
    · rename_i xs ho
      refine ⟨⟨fun hp o hm => ?_, fun v ys hy => ⟨ys, elems_append hy, rfl⟩⟩, fun _ => trivial⟩
      rcases List.mem_append.mp hm with hm | hm
      · exact hp o hm
      · simp only [List.mem_singleton] at hm; subst hm
        have := hp _ (List.mem_of_getElem? ho)
        exact ⟨fun e he => this.1 e (hmem xs e he), Nat.lt_of_le_of_lt (hlen xs) this.2⟩
    · rename_i xs ho
      refine ⟨⟨fun hp o hm => ?_, fun v ys hy => ⟨ys, elems_append hy, rfl⟩⟩, fun _ => trivial⟩
      rcases List.mem_append.mp hm with hm | hm
      · exact hp o hm
      · simp only [List.mem_singleton] at hm; subst hm
        have := hp _ (List.mem_of_getElem? ho)
        exact ⟨fun e he => this.1 e (hmem xs e he), Nat.lt_of_le_of_lt (hlen xs) this.2⟩
    · exact ⟨Keeps.refl h, fun _ => trivial⟩

theorem keeps_set {h : List Obj} {a : Nat} {o o' : Obj} (ho : h[a]? = some o) (hp : PlainO o → PlainO o')
    (hl : match o with
      | .list xs => ∃ ys, o' = .list ys ∧ ys.length = xs.length
      | .vector xs => ∃ ys, o' = .vector ys ∧ ys.length = xs.length
      | _ => True) : Keeps h (h.set a o') := by
  refine ⟨fun hh x hx => ?_, fun v xs hx => ?_⟩
  · rcases List.mem_or_eq_of_mem_set hx with h1 | rfl
    · exact hh x h1
    · exact hp (hh o (List.mem_of_getElem? ho))
  · cases v with
    | int | other => simp [elems] at hx
    | str => exact ⟨xs, hx, rfl⟩
    | ref i =>
      by_cases hi : a = i
      · subst hi
        have hlt := (List.getElem?_eq_some_iff.mp ho).1
        simp only [elems, ho] at hx
        simp only [elems, List.getElem?_set_self hlt]
        cases o <;> simp only [reduceCtorEq, Option.some.injEq] at hx hl
        · obtain ⟨ys, rfl, e⟩ := hl; subst hx; exact ⟨ys, rfl, e⟩
        · obtain ⟨ys, rfl, e⟩ := hl; subst hx; exact ⟨ys, rfl, e⟩
      · simp only [elems, List.getElem?_set_ne hi] at hx ⊢
        exact ⟨xs, hx, rfl⟩

theorem plain_set {xs : List HV} {k : Nat} {v : HV} (hv : PlainV v) (h : (∀ v ∈ xs, PlainV v) ∧ xs.length < 2 ^ 63) : (∀ e ∈ xs.set k v, PlainV e) ∧ (xs.set k v).length < 2 ^ 63 := by
  refine ⟨fun e he => ?_, by rw [List.length_set]; exact h.2⟩
  rcases List.mem_or_eq_of_mem_set he with h1 | rfl
  · exact h.1 e h1
  · exact hv

theorem setIndex_keeps {h h' : List Obj} {a i v : HV} (hv : PlainV v) (he : setIndex h a i v = .ok h') : Keeps h h' := by
  cases a with
  | int | other => simp [setIndex] at he
  | str s =>
    simp only [setIndex, bind, Except.bind] at he
    split at he <;> simp at he
  | ref a =>
    simp only [setIndex, bind, Except.bind] at he
    split at he
    · rename_i es ho
      simp only [Except.ok.injEq] at he
      subst he
      exact keeps_set ho (fun hp => hp) trivial
    · rename_i xs ho
      split at he
      · simp at he
      · simp only [Except.ok.injEq] at he
        subst he
        exact keeps_set ho (plain_set hv) ⟨_, rfl, List.length_set⟩
    · rename_i xs ho
      split at he
      · simp at he
      · simp only [Except.ok.injEq] at he
        subst he
        exact keeps_set ho (plain_set hv) ⟨_, rfl, List.length_set⟩
    · simp at he

theorem setField_keeps {h h' : List Obj} {a : HV} {f : Nat} {v : HV} (hv : PlainV v) (he : setField h a f v = .ok h') : Keeps h h' := by
  cases a with
  | int | other | str => simp [setField] at he
  | ref a =>
    simp only [setField] at he
    split at he
    · rename_i fs ho
      split at he
      · simp only [Except.ok.injEq] at he
        subst he
        refine keeps_set ho (fun hp p hm => ?_) trivial
        obtain ⟨q, hq, rfl⟩ := List.mem_map.mp hm
        split
        · exact hv
        · exact hp q hq
      · simp at he
    · simp at he

theorem setVar_heap {x : Nat} {v : HV} {st st' : St} (h : setVar x v st = .ok st') : st'.heap = st.heap := by
  unfold setVar at h
  split at h <;> simp only [R.ok.injEq, reduceCtorEq] at h
  subst h; rfl

theorem update_heap {r : Res (List Obj)} {st st' : St} (h : update r st = .ok st') : r = .ok st'.heap := by
  unfold update at h
  split at h <;> simp only [R.ok.injEq, reduceCtorEq] at h
  subst h; rfl

theorem bind_ok {r : R} {k : St → R} {st : St} (h : r.bind k = .ok st) : ∃ st1, r = .ok st1 ∧ k st1 = .ok st := by
  cases r with
  | ok st1 => exact ⟨st1, rfl, h⟩
  | err => simp [R.bind] at h

theorem assignTerm_ok {m n j : Nat} {s : Bool} {v : HV} {st st' : St} {t : LV} {k : HV → R} (h : assignTerm m n j s v st t k = .ok st') :
    st' = st ∨ st'.heap = (part st.heap v j (n + (j + 1) - m)).2 ∨ ∃ xs e, elems st.heap v = some xs ∧ e ∈ xs ∧ k e = .ok st' := by
  unfold assignTerm at h
  split at h
  · simp only [R.ok.injEq] at h; exact .inl h.symm
  · simp only [R.ok.injEq] at h; exact .inl h.symm
  · exact .inr (.inl (setVar_heap h))
  · split at h
    · rename_i e he
      cases hx : elems st.heap v with
      | none => simp [hx] at he
      | some xs =>
        simp only [hx, Option.getD_some] at he
        exact .inr (.inr ⟨xs, e, rfl, List.mem_of_getElem? he, h⟩)
    · simp at h

mutual
theorem assign_keeps (v : HV) (st st' : St) (hp : PlainH st.heap) (hv : PlainV v) : (t : LV) → assign v st t = .ok st' → Keeps st.heap st'.heap
  | .empty, h | .starEmpty, h | .star _, h => by simp only [assign, R.ok.injEq] at h; subst h; exact Keeps.refl _
  | .var x, h => by simp only [assign] at h; rw [setVar_heap h]; exact Keeps.refl _
  | .arr a i, h => setIndex_keeps hv (update_heap (by simpa only [assign] using h))
  | .field a f, h => setField_keeps hv (update_heap (by simpa only [assign] using h))
  | .terms ts, h => by
    simp only [assign] at h
    split at h
    · simp at h
    · split at h
      · split at h
        · simp at h
        · exact assignTerms_keeps _ _ _ _ v st st' hp hv ts h
      · split at h
        · simp at h
        · exact assignTerms_keeps _ _ _ _ v st st' hp hv ts h
theorem assignTerms_keeps (m n j : Nat) (s : Bool) (v : HV) (st st' : St) (hp : PlainH st.heap) (hv : PlainV v) : (ts : LVs) → assignTerms m n j s v st ts = .ok st' → Keeps st.heap st'.heap
  | .nil, h => by simp only [assignTerms, R.ok.injEq] at h; subst h; exact Keeps.refl _
  | .cons t ts, h => by
    simp only [assignTerms] at h
    obtain ⟨st1, h1, h2⟩ := bind_ok h
    have hk := assignTerms_keeps m n (j + 1) (s || t.isStar) v st st1 hp hv ts h1
    refine hk.trans ?_
    have hp1 := hk.1 hp
    rcases assignTerm_ok h2 with h3 | h3 | ⟨xs, e, hx, he, h3⟩
    · subst h3; exact Keeps.refl _
    · rw [h3]; exact (part_heap hv _ _).1
    · exact assign_keeps e st1 st' hp1 ((elems_plain hp1 hv hx).1 e he) t h3
end

def lift (base : List HV) : R → Out
  | .ok st => .ok st base
  | .err e st => .err e st

/-- What the code does for one target with its value. -/
def execLV (v : HV) (st : St) (stack : List HV) : LV → Out
  | .empty | .starEmpty | .star _ => .ok st stack
  | .var x => storeVar x v st stack
  | .arr _ _ => storeArray v st stack
  | .field _ f => storeField f v st stack
  | .terms ts => exec v st stack (build ts)

theorem storeVar_lift (x : Nat) (v : HV) (st : St) (base : List HV) : storeVar x v st base = lift base (setVar x v st) := by
  unfold storeVar setVar; split <;> rfl

theorem withHeap_lift (r : Res (List Obj)) (st : St) (base : List HV) : withHeap r st base = lift base (update r st) := by
  unfold withHeap update; split <;> rfl

/-- A target that is no `*` and not `_`: read the element, then assign it. -/
theorem execTerm_build {len : Nat} {index : Int} {t : LV} (hs : t.isStar = false) (he : t ≠ .empty) : ∃ u, buildTerm len index t = some u ∧
    ∀ v st stack, execTerm v st stack u = reading (getIndex st.heap v index) st fun e => execLV e st stack t := by
  cases t with
  | empty => simp at he
  | starEmpty | star => simp [LV.isStar] at hs
  | var x => exact ⟨.index index x, by simp only [buildTerm], fun v st stack => by simp only [execTerm, execLV]⟩
  | arr a i => exact ⟨.array index, by simp only [buildTerm], fun v st stack => by simp only [execTerm, execLV]⟩
  | field a f => exact ⟨.field index f, by simp only [buildTerm], fun v st stack => by simp only [execTerm, execLV]⟩
  | terms ts => exact ⟨.pattern index (build ts), by simp only [buildTerm, build], fun v st stack => by simp only [execTerm, execLV]⟩

theorem len_elems {h : List Obj} {v : HV} {xs : List HV} (hx : elems h v = some xs) : len h v = .ok xs.length := by
  cases v with
  | int | other => simp [elems] at hx
  | str s =>
    simp only [elems] at hx
    split at hx <;> simp only [Option.some.injEq, reduceCtorEq] at hx
    subst hx; simp [len]
  | ref a =>
    simp only [elems] at hx
    simp only [len]
    split at hx <;> simp only [Option.some.injEq, reduceCtorEq] at hx <;> subst hx <;> rename_i ho <;> simp only [ho]

theorem len_none {h : List Obj} {v : HV} (hp : PlainH h) (hv : PlainV v) (hx : elems h v = none) : len h v = .error .argIterable := by
  cases v with
  | int => rfl
  | other n l => simp only [PlainV] at hv; subst hv; rfl
  | str s =>
    simp only [elems] at hx
    rw [if_pos hv.1] at hx
    simp at hx
  | ref a =>
    simp only [elems] at hx
    simp only [len]
    cases ho : h[a]? with
    | none => rfl
    | some o =>
      have := hp o (List.mem_of_getElem? ho)
      cases o <;> simp only [ho, reduceCtorEq] at hx <;> first | rfl | exact absurd this id

/-- The index the code computes for a target. -/
def indexOf (m j : Nat) (s : Bool) : Int := if s then (j : Int) - m else j

theorem buildTerms_cons (len : Nat) (index : Int) (t : LV) (ts : LVs) : buildTerms len index (.cons t ts) =
    match buildTerm len index t with
    | some u => .cons u (buildTerms len (if t.isStar then -(len - index) else index + 1) ts)
    | none => buildTerms len (if t.isStar then -(len - index) else index + 1) ts := by
  simp only [buildTerms]
  cases buildTerm len index t <;> rfl

mutual
theorem exec_lv (v : HV) (st : St) (base : List HV) (hp : PlainH st.heap) (hv : PlainV v) : (t : LV) → t.oneStar = true → execLV v st (t.operands.reverse ++ base) t = lift base (assign v st t)
  | .empty, _ | .starEmpty, _ | .star _, _ => by simp [execLV, LV.operands, assign, lift]
  | .var x, _ => by simp only [execLV, LV.operands, List.reverse_nil, List.nil_append, assign]; exact storeVar_lift ..
  | .arr a i, _ => by simp only [execLV, LV.operands, List.reverse_cons, List.reverse_nil, List.nil_append, List.cons_append, storeArray, assign]; exact withHeap_lift ..
  | .field a f, _ => by simp only [execLV, LV.operands, List.reverse_cons, List.reverse_nil, List.nil_append, List.cons_append, storeField, assign]; exact withHeap_lift ..
  | .terms ts, ho => by
    simp only [LV.oneStar] at ho
    simp only [execLV, build, exec, LV.operands, assign]
    cases hx : elems st.heap v with
    | none => simp only [checkLength, len_none hp hv hx, reading, lift]
    | some xs =>
      simp only [checkLength, len_elems hx, LVs.patLen]
      by_cases hst : ts.anyStar = true
      case neg =>
        simp only [Bool.not_eq_true] at hst
        simp only [hst, Bool.false_eq_true, if_false]
        split
        · rfl
        · rename_i hl
          simp only [reading]
          exact exec_terms ts.length xs.length ts.length 0 false v st base hp hv ⟨xs, hx, rfl⟩ ts ho (by simp) (by simp) (by simp [hst]; omega)
      case pos =>
        have hpos : 0 < ts.length := by cases ts <;> simp [LVs.anyStar, LVs.length] at hst ⊢
        simp only [hst, if_true]
        by_cases hl : xs.length + 1 < ts.length
        · rw [if_pos hl, if_pos (by omega)]; rfl
        · rw [if_neg hl, if_neg (by omega)]
          simp only [reading]
          exact exec_terms ts.length xs.length (ts.length - 1) 0 false v st base hp hv ⟨xs, hx, rfl⟩ ts ho (by simp) (by simp) (by simp [hst]; omega)
theorem exec_terms (m n len j : Nat) (s : Bool) (v : HV) (st : St) (base : List HV) (hp : PlainH st.heap) (hv : PlainV v) (hx : ∃ xs, elems st.heap v = some xs ∧ xs.length = n) :
    (ts : LVs) → ts.oneStar = true → m = j + ts.length → (s = true → ts.anyStar = false ∧ 1 ≤ j) → (if s || ts.anyStar then len + 1 = m ∧ m ≤ n + 1 else len = m ∧ m = n) →
      execTerms v st (ts.operands.reverse ++ base) (buildTerms len (indexOf m j s) ts) = lift base (assignTerms m n j s v st ts)
  | .nil, _, _, _, _ => by simp [buildTerms, execTerms, LVs.operands, assignTerms, lift]
  | .cons t ts, ho, hm, hs, hl => by
    simp only [LVs.oneStar, Bool.and_eq_true, Bool.not_eq_true'] at ho
    obtain ⟨⟨ho1, ho2⟩, ho3⟩ := ho
    simp only [LVs.length] at hm
    have hstack : (LVs.cons t ts).operands.reverse ++ base = ts.operands.reverse ++ (t.operands.reverse ++ base) := by simp [LVs.operands]
    have hnext : (if t.isStar then -((len : Int) - indexOf m j s) else indexOf m j s + 1) = indexOf m (j + 1) (s || t.isStar) := by
      cases hts : t.isStar with
      | true =>
        simp only [hts, LVs.anyStar, Bool.true_or, Bool.or_true, if_true] at hl hs ⊢
        have : s = false := by cases s <;> simp_all
        subst this
        simp only [indexOf, Bool.false_eq_true, if_false, Bool.or_true, if_true]
        omega
      | false =>
        simp only [Bool.or_false, indexOf, Bool.false_eq_true, if_false]
        split <;> omega
    have ih := exec_terms m n len (j + 1) (s || t.isStar) v st (t.operands.reverse ++ base) hp hv hx ts ho2 (by omega)
      (by intro h; refine ⟨?_, by omega⟩; cases hts : t.isStar with
          | true => simpa [hts] using ho3
          | false => simp only [hts, Bool.or_false] at h; have := (hs h).1; simpa [LVs.anyStar, hts] using this)
      (by simpa [LVs.anyStar, Bool.or_assoc] using hl)
    rw [buildTerms_cons, hnext, hstack]
    simp only [assignTerms]
    cases hr : assignTerms m n (j + 1) (s || t.isStar) v st ts with
    | err e st1 =>
      rw [hr] at ih
      cases buildTerm len (indexOf m j s) t with
      | none => simp only [ih, lift, R.bind]
      | some u => simp only [execTerms, ih, lift, R.bind, Out.bind]
    | ok st1 =>
      rw [hr] at ih
      have hk := assignTerms_keeps _ _ _ _ v st st1 hp hv ts hr
      have hp1 := hk.1 hp
      obtain ⟨xs0, hx0, hn0⟩ := hx
      obtain ⟨xs, hx1, hn1⟩ := hk.2 v xs0 hx0
      have hn : xs.length = n := hn1.trans hn0
      obtain ⟨hpe, hsmall⟩ := elems_plain hp1 hv hx1
      have hother : t.isStar = false → t ≠ .empty → 
          (match buildTerm len (indexOf m j s) t with
            | some u => execTerms v st (ts.operands.reverse ++ (t.operands.reverse ++ base)) (.cons u (buildTerms len (indexOf m (j + 1) (s || t.isStar)) ts))
            | none => execTerms v st (ts.operands.reverse ++ (t.operands.reverse ++ base)) (buildTerms len (indexOf m (j + 1) (s || t.isStar)) ts)) =
          lift base (assignTerm m n j s v st1 t fun e => assign e st1 t) := by
        intro hst hne
        have hat : (assignTerm m n j s v st1 t fun e => assign e st1 t) = match ((elems st1.heap v).getD [])[position m n j s]? with
            | some e => assign e st1 t
            | none => .err .panic st1 := by
          unfold assignTerm
          split
          · exact absurd rfl hne
          · simp [LV.isStar] at hst
          · simp [LV.isStar] at hst
          · rfl
        rw [hat]
        obtain ⟨u, hu1, hu2⟩ := execTerm_build (len := len) (index := indexOf m j s) hst hne
        simp only [hu1, execTerms, ih, lift, Out.bind, hu2, hx1, Option.getD_some]
        simp only [hst, LVs.anyStar, Bool.false_or] at hl
        have hpos : position m n j s < xs.length ∧ toIndex xs.length (indexOf m j s) = (position m n j s : Nat) := by
          cases s with
          | true =>
            simp only [Bool.true_or, if_true] at hl
            have := (hs rfl).2
            simp only [position, indexOf, if_true, toIndex]
            rw [if_neg (by omega)]
            omega
          | false =>
            simp only [Bool.false_or] at hl
            simp only [position, indexOf, Bool.false_eq_true, if_false, toIndex]
            rw [if_pos (by omega)]
            refine ⟨?_, rfl⟩
            cases hts : ts.anyStar with
            | true =>
              have : 0 < ts.length := by cases ts <;> simp [LVs.anyStar, LVs.length] at hts ⊢
              simp only [hts, if_true] at hl
              omega
            | false => simp only [hts, Bool.false_eq_true, if_false] at hl; omega
        obtain ⟨e, he⟩ : ∃ e, xs[position m n j s]? = some e := ⟨_, List.getElem?_eq_getElem hpos.1⟩
        rw [getIndex_eq hx1 hsmall hpos.2 he]
        simp only [reading, he]
        exact exec_lv e st1 base hp1 (hpe e (List.mem_of_getElem? he)) t ho1
      cases t with
      | empty => simp only [buildTerm]; rw [ih]; simp only [lift, R.bind, assignTerm, LV.operands, List.reverse_nil, List.nil_append]
      | starEmpty => simp only [buildTerm]; rw [ih]; simp only [lift, R.bind, assignTerm, LV.operands, List.reverse_nil, List.nil_append]
      | star x =>
        simp only [LV.isStar, LVs.anyStar, Bool.true_or, Bool.or_true, if_true] at hl hs
        have : s = false := by cases s <;> simp_all
        subst this
        simp only [buildTerm, execTerms]
        rw [ih]
        simp only [lift, R.bind, Out.bind, LV.operands, List.reverse_nil, List.nil_append, execTerm, indexOf, Bool.false_eq_true, if_false]
        rw [getSlice_eq (b := n + (j + 1) - m) hx1 (by omega) (by omega) (by omega) (by omega)]
        simp only [reading, assignTerm]
        exact storeVar_lift ..
      | var x => exact hother rfl (by simp)
      | arr a i => exact hother rfl (by simp)
      | field a f => exact hother rfl (by simp)
      | terms us => exact hother rfl (by simp)
end

/-- C39: destructuring does what the documentation says: the length must fit, then elements are assigned from right to left, each target the element at its position; each array or field target gets its own operands.
Here for all values that have a length only if they are lists, vectors or ASCII strings. -/
theorem C39_meaning_partial (ts : LVs) (ho : ts.oneStar = true) (v : HV) (st : St) (base : List HV) (hp : PlainH st.heap) (hv : PlainV v) :
    exec v st (ts.operands.reverse ++ base) (build ts) = match assign v st (.terms ts) with
      | .ok st' => .ok st' base
      | .err e st' => .err e st' := by
  have := exec_lv v st base hp hv (.terms ts) (by simpa only [LV.oneStar] using ho)
  simp only [execLV, LV.operands] at this
  rw [this]
  unfold lift; split <;> rfl

/-! ## What is bound -/

/-- What a variable is bound to: an element, or a new sequence, like `v`, of some elements. -/
inductive Bound where
  | val (v : HV)
  | part (v : HV) (xs : List HV)

def LVs.app : LVs → LVs → LVs
  | .nil, us => us
  | .cons t ts, us => .cons t (ts.app us)

mutual
/-- The value has the shape of the pattern; with the bindings that follow, from left to right. -/
inductive Match (h : List Obj) : LV → HV → List (Nat × Bound) → Prop where
  | empty (v : HV) : Match h .empty v []
  | var (x : Nat) (v : HV) : Match h (.var x) v [(x, .val v)]
  | terms {ts : LVs} {v : HV} {xs : List HV} {B : List (Nat × Bound)} : elems h v = some xs → MatchAll h ts xs B → Match h (.terms ts) v B
  | star {l r : LVs} {x : Nat} {v : HV} {a mid b : List HV} {A B : List (Nat × Bound)} : elems h v = some (a ++ mid ++ b) → MatchAll h l a A → MatchAll h r b B →
      Match h (.terms (l.app (.cons (.star x) r))) v (A ++ [(x, .part v mid)] ++ B)
  | starEmpty {l r : LVs} {v : HV} {a mid b : List HV} {A B : List (Nat × Bound)} : elems h v = some (a ++ mid ++ b) → MatchAll h l a A → MatchAll h r b B →
      Match h (.terms (l.app (.cons .starEmpty r))) v (A ++ [] ++ B)
/-- One element for each target. -/
inductive MatchAll (h : List Obj) : LVs → List HV → List (Nat × Bound) → Prop where
  | nil : MatchAll h .nil [] []
  | cons {t : LV} {ts : LVs} {v : HV} {vs : List HV} {A B : List (Nat × Bound)} : Match h t v A → MatchAll h ts vs B → MatchAll h (.cons t ts) (v :: vs) (A ++ B)
end

/-- What kind of value it is. -/
def kind (h : List Obj) : HV → Nat
  | .str _ => 0
  | .ref a => match h[a]? with
    | some (.list _) => 1
    | some (.vector _) => 2
    | _ => 3
  | _ => 3

/-- The value `w` is what the binding says; a sequence is a new object (not one of the `n` old ones). -/
def Bound.Is (h : List Obj) (n : Nat) (b : Bound) (w : HV) : Prop :=
  match b with
  | .val v => w = v
  | .part v xs => elems h w = some xs ∧ kind h w = kind h v ∧ ∀ a, w = .ref a → n ≤ a

/-- The variables are bound (to the first of several bindings), other variables and all objects are as before, apart from new objects. -/
structure Effect (st st' : St) (B : List (Nat × Bound)) : Prop where
  heap : st.heap <+: st'.heap
  declared : st'.declared = st.declared
  bound : ∀ x b, B.lookup x = some b → b.Is st'.heap st.heap.length (st'.vars x)
  unbound : ∀ x, B.lookup x = none → st'.vars x = st.vars x

mutual
/-- All targets are variables. -/
def LV.onlyVars : LV → Bool
  | .arr _ _ | .field _ _ => false
  | .terms ts => ts.onlyVars
  | _ => true
def LVs.onlyVars : LVs → Bool
  | .nil => true
  | .cons t ts => t.onlyVars && ts.onlyVars
end

mutual
/-- The variables of the pattern. -/
def LV.vars : LV → List Nat
  | .var x | .star x => [x]
  | .terms ts => ts.vars
  | _ => []
def LVs.vars : LVs → List Nat
  | .nil => []
  | .cons t ts => t.vars ++ ts.vars
end

/-- All references are references to objects. -/
def Valid (n : Nat) : HV → Prop
  | .ref a => a < n
  | _ => True

def Closed (h : List Obj) : Prop := ∀ v xs, elems h v = some xs → ∀ e ∈ xs, Valid h.length e

/-! ### Deciding whether it matches -/

def starB (t : LV) (v : HV) (mid : List HV) : List (Nat × Bound) :=
  match t with
  | .star x => [(x, .part v mid)]
  | _ => []

def headOr {α : Type} (xs : List HV) (f : HV → List HV → Option α) : Option α :=
  match xs with
  | [] => none
  | e :: xs => f e xs

mutual
def find (h : List Obj) (v : HV) : LV → Option (List (Nat × Bound))
  | .empty => some []
  | .var x => some [(x, .val v)]
  | .terms ts => match elems h v with
    | none => none
    | some xs => findTerms h v xs ts
  | _ => none
def findTerms (h : List Obj) (v : HV) (xs : List HV) : LVs → Option (List (Nat × Bound))
  | .nil => if xs = [] then some [] else none
  | .cons t ts =>
    if t.isStar then (if ts.length ≤ xs.length then (findTerms h v (xs.drop (xs.length - ts.length)) ts).map (starB t v (xs.take (xs.length - ts.length)) ++ ·) else none)
    else headOr xs fun e xs => (find h e t).bind fun A => (findTerms h v xs ts).map (A ++ ·)
end

theorem match_isStar {h : List Obj} {t : LV} {v : HV} {B : List (Nat × Bound)} (hm : Match h t v B) : t.isStar = false := by cases hm <;> rfl

theorem app_length (l r : LVs) : (l.app r).length = l.length + r.length := by
  induction l using LVs.rec (motive_1 := fun _ => True) with
  | nil => simp [LVs.app, LVs.length]
  | cons t ts _ ih => simp only [LVs.app, LVs.length, ih]; omega
  | _ => trivial

theorem matchAll_length {h : List Obj} {ts : LVs} {xs : List HV} {B : List (Nat × Bound)} (hm : MatchAll h ts xs B) : ts.length = xs.length := by
  induction hm using MatchAll.rec (motive_1 := fun _ _ _ _ => True) with
  | nil => rfl
  | cons _ _ _ ih => simp only [LVs.length, List.length_cons, ih]
  | _ => trivial

theorem app_nil (l : LVs) : l.app .nil = l := by
  induction l using LVs.rec (motive_1 := fun _ => True) with
  | nil => rfl
  | cons t ts _ ih => simp only [LVs.app, ih]
  | _ => trivial

theorem app_anyStar (l r : LVs) {t : LV} (ht : t.isStar = true) : (l.app (.cons t r)).anyStar = true := by
  induction l using LVs.rec (motive_1 := fun _ => True) with
  | nil => simp [LVs.app, LVs.anyStar, ht]
  | cons t ts _ ih => simp [LVs.app, LVs.anyStar, ih]
  | _ => trivial

theorem findTerms_star {h : List Obj} {v : HV} {t : LV} {r : LVs} {mid b : List HV} (ht : t.isStar = true) (hl : r.length = b.length) :
    findTerms h v (mid ++ b) (.cons t r) = (findTerms h v b r).map (starB t v mid ++ ·) := by
  have e : (mid ++ b).length - r.length = mid.length := by simp only [List.length_append, hl]; omega
  simp only [findTerms, ht, if_true, e]
  rw [if_pos (by simp only [List.length_append, hl]; omega)]
  simp

mutual
theorem find_of_match {h : List Obj} {t : LV} {v : HV} {B : List (Nat × Bound)} : Match h t v B → find h v t = some B
  | .empty v => by simp only [find]
  | .var x v => by simp only [find]
  | .terms hx hm => by
    simp only [find, hx]
    have := findTerms_of_match v hm (r := .nil) (rest := [])
    simpa [app_nil, findTerms] using this
  | .star (x := x) (r := r) (mid := mid) (b := b) hx hl hr => by
    simp only [find, hx]
    have e1 := findTerms_of_match v hl (r := .cons (.star x) r) (rest := mid ++ b)
    have e2 := findTerms_of_match v hr (r := .nil) (rest := [])
    simp only [app_nil, List.append_nil, findTerms, if_true, Option.map_some] at e2
    rw [List.append_assoc, e1, findTerms_star rfl (matchAll_length hr), e2]
    simp [starB]
  | .starEmpty (r := r) (mid := mid) (b := b) hx hl hr => by
    simp only [find, hx]
    have e1 := findTerms_of_match v hl (r := .cons .starEmpty r) (rest := mid ++ b)
    have e2 := findTerms_of_match v hr (r := .nil) (rest := [])
    simp only [app_nil, List.append_nil, findTerms, if_true, Option.map_some] at e2
    rw [List.append_assoc, e1, findTerms_star rfl (matchAll_length hr), e2]
    simp [starB]
theorem findTerms_of_match {h : List Obj} {ts : LVs} {xs : List HV} {B : List (Nat × Bound)} (v : HV) {r : LVs} {rest : List HV} : MatchAll h ts xs B →
    findTerms h v (xs ++ rest) (ts.app r) = (findTerms h v rest r).map (B ++ ·)
  | .nil => by simp [LVs.app]
  | .cons h1 h2 => by
    have e1 := find_of_match h1
    have e2 := findTerms_of_match v h2 (r := r) (rest := rest)
    simp only [LVs.app, findTerms, match_isStar h1, Bool.false_eq_true, if_false, List.cons_append, headOr, e1, e2, Option.bind_some, Option.map_map]
    congr 1
    funext C
    simp
end

mutual
theorem match_of_find {h : List Obj} {v : HV} {B : List (Nat × Bound)} : (t : LV) → t.oneStar = true → find h v t = some B → Match h t v B
  | .empty, _, hf => by simp only [find, Option.some.injEq] at hf; subst hf; exact .empty v
  | .var x, _, hf => by simp only [find, Option.some.injEq] at hf; subst hf; exact .var x v
  | .starEmpty, _, hf | .star _, _, hf | .arr _ _, _, hf | .field _ _, _, hf => by simp [find] at hf
  | .terms ts, ho, hf => by
    simp only [LV.oneStar] at ho
    simp only [find] at hf
    cases hx : elems h v with
    | none => simp [hx] at hf
    | some xs =>
      simp only [hx] at hf
      have hm := matchAll_of_find (v := v) ts ho hf
      rcases hm with hm | ⟨l, t, r, a, mid, b, A, C, e1, e2, e3, e4, e5, e6⟩
      · exact .terms hx hm.2
      · subst e1 e3 e6
        cases t <;> simp only [LV.isStar, Bool.false_eq_true] at e2
        · exact .starEmpty hx e4 e5
        · exact .star hx e4 e5
theorem matchAll_of_find {h : List Obj} {v : HV} {xs : List HV} {B : List (Nat × Bound)} : (ts : LVs) → ts.oneStar = true → findTerms h v xs ts = some B →
    (ts.anyStar = false ∧ MatchAll h ts xs B) ∨ ∃ l t r a mid b A C, ts = l.app (.cons t r) ∧ t.isStar = true ∧ xs = a ++ mid ++ b ∧ MatchAll h l a A ∧ MatchAll h r b C ∧ B = A ++ starB t v mid ++ C
  | .nil, _, hf => by
    simp only [findTerms] at hf
    split at hf <;> simp only [Option.some.injEq, reduceCtorEq] at hf
    subst hf; rename_i e; subst e
    exact .inl ⟨rfl, .nil⟩
  | .cons t ts, ho, hf => by
    simp only [LVs.oneStar, Bool.and_eq_true, Bool.not_eq_true'] at ho
    obtain ⟨⟨ho1, ho2⟩, ho3⟩ := ho
    simp only [findTerms] at hf
    by_cases hst : t.isStar = true
    · rw [if_pos hst] at hf
      split at hf
      · cases hr : findTerms h v (xs.drop (xs.length - ts.length)) ts with
        | none => simp [hr] at hf
        | some C =>
          simp only [hr, Option.map_some, Option.some.injEq] at hf
          rcases matchAll_of_find ts ho2 hr with h1 | ⟨l, t', r, a, mid, b, A, C', e1, e2, _⟩
          · exact .inr ⟨.nil, t, ts, [], xs.take (xs.length - ts.length), xs.drop (xs.length - ts.length), [], C, rfl, hst, by simp, .nil, h1.2, by simp [← hf]⟩
          · have : ts.anyStar = true := by
              rw [e1]; exact app_anyStar l r e2
            simp [hst, this] at ho3
      · simp at hf
    · rw [if_neg hst] at hf
      simp only [Bool.not_eq_true] at hst
      cases xs with
      | nil => simp [headOr] at hf
      | cons e xs =>
        simp only [headOr] at hf
        cases hA : find h e t with
        | none => simp [hA] at hf
        | some A =>
          cases hr : findTerms h v xs ts with
          | none => simp [hA, hr] at hf
          | some C =>
            simp only [hA, hr, Option.bind_some, Option.map_some, Option.some.injEq] at hf
            have hm := match_of_find t ho1 hA
            subst hf
            rcases matchAll_of_find ts ho2 hr with h1 | ⟨l, t', r, a, mid, b, A', C', e1, e2, e3, e4, e5, e6⟩
            · exact .inl ⟨by simp [LVs.anyStar, hst, h1.1], .cons hm h1.2⟩
            · exact .inr ⟨.cons t l, t', r, e :: a, mid, b, A ++ A', C', by simp [e1, LVs.app], e2, by simp [e3], .cons hm e4, e5, by simp [e6]⟩
end

/-! ### Effects -/

theorem Effect.refl (st : St) : Effect st st [] := ⟨List.prefix_refl _, rfl, fun _ _ h => by simp at h, fun _ _ => rfl⟩

theorem elems_prefix {h h' : List Obj} (hp : h <+: h') {v : HV} {xs : List HV} (hx : elems h v = some xs) : elems h' v = some xs := by
  obtain ⟨l, rfl⟩ := hp; exact elems_append hx

theorem elems_prefix_valid {h h' : List Obj} (hp : h <+: h') {v : HV} (hv : Valid h.length v) : elems h' v = elems h v := by
  obtain ⟨l, rfl⟩ := hp
  cases v with
  | int | other | str => rfl
  | ref a => simp only [elems, List.getElem?_append_left (show a < h.length from hv)]

theorem kind_prefix {h h' : List Obj} (hp : h <+: h') {v : HV} {xs : List HV} (hx : elems h v = some xs) : kind h' v = kind h v := by
  obtain ⟨l, rfl⟩ := hp
  cases v with
  | int | other | str => rfl
  | ref a =>
    have : a < h.length := by
      simp only [elems] at hx
      cases ha : h[a]? with
      | none => simp [ha] at hx
      | some o => exact (List.getElem?_eq_some_iff.mp ha).1
    simp only [kind, List.getElem?_append_left this]

/-- `v` is a sequence, for the parts in the bindings. -/
def Bound.SeqIn (h : List Obj) : Bound → Prop
  | .val _ => True
  | .part v _ => ∃ xs, elems h v = some xs

def PartsOf (h : List Obj) (B : List (Nat × Bound)) : Prop := ∀ p ∈ B, p.2.SeqIn h

theorem Bound.Is.mono {h h' : List Obj} {n n' : Nat} {b : Bound} {w : HV} (hi : b.Is h n w) (hp : h <+: h') (hn : n' ≤ n) (hb : b.SeqIn h) : b.Is h' n' w := by
  cases b with
  | val v => exact hi
  | part v xs =>
    obtain ⟨h1, h2, h3⟩ := hi
    obtain ⟨ys, hy⟩ := hb
    exact ⟨elems_prefix hp h1, by rw [kind_prefix hp h1, kind_prefix hp hy, h2], fun a ha => Nat.le_trans hn (h3 a ha)⟩

theorem mem_of_lookup {B : List (Nat × Bound)} {x : Nat} {b : Bound} (h : B.lookup x = some b) : (x, b) ∈ B := by
  induction B with
  | nil => simp at h
  | cons p B ih =>
    obtain ⟨y, c⟩ := p
    rw [List.lookup_cons] at h
    by_cases e : x = y
    · subst e; simp at h; simp [h]
    · have : (x == y) = false := by simpa using e
      rw [this] at h
      exact List.mem_cons_of_mem _ (ih h)

/-- First the bindings on the right, then those on the left. -/
theorem Effect.trans {st st1 st2 : St} {A B : List (Nat × Bound)} (h1 : Effect st st1 B) (h2 : Effect st1 st2 A) (hp : PartsOf st1.heap B) : Effect st st2 (A ++ B) := by
  refine ⟨h1.heap.trans h2.heap, h2.declared.trans h1.declared, fun x b hb => ?_, fun x hb => ?_⟩
  · rw [List.lookup_append] at hb
    cases hA : A.lookup x with
    | some c =>
      simp only [hA, Option.some_or, Option.some.injEq] at hb
      subst hb
      have := h2.bound x c hA
      cases c with
      | val v => exact this
      | part v xs => exact ⟨this.1, this.2.1, fun a ha => Nat.le_trans h1.heap.length_le (this.2.2 a ha)⟩
    | none =>
      simp only [hA, Option.none_or] at hb
      rw [h2.unbound x hA]
      exact (h1.bound x b hb).mono h2.heap (Nat.le_refl _) (hp _ (mem_of_lookup hb))
  · rw [List.lookup_append, Option.or_eq_none_iff] at hb
    rw [h2.unbound x hb.1, h1.unbound x hb.2]

theorem effect_setVar {x : Nat} {v : HV} {st : St} (hd : st.declared x = true) : ∃ st', setVar x v st = .ok st' ∧ Effect st st' [(x, .val v)] := by
  refine ⟨{ st with vars := fun y => if y = x then v else st.vars y }, by simp only [setVar, hd, if_true], List.prefix_refl _, rfl, fun y b hb => ?_, fun y hb => ?_⟩
  · rw [List.lookup_cons] at hb
    by_cases e : y = x
    · subst e
      simp at hb
      subst hb
      simp [Bound.Is]
    · have : (y == x) = false := by simpa using e
      simp [this] at hb
  · rw [List.lookup_cons] at hb
    by_cases e : y = x
    · subst e; simp at hb
    · simp [e]

theorem effect_part {x : Nat} {v : HV} {st : St} {xs : List HV} (a b : Nat) (hd : st.declared x = true) (hx : elems st.heap v = some xs) :
    ∃ st', setVar x (part st.heap v a b).1 { st with heap := (part st.heap v a b).2 } = .ok st' ∧ Effect st st' [(x, .part v ((xs.take b).drop a))] := by
  have key : st.heap <+: (part st.heap v a b).2 ∧ Bound.Is (part st.heap v a b).2 st.heap.length (.part v ((xs.take b).drop a)) (part st.heap v a b).1 := by
    cases v with
    | int | other => simp [elems] at hx
    | str s =>
      simp only [elems] at hx
      split at hx <;> simp only [Option.some.injEq, reduceCtorEq] at hx
      rename_i ha
      subst hx
      refine ⟨List.prefix_refl _, ?_, rfl, fun a' h' => by simp [part] at h'⟩
      simp only [part, elems]
      rw [if_pos (fun c hc => ha c (List.mem_of_mem_take (List.mem_of_mem_drop hc)))]
      simp [List.map_take, List.map_drop]
    | ref i =>
      simp only [elems] at hx
      split at hx <;> simp only [Option.some.injEq, reduceCtorEq] at hx <;> subst hx <;> rename_i ho
      all_goals
        have hlt := (List.getElem?_eq_some_iff.mp ho).1
        simp only [part, ho]
        refine ⟨List.prefix_append _ _, ?_, ?_, fun a' h' => by simp at h'; omega⟩
        · simp [elems]
        · simp [kind, List.getElem?_append_left hlt, ho]
  refine ⟨{ st with heap := (part st.heap v a b).2, vars := fun y => if y = x then (part st.heap v a b).1 else st.vars y }, by simp only [setVar, hd, if_true], key.1, rfl, fun y c hb => ?_, fun y hb => ?_⟩
  · rw [List.lookup_cons] at hb
    by_cases e : y = x
    · subst e
      simp only [BEq.rfl, Option.some.injEq] at hb
      subst hb
      simp only [if_true]
      exact key.2
    · have : (y == x) = false := by simpa using e
      simp [this] at hb
  · rw [List.lookup_cons] at hb
    by_cases e : y = x
    · subst e; simp at hb
    · simp [e]

theorem LVs.length_pos {ts : LVs} (h : ts.anyStar = true) : 0 < ts.length := by cases ts <;> simp [LVs.anyStar, LVs.length] at h ⊢

/-- The result of assigning is what was found. -/
def Agrees (h : List Obj) (st : St) (found : Option (List (Nat × Bound))) (r : R) : Prop :=
  match found with
  | some B => PartsOf h B ∧ ∃ st', r = .ok st' ∧ Effect st st' B
  | none => ∃ e st', r = .err e st'

theorem PartsOf.append {h : List Obj} {A B : List (Nat × Bound)} (h1 : PartsOf h A) (h2 : PartsOf h B) : PartsOf h (A ++ B) := fun p hp => by
  rcases List.mem_append.mp hp with hp | hp
  · exact h1 p hp
  · exact h2 p hp

theorem PartsOf.prefix {h h' : List Obj} {B : List (Nat × Bound)} (h1 : PartsOf h B) (hp : h <+: h') : PartsOf h' B := fun p hm => by
  have := h1 p hm
  obtain ⟨x, b⟩ := p
  cases b with
  | val v => trivial
  | part v xs => obtain ⟨ys, hy⟩ := this; exact ⟨ys, elems_prefix hp hy⟩

mutual
theorem assign_find (h : List Obj) (hc : Closed h) (v : HV) (st : St) (hh : h <+: st.heap) (hv : Valid h.length v) (hd : ∀ x, st.declared x = true) :
    (t : LV) → t.oneStar = true → t.onlyVars = true → t.isStar = false → Agrees h st (find h v t) (assign v st t)
  | .empty, _, _, _ => by simp only [find, assign]; exact ⟨fun p hp => by simp at hp, st, rfl, Effect.refl st⟩
  | .starEmpty, _, _, hs | .star _, _, _, hs => by simp [LV.isStar] at hs
  | .arr _ _, _, ho, _ | .field _ _, _, ho, _ => by simp [LV.onlyVars] at ho
  | .var x, _, _, _ => by
    simp only [find, assign]
    exact ⟨fun p hp => by simp only [List.mem_singleton] at hp; subst hp; trivial, effect_setVar (hd x)⟩
  | .terms ts, ho, hov, _ => by
    simp only [LV.oneStar] at ho
    simp only [LV.onlyVars] at hov
    simp only [find, assign, elems_prefix_valid hh hv]
    cases hx : elems h v with
    | none => exact ⟨_, _, rfl⟩
    | some xs =>
      simp only
      have hlen : ∀ (ts : LVs) (ys : List HV) (B : List (Nat × Bound)), findTerms h v ys ts = some B → if ts.anyStar then ts.length ≤ ys.length + 1 else ts.length = ys.length := by
        intro ts
        induction ts using LVs.rec (motive_1 := fun _ => True) with
        | nil =>
          intro ys B hf
          simp only [findTerms] at hf
          split at hf
          · rename_i e; subst e; rfl
          · simp at hf
        | cons t ts _ ih =>
          intro ys B hf
          simp only [findTerms] at hf
          simp only [LVs.anyStar, LVs.length]
          split at hf
          · rename_i hst
            simp only [hst, Bool.true_or, if_true]
            split at hf
            · omega
            · simp at hf
          · rename_i hst
            simp only [Bool.not_eq_true] at hst
            simp only [hst, Bool.false_or]
            cases ys with
            | nil => simp [headOr] at hf
            | cons e ys =>
              simp only [headOr] at hf
              cases hA : find h e t with
              | none => simp [hA] at hf
              | some A =>
                cases hr : findTerms h v ys ts with
                | none => simp [hA, hr] at hf
                | some C =>
                  have := ih ys C hr
                  simp only [List.length_cons]
                  by_cases hs : ts.anyStar = true
                  · rw [if_pos hs] at this ⊢; omega
                  · rw [if_neg hs] at this ⊢; omega
        | _ => trivial
      by_cases hst : ts.anyStar = true
      · simp only [hst, if_true]
        by_cases hl : xs.length + 1 < ts.length
        · rw [if_pos hl]
          cases hf : findTerms h v xs ts with
          | none => exact ⟨_, _, rfl⟩
          | some B =>
            have := hlen ts xs B hf
            rw [if_pos hst] at this
            omega
        · rw [if_neg hl]
          have := assignTerms_find h hc ts.length xs.length 0 false v st xs hh hv hd hx rfl ts ho hov (by simp) (by simp) (by simp only [hst, Bool.or_true, if_true]; omega)
          simpa [position] using this
      · simp only [Bool.not_eq_true] at hst
        simp only [hst, Bool.false_eq_true, if_false]
        by_cases hl : ts.length ≠ xs.length
        · rw [if_pos hl]
          cases hf : findTerms h v xs ts with
          | none => exact ⟨_, _, rfl⟩
          | some B =>
            have := hlen ts xs B hf
            rw [if_neg (by simp [hst])] at this
            omega
        · rw [if_neg hl]
          have := assignTerms_find h hc ts.length xs.length 0 false v st xs hh hv hd hx rfl ts ho hov (by simp) (by simp)
            (by simp only [hst, Bool.or_false, Bool.false_eq_true, if_false]; omega)
          simpa [position] using this
theorem assignTerms_find (h : List Obj) (hc : Closed h) (m n j : Nat) (s : Bool) (v : HV) (st : St) (xs : List HV) (hh : h <+: st.heap) (hv : Valid h.length v) (hd : ∀ x, st.declared x = true)
    (hx : elems h v = some xs) (hn : xs.length = n) : (ts : LVs) → ts.oneStar = true → ts.onlyVars = true → m = j + ts.length → (s = true → ts.anyStar = false ∧ 1 ≤ j) →
      (if s || ts.anyStar then m ≤ n + 1 else m = n) → Agrees h st (findTerms h v (xs.drop (position m n j s)) ts) (assignTerms m n j s v st ts)
  | .nil, _, _, hm, _, hl => by
    simp only [LVs.length] at hm
    simp only [LVs.anyStar, Bool.or_false] at hl
    have : xs.drop (position m n j s) = [] := by
      apply List.drop_eq_nil_of_le
      unfold position
      cases s <;> simp only [Bool.false_eq_true, if_false, if_true] at hl ⊢ <;> omega
    simp only [this, findTerms, if_true, assignTerms]
    exact ⟨fun p hp => by simp at hp, st, rfl, Effect.refl st⟩
  | .cons t ts, ho, hov, hm, hs, hl => by
    simp only [LVs.oneStar, Bool.and_eq_true, Bool.not_eq_true'] at ho
    obtain ⟨⟨ho1, ho2⟩, ho3⟩ := ho
    simp only [LVs.onlyVars, Bool.and_eq_true] at hov
    simp only [LVs.length] at hm
    have ih := assignTerms_find h hc m n (j + 1) (s || t.isStar) v st xs hh hv hd hx hn ts ho2 hov.2 (by omega)
      (by intro h; refine ⟨?_, by omega⟩; cases hts : t.isStar with
          | true => simpa [hts] using ho3
          | false => simp only [hts, Bool.or_false] at h; have := (hs h).1; simpa [LVs.anyStar, hts] using this)
      (by simpa [LVs.anyStar, Bool.or_assoc] using hl)
    simp only [findTerms, assignTerms]
    have hdl : (xs.drop (position m n j s)).length = n - position m n j s := by rw [List.length_drop, hn]
    cases hts : t.isStar with
    | true =>
      have hsf : s = false := by cases s with
        | false => rfl
        | true => have := (hs rfl).1; simp [LVs.anyStar, hts] at this
      subst hsf
      simp only [hts, LVs.anyStar, Bool.true_or, Bool.or_true, if_true] at hl
      simp only [hts, Bool.or_true] at ih
      have e0 : position m n j false = j := rfl
      have e1 : position m n (j + 1) true = n + (j + 1) - m := rfl
      rw [e1] at ih
      simp only [e0] at hdl ⊢
      simp only [if_true, hdl]
      rw [if_pos (by omega)]
      have e2 : (xs.drop j).drop (n - j - ts.length) = xs.drop (n + (j + 1) - m) := by rw [List.drop_drop]; congr 1; omega
      have e3 : (xs.drop j).take (n - j - ts.length) = (xs.take (n + (j + 1) - m)).drop j := by
        rw [List.drop_take]; congr 1; omega
      rw [e2, e3]
      simp only [Bool.or_true]
      cases hf : findTerms h v (xs.drop (n + (j + 1) - m)) ts with
      | none =>
        rw [hf] at ih
        obtain ⟨e, st', he⟩ := ih
        rw [he]
        exact ⟨e, st', rfl⟩
      | some B =>
        rw [hf] at ih
        obtain ⟨hB, st1, he, hE⟩ := ih
        rw [he]
        simp only [Option.map_some, R.bind]
        have hx1 := elems_prefix (hh.trans hE.heap) hx
        have hd1 : ∀ x, st1.declared x = true := fun x => by rw [hE.declared]; exact hd x
        cases t <;> simp only [LV.isStar, Bool.false_eq_true] at hts
        · exact ⟨hB, st1, rfl, hE⟩
        · rename_i x
          obtain ⟨st2, h2, hE2⟩ := effect_part j (n + (j + 1) - m) (hd1 x) hx1
          refine ⟨PartsOf.append (fun p hp => ?_) hB, st2, h2, hE.trans hE2 (hB.prefix (hh.trans hE.heap))⟩
          simp only [starB, List.mem_singleton] at hp
          subst hp
          exact ⟨xs, hx⟩
    | false =>
      simp only [hts, Bool.or_false] at ih
      simp only [hts, LVs.anyStar, Bool.false_or] at hl
      have hpos : position m n j s < n ∧ position m n (j + 1) s = position m n j s + 1 := by
        cases s with
        | true =>
          have := (hs rfl).2
          simp only [Bool.true_or, if_true] at hl
          simp only [position, if_true]
          omega
        | false =>
          simp only [position, Bool.false_eq_true, if_false, and_true]
          simp only [Bool.false_or] at hl
          by_cases ha : ts.anyStar = true
          · have := LVs.length_pos ha
            rw [if_pos ha] at hl; omega
          · rw [if_neg ha] at hl; omega
      obtain ⟨e, he⟩ : ∃ e, xs[position m n j s]? = some e := ⟨_, List.getElem?_eq_getElem (by omega)⟩
      have hdrop : xs.drop (position m n j s) = e :: xs.drop (position m n (j + 1) s) := by
        rw [hpos.2, List.drop_eq_getElem_cons (by omega)]
        congr 1
        exact (List.getElem?_eq_some_iff.mp he).2
      rw [hdrop]
      simp only [Bool.false_eq_true, if_false, headOr, Bool.or_false]
      cases hf : findTerms h v (xs.drop (position m n (j + 1) s)) ts with
      | none =>
        rw [hf] at ih
        obtain ⟨er, st', her⟩ := ih
        rw [her]
        have : ((find h e t).bind fun A => (none : Option (List (Nat × Bound))).map (A ++ ·)) = none := by cases find h e t <;> rfl
        rw [this]
        exact ⟨er, st', rfl⟩
      | some B =>
        rw [hf] at ih
        obtain ⟨hB, st1, h1, hE⟩ := ih
        rw [h1]
        simp only [R.bind]
        have hx1 := elems_prefix (hh.trans hE.heap) hx
        have hd1 : ∀ x, st1.declared x = true := fun x => by rw [hE.declared]; exact hd x
        have ih2 := assign_find h hc e st1 (hh.trans hE.heap) (hc v xs hx e (List.mem_of_getElem? he)) hd1 t ho1 hov.1 hts
        have hat : Agrees h st1 (find h e t) (assignTerm m n j s v st1 t fun e => assign e st1 t) := by
          unfold assignTerm
          split
          · simpa only [find, assign] using ih2
          · simp [LV.isStar] at hts
          · simp [LV.isStar] at hts
          · simp only [hx1, Option.getD_some, he]; exact ih2
        cases hA : find h e t with
        | none =>
          rw [hA] at hat
          exact hat
        | some A =>
          rw [hA] at hat
          obtain ⟨hPA, st2, h2, hE2⟩ := hat
          exact ⟨hPA.append hB, st2, h2, hE.trans hE2 (hB.prefix (hh.trans hE.heap))⟩
end

def R.state : R → St
  | .ok st => st
  | .err _ st => st

theorem setVar_frame {x y : Nat} (v : HV) (st : St) (h : y ≠ x) : (setVar x v st).state.vars y = st.vars y := by
  unfold setVar
  split
  · simp [R.state, h]
  · rfl

theorem update_frame (r : Res (List Obj)) (st : St) (y : Nat) : (update r st).state.vars y = st.vars y := by
  unfold update; split <;> rfl

theorem assignTerm_frame {m n j : Nat} {s : Bool} {v : HV} {st : St} {t : LV} {k : HV → R} {y : Nat} (hy : y ∉ t.vars) (hk : ∀ e, (k e).state.vars y = st.vars y) :
    (assignTerm m n j s v st t k).state.vars y = st.vars y := by
  unfold assignTerm
  split
  · rfl
  · rfl
  · rw [setVar_frame _ _ (by simpa [LV.vars] using hy)]
  · split
    · exact hk _
    · rfl

mutual
theorem assign_frame (v : HV) (st : St) (y : Nat) : (t : LV) → y ∉ t.vars → (assign v st t).state.vars y = st.vars y
  | .empty, _ | .starEmpty, _ | .star _, _ => by simp only [assign, R.state]
  | .var x, hy => by simp only [assign]; exact setVar_frame _ _ (by simpa [LV.vars] using hy)
  | .arr _ _, _ | .field _ _, _ => by simp only [assign]; exact update_frame ..
  | .terms ts, hy => by
    simp only [LV.vars] at hy
    simp only [assign]
    split
    · rfl
    · split
      · split
        · rfl
        · exact assignTerms_frame _ _ _ _ v st y ts hy
      · split
        · rfl
        · exact assignTerms_frame _ _ _ _ v st y ts hy
theorem assignTerms_frame (m n j : Nat) (s : Bool) (v : HV) (st : St) (y : Nat) : (ts : LVs) → y ∉ ts.vars → (assignTerms m n j s v st ts).state.vars y = st.vars y
  | .nil, _ => by simp only [assignTerms, R.state]
  | .cons t ts, hy => by
    simp only [LVs.vars, List.mem_append, not_or] at hy
    simp only [assignTerms]
    have ih := assignTerms_frame m n (j + 1) (s || t.isStar) v st y ts hy.2
    cases hr : assignTerms m n (j + 1) (s || t.isStar) v st ts with
    | err e st1 => rw [hr] at ih; exact ih
    | ok st1 =>
      rw [hr] at ih
      simp only [R.bind]
      rw [assignTerm_frame hy.1 (fun e => assign_frame e st1 y t hy.1)]
      exact ih
end

mutual
theorem operands_nil : (t : LV) → t.onlyVars = true → t.operands = []
  | .empty, _ | .starEmpty, _ | .star _, _ | .var _, _ => by simp only [LV.operands]
  | .arr _ _, h | .field _ _, h => by simp [LV.onlyVars] at h
  | .terms ts, h => by simp only [LV.operands]; exact operandsAll_nil ts (by simpa only [LV.onlyVars] using h)
theorem operandsAll_nil : (ts : LVs) → ts.onlyVars = true → ts.operands = []
  | .nil, _ => by simp only [LVs.operands]
  | .cons t ts, h => by
    simp only [LVs.onlyVars, Bool.and_eq_true] at h
    simp only [LVs.operands, operands_nil t h.1, operandsAll_nil ts h.2, List.append_nil]
end

/-- C39: a pattern of variables: if the value has the shape of the pattern, each variable is bound to the element at its position and the starred one to a new sequence of the middle part, and nothing else changes;
if not, there is an error, and variables that are not in the pattern do not change. For values that have a length only if they are lists, vectors or ASCII strings. -/
theorem C39_binds_partial (ts : LVs) (ho : ts.oneStar = true) (hov : ts.onlyVars = true) (v : HV) (st : St) (stack : List HV) (hp : PlainH st.heap) (hv : PlainV v)
    (hc : Closed st.heap) (hval : Valid st.heap.length v) (hd : ∀ x, st.declared x = true) :
    (∀ B, Match st.heap (.terms ts) v B → ∃ st', exec v st stack (build ts) = .ok st' stack ∧ Effect st st' B) ∧
    ((¬ ∃ B, Match st.heap (.terms ts) v B) → ∃ e st', exec v st stack (build ts) = .err e st' ∧ ∀ x, x ∉ ts.vars → st'.vars x = st.vars x) := by
  have h1 := C39_meaning_partial ts ho v st stack hp hv
  rw [operandsAll_nil ts hov, List.reverse_nil, List.nil_append] at h1
  have h2 := assign_find st.heap hc v st (List.prefix_refl _) hval hd (.terms ts) (by simpa only [LV.oneStar] using ho) (by simpa only [LV.onlyVars] using hov) rfl
  constructor
  · intro B hB
    rw [find_of_match hB] at h2
    obtain ⟨_, st', he, hE⟩ := h2
    exact ⟨st', by rw [h1, he], hE⟩
  · intro hno
    cases hf : find st.heap v (.terms ts) with
    | some B => exact absurd ⟨B, match_of_find _ (by simpa only [LV.oneStar] using ho) hf⟩ hno
    | none =>
      rw [hf] at h2
      obtain ⟨e, st', he⟩ := h2
      refine ⟨e, st', by rw [h1, he], fun x hx => ?_⟩
      have := assign_frame v st x (.terms ts) (by simpa only [LV.vars] using hx)
      rw [he] at this
      exact this

/-- C39: the bindings are determined by the pattern and the value. -/
theorem C39_unique {h : List Obj} {t : LV} {v : HV} {A B : List (Nat × Bound)} (h1 : Match h t v A) (h2 : Match h t v B) : A = B := by
  have e1 := find_of_match h1
  rw [find_of_match h2] at e1
  exact (Option.some.inj e1).symm

theorem checkIndex_neg {n : Nat} {i : Int} (hn : n < 2 ^ 63) (h1 : -2 ^ 63 ≤ i) (h2 : i < 2 ^ 63) (h : i < -n ∨ n ≤ i) : checkIndex n (.int i) = .error .indexOutOfBounds := by
  have : ¬ asUsize (toIndex n i) < n := by
    simp only [asUsize, toIndex]
    split <;> omega
  simp only [checkIndex, asInt, bind, Except.bind, this, if_false]

/-- **C39** storing in an element of a list or a vector (`a[i]` as a target): the element counted from the start, or from the end if `i` is negative, is replaced; every other element and every
other object is as before. An `i` outside of the list is an error, and nothing is stored. -/
theorem C39_store_sequence (st : St) (base : List HV) (a : Nat) (i : Int) (v : HV) (xs : List HV) (mk : List HV → Obj) (hm : mk = .list ∨ mk = .vector) (ho : st.heap[a]? = some (mk xs))
    (hn : xs.length < 2 ^ 63) (h1 : -2 ^ 63 ≤ i) (h2 : i < 2 ^ 63) :
    (∀ j : Nat, j < xs.length → i = j ∨ i = (j : Int) - xs.length →
      execLV v st (.int i :: .ref a :: base) (.arr (.ref a) (.int i)) = .ok { st with heap := st.heap.set a (mk (xs.set j v)) } base) ∧
    (i < -xs.length ∨ xs.length ≤ i → execLV v st (.int i :: .ref a :: base) (.arr (.ref a) (.int i)) = .err .indexOutOfBounds st) := by
  refine ⟨fun j hj hi => ?_, fun hi => ?_⟩
  · have e := checkIndex_eq (i := i) hn hj (by unfold toIndex; split <;> omega)
    rcases hm with rfl | rfl <;> simp only [execLV, storeArray, setIndex, ho, e, bind, Except.bind, withHeap]
  · have e := checkIndex_neg hn h1 h2 hi
    rcases hm with rfl | rfl <;> simp only [execLV, storeArray, setIndex, ho, e, bind, Except.bind, withHeap]

/-- **C39** storing under a key of a dict: the key then has the value, every other key and every other object is as before, and a new key comes last. -/
theorem C39_store_dict (st : St) (base : List HV) (a : Nat) (k v : HV) (es : List (HV × HV)) (ho : st.heap[a]? = some (.dict es)) :
    ∃ es', execLV v st (k :: .ref a :: base) (.arr (.ref a) k) = .ok { st with heap := st.heap.set a (.dict es') } base ∧
      lookup k es' = some v ∧ (∀ k', k' ≠ k → lookup k' es' = lookup k' es) ∧
      es'.map (·.1) = if k ∈ es.map (·.1) then es.map (·.1) else es.map (·.1) ++ [k] := by
  refine ⟨insertEntry k v es, by simp only [execLV, storeArray, setIndex, ho, withHeap], ?_⟩
  clear ho
  induction es with
  | nil => exact ⟨by simp [insertEntry, lookup], fun k' h => by simp [insertEntry, lookup, Ne.symm h], by simp [insertEntry]⟩
  | cons e es ih =>
    obtain ⟨k0, v0⟩ := e
    by_cases hk : k0 = k
    · subst hk
      exact ⟨by simp [insertEntry, lookup], fun k' h => by simp [insertEntry, lookup, Ne.symm h], by simp [insertEntry]⟩
    · have hk' : k ≠ k0 := fun h => hk h.symm
      refine ⟨by simp [insertEntry, lookup, hk, ih.1], fun k' h => ?_, ?_⟩
      · simp only [insertEntry, if_neg hk, lookup]
        rw [ih.2.1 k' h]
      · simp only [insertEntry, if_neg hk, List.map_cons, ih.2.2, List.mem_cons, hk', false_or]
        split <;> simp

/-- **C39** storing in a field (`s->f` as a target): reading that field of that value gives what was stored; the other fields, and every other object, are as before. A field that is not
there is an error. -/
theorem C39_store_field (st : St) (base : List HV) (a f : Nat) (v : HV) (fs : List (Nat × HV)) (ho : st.heap[a]? = some (.struct fs)) :
    (f ∈ fs.map (·.1) → ∃ fs', execLV v st (.ref a :: base) (.field (.ref a) f) = .ok { st with heap := st.heap.set a (.struct fs') } base ∧
      fs'.map (·.1) = fs.map (·.1) ∧ fs'.lookup f = some v ∧ ∀ g, g ≠ f → fs'.lookup g = fs.lookup g) ∧
    (f ∉ fs.map (·.1) → execLV v st (.ref a :: base) (.field (.ref a) f) = .err .fieldNotPresent st) := by
  refine ⟨fun h => ⟨fs.map fun p => if p.1 = f then (f, v) else p, ?_, ?_⟩, fun h => ?_⟩
  · simp only [execLV, storeField, setField, ho, if_pos h, withHeap]
  · clear ho
    refine ⟨?_, ?_, ?_⟩
    · rw [List.map_map]
      apply List.map_congr_left
      intro p _
      simp only [Function.comp]
      split <;> simp_all
    · induction fs with
      | nil => simp at h
      | cons p fs ih =>
        obtain ⟨g, w⟩ := p
        by_cases hg : g = f
        · subst hg; simp [List.lookup]
        · have : (f == g) = false := by simpa using fun h => hg h.symm
          simp only [List.map_cons, if_neg hg, List.lookup, this]
          apply ih
          simpa [Ne.symm hg] using h
    · intro g hg
      clear h
      induction fs with
      | nil => rfl
      | cons p fs ih =>
        obtain ⟨g', w⟩ := p
        by_cases he : g' = f
        · subst he
          have : (g == g') = false := by simpa using hg
          simp only [List.map_cons, if_true, List.lookup, this]
          exact ih
        · simp only [List.map_cons, if_neg he, List.lookup]
          rw [ih]
  · simp only [execLV, storeField, setField, ho, if_neg h, withHeap]

def LVs.ofList : List LV → LVs
  | [] => .nil
  | t :: ts => .cons t (.ofList ts)

/-- `d['b'] = 7` and `a[-1] = 7`, `a[3] = 7` -/
example : ∃ es', execLV (.int 7) (⟨[.dict [(.str ['a'], .int 1)]], fun _ => .int 0, fun _ => true⟩) [.str ['b'], .ref 0] (.arr (.ref 0) (.str ['b'])) =
    .ok ⟨[.dict es'], fun _ => .int 0, fun _ => true⟩ [] ∧ lookup (.str ['b']) es' = some (.int 7) :=
  let ⟨es', h, h', _⟩ := C39_store_dict ⟨[.dict [(.str ['a'], .int 1)]], fun _ => .int 0, fun _ => true⟩ [] 0 (.str ['b']) (.int 7) _ rfl
  ⟨es', h, h'⟩
example (st : St) (h : st.heap = [.list [.int 1, .int 2]]) : execLV (.int 7) st [.int (-1), .ref 0] (.arr (.ref 0) (.int (-1))) = .ok { st with heap := [.list [.int 1, .int 7]] } [] ∧
    execLV (.int 7) st [.int 2, .ref 0] (.arr (.ref 0) (.int 2)) = .err .indexOutOfBounds st := by
  have e := fun i => C39_store_sequence st [] 0 i (.int 7) [.int 1, .int 2] .list (.inl rfl) (by rw [h]; rfl) (by decide)
  refine ⟨?_, (e 2 (by decide) (by decide)).2 (.inr (by decide))⟩
  rw [(e (-1) (by decide) (by decide)).1 1 (by decide) (.inr (by decide)), h]
  rfl

/-- `x0, (x1, *x2), _ = [1, [2, 3, 4], 5]` -/
def exPattern : LVs := .ofList [.var 0, .terms (.ofList [.var 1, .star 2]), .empty]
def exHeap : List Obj := [.list [.int 1, .ref 1, .int 5], .list [.int 2, .int 3, .int 4]]
def exSt (h : List Obj) : St := ⟨h, fun _ => .other 0 none, fun _ => true⟩

example : PlainH exHeap ∧ Closed exHeap ∧ exPattern.oneStar = true ∧ exPattern.onlyVars = true := by
  refine ⟨?_, ?_, by decide, by decide⟩
  · intro o ho
    simp only [exHeap, List.mem_cons, List.not_mem_nil, or_false] at ho
    rcases ho with rfl | rfl <;> refine ⟨?_, by decide⟩ <;> intro v hv <;> simp at hv <;> rcases hv with rfl | rfl | rfl <;> trivial
  · intro v xs hx e he
    cases v with
    | int | other => simp [elems] at hx
    | str s =>
      simp only [elems] at hx
      split at hx <;> simp only [Option.some.injEq, reduceCtorEq] at hx
      subst hx; obtain ⟨c, _, rfl⟩ := List.mem_map.mp he; trivial
    | ref a =>
      match a with
      | 0 => simp [elems, exHeap] at hx; subst hx; simp at he; rcases he with rfl | rfl | rfl <;> simp [Valid, exHeap]
      | 1 => simp [elems, exHeap] at hx; subst hx; simp at he; rcases he with rfl | rfl | rfl <;> simp [Valid, exHeap]
      | a + 2 => simp [elems, exHeap] at hx

example : Match exHeap (.terms exPattern) (.ref 0) [(0, .val (.int 1)), (1, .val (.int 2)), (2, .part (.ref 1) [.int 3, .int 4])] :=
  .terms (ts := exPattern) (xs := [.int 1, .ref 1, .int 5]) rfl
    (.cons (.var 0 (.int 1)) (.cons (A := [(1, .val (.int 2)), (2, .part (.ref 1) [.int 3, .int 4])])
      (.star (l := .ofList [.var 1]) (r := .nil) (a := [.int 2]) (mid := [.int 3, .int 4]) (b := []) rfl (.cons (.var 1 (.int 2)) .nil) .nil)
      (.cons (A := []) (.empty (.int 5)) .nil)))

/-- What the code did: the variables 0, 1, 2, and the objects. -/
def Out.summary : Out → Option (List HV × List Obj)
  | .ok st _ => some ([st.vars 0, st.vars 1, st.vars 2], st.heap)
  | .err _ _ => none

example : (exec (.ref 0) (exSt exHeap) [] (build exPattern)).summary = some ([.int 1, .int 2, .ref 2], exHeap ++ [.list [.int 3, .int 4]]) := by decide +kernel

/-- The example of the documentation: `A[1], A[2], A[0] = A` makes `[3, 3, 2]` of `[1, 2, 3]`. -/
example : (exec (.ref 0) (exSt [.list [.int 1, .int 2, .int 3]]) [.int 0, .ref 0, .int 2, .ref 0, .int 1, .ref 0] (build (.ofList [.arr (.ref 0) (.int 1), .arr (.ref 0) (.int 2), .arr (.ref 0) (.int 0)]))).summary =
    some ([.other 0 none, .other 0 none, .other 0 none], [.list [.int 3, .int 3, .int 2]]) := by decide +kernel

def Out.error : Out → Option Err
  | .ok _ _ => none
  | .err e _ => some e

/-- C39: a set (or heap, or range) with the right number of elements cannot be destructured, although the documentation allows any iterable. -/
theorem C39_violation_set : (exec (.other 0 (some 2)) (exSt []) [] (build (.ofList [.var 0, .var 1]))).error = some .argIndexable := rfl

/-- C39: a dict is looked up with the positions as keys, from the left, and with negative ones after a `*`. -/
theorem C39_violation_dict : (exec (.ref 0) (exSt [.dict [(.int 1, .str ['b']), (.int 0, .str ['a'])]]) [] (build (.ofList [.var 0, .var 1]))).summary.map (·.1) =
      some [.str ['a'], .str ['b'], .other 0 none] ∧
    (exec (.ref 0) (exSt [.dict [(.int 1, .str ['b']), (.int 0, .str ['a'])]]) [] (build (.ofList [.starEmpty, .var 1]))).error = some .keyNotPresent := ⟨by decide +kernel, by decide +kernel⟩

/-- C39: `*_, c = 'é'` panics: the length of the string is counted in characters, the index from the end in bytes. -/
theorem C39_violation_unicode : (exec (.str ['é']) (exSt []) [] (build (.ofList [.starEmpty, .var 0]))).error = some .panic := by decide +kernel

/-- C39: two starred targets are accepted in assignment expressions (only `let`, `for` and parameters reject them): `x0, *x1, *x2 = [1, 2, 3]` binds `x1 = [2]`, `x2 = []`. -/
theorem C39_violation_two_stars : (exec (.ref 0) (exSt [.list [.int 1, .int 2, .int 3]]) [] (build (.ofList [.var 0, .star 1, .star 2]))).summary =
    some ([.int 1, .ref 2, .ref 1], [.list [.int 1, .int 2, .int 3], .list [], .list [.int 2]]) := by decide +kernel

end Cordy.Pattern
