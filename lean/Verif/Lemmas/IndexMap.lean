import Verif.Model.IndexMap
/-! Helper lemmas on `IndexMap`/`IndexSet`. -/
namespace Cordy
namespace IndexMap
variable {κ ν : Type} [BEq κ] [EquivBEq κ]

/-- No two entries have equal keys. -/
def Distinct (m : List (κ × ν)) : Prop := m.Pairwise (fun a b => (a.1 == b.1) = false)

omit [EquivBEq κ] in
theorem get?_nil (k : κ) : get? ([] : List (κ × ν)) k = none := rfl

omit [EquivBEq κ] in
theorem get?_cons (e : κ × ν) (m : List (κ × ν)) (k : κ) :
    get? (e :: m) k = if e.1 == k then some e.2 else get? m k := by
  simp only [get?, List.find?_cons]
  cases e.1 == k <;> simp

theorem beq_congr_left {a b c : κ} (h : a == b) : (a == c) = (b == c) := by
  cases h1 : a == c <;> cases h2 : b == c <;> try rfl
  · have := BEq.trans h h2; rw [h1] at this; cases this
  · have := BEq.trans (BEq.symm h) h1; rw [h2] at this; cases this

theorem beq_comm' (a b : κ) : (a == b) = (b == a) := by
  cases h1 : a == b <;> cases h2 : b == a <;> try rfl
  · have := BEq.symm h2; rw [h1] at this; cases this
  · have := BEq.symm h1; rw [h2] at this; cases this

theorem get?_congr (m : List (κ × ν)) {k k' : κ} (h : k == k') : get? m k = get? m k' := by
  induction m with
  | nil => rfl
  | cons e m ih =>
    rw [get?_cons, get?_cons, ih, beq_comm' e.1 k, beq_comm' e.1 k', beq_congr_left h]

omit [EquivBEq κ] in
theorem contains_iff (m : List (κ × ν)) (k : κ) : contains m k = (get? m k).isSome := by
  induction m with
  | nil => rfl
  | cons e m ih =>
    rw [get?_cons]; simp only [contains, List.any_cons] at *
    cases e.1 == k <;> simp [ih]

omit [EquivBEq κ] in
theorem get?_none_iff (m : List (κ × ν)) (k : κ) : get? m k = none ↔ ∀ e ∈ m, (e.1 == k) = false := by
  induction m with
  | nil => simp [get?_nil]
  | cons e m ih =>
    rw [get?_cons]
    cases h : e.1 == k <;> simp [ih, h]

theorem get?_insert (m : List (κ × ν)) (k : κ) (v : ν) (k' : κ) :
    get? (insert m k v) k' = if k == k' then some v else get? m k' := by
  induction m with
  | nil => simp [insert, get?_cons]
  | cons e m ih =>
    obtain ⟨a, w⟩ := e
    rw [insert]
    by_cases h : a == k
    · rw [if_pos h, get?_cons, get?_cons]
      simp only
      rw [beq_congr_left (c := k') h]
      cases k == k' <;> simp
    · rw [if_neg h, get?_cons, get?_cons, ih]
      simp only
      by_cases hk : k == k'
      · have : (a == k') = false := by
          cases ha : a == k'
          · rfl
          · exact absurd (BEq.trans ha (BEq.symm hk)) h
        simp [this, hk]
      · simp [hk]

omit [EquivBEq κ] in
theorem keys_insert (m : List (κ × ν)) (k : κ) (v : ν) :
    (insert m k v).map (·.1) = if contains m k then m.map (·.1) else m.map (·.1) ++ [k] := by
  induction m with
  | nil => simp [insert, contains]
  | cons e m ih =>
    obtain ⟨a, w⟩ := e
    rw [insert]
    by_cases h : a == k
    · rw [if_pos h]; simp [contains, h]
    · rw [if_neg h, List.map_cons, ih]
      have : contains ((a, w) :: m) k = contains m k := by simp [contains, h]
      rw [this]; split <;> simp

omit [EquivBEq κ] in
theorem distinct_keys {m : List (κ × ν)} : Distinct m ↔ (m.map (·.1)).Pairwise (fun a b => (a == b) = false) := by
  rw [List.pairwise_map]; rfl

theorem Distinct.insert {m : List (κ × ν)} (h : Distinct m) (k : κ) (v : ν) : Distinct (insert m k v) := by
  rw [distinct_keys] at *
  rw [keys_insert]
  split
  · exact h
  · rename_i hc
    rw [List.pairwise_append]
    refine ⟨h, by simp, ?_⟩
    intro a ha b hb
    simp only [List.mem_singleton] at hb; subst hb
    obtain ⟨e, he, rfl⟩ := List.mem_map.1 ha
    cases hb : e.1 == b
    · rfl
    · exact absurd (List.any_eq_true.2 ⟨e, he, hb⟩) hc

theorem Distinct.sublist {m m' : List (κ × ν)} (h : Distinct m) (hs : m'.Sublist m) : Distinct m' :=
  List.Pairwise.sublist hs h

theorem get?_of_distinct_mem {m : List (κ × ν)} (h : Distinct m) {e : κ × ν} (he : e ∈ m) {k : κ} (hk : e.1 == k) :
    get? m k = some e.2 := by
  induction m with
  | nil => simp at he
  | cons a m ih =>
    have h' := List.pairwise_cons.1 h
    rw [get?_cons]
    rcases List.mem_cons.1 he with rfl | he
    · rw [if_pos hk]
    · have : (a.1 == k) = false := by
        cases ha : a.1 == k
        · rfl
        · have h2 := BEq.trans ha (BEq.symm hk); rw [h'.1 e he] at h2; cases h2
      rw [if_neg (by simp [this])]; exact ih h'.2 he

theorem get?_shiftRemove {m : List (κ × ν)} (h : Distinct m) (k k' : κ) :
    get? (shiftRemove m k) k' = if k == k' then none else get? m k' := by
  induction m with
  | nil => simp [shiftRemove, get?_nil]
  | cons e m ih =>
    have h' := List.pairwise_cons.1 h
    simp only [shiftRemove] at *
    rw [List.eraseP_cons]
    by_cases hk : e.1 == k
    · rw [hk, cond_true]
      by_cases hkk : k == k'
      · rw [if_pos hkk, get?_none_iff]
        intro a ha
        have := h'.1 a ha
        cases hak : a.1 == k'
        · rfl
        · have h2 := BEq.trans (BEq.trans hk hkk) (BEq.symm hak); rw [this] at h2; cases h2
      · have : (e.1 == k') = false := by rw [beq_congr_left hk]; simpa using hkk
        rw [if_neg hkk, get?_cons, if_neg (by simp [this])]
    · have hk' : (e.1 == k) = false := by simpa using hk
      rw [hk', cond_false, get?_cons, ih h'.2, get?_cons]
      by_cases hkk : k == k'
      · have : (e.1 == k') = false := by rw [beq_comm', ← beq_congr_left hkk, beq_comm']; exact hk'
        simp [hkk, this]
      · simp [hkk]

omit [EquivBEq κ] in
theorem keys_shiftRemove (m : List (κ × ν)) (k : κ) :
    (shiftRemove m k).map (·.1) = (m.map (·.1)).eraseP (· == k) := by
  rw [List.eraseP_map]; rfl

theorem eraseP_eq_filter {l : List κ} (h : l.Pairwise (fun a b => (a == b) = false)) (k : κ) :
    l.eraseP (· == k) = l.filter (fun a => !(a == k)) := by
  induction l with
  | nil => rfl
  | cons a l ih =>
    have h' := List.pairwise_cons.1 h
    rw [List.eraseP_cons]
    by_cases hk : a == k
    · rw [hk, cond_true, List.filter_cons_of_neg (by simp [hk]), List.filter_eq_self.2]
      intro b hb
      have := h'.1 b hb
      cases hbk : b == k
      · rfl
      · have h2 := BEq.trans hk (BEq.symm hbk); rw [this] at h2; cases h2
    · have hk' : (a == k) = false := by simpa using hk
      rw [hk', cond_false, List.filter_cons_of_pos (by simp [hk']), ih h'.2]

theorem get?_append_single (m : List (κ × ν)) (e : κ × ν) (k : κ) :
    get? (m ++ [e]) k = match get? m k with | some w => some w | none => if e.1 == k then some e.2 else none := by
  induction m with
  | nil => simp [get?_cons, get?_nil]
  | cons a m ih =>
    rw [List.cons_append, get?_cons, ih, get?_cons]
    cases a.1 == k <;> simp

theorem insert_eq_append {m : List (κ × ν)} {k : κ} {v : ν} (h : get? m k = none) : insert m k v = m ++ [(k, v)] := by
  induction m with
  | nil => rfl
  | cons a m ih =>
    rw [get?_cons] at h
    by_cases hk : a.1 == k
    · rw [if_pos hk] at h; cases h
    · rw [if_neg hk] at h
      rw [insert, if_neg hk, ih h]; rfl

/-- Swap-removal permutes what shift-removal leaves. -/
theorem swapRemove_perm (m : List (κ × ν)) (k : κ) : (swapRemove m k).Perm (shiftRemove m k) := by
  induction m with
  | nil => exact .nil
  | cons e m ih =>
    rw [swapRemove, shiftRemove, List.eraseP_cons]
    by_cases hk : e.1 == k
    · rw [if_pos hk, hk, cond_true]
      cases hl : m.getLast? with
      | none => rw [List.getLast?_eq_none_iff] at hl; subst hl; exact .nil
      | some l =>
        have : m = m.dropLast ++ [l] := by
          obtain ⟨ys, hys⟩ := List.getLast?_eq_some_iff.1 hl
          subst hys; simp
        show (l :: m.dropLast).Perm m
        conv => rhs; rw [this]
        exact (List.perm_append_comm (l₁ := [l]) (l₂ := m.dropLast))
    · have hk' : (e.1 == k) = false := by simpa using hk
      rw [if_neg hk, hk', cond_false]; exact ih.cons e

theorem Distinct.perm {m m' : List (κ × ν)} (h : Distinct m) (hp : m.Perm m') : Distinct m' :=
  hp.pairwise h (by intro a b hab; rw [beq_comm']; exact hab)

omit [EquivBEq κ] in
theorem contains_perm {m m' : List (κ × ν)} (hp : m.Perm m') (k : κ) : contains m k = contains m' k := by
  simp only [contains]; exact hp.any_eq

theorem contains_insert (m : List (κ × ν)) (k : κ) (v : ν) (k' : κ) :
    contains (insert m k v) k' = ((k == k') || contains m k') := by
  rw [contains_iff, get?_insert, contains_iff]; cases k == k' <;> simp

theorem contains_shiftRemove {m : List (κ × ν)} (h : Distinct m) (k k' : κ) :
    contains (shiftRemove m k) k' = (!(k == k') && contains m k') := by
  rw [contains_iff, get?_shiftRemove h, contains_iff]; cases k == k' <;> simp

end IndexMap
end Cordy
