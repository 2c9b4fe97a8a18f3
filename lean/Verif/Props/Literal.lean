import Verif.Model.Literal
import Verif.Props.Collections
/-!
# C87: What a literal is
-/
namespace Cordy.Literal
open Cordy.IndexMap

variable {κ : Type}

/-- The elements that an opcode brings. -/
def Op.elements : Op κ → List κ
  | .acc xs => xs
  | .unroll xs => xs

/-- The pairs that an opcode brings to a dict: keys and values as written, or the elements that are spread, each of which is a pair. -/
inductive Op.Pairs (toPair : κ → Res (κ × κ)) : Op κ → List (κ × κ) → Prop
  | acc (ps : List (κ × κ)) : Pairs toPair (.acc (ps.flatMap fun p => [p.1, p.2])) ps
  | unroll (xs : List κ) (ps : List (κ × κ)) (h : List.Forall₂ (fun x p => toPair x = .ok p) xs ps) : Pairs toPair (.unroll xs) ps

variable [BEq κ]

/-- **C87** a list literal and a vector literal are the elements as written, in order, with the elements of `...x` in its place, however they are brought together. -/
theorem C87_sequence (toPair : κ → Res (κ × κ)) (ops : List (Op κ)) : build toPair .list ops = .ok (.list (ops.flatMap Op.elements)) ∧
    build toPair .vector ops = .ok (.vector (ops.flatMap Op.elements)) := by
  have key : ∀ (ops : List (Op κ)) (xs : List κ), ops.foldlM (step toPair) (.list xs) = .ok (.list (xs ++ ops.flatMap Op.elements)) ∧
      ops.foldlM (step toPair) (.vector xs) = .ok (.vector (xs ++ ops.flatMap Op.elements)) := by
    intro ops
    induction ops with
    | nil => intro xs; simp [pure, Except.pure]
    | cons o ops ih =>
      intro xs
      have h := ih (xs ++ o.elements)
      rw [List.foldlM_cons, List.foldlM_cons, List.flatMap_cons, ← List.append_assoc, ← h.1, ← h.2]
      cases o <;> exact ⟨rfl, rfl⟩
  exact key ops []

variable [EquivBEq κ]

theorem push_extend (xs : List κ) : ∀ s : IndexSet.T κ, xs.foldl IndexSet.push s = extend s (xs.map fun x => (x, ())) := by
  induction xs with
  | nil => intro s; rfl
  | cons x xs ih => intro s; rw [List.foldl_cons, ih]; rfl

/-- **C87** a set literal has every value once, in the order in which they are first written. -/
theorem C87_set (toPair : κ → Res (κ × κ)) (ops : List (Op κ)) : ∃ s, build toPair .set ops = .ok (.set s) ∧ Distinct s ∧
    IndexSet.elems s = firstKeys (ops.flatMap Op.elements) ∧ ∀ x, contains s x = (ops.flatMap Op.elements).any (· == x) := by
  have key : ∀ (ops : List (Op κ)) (s : IndexSet.T κ), ops.foldlM (step toPair) (.set s) = .ok (.set ((ops.flatMap Op.elements).foldl IndexSet.push s)) := by
    intro ops
    induction ops with
    | nil => intro s; rfl
    | cons o ops ih =>
      intro s
      rw [List.foldlM_cons, List.flatMap_cons, List.foldl_append, ← ih]
      cases o <;> rfl
  refine ⟨_, key ops [], ?_, ?_, ?_⟩
  · exact (Cordy.ofList_contains _).1
  · have := (extend_spec ((ops.flatMap Op.elements).map fun x => (x, ())) ([] : IndexSet.T κ) List.Pairwise.nil).2.2
    rw [push_extend, IndexSet.elems, this]
    have e : (fun k => !contains ([] : IndexSet.T κ) k) = fun _ => true := by funext k; rfl
    rw [e, List.filter_eq_self.mpr (fun _ _ => rfl), List.map_map]
    simp [Function.comp_def]
  · exact (Cordy.ofList_contains _).2

omit [EquivBEq κ] in
theorem insertAll_pairs (ps : List (κ × κ)) : ∀ m, insertAll m (ps.flatMap fun p => [p.1, p.2]) = .ok (extend m ps) := by
  induction ps with
  | nil => intro m; rfl
  | cons p ps ih => intro m; exact ih _

omit [EquivBEq κ] in
theorem insertPairs_ok {toPair : κ → Res (κ × κ)} {xs : List κ} {ps : List (κ × κ)} (h : List.Forall₂ (fun x p => toPair x = .ok p) xs ps) : ∀ m, insertPairs toPair m xs = .ok (extend m ps) := by
  induction h with
  | nil => intro m; rfl
  | cons h1 _ ih => intro m; simp only [insertPairs, h1]; exact ih _

/-- **C87** a dict literal has every key once, in the order in which they are first written, with the value that is written last. -/
theorem C87_dict (toPair : κ → Res (κ × κ)) (ops : List (Op κ)) (pss : List (List (κ × κ))) (h : List.Forall₂ (Op.Pairs toPair) ops pss) :
    ∃ m, build toPair .dict ops = .ok (.dict m) ∧ Distinct m ∧ m.map (·.1) = firstKeys (pss.flatten.map (·.1)) ∧
      ∀ k, get? m k = (pss.flatten.reverse.find? fun p => p.1 == k).map (·.2) := by
  have key : ∀ m, ops.foldlM (step toPair) (.dict m) = .ok (.dict (extend m pss.flatten)) := by
    induction h with
    | nil => intro m; rfl
    | cons h1 _ ih =>
      intro m
      rw [List.foldlM_cons, List.flatten_cons]
      have e : ∀ as bs : List (κ × κ), extend m (as ++ bs) = extend (extend m as) bs := fun as bs => List.foldl_append
      rw [e, ← ih]
      cases h1 with
      | acc ps => simp only [step, Lit.accumulate, insertAll_pairs, Except.map, bind, Except.bind]
      | unroll xs ps hp => simp only [step, Lit.unroll, insertPairs_ok hp, Except.map, bind, Except.bind]
  obtain ⟨h1, h2, h3⟩ := extend_spec pss.flatten ([] : List (κ × κ)) List.Pairwise.nil
  refine ⟨_, key [], h1, ?_, fun k => by rw [h2]; simp [get?_nil]⟩
  rw [h3]
  have e : (fun k => !contains ([] : List (κ × κ)) k) = fun _ => true := by funext k; rfl
  rw [e, List.filter_eq_self.mpr (fun _ _ => rfl)]
  rfl

omit [EquivBEq κ] in
/-- **C87** a dict literal into which something is spread fails with the error of the first element that is no pair; opcodes that come after it are not run. -/
theorem C87_dict_error (toPair : κ → Res (κ × κ)) (ops rest : List (Op κ)) (pss : List (List (κ × κ))) (h : List.Forall₂ (Op.Pairs toPair) ops pss)
    (xs ys : List κ) (ps : List (κ × κ)) (hx : List.Forall₂ (fun x p => toPair x = .ok p) xs ps) (y : κ) (e : Err) (hy : toPair y = .error e) :
    build toPair .dict (ops ++ .unroll (xs ++ y :: ys) :: rest) = .error (.err e) := by
  have bad : ∀ m, insertPairs toPair m (xs ++ y :: ys) = .error (.err e) := by
    induction hx with
    | nil => intro m; simp [insertPairs, hy]
    | cons h1 _ ih => intro m; simp only [List.cons_append, insertPairs, h1]; exact ih _
  have key : ∀ m, (ops ++ .unroll (xs ++ y :: ys) :: rest).foldlM (step toPair) (.dict m) = .error (.err e) := by
    induction h with
    | nil => intro m; simp [List.foldlM_cons, step, Lit.unroll, bad, Except.map, bind, Except.bind]
    | cons h1 _ ih =>
      intro m
      rw [List.cons_append, List.foldlM_cons]
      cases h1 with
      | acc ps => simp only [step, Lit.accumulate, insertAll_pairs, Except.map, bind, Except.bind]; exact ih _
      | unroll xs ps hp => simp only [step, Lit.unroll, insertPairs_ok hp, Except.map, bind, Except.bind]; exact ih _
  exact key []

/-- **C87** a pair is a list or a vector of two elements, and nothing else. -/
theorem C87_pair (fail : Err) (v a b : Val) : toPair fail v = .ok (a, b) ↔ v = .list [a, b] ∨ v = .vector [a, b] := by
  constructor
  · intro h
    unfold toPair at h
    split at h
    · cases h; exact .inl rfl
    · cases h; exact .inr rfl
    · cases h
  · rintro (rfl | rfl) <;> rfl

theorem insert_last (m : List (κ × κ)) (e : κ × κ) (h : Distinct (m ++ [e])) : insert m e.1 e.2 = m ++ [e] := by
  induction m with
  | nil => rfl
  | cons d m ih =>
    rw [List.cons_append, Distinct, List.pairwise_cons] at h
    have h1 := h.1 e (by simp)
    rw [IndexMap.insert, h1]
    simp only [Bool.false_eq_true, if_false, List.cons_append]
    rw [ih h.2]

theorem extend_distinct (es : List (κ × κ)) : ∀ m : List (κ × κ), Distinct (m ++ es) → extend m es = m ++ es := by
  induction es with
  | nil => intro m _; simp [extend]
  | cons e es ih =>
    intro m h
    have e1 : m ++ e :: es = (m ++ [e]) ++ es := by simp
    have hd : Distinct (m ++ [e]) := by
      rw [e1] at h
      exact (List.pairwise_append.mp h).1
    rw [e1] at h ⊢
    rw [← ih _ h, ← insert_last m e hd]
    rfl

/-- **C87** `{...d}` and `{k: v, ...}` with the entries of a dict are the dict: the same entries in the same order. -/
theorem C87_spread (toPair : κ → Res (κ × κ)) (enc : κ × κ → κ) (h : ∀ p, toPair (enc p) = .ok p) (d : List (κ × κ)) (hd : Distinct d) :
    build toPair .dict [.unroll (d.map enc)] = .ok (.dict d) ∧ build toPair .dict [.acc (d.flatMap fun p => [p.1, p.2])] = .ok (.dict d) := by
  have h1 : List.Forall₂ (fun x p => toPair x = .ok p) (d.map enc) d := by
    clear hd
    induction d with
    | nil => exact .nil
    | cons p d ih => exact .cons (h p) ih
  have h2 := extend_distinct d [] hd
  simp only [List.nil_append] at h2
  constructor
  · have e := insertPairs_ok h1 ([] : List (κ × κ))
    rw [h2] at e
    simp [build, step, Lit.new, Lit.unroll, e, Except.map, bind, Except.bind, pure, Except.pure]
  · have e := insertAll_pairs d ([] : List (κ × κ))
    rw [h2] at e
    simp [build, step, Lit.new, Lit.accumulate, e, Except.map, bind, Except.bind, pure, Except.pure]

example : (build (κ := Nat) (fun x => .ok (x / 10, x % 10)) .dict [.unroll [37, 21]]).isOk = true ∧ Distinct (κ := Nat) [(3, 7), (2, 1)] := by
  constructor
  · rfl
  · simp [Distinct]

/-- `{3: 1, 2: 5, ...[(3, 7)], 4: 0}` -/
example : ∃ m, build (κ := Nat) (fun x => .ok (x / 10, x % 10)) .dict [.acc [3, 1, 2, 5], .unroll [37], .acc [4, 0]] = .ok (.dict m) ∧ m.map (·.1) = [3, 2, 4] ∧ get? m 3 = some 7 := by
  obtain ⟨m, h1, _, h2, h3⟩ := C87_dict (κ := Nat) (fun x => .ok (x / 10, x % 10)) [.acc [3, 1, 2, 5], .unroll [37], .acc [4, 0]] [[(3, 1), (2, 5)], [(3, 7)], [(4, 0)]]
    (.cons (.acc [(3, 1), (2, 5)]) (.cons (.unroll _ _ (.cons rfl .nil)) (.cons (.acc [(4, 0)]) .nil)))
  exact ⟨m, h1, by rw [h2]; decide, by rw [h3]; decide⟩
/-- `{1, ...[2, 1], 3}` -/
example : ∃ s, build (κ := Nat) (fun _ => .error .nonEmpty) .set [.acc [1], .unroll [2, 1], .acc [3]] = .ok (.set s) ∧ IndexSet.elems s = [1, 2, 3] := by
  obtain ⟨s, h1, _, h2, _⟩ := C87_set (κ := Nat) (fun _ => .error .nonEmpty) [.acc [1], .unroll [2, 1], .acc [3]]
  exact ⟨s, h1, by rw [h2]; decide⟩
example : build (κ := Nat) (fun x => if x = 5 then .error .nonEmpty else .ok (x, x)) .dict [.acc [3, 1], .unroll [4, 5, 6], .acc [1]] = .error (.err .nonEmpty) :=
  C87_dict_error _ [.acc [3, 1]] [.acc [1]] [[(3, 1)]] (.cons (.acc [(3, 1)]) .nil) [4] [6] [(4, 4)] (.cons rfl .nil) 5 _ rfl

end Cordy.Literal
