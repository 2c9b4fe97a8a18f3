import Verif.Model.Value
import Verif.Props.Range
/-!
# C90: Which values are true
-/
namespace Cordy.Truth

/-- The items of a value, as iterating over it gives them. -/
inductive Items : Val → List Val → Prop where
  | str (s : List Char) : Items (.str s) (s.map fun c => .str [c])
  | list (xs : List Val) : Items (.list xs) xs
  | set (xs : List Val) : Items (.set xs) xs
  | vector (xs : List Val) : Items (.vector xs) xs
  | heap (xs : List Val) : Items (.heap xs) xs
  | dict (es : Ents) : Items (.dict es) (es.toList.map fun e => .vector [e.1, e.2])
  /-- `range(a, b, s)` -/
  | range {a b s : Int} {r : Range} (h : Range.mk? a b s = .ok r) : Items (.range r.start r.stop r.step) (r.values.map .int)
  | enumerate {v : Val} {xs : List Val} (h : Items v xs) : Items (.enumerate v) (xs.zipIdx.map fun p => .vector [.int p.2, p.1])

theorem range_empty (a b s : Int) (r : Range) (h : Range.mk? a b s = .ok r) : r.step ≠ 0 ↔ r.values ≠ [] := by
  have h0 := Range.C13_values a b s r h 0
  have e : r.values ≠ [] ↔ r.values[0]? ≠ none := by cases r.values <;> simp
  rw [e, h0]
  unfold Range.mk? at h
  split at h
  · cases h
  · split at h
    · cases h
      simp only [Range.Before, Int.natCast_zero, Int.zero_mul, Int.add_zero]
      simp [*] at *
      omega
    · cases h
      simp only [Range.Before, Int.natCast_zero, Int.zero_mul, Int.add_zero]
      simp [*] at *
      omega

/-- A value that one can iterate over is true exactly if it has an item. -/
theorem C90_items (v : Val) (xs : List Val) (h : Items v xs) : v.toBool = true ↔ xs ≠ [] := by
  induction h with
  | str s => simp [Val.toBool]
  | list xs | set xs | vector xs | heap xs => simp [Val.toBool]
  | dict es => simp [Val.toBool]
  | range h =>
    rw [Ne, List.map_eq_nil_iff, ← Ne, ← range_empty _ _ _ _ h]
    simp [Val.toBool]
  | enumerate _ ih => rw [Val.toBool, ih]; simp

/-- nil is false, false is false and true is true, 0 is the only int that is false, and all values that are neither of these nor
can be iterated over are true. -/
theorem C90_scalars : Val.toBool .nil = false ∧ (∀ b, Val.toBool (.bool b) = b) ∧ (∀ i : Int, Val.toBool (.int i) = false ↔ i = 0) ∧
    (∀ re im, Val.toBool (.complex re im) = true) ∧ (∀ n d, Val.toBool (.rational n d) = true) ∧ (∀ o xs, Val.toBool (.struct o xs) = true) ∧
    (∀ o, Val.toBool (.structType o) = true) ∧ (∀ n, Val.toBool (.native n) = true) ∧ (∀ f, Val.toBool (.field f) = true) ∧
    (∀ f, Val.toBool (.func f) = true) ∧ (∀ f e, Val.toBool (.closure f e) = true) ∧ ∀ a b c, Val.toBool (.slice a b c) = true := by
  refine ⟨rfl, fun _ => rfl, fun i => ?_, ?_, ?_, ?_, ?_, ?_, ?_, ?_, ?_, ?_⟩ <;> intros <;> simp [Val.toBool]

/-- `range(3, 3, 2)` has no items, `enumerate(range(0, 5, 2))` has three. -/
example : ∃ r, Range.mk? 3 3 2 = .ok r ∧ Items (.range r.start r.stop r.step) (r.values.map .int) ∧ Val.toBool (.range r.start r.stop r.step) = false :=
  ⟨⟨0, 0, 0⟩, rfl, .range (a := 3) (b := 3) (s := 2) (r := ⟨0, 0, 0⟩) rfl, rfl⟩
example : Items (.enumerate (.range 0 5 2)) (((Range.values ⟨0, 5, 2⟩).map Val.int).zipIdx.map fun p => .vector [.int p.2, p.1]) ∧ Val.toBool (.enumerate (.range 0 5 2)) = true :=
  ⟨.enumerate (.range (a := 0) (b := 5) (s := 2) (r := ⟨0, 5, 2⟩) rfl), rfl⟩

end Cordy.Truth
