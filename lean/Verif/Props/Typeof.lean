import Verif.Model.Typeof

/-!
# C75: `typeof` and `is` keep the guarantees of the documentation

`docs/library.md:279-289` promises that `typeof(x) == typeof(y)` tells types apart, that `x is typeof(x)` is always true, and lists the
subtypes.  `Kind` and `Kind.le` below are that text.
-/
namespace Cordy.Typeof

open Cordy.Natives (Fn)

/-- docs/library.md:279-289: the types of values, as the documentation names them; a struct declares a type of its own. -/
inductive Kind where
  | nil | bool | int | complex | rational | str | list | set | dict | heap | vector | range | enumerate | function | iterator
  | struct (declaration : Nat)
  deriving DecidableEq, Repr

/-- The type of a value.  Everything that exists to be called is a `function`: functions of all sorts, struct constructors, modules,
slices `[1:2]`, field accesses `(->x)`, memoized functions. -/
def kind : Item → Kind
  | .val .nil => .nil
  | .val (.bool _) => .bool
  | .val (.int _) => .int
  | .val (.complex _ _) => .complex
  | .val (.rational _ _) => .rational
  | .val (.str _) => .str
  | .val (.list _) => .list
  | .val (.set _) => .set
  | .val (.dict _) => .dict
  | .val (.heap _) => .heap
  | .val (.vector _) => .vector
  | .val (.range _ _ _) => .range
  | .val (.enumerate _) => .enumerate
  | .val (.struct d _) => .struct d
  | .iter => .iterator
  | .memoized _ | .val (.native _) | .val (.field _) | .val (.structType _) | .val (.slice _ _ _) | .val (.func _)
  | .val (.closure _ _) | .val (.partialFn _ _) | .val (.partialNative _ _) => .function

/-- The words that can stand to the right of `is`. -/
inductive TypeName where
  | nil | bool | int | complex | rational | str | list | set | dict | heap | vector | function | iterable | any
  | struct (declaration : Nat)
  deriving DecidableEq, Repr

/-- The value that such a word has. -/
def TypeName.value : TypeName → Item
  | .nil => .val .nil
  | .bool => .val (fnValue .bool)
  | .int => .val (fnValue .int)
  | .complex => .val (fnValue .complex)
  | .rational => .val (fnValue .rational)
  | .str => .val (fnValue .str)
  | .list => .val (fnValue .list)
  | .set => .val (fnValue .set)
  | .dict => .val (fnValue .dict)
  | .heap => .val (fnValue .heap)
  | .vector => .val (fnValue .vector)
  | .function => .val (fnValue .function)
  | .iterable => .val (fnValue .iterable)
  | .any => .val (fnValue .any)
  | .struct d => .val (.structType d)

/-- docs/library.md:90-126, 246, 285-288: the values of which types are `is t`. -/
def TypeName.covers : TypeName → Kind → Prop
  | .any, _ => True
  | .iterable, k => k ∈ [.str, .list, .set, .dict, .heap, .vector, .range, .enumerate]
  | .complex, k => k ∈ [.bool, .int, .complex]
  | .rational, k => k ∈ [.bool, .int, .rational]
  | .int, k => k ∈ [.bool, .int]
  | .nil, k => k = .nil
  | .bool, k => k = .bool
  | .str, k => k = .str
  | .list, k => k = .list
  | .set, k => k = .set
  | .dict, k => k = .dict
  | .heap, k => k = .heap
  | .vector, k => k = .vector
  | .function, k => k = .function
  | .struct d, k => k = .struct d

instance (t : TypeName) (k : Kind) : Decidable (t.covers k) := by
  cases t <;> unfold TypeName.covers <;> infer_instance

/-- The two sorts of function of which the code disagrees with itself. -/
def Odd : Item → Prop
  | .memoized _ => True
  | .val (.field _) => True
  | _ => False

theorem fnOf_known : fnOf Fn.bool.ctorIdx = some .bool ∧ fnOf Fn.int.ctorIdx = some .int ∧ fnOf Fn.complex.ctorIdx = some .complex ∧
    fnOf Fn.rational.ctorIdx = some .rational ∧ fnOf Fn.str.ctorIdx = some .str ∧ fnOf Fn.list.ctorIdx = some .list ∧
    fnOf Fn.set.ctorIdx = some .set ∧ fnOf Fn.dict.ctorIdx = some .dict ∧ fnOf Fn.heap.ctorIdx = some .heap ∧
    fnOf Fn.vector.ctorIdx = some .vector ∧ fnOf Fn.function.ctorIdx = some .function ∧ fnOf Fn.iterable.ctorIdx = some .iterable ∧
    fnOf Fn.any.ctorIdx = some .any := by decide

/-- First guarantee: comparing the results of `typeof` with `==` tells exactly whether the types are the same. -/
theorem C75_typeof_distinguishes (x y : Item) : Val.eqv (typeOf x) (typeOf y) = true ↔ kind x = kind y := by
  have key : ∀ x : Item, ∃ k, kind x = k ∧ typeOf x = (match k with
      | .nil => .nil | .bool => fnValue .bool | .int => fnValue .int | .complex => fnValue .complex | .rational => fnValue .rational
      | .str => fnValue .str | .list => fnValue .list | .set => fnValue .set | .dict => fnValue .dict | .heap => fnValue .heap
      | .vector => fnValue .vector | .range => fnValue .range | .enumerate => fnValue .enumerate | .function => fnValue .function
      | .iterator => fnValue .iterable | .struct d => .structType d) := by
    intro x
    refine ⟨_, rfl, ?_⟩
    cases x with
    | val v => cases v <;> rfl
    | memoized => rfl
    | iter => rfl
  obtain ⟨k, hk, e⟩ := key x
  obtain ⟨l, hl, e'⟩ := key y
  rw [hk, hl, e, e']
  cases k <;> cases l <;> simp [Val.eqv, fnValue, Fn.ctorIdx]

/-- `x is t` is true exactly of the values of the types that the documentation lists under `t`, and false of the others,
except for memoized functions and field accesses `(->x)`. -/
theorem C75_is_partial (x : Item) (t : TypeName) (h : ¬ Odd x) :
    binaryIs x t.value false = some (decide (t.covers (kind x))) := by
  cases t <;> simp only [TypeName.value, binaryIs, fnValue, fnOf_known, Option.bind_some,
    isNative] <;>
  (cases x with
    | iter => (simp [kind, TypeName.covers, isBool, isInt, isComplex, isRational, isIterable, isEvaluable] <;> exact decide_eq_true trivial)
    | memoized => exact absurd trivial h
    | val v =>
      cases v <;>
        first
        | exact absurd trivial h
        | (simp [kind, TypeName.covers, isBool, isInt, isComplex, isRational, isIterable, isEvaluable] <;> exact decide_eq_true trivial)
        | (simp [kind, TypeName.covers]; try rfl))

/-- The code does not keep it for those two: they are functions by `typeof`, but not by `is`. -/
theorem C75_is_violation (f : Val) (i : Nat) :
    kind (.memoized f) = .function ∧ binaryIs (.memoized f) TypeName.function.value false = some false ∧
    kind (.val (.field i)) = .function ∧ binaryIs (.val (.field i)) TypeName.function.value false = some false := by
  refine ⟨rfl, ?_, rfl, ?_⟩ <;>
    simp only [TypeName.value, binaryIs, fnValue, fnOf_known, Option.bind_some, isNative] <;> rfl

/-- `x is not t` is the negation of `x is t`, and an error exactly when that is. -/
theorem C75_is_not (x t : Item) : binaryIs x t true = (binaryIs x t false).map (!·) := by
  simp only [binaryIs, Option.map_map]
  congr 1
  funext b
  cases b <;> rfl

/-- Whether `x is t` is an error does not depend on `x`: it is one exactly if `t` is none of the type names. -/
theorem C75_is_error (x t : Item) (invert : Bool) : binaryIs x t invert = none ↔ ∀ n : TypeName, t ≠ n.value := by
  constructor
  · intro h n e
    subst e
    cases n <;> simp only [TypeName.value, binaryIs, fnValue, fnOf_known, Option.bind_some,
      isNative] at h <;> cases h
  · intro h
    cases t with
    | memoized => rfl
    | iter => rfl
    | val v =>
      cases v <;> try rfl
      case nil => exact absurd rfl (h .nil)
      case structType o => exact absurd rfl (h (.struct o))
      case native n =>
        have : fnOf n = none := by
          unfold fnOf
          rw [List.find?_eq_none]
          intro f hf e
          have e' : f.ctorIdx = n := by simpa using e
          subst e'
          simp only [fnOf.allFns, List.mem_cons, List.not_mem_nil, or_false] at hf
          rcases hf with h' | h' | h' | h' | h' | h' | h' | h' | h' | h' | h' | h' | h' <;> subst h'
          · exact h .bool rfl
          · exact h .int rfl
          · exact h .complex rfl
          · exact h .rational rfl
          · exact h .str rfl
          · exact h .function rfl
          · exact h .list rfl
          · exact h .set rfl
          · exact h .dict rfl
          · exact h .vector rfl
          · exact h .iterable rfl
          · exact h .heap rfl
          · exact h .any rfl
        simp [binaryIs, this]

/-- Second guarantee: `x is typeof(x)` is true; missing are ranges, enumerations, memoized functions and field accesses (and the internal
iterator of a loop, which no program sees). -/
theorem C75_is_typeof_partial (x : Item) (h : ¬ Odd x) (hk : kind x ∉ [.range, .enumerate, .iterator]) :
    binaryIs x (.val (typeOf x)) false = some true := by
  have key : ∃ t : TypeName, Item.val (typeOf x) = t.value ∧ t.covers (kind x) := by
    cases x with
    | memoized => exact absurd trivial h
    | iter => simp [kind] at hk
    | val v =>
      cases v <;> first
        | exact absurd trivial h
        | exact ⟨.nil, rfl, rfl⟩
        | exact ⟨.bool, rfl, rfl⟩
        | exact ⟨.int, rfl, by simp [kind, TypeName.covers]⟩
        | exact ⟨.complex, rfl, by simp [kind, TypeName.covers]⟩
        | exact ⟨.rational, rfl, by simp [kind, TypeName.covers]⟩
        | exact ⟨.str, rfl, rfl⟩
        | exact ⟨.list, rfl, rfl⟩
        | exact ⟨.set, rfl, rfl⟩
        | exact ⟨.dict, rfl, rfl⟩
        | exact ⟨.heap, rfl, rfl⟩
        | exact ⟨.vector, rfl, rfl⟩
        | exact ⟨.function, rfl, rfl⟩
        | exact ⟨.struct _, rfl, rfl⟩
        | simp [kind] at hk
  obtain ⟨t, e, hc⟩ := key
  rw [e, C75_is_partial x t h, decide_eq_true hc]

/-- The code breaks the second guarantee: `range(3) is typeof(range(3))` and the same for `enumerate([])` are errors,
and it is false for every memoized function and every field access. -/
theorem C75_is_typeof_violation :
    (∀ a b c, binaryIs (.val (.range a b c)) (.val (typeOf (.val (.range a b c)))) false = none) ∧
    (∀ v, binaryIs (.val (.enumerate v)) (.val (typeOf (.val (.enumerate v)))) false = none) ∧
    (∀ f, binaryIs (.memoized f) (.val (typeOf (.memoized f))) false = some false) ∧
    (∀ i, binaryIs (.val (.field i)) (.val (typeOf (.val (.field i)))) false = some false) :=
  ⟨fun _ _ _ => rfl, fun _ => rfl, fun f => (C75_is_violation f 0).2.1, fun i => (C75_is_violation .nil i).2.2.2⟩

/-- The type of a type is `function`, except that the type of `nil` is `nil` itself. -/
theorem C75_typeof_typeof (x : Item) : kind (.val (typeOf x)) = if kind x = .nil then .nil else .function := by
  cases x with
  | val v => cases v <;> rfl
  | memoized => rfl
  | iter => rfl

/-- The subtypes of docs/library.md:286-288, of every value. -/
theorem C75_subtypes (x : Item) (h : ¬ Odd x) :
    (binaryIs x TypeName.bool.value false = some true → binaryIs x TypeName.int.value false = some true) ∧
    (binaryIs x TypeName.int.value false = some true →
      binaryIs x TypeName.complex.value false = some true ∧ binaryIs x TypeName.rational.value false = some true) ∧
    (∀ t ∈ [TypeName.str, .list, .set, .dict, .heap, .vector],
      binaryIs x t.value false = some true → binaryIs x TypeName.iterable.value false = some true) ∧
    binaryIs x TypeName.any.value false = some true := by
  have key : ∀ t : TypeName, binaryIs x t.value false = some true ↔ t.covers (kind x) := fun t => by
    rw [C75_is_partial x t h, Option.some.injEq, decide_eq_true_iff]
  simp only [key]
  refine ⟨?_, ?_, ?_, trivial⟩
  · intro h; simp only [TypeName.covers] at h ⊢; simp [h]
  · intro h
    simp only [TypeName.covers, List.mem_cons, List.not_mem_nil, or_false] at h ⊢
    rcases h with h | h <;> simp [h]
  · intro t ht h'
    simp only [List.mem_cons, List.not_mem_nil, or_false] at ht
    rcases ht with rfl | rfl | rfl | rfl | rfl | rfl <;> simp [TypeName.covers, show kind x = _ from h']

namespace Example

/-- `true is complex`, `(1, 2) is iterable`, `Foo(1) is Foo`, `Foo(1) is not Bar`, `print is function`; `typeof` of two structs. -/
example : binaryIs (.val (.bool true)) TypeName.complex.value false = some true := by decide
example : binaryIs (.val (.vector [.int 1, .int 2])) TypeName.iterable.value false = some true := by decide
example : binaryIs (.val (.struct 7 [.int 1])) (.val (.structType 7)) false = some true := by decide
example : binaryIs (.val (.struct 7 [.int 1])) (.val (.structType 8)) true = some true := by decide
example : binaryIs (.val (fnValue .print)) TypeName.function.value false = some true := by decide
example : binaryIs (.val (.int 1)) (.val (fnValue .print)) false = none := by decide
example : Val.eqv (typeOf (.val (.struct 7 [.int 1]))) (typeOf (.val (.struct 7 []))) = true := by decide
example : ¬ Odd (.val (.struct 7 [.int 1])) := fun h => h
example : kind (.val (.struct 7 [.int 1])) ∉ [Kind.range, .enumerate, .iterator] := by decide

end Example

end Cordy.Typeof
