import Verif.Model.Natives
/-!
# C46, C41 (native functions): arity, partial application, callbacks
-/
namespace Cordy.Natives
variable {V : Type}

/-! ## Specification -/

/-- How many arguments a kind of function takes: at least, and at most (core/mod.rs:437-450). -/
def atLeast : Argument → Nat
  | .arg0 | .arg0To1 | .unique | .iter | .invalid => 0
  | .arg1 | .arg1To2 | .arg1To3 | .uniqueNonEmpty | .iterNonEmpty => 1
  | .arg2 => 2
  | .arg3 => 3
def atMost : Argument → Option Nat
  | .arg0 => some 0
  | .arg0To1 | .arg1 => some 1
  | .arg1To2 | .arg2 => some 2
  | .arg1To3 | .arg3 => some 3
  | _ => none
/-- The kinds that can be partially applied: those with a fixed maximum. -/
def canBePartial (a : Argument) : Bool := (atMost a).isSome

/-- The arguments a partial function holds. -/
def PartialArg.args : PartialArg V → List V
  | .arg2Par1 a => [a]
  | .arg3Par1 a => [a]
  | .arg3Par2 a b => [a, b]

/-- The action runs the function with exactly these arguments (`to_iter` of a single one is part of running it). -/
inductive Runs (f : Fn) : Act V → List V → Prop
  | run0 : Runs f (.run0 f) []
  | run1 (a) : Runs f (.run1 f a) [a]
  | run2 (a b) : Runs f (.run2 f a b) [a, b]
  | run3 (a b c) : Runs f (.run3 f a b c) [a, b, c]
  | var (args) : Runs f (.var f args) args
  | varIter (a) : Runs f (.varIter f a) [a]

/-- The action gives a function that waits for more arguments and holds exactly these. -/
inductive Waits (f : Fn) : Act V → List V → Prop
  | itself : Waits f (.itself f) []
  | part (p : PartialArg V) : Waits f (.part f p) p.args

/-- Partial functions that exist: the held arguments are for a function that takes that many. -/
def Callee.WF : Callee V → Prop
  | .fn _ => True
  | .part f p => match p with
    | .arg2Par1 _ => argument f = .arg2
    | .arg3Par1 _ | .arg3Par2 _ _ => argument f = .arg3

/-- The arguments already given. -/
def Callee.held : Callee V → List V
  | .fn _ => []
  | .part _ p => p.args
def Callee.fn' : Callee V → Fn
  | .fn f => f
  | .part f _ => f

/-- The outcome of a call that the arity of a function demands. -/
def Demands (f : Fn) (args : List V) (act : Act V) : Prop :=
  if argument f = .invalid then act = .notFunction
  else if args.length < atLeast (argument f) then (if canBePartial (argument f) then Waits f act args else act = .arity f args.length)
  else match atMost (argument f) with
    | some n => if args.length ≤ n then Runs f act args else act = .arity f args.length
    | none => Runs f act args

/-! ## Theorems -/

theorem invokeStack_demands (f : Fn) (args : List V) : Demands f args (invokeStack f args) := by
  unfold Demands invokeStack
  generalize argument f = a
  match args with
  | [] => cases a <;> simp [atLeast, atMost, canBePartial] <;> constructor
  | [x] => cases a <;> simp [atLeast, atMost, canBePartial] <;> first | exact Waits.part (.arg2Par1 x) | exact Waits.part (.arg3Par1 x) | constructor
  | [x, y] => cases a <;> simp [atLeast, atMost, canBePartial] <;> first | exact Waits.part (.arg3Par2 x y) | constructor
  | [x, y, z] => cases a <;> simp [atLeast, atMost, canBePartial] <;> constructor
  | x :: y :: z :: w :: r =>
    have h : ¬ (r.length + 1 + 1 + 1 + 1 ≤ 3) := by omega
    have h' : ¬ (r.length + 1 + 1 + 1 + 1 < 3) := by omega
    have h'' : ¬ (r.length + 1 + 1 + 1 + 1 < 2) := by omega
    cases a <;> simp [atLeast, atMost, canBePartial, h, h', h''] <;> constructor

/-- **C41, native functions** calling a partial function with `bs` is calling the function with the held arguments followed by `bs`. -/
theorem C41_native (f : Fn) (p : PartialArg V) (h : (Callee.part f p).WF) (bs : List V) : direct (.part f p) bs = direct (.fn f) (p.args ++ bs) := by
  cases p with
  | arg2Par1 a =>
    have h : argument f = .arg2 := h
    match bs with
    | [] | [_] => simp [direct, invokePartial, invokeStack, h, PartialArg.args]
    | x :: y :: r => simp [direct, invokePartial, invokeStack, h, PartialArg.args]; omega
  | arg3Par1 a =>
    have h : argument f = .arg3 := h
    match bs with
    | [] | [_] | [_, _] => simp [direct, invokePartial, invokeStack, h, PartialArg.args]
    | x :: y :: z :: r => simp [direct, invokePartial, invokeStack, h, PartialArg.args]; omega
  | arg3Par2 a b =>
    have h : argument f = .arg3 := h
    match bs with
    | [] | [_] => simp [direct, invokePartial, invokeStack, h, PartialArg.args]
    | x :: y :: r => simp [direct, invokePartial, invokeStack, h, PartialArg.args]; omega

/-- **C46** a call in the program of a native function or of a partial one, with any number of arguments: with too few it waits for more (or is an arity
error, for functions on any number of arguments that need one), with too many it is an arity error that tells how many there were, else
the function is run with exactly the arguments in order. -/
theorem C46_arity (c : Callee V) (h : c.WF) (args : List V) : Demands c.fn' (c.held ++ args) (direct c args) := by
  cases c with
  | fn f => exact invokeStack_demands f args
  | part f p => rw [C41_native f p h]; exact invokeStack_demands f _

/-- **C46** a partial function that a call gives is one of those covered. -/
theorem C46_partial_wf (c : Callee V) (h : c.WF) (args : List V) (f : Fn) (p : PartialArg V) (hp : direct c args = .part f p) : (Callee.part f p).WF := by
  cases c with
  | fn g =>
    simp only [direct, invokeStack] at hp
    split at hp <;> rename_i ha <;> first | (simp at hp; done) | (split at hp <;> simp at hp <;> obtain ⟨rfl, rfl⟩ := hp <;> exact ha)
  | part g q =>
    simp only [direct, invokePartial] at hp
    split at hp <;> split at hp <;> simp at hp <;> obtain ⟨rfl, rfl⟩ := hp <;> exact h

/-- **C46** no call in the program leads to a case that does not exist (which would abort the process). -/
theorem C46_no_panic (c : Callee V) (h : c.WF) (args : List V) : (direct c args).supported = true := by
  have hs : ∀ (f : Fn) (xs : List V), (invokeStack f xs).supported = true := by
    intro f xs
    unfold invokeStack
    match xs with
    | [] => cases f <;> rfl
    | [_] => cases f <;> rfl
    | [_, _] => cases f <;> rfl
    | [_, _, _] => cases f <;> rfl
    | _ :: _ :: _ :: _ :: _ => cases f <;> rfl
  cases c with
  | fn f => exact hs f args
  | part f p => rw [C41_native f p h]; exact hs f _

/-- **C46** a function used as a callback does the same as in a direct call. Missing: `min` and `max` with one argument (`C46_violation_min_int`), `print` and
`vector` with two (`C46_violation_unique`), the number in the arity error of a function with two arguments held (`C46_violation_count`). -/
theorem C46_callback_partial (c : Callee V) (a b : V) :
    callback0 c = direct c [] ∧
    (argument c.fn' ≠ .uniqueNonEmpty → callback1 c a = direct c [a]) ∧
    ((argument c.fn' ≠ .unique ∨ c.held ≠ []) → c.held.length < 2 → callback2 c a b = direct c [a, b]) := by
  cases c with
  | fn f =>
    simp only [callback0, callback1, callback2, direct, Callee.fn', Callee.held, invokeStack]
    generalize argument f = k
    refine ⟨?_, fun h => ?_, fun h _ => ?_⟩ <;> cases k <;> simp_all
  | part f p =>
    cases p <;> simp [callback0, callback1, callback2, direct, Callee.fn', Callee.held, invokePartial, PartialArg.args]

/-- **C46, violated**: `min` used as a callback takes the elements of its argument, while `min(x)` knows `min(int)`. -/
theorem C46_violation_min_int (a : V) : direct (.fn .min) [a] = .run1 .min a ∧ callback1 (.fn .min) a = .varIter .min a := ⟨rfl, rfl⟩

/-- **C46, violated**: `print` and `vector` as callbacks with two arguments, as in `[1, 2] . reduce(print)`, abort the process: there is no such case. These are
the only two native functions. -/
theorem C46_violation_unique (f : Fn) (a b : V) : (callback2 (.fn f) a b).supported = false ↔ f = .print ∨ f = .vector := by
  cases f <;> simp [callback2, argument, Act.supported, has2, has0, has1, hasVar]

/-- Callbacks with no or one argument always have a case. -/
theorem C46_callback_no_panic (c : Callee V) (h : c.WF) (a : V) : (callback0 c).supported = true ∧ (callback1 c a).supported = true := by
  cases c with
  | fn f => cases f <;> exact ⟨rfl, rfl⟩
  | part f p =>
    refine ⟨rfl, ?_⟩
    have := C46_no_panic (.part f p) h [a]
    rwa [← (C46_callback_partial (.part f p) a a).2.1 (by cases p <;> simp_all [Callee.WF, Callee.fn'])] at this

/-- **C46, violated**: `replace(x, y)` called with two more arguments reports four; as a callback it reports three. -/
theorem C46_violation_count (x y a b : V) : direct (.part .replace (.arg3Par2 x y)) [a, b] = .arity .replace 4 ∧
    callback2 (.part .replace (.arg3Par2 x y)) a b = .arity .replace 3 := ⟨rfl, rfl⟩

/-- How many arguments are run by their own case: `n` of them, and not as a list. -/
def RunsAs (n : Nat) : Argument → Prop
  | .arg0 => n = 0
  | .arg1 => n = 1
  | .arg2 => n = 2
  | .arg3 => n = 3
  | .arg0To1 => n ≤ 1
  | .arg1To2 => n = 1 ∨ n = 2
  | .arg1To3 => 1 ≤ n ∧ n ≤ 3
  | .unique => n ≤ 1
  | .iter => n = 0
  | .uniqueNonEmpty => n = 1
  | .iterNonEmpty | .invalid => False

/-- **C46** the cases of the five dispatches are exactly those the arities need: there is a case for no, one, two and three arguments if and only if the function runs on
so many, and one for a list of arguments if and only if it takes any number. -/
theorem C46_cases (f : Fn) : (has0 f = true ↔ RunsAs 0 (argument f)) ∧ (has1 f = true ↔ RunsAs 1 (argument f)) ∧ (has2 f = true ↔ RunsAs 2 (argument f)) ∧
    (has3 f = true ↔ RunsAs 3 (argument f)) ∧ (hasVar f = true ↔ atMost (argument f) = none ∧ argument f ≠ .invalid) := by
  cases f <;> simp [argument, RunsAs, has0, has1, has2, has3, hasVar, atMost]

/-- **C46** what the five ways to run a function need. -/
theorem C46_supported (f : Fn) (a b c : V) (xs : List V) : ((Act.run0 f : Act V).supported = true ↔ RunsAs 0 (argument f)) ∧ ((Act.run1 f a).supported = true ↔ RunsAs 1 (argument f)) ∧
    ((Act.run2 f a b).supported = true ↔ RunsAs 2 (argument f)) ∧ ((Act.run3 f a b c).supported = true ↔ RunsAs 3 (argument f)) ∧
    ((Act.var f xs).supported = true ↔ atMost (argument f) = none ∧ argument f ≠ .invalid) := C46_cases f

/-! ## Examples -/
example : direct (.fn .map) [1] = .part .map (.arg2Par1 1) := rfl
example : direct (.part .replace (.arg3Par1 'a')) ['b', 'c'] = direct (.fn .replace) ['a', 'b', 'c'] := C41_native .replace (.arg3Par1 'a') rfl _
example : Demands .push [1, 2, 3] (.arity .push 3 : Act Nat) := C46_arity (.part .push (.arg2Par1 1)) rfl [2, 3]
example : callback2 (.fn .operatorAdd) 1 2 = direct (.fn .operatorAdd) [1, 2] := (C46_callback_partial (.fn .operatorAdd) 1 2).2.2 (.inl (by decide)) (by decide)

end Cordy.Natives
