import Verif.Lemmas.ExprOptReorder
import Verif.Model.OpTables
import Verif.Props.Codegen
/-!
# C35: optimising expressions

`eval` is the evaluation of `Spec/Eval.lean`, `Laws` the facts about operators and functions (`Spec/OptSpec.lean`). `opt c (actual c)` is the
optimiser; `safe` and `exact` are more careful variants of its decisions (`Model/ExprOpt.lean`).
-/
namespace Cordy.Codegen
variable {Γ : Sig} {E S : Type}

/-- **C35** the optimised expression gives the same value with the same effects whenever the original gives a value, and stops whenever it stops.
Missing: expressions where the optimiser moves a collection literal past something with effects, or folds a swapped operator on complex constants
(`h` excludes them; for the second see `C35_violation_complex`); and which error it is, and the effects before it (`C35_exact_partial`). -/
theorem C35_value_partial (c : Consts Γ) (P : Prims Γ E S) (L : Laws c P) (e : Expr Γ) (h : opt c (actual c) e = opt c (safe c) e) (s : S) :
    Same (eval P e s) (eval P (opt c (actual c) e) s) := by
  rw [h]; exact opt_ok L (good_safe L) e s

/-- **C35** where the optimiser only reorders what cannot fail in two ways, and does not inline slices, the outcome is the same in every
respect: value, effects, error, and effects before the error. -/
theorem C35_exact_partial (c : Consts Γ) (P : Prims Γ E S) (L : Laws c P) (e : Expr Γ) (h : opt c (actual c) e = opt c (exact c) e) (s : S) :
    eval P (opt c (actual c) e) s = eval P e s := by
  rw [h]; exact (opt_ok L (good_exact L) e s).symm

/-- **C35** with the code generator (C36): when the original expression gives a value, running the code of the optimised expression pushes it, with the
same effects. -/
theorem C35_code_partial (c : Consts Γ) (P : Prims Γ E S) (L : Laws c P) (e : Expr Γ) (h : opt c (actual c) e = opt c (safe c) e)
    (he : (opt c (actual c) e).NoFieldCompose) (hsz : (code P (opt c (actual c) e)).length < 2 ^ 31) (m : Mach Γ S) (v : Γ.V) (s : S) (hv : eval P e m.s = .ok v s) :
    Ends P (opt c (actual c) e) m { m with stack := v :: m.stack, s := s } := by
  have h := C35_value_partial c P L e h m.s
  have hc := C36_value_partial P _ he hsz m
  rw [hv] at h
  cases ho : eval P (opt c (actual c) e) m.s with
  | ok w t => rw [ho] at h hc; obtain ⟨rfl, rfl⟩ := h; exact hc
  | stop r t => rw [ho] at h; exact h.elim

/-- **C35, violated**: a swapped operator (`v` is `OperatorDivSwap`, so `(/ a)(b)` is `b / a`) applied to two complex constants is computed with its
operands the wrong way around: `b` and `a` are not considered reorderable, so the operator is marked as swapped, and then folded as swapped. -/
theorem C35_violation_complex (c : Consts Γ) (P : Prims Γ E S) (L : Laws c P) (v a b : Γ.V) (op : Γ.B)
    (hm : c.isMin v = false) (hM : c.isMax v = false) (hv : c.binOp v = none) (hs : c.swapOp v = some op) (ha : c.foldable a = true) (hb : c.foldable b = true) (hpa : c.cpurity a = 0) (hpb : c.cpurity b = 0) (s : S) :
    eval P (.call (.call (.const v) (.plain (.const a) .nil)) (.plain (.const b) .nil)) s = P.binary op b a s ∧
    eval P (opt c (actual c) (.call (.call (.const v) (.plain (.const a) .nil)) (.plain (.const b) .nil))) s = P.binary op a b s := by
  have hn : c.minNargs v = 2 := L.op_nargs v (.inr (by simp [hs]))
  constructor
  · obtain ⟨p, hp⟩ := L.partial_call v [a] (by simp [hn])
    simp only [eval, evalW, evalArgsW, Out.ok_bind, (hp _).1, (hp _).2, List.singleton_append]
    exact L.call_swap v op a b s hv hs
  · have hp : isPartial c (.const v) 1 = true := by simp [isPartial, hn]
    have hr : (actual c).canReorder (.const b) (.const a) = false := by simp [actual, canReorder, purity, hpa, hpb]
    have ho : opt c (actual c) (.call (.call (.const v) (.plain (.const a) .nil)) (.plain (.const b) .nil)) = resultExpr (c.foldB op a b) := by
      simp only [opt, optArgs, visitCall, visitCallConst, hm, hM, Bool.or_self, Bool.false_and, Bool.false_eq_true, if_false, Args.anyUnroll, Args.length,
        Nat.zero_add, hp, Bool.not_false, Bool.and_self, if_true, Args.append, hv, hs, hr, visitBin, ha, hb]
      simp [actual]
    rw [ho, foldB_ok L op a b (by simp [ha, hb]) false s]
    simp only [eval, evalW, Out.ok_bind, Bool.false_eq_true, if_false]

/-- **C35, violated**: `x . exit` where `exit` is moved before `x`: nothing of `x` happens. -/
theorem C35_violation_exit (c : Consts Γ) (P : Prims Γ E S) (x : Expr Γ) (s : S) :
    eval P (opt c (actual c) (.compose x .exit)) s = .stop .exit s ∧ (eval P (.compose x .exit) s = match eval P x s with | .ok _ s' => .stop .exit s' | o => o) := by
  constructor
  · have : opt c (actual c) (.compose x .exit) = .call .exit (.plain (opt c (actual c) x) .nil) := by
      simp [opt, visitCompose, visitComposeOther, actual, canReorder, purity, visitCall]
    rw [this]
    simp only [eval, evalW, Out.stop_bind]
  · simp only [eval, evalW]
    cases evalW P (fcDoc P) x s <;> rfl

/-- **C35** the tables of operators: a native function that is taken for a binary operator does, called with two arguments, what the
operator does; one whose swapped function is an operator does it with the operands swapped; every function for which `x . f(r)` is rewritten
is one of the two (so that `unwrap` does not panic, optimizer.rs:129), and takes two arguments. -/
theorem C35_tables {V R : Type} (I : Ops.Impl V R) (f : Ops.Fn) (op : Ops.BinOp) (a b : V) :
    (Ops.asBinary f = some op → Ops.invoke I f a b = some (Ops.apply I op a b) ∧ Ops.minNargs f = 2) ∧
    (Ops.asBinary f = none → Ops.asBinary (Ops.swap f) = some op → Ops.invoke I f a b = some (Ops.apply I op b a) ∧ Ops.minNargs f = 2) ∧
    (Ops.isOperator f = true → (Ops.asBinary f).isSome ∨ (Ops.asBinary (Ops.swap f)).isSome) ∧ Ops.swap (Ops.swap f) = f := by
  refine ⟨fun h => ?_, fun h h' => ?_, fun h => ?_, ?_⟩
  · cases f <;> simp [Ops.asBinary] at h <;> subst h <;> exact ⟨rfl, rfl⟩
  · cases f <;> simp [Ops.asBinary] at h <;> simp [Ops.asBinary, Ops.swap] at h' <;> subst h' <;> exact ⟨rfl, rfl⟩
  · cases f <;> simp_all [Ops.asBinary, Ops.swap, Ops.isOperator]
  · cases f <;> rfl

/-! ## A concrete language -/

namespace OptExample
inductive Fn where
  | div | divSwap | log | minF | intF
  deriving DecidableEq, Repr

/-- Values: numbers, "complex" numbers, functions (with collected arguments), lists, slices. -/
inductive Val where
  | num (n : Int)
  | cx (n : Int)
  | fn (f : Fn) (args : List Val)
  | list (xs : List Val)
  | slc (a b : Val)

def Val.toInt : Val → Int
  | .num n => n
  | .cx n => n
  | _ => 0

abbrev Γ₁ : Sig := ⟨Val, Unit, Unit, Empty, Nat, Unit, Unit, Unit⟩
/-- The state: the value of the variables, and a log. -/
abbrev St := (Nat → Int) × List Int

def div (l r : Val) : Except Unit Val := if r.toInt = 0 then .error () else .ok (.num (l.toInt / r.toInt))
def lift (s : St) : Except Unit Val → Out String St Val
  | .ok v => .ok v s
  | .error _ => .stop (.err "division by zero") s

def minArgs : Fn → Nat
  | .div | .divSwap => 2
  | .log => 1
  | _ => 0

def callFn (f : Fn) (args : List Val) (s : St) : Out String St Val :=
  if args.length < minArgs f then .ok (.fn f args) s else
  match f, args with
  | .div, [a, b] => lift s (div a b)
  | .divSwap, [a, b] => lift s (div b a)
  | .log, [a] => .ok a (s.1, s.2 ++ [a.toInt])
  | .minF, [.fn .intF []] => .ok (.num (-100)) s
  | _, _ => .stop (.err "bad call") s

def callV (v : Val) (args : List Val) (s : St) : Out String St Val :=
  match v, args with
  | .fn f xs, ys => callFn f (xs ++ ys) s
  | .list [_], [_] => .ok (.num 0) s
  | _, _ => .stop (.err "not callable") s

def P₁ : Prims Γ₁ String St where
  bool b := .num (if b then 1 else 0)
  raise _ := "division by zero"
  truthy v _ := decide (Val.toInt v ≠ 0)
  unary _ v s := .ok (.num (-(Val.toInt v))) s
  binary _ l r s := lift s (div l r)
  cmp := fun x => nomatch x
  ofCmp := fun x => nomatch x
  ne := ()
  ofCmp_spec := fun x => nomatch x
  load x s := .ok (.num (s.1 x)) s
  store x v s := .ok () (fun (y : Nat) => if y = (x : Nat) then Val.toInt v else s.1 y, s.2)
  toClosure v s := .ok v s
  capture _ v s := .ok v s
  iter v s := match (v : Val) with | .list xs => .ok xs s | _ => .stop (.err "not iterable") s
  spread _ v s := match (v : Val) with | .list xs => .ok xs s | _ => .stop (.err "not iterable") s
  mkLit _ vs s := .ok (.list vs) s
  slice2 a b s := .ok (.slc a b) s
  slice3 a b _ s := .ok (.slc a b) s
  index _ _ s := .ok (.num 0) s
  slice _ _ _ s := .stop (.err "slice") s
  sliceStep _ _ _ _ s := .stop (.err "slice") s
  getField a _ s := .ok a s
  setField _ _ v s := .ok v s
  bindMethod a _ s := .ok a s
  setIndex _ _ _ s := .ok () s
  pattern _ _ _ s := .ok () s
  call v vs s := callV v vs s

def c₁ : Consts Γ₁ where
  foldable v := match (v : Val) with | .num _ | .cx _ => true | _ => false
  cpurity v := match (v : Val) with | .num _ | .fn _ [] => 2 | _ => 0
  truthy v := decide (Val.toInt v ≠ 0)
  foldU _ v := .ok (.num (-(Val.toInt v)))
  foldB _ l r := div l r
  binOp v := match (v : Val) with | .fn .div [] => some () | _ => none
  swapOp v := match (v : Val) with | .fn .divSwap [] => some () | _ => none
  isOperator v := match (v : Val) with | .fn .div [] | .fn .divSwap [] => true | _ => false
  minNargs v := match (v : Val) with | .fn f [] => minArgs f | _ => 0
  isMin v := match (v : Val) with | .fn .minF [] => true | _ => false
  isMax _ := false
  isInt v := match (v : Val) with | .fn .intF [] => true | _ => false
  minInt := .num (-100)
  maxInt := .num 100
  badList _ := ()
  total _ := true

theorem captureAll_ok (caps : List Unit) (v : Val) (s : St) : captureAll P₁ caps v s = .ok v s := by
  induction caps with
  | nil => rfl
  | cons q qs ih => simp only [captureAll]; exact ih

theorem lift_ro (s : St) (r : Except Unit Val) : (∃ v, lift s r = .ok v s) ∨ ∃ x t, lift s r = .stop x t := by
  cases r with
  | ok v => exact .inl ⟨v, rfl⟩
  | error _ => exact .inr ⟨_, _, rfl⟩

/-- The laws hold of it, so the theorems are not about nothing. -/
def L₁ : Laws c₁ P₁ where
  foldU := fun _ _ _ _ => rfl
  foldB := fun _ v w s _ _ => by
    show lift s (div v w) = _
    simp only [c₁]
    cases div v w <;> rfl
  truthy := fun _ _ _ => rfl
  call_bin := fun v op a b s h => by
    unfold c₁ at h
    simp only at h
    split at h
    · rfl
    · cases h
  call_swap := fun v op a b s _ h => by
    unfold c₁ at h
    simp only at h
    split at h
    · rfl
    · cases h
  op_nargs := fun v h => by
    unfold c₁ at h ⊢
    simp only at h ⊢
    rcases h with h | h
    · split at h
      · rfl
      · simp at h
    · split at h
      · rfl
      · simp at h
  partial_call := fun v vs h => by
    unfold c₁ at h
    simp only at h
    split at h
    · rename_i f
      refine ⟨Val.fn f vs, fun s => ⟨?_, fun ws => rfl⟩⟩
      show callFn f ([] ++ vs) s = _
      simp only [List.nil_append, callFn, if_pos h]
    · omega
  min_int := fun v w s h h' => by
    unfold c₁ at h h'
    simp only at h h'
    split at h <;> split at h'
    · rfl
    · cases h'
    · cases h
    · cases h
  max_int := fun v w s h => by simp [c₁] at h
  list_call := fun _ _ _ => rfl
  list_bad := fun vs x s h => by
    show ∃ r t, callV (.list vs) [x] s = .stop r t
    unfold callV
    split
    · rename_i h; cases h
    · rename_i hl _; cases hl; exact absurd rfl h
    · exact ⟨_, _, rfl⟩
  slice_call := fun _ _ _ _ => trivial
  slice3_call := fun _ _ _ _ _ => trivial
  load := fun _ _ => .inl ⟨_, rfl⟩
  load_total := fun _ _ _ => ⟨_, rfl⟩
  getField := fun _ _ _ => .inl ⟨_, rfl⟩
  bindMethod := fun _ _ _ => .inl ⟨_, rfl⟩
  unary := fun _ _ _ => .inl ⟨_, rfl⟩
  binary := fun _ l r s => lift_ro s (div l r)
  mkLit := fun _ _ _ => .inl ⟨_, rfl⟩
  mkList := fun _ _ => ⟨_, rfl⟩
  Imm := fun _ => True
  imm_const := fun _ _ => trivial
  imm_unary := fun _ _ _ => .inl ⟨_, trivial, fun _ => rfl⟩
  imm_binary := fun _ v w _ _ => by
    show Fixed (Γ := Γ₁) _ fun s => lift s (div v w)
    cases div v w with
    | ok x => exact .inl ⟨x, trivial, fun _ => rfl⟩
    | error _ => exact .inr fun _ => ⟨_, _, rfl⟩
  imm_truthy := fun _ _ _ _ => rfl
  imm_partial := fun v vs _ _ h => by
    unfold c₁ at h
    simp only at h
    split at h
    · rename_i f
      refine ⟨Val.fn f vs, trivial, fun s => ?_⟩
      show callFn f ([] ++ vs) s = _
      simp only [List.nil_append, callFn, if_pos h]
    · omega
  function := fun v caps s => ⟨v, trivial, fun s' _ => by
    simp only [eval, evalW]
    split
    · rfl
    · show (Out.ok v s').bind _ = _
      rw [Out.ok_bind]; exact captureAll_ok caps v s'⟩

def k (v : Val) : Expr Γ₁ := .const v
def s₀ : St := (fun _ => 7, [])

/-- `log(6) . (/ x)`: becomes `log(6) / x`, in this order. -/
def e₁ : Expr Γ₁ := .compose (.call (k (.fn .log [])) (.plain (k (.num 6)) .nil)) (.call (k (.fn .divSwap [])) (.plain (.load (.var 0)) .nil))

example : opt c₁ (actual c₁) e₁ = .binary () (.call (k (.fn .log [])) (.plain (k (.num 6)) .nil)) (.load (.var 0)) false := rfl
example : eval P₁ (opt c₁ (actual c₁) e₁) s₀ = .ok (.num 0) (s₀.1, [6]) := rfl
example : opt c₁ (actual c₁) e₁ = opt c₁ (safe c₁) e₁ ∧ opt c₁ (actual c₁) e₁ = opt c₁ (exact c₁) e₁ := ⟨rfl, rfl⟩
/-- `x . [12 / 4]` becomes `x[3]`, `x . (/ x)` becomes `x / x`. -/
example : opt c₁ (actual c₁) (.compose (.load (.var 0)) (.literal .list (.plain (.binary () (k (.num 12)) (k (.num 4)) false) .nil))) = .index (.load (.var 0)) (k (.num 3)) := rfl
example : opt c₁ (actual c₁) (.compose (.load (.var 1)) (.call (k (.fn .divSwap [])) (.plain (.load (.var 0)) .nil))) = .binary () (.load (.var 1)) (.load (.var 0)) false ∧
    opt c₁ (exact c₁) (.compose (.load (.var 1)) (.call (k (.fn .divSwap [])) (.plain (.load (.var 0)) .nil))) = .binary () (.load (.var 1)) (.load (.var 0)) false := ⟨rfl, rfl⟩

/-- `(/ 2i)(4i)` is 4i / 2i = 2, and compiles to 2i / 4i. -/
example : eval P₁ (.call (.call (k (.fn .divSwap [])) (.plain (k (.cx 2)) .nil)) (.plain (k (.cx 4)) .nil)) s₀ = .ok (.num 2) s₀ ∧
    eval P₁ (opt c₁ (actual c₁) (.call (.call (k (.fn .divSwap [])) (.plain (k (.cx 2)) .nil)) (.plain (k (.cx 4)) .nil))) s₀ = .ok (.num 0) s₀ :=
  C35_violation_complex c₁ P₁ L₁ (.fn .divSwap []) (.cx 2) (.cx 4) () rfl rfl rfl rfl rfl rfl rfl rfl s₀

/-- `log(6) . exit` does not log. -/
example : eval P₁ (.compose (.call (k (.fn .log [])) (.plain (k (.num 6)) .nil)) .exit) s₀ = .stop .exit (s₀.1, [6]) ∧
    eval P₁ (opt c₁ (actual c₁) (.compose (.call (k (.fn .log [])) (.plain (k (.num 6)) .nil)) .exit)) s₀ = .stop .exit s₀ := ⟨rfl, rfl⟩
end OptExample

end Cordy.Codegen
