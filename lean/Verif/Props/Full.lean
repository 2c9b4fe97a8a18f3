import Verif.Lemmas.Full
import Verif.Props.Stmt
import Verif.Props.ExprOpt
/-!
# C74: whole functions and programs, with the code of their expressions

`Spec/Exec.lean` (statements) with `Spec/Eval.lean` (expressions) are the rules; `langDoc` puts them together. The code is that of statements and expressions, linearised, on one machine.
-/
namespace Cordy.Full
open Cordy.Builder
open Cordy.Stmts (Block Ends emitBody emitProgram linear callBody runProgram runB Op Br)
open Cordy.Graph (Instr)
open Cordy.Codegen (Out Prims LitTy Consts opt actual safe exact Laws)
variable {Γ : Codegen.Sig} {E S : Type}

/-! ## Languages that agree -/

section
variable {Ρ : Runtime Γ E S} {f f' : Codegen.Expr Γ → Codegen.Expr Γ} {fc fc' : ∀ k, Γ.V → Γ.V → Vars Γ.V k × S → Out E (Vars Γ.V k × S) Γ.V} {G : Codegen.Expr Γ → Prop}

theorem call_at (hG : Same (lang Ρ f fc) (lang Ρ f' fc') G) (l u) (fuel : Nat) (body : Block (sig Γ)) (hb : body.each G) (args : List Γ.V) (s : S) :
    callBody (lift (lang Ρ f' fc')) fuel body args ⟨l, u, s⟩ = (callBody (lang Ρ f fc) fuel body args s).map (fun r => match r with | .ok (v, s) => .ok (v, ⟨l, u, s⟩) | .error r => .error r) := by
  unfold callBody
  rw [runB_at l u hG fuel body hb args s]
  rcases runB (lang Ρ f fc) fuel body args s with _ | (_ | _ | _ | _ | _) <;> rfl

theorem program_at (hG : Same (lang Ρ f fc) (lang Ρ f' fc') G) (l u) (fuel : Nat) (body : Block (sig Γ)) (hb : body.each G) (s : S) :
    runProgram (lift (lang Ρ f' fc')) fuel body ⟨l, u, s⟩ = (runProgram (lang Ρ f fc) fuel body s).map (fun r => match r with | .ok s => .ok ⟨l, u, s⟩ | .error r => .error r) := by
  unfold runProgram
  rw [runB_at l u hG fuel body hb [] s]
  rcases runB (lang Ρ f fc) fuel body [] s with _ | (_ | _ | _ | _ | _) <;> rfl

/-- What C64 says of the code, said of a language with which it agrees. -/
theorem function_of (hG : Same (lang Ρ f fc) (langCode Ρ f') G) (ph : Op (sig Γ)) (body : Block (sig Γ)) (hok : body.ok none false) (hb : body.each G) (args : List Γ.V) (t : St Γ S)
    (pre : List (Instr (Op (sig Γ)) (Br (sig Γ)))) (locs : List Unit) (hsz : (linear ph (emitBody (em Ρ f') args.length body) pre locs).length < 2 ^ 31) :
    (∀ v t', Ends (machine Ρ f') ph (emitBody (em Ρ f') args.length body) pre locs args t (.ret v t') ↔
      t'.lits = t.lits ∧ t'.unroll = t.unroll ∧ ∃ fuel, callBody (lang Ρ f fc) fuel body args t.s = some (.ok (v, t'.s))) ∧
    (∀ r, Ends (machine Ρ f') ph (emitBody (em Ρ f') args.length body) pre locs args t (.err r) ↔ ∃ fuel, callBody (lang Ρ f fc) fuel body args t.s = some (.error r)) ∧
    (∀ st t', ¬ Ends (machine Ρ f') ph (emitBody (em Ρ f') args.length body) pre locs args t (.exit st t')) ∧
    ¬ Ends (machine Ρ f') ph (emitBody (em Ρ f') args.length body) pre locs args t .crash := by
  obtain ⟨h1, h2, h3, h4⟩ := Stmts.C64_function_partial (machine Ρ f') (em Ρ f') ph body hok args t pre locs hsz
  have hL : (machine Ρ f').toLang = lift (langCode Ρ f') := rfl
  have hc : ∀ fuel, callBody (machine Ρ f').toLang fuel body args t = _ := fun fuel => call_at hG t.lits t.unroll fuel body hb args t.s
  refine ⟨fun v t' => (h1 v t').trans ⟨?_, ?_⟩, fun r => (h2 r).trans ⟨?_, ?_⟩, h3, h4⟩
  · rintro ⟨n, hn⟩
    rw [hc n] at hn
    rcases hr : callBody (lang Ρ f fc) n body args t.s with _ | (_ | ⟨w, s⟩) <;> rw [hr] at hn
    · cases hn
    · cases hn
    · injection hn with hn
      injection hn with hn
      injection hn with e1 e2
      subst e1 e2
      exact ⟨rfl, rfl, n, hr⟩
  · rintro ⟨e1, e2, n, hn⟩
    refine ⟨n, ?_⟩
    rw [hc n, hn, ← e1, ← e2]
    rfl
  · rintro ⟨n, hn⟩
    rw [hc n] at hn
    rcases hr : callBody (lang Ρ f fc) n body args t.s with _ | (_ | ⟨w, s⟩) <;> rw [hr] at hn
    · cases hn
    · injection hn with hn
      injection hn with hn
      subst hn
      exact ⟨n, hr⟩
    · cases hn
  · rintro ⟨n, hn⟩
    exact ⟨n, by rw [hc n, hn]; rfl⟩

theorem program_of (hG : Same (lang Ρ f fc) (langCode Ρ f') G) (ph : Op (sig Γ)) (body : Block (sig Γ)) (hok : body.ok none false) (hb : body.each G) (t : St Γ S)
    (pre : List (Instr (Op (sig Γ)) (Br (sig Γ)))) (locs : List Unit) (hsz : (linear ph (emitProgram (em Ρ f') body) pre locs).length < 2 ^ 31) :
    (∀ st t', Ends (machine Ρ f') ph (emitProgram (em Ρ f') body) pre locs [] t (.exit st t') ↔
      st = [] ∧ t'.lits = t.lits ∧ t'.unroll = t.unroll ∧ ∃ fuel, runProgram (lang Ρ f fc) fuel body t.s = some (.ok t'.s)) ∧
    (∀ r, Ends (machine Ρ f') ph (emitProgram (em Ρ f') body) pre locs [] t (.err r) ↔ ∃ fuel, runProgram (lang Ρ f fc) fuel body t.s = some (.error r)) ∧
    ¬ Ends (machine Ρ f') ph (emitProgram (em Ρ f') body) pre locs [] t .crash := by
  obtain ⟨h1, h2, h4⟩ := Stmts.C64_program_partial (machine Ρ f') (em Ρ f') ph body hok t pre locs hsz
  have hc : ∀ fuel, runProgram (machine Ρ f').toLang fuel body t = _ := fun fuel => program_at hG t.lits t.unroll fuel body hb t.s
  refine ⟨fun v t' => (h1 v t').trans (and_congr_right fun _ => ⟨?_, ?_⟩), fun r => (h2 r).trans ⟨?_, ?_⟩, h4⟩
  · rintro ⟨n, hn⟩
    rw [hc n] at hn
    rcases hr : runProgram (lang Ρ f fc) n body t.s with _ | (_ | s) <;> rw [hr] at hn
    · cases hn
    · cases hn
    · injection hn with hn
      injection hn with hn
      subst hn
      exact ⟨rfl, rfl, n, hr⟩
  · rintro ⟨e1, e2, n, hn⟩
    refine ⟨n, ?_⟩
    rw [hc n, hn, ← e1, ← e2]
    rfl
  · rintro ⟨n, hn⟩
    rw [hc n] at hn
    rcases hr : runProgram (lang Ρ f fc) n body t.s with _ | (_ | s) <;> rw [hr] at hn
    · cases hn
    · injection hn with hn
      injection hn with hn
      subst hn
      exact ⟨n, hr⟩
    · cases hn
  · rintro ⟨n, hn⟩
    exact ⟨n, by rw [hc n, hn]; rfl⟩
end

/-! ## C74 -/

theorem same_plain (Ρ : Runtime Γ E S) : Same (langDoc Ρ) (langCode Ρ id) Codegen.Expr.NoFieldCompose := by
  intro e he env s
  simp only [langDoc, langCode, lang, id]
  rw [Codegen.evalW_eq (Ρ.prims env.length) (Codegen.fcDoc (Ρ.prims env.length)) (Codegen.fcCode (Ρ.prims env.length)) e he]

/-- **C74** the code of a function, statements and expressions together, ends as the rules of the language say, and only so: it returns `v` if and only if by the rules the call has that value, and the state it leaves is the one of the rules; literals and spread arguments of the caller, under construction, are as before. It stops with an error (or `exit`) if and only if the rules say so, and with the same. It never crashes.

Missing: `a->x .= f` (C36), and the statements that the compiler gets wrong (`ok`, C64). -/
theorem C74_function_partial (Ρ : Runtime Γ E S) (ph : Op (sig Γ)) (body : Block (sig Γ)) (hok : body.ok none false) (hb : body.each Codegen.Expr.NoFieldCompose) (args : List Γ.V) (t : St Γ S)
    (pre : List (Instr (Op (sig Γ)) (Br (sig Γ)))) (locs : List Unit) (hsz : (linear ph (emitBody (em Ρ id) args.length body) pre locs).length < 2 ^ 31) :
    (∀ v t', Ends (machine Ρ id) ph (emitBody (em Ρ id) args.length body) pre locs args t (.ret v t') ↔
      t'.lits = t.lits ∧ t'.unroll = t.unroll ∧ ∃ fuel, callBody (langDoc Ρ) fuel body args t.s = some (.ok (v, t'.s))) ∧
    (∀ r, Ends (machine Ρ id) ph (emitBody (em Ρ id) args.length body) pre locs args t (.err r) ↔ ∃ fuel, callBody (langDoc Ρ) fuel body args t.s = some (.error r)) ∧
    (∀ st t', ¬ Ends (machine Ρ id) ph (emitBody (em Ρ id) args.length body) pre locs args t (.exit st t')) ∧
    ¬ Ends (machine Ρ id) ph (emitBody (em Ρ id) args.length body) pre locs args t .crash :=
  function_of (same_plain Ρ) ph body hok hb args t pre locs hsz

/-- **C74** a whole program: its code runs to the end, with nothing left on the stack, if and only if by the rules the program does, and in the same state; it stops with an error or `exit` if and only if the rules say so. -/
theorem C74_program_partial (Ρ : Runtime Γ E S) (ph : Op (sig Γ)) (body : Block (sig Γ)) (hok : body.ok none false) (hb : body.each Codegen.Expr.NoFieldCompose) (t : St Γ S)
    (pre : List (Instr (Op (sig Γ)) (Br (sig Γ)))) (locs : List Unit) (hsz : (linear ph (emitProgram (em Ρ id) body) pre locs).length < 2 ^ 31) :
    (∀ st t', Ends (machine Ρ id) ph (emitProgram (em Ρ id) body) pre locs [] t (.exit st t') ↔
      st = [] ∧ t'.lits = t.lits ∧ t'.unroll = t.unroll ∧ ∃ fuel, runProgram (langDoc Ρ) fuel body t.s = some (.ok t'.s)) ∧
    (∀ r, Ends (machine Ρ id) ph (emitProgram (em Ρ id) body) pre locs [] t (.err r) ↔ ∃ fuel, runProgram (langDoc Ρ) fuel body t.s = some (.error r)) ∧
    ¬ Ends (machine Ρ id) ph (emitProgram (em Ρ id) body) pre locs [] t .crash :=
  program_of (same_plain Ρ) ph body hok hb t pre locs hsz

/-! ## With the optimiser -/

/-- Expressions that are optimised without a change in what they do (C35). -/
def OptExact (c : Consts Γ) (e : Codegen.Expr Γ) : Prop := opt c (actual c) e = opt c (exact c) e ∧ (opt c (actual c) e).NoFieldCompose

theorem same_opt (Ρ : Runtime Γ E S) (c : Consts Γ) (L : ∀ k, Laws c (Ρ.prims k)) : Same (langDoc Ρ) (langCode Ρ (opt c (actual c))) (OptExact c) := by
  intro e he env s
  have h1 := Codegen.C35_exact_partial c (Ρ.prims env.length) (L env.length) e he.1 (⟨env, rfl⟩, s)
  simp only [langDoc, langCode, lang, id]
  rw [← Codegen.evalW_eq (Ρ.prims env.length) (Codegen.fcDoc (Ρ.prims env.length)) (Codegen.fcCode (Ρ.prims env.length)) _ he.2]
  exact congrArg (ofOut Ρ.bot) h1

/-- The machine is the same with and without the optimiser. -/
theorem ends_machine (Ρ : Runtime Γ E S) (f : Codegen.Expr Γ → Codegen.Expr Γ) : Ends (machine Ρ f) = Ends (machine Ρ id) := rfl

/-- **C74** with the optimiser (`--optimize`): the code of a function whose expressions are all optimised first still ends as the rules say of the function that was written.

Missing: what is missing without the optimiser, and expressions that it changes (`OptExact`, C35). -/
theorem C74_optimised_partial (Ρ : Runtime Γ E S) (c : Consts Γ) (L : ∀ k, Laws c (Ρ.prims k)) (ph : Op (sig Γ)) (body : Block (sig Γ)) (hok : body.ok none false) (hb : body.each (OptExact c)) (args : List Γ.V) (t : St Γ S)
    (pre : List (Instr (Op (sig Γ)) (Br (sig Γ)))) (locs : List Unit) (hsz : (linear ph (emitBody (em Ρ (opt c (actual c))) args.length body) pre locs).length < 2 ^ 31) :
    (∀ v t', Ends (machine Ρ id) ph (emitBody (em Ρ (opt c (actual c))) args.length body) pre locs args t (.ret v t') ↔
      t'.lits = t.lits ∧ t'.unroll = t.unroll ∧ ∃ fuel, callBody (langDoc Ρ) fuel body args t.s = some (.ok (v, t'.s))) ∧
    (∀ r, Ends (machine Ρ id) ph (emitBody (em Ρ (opt c (actual c))) args.length body) pre locs args t (.err r) ↔ ∃ fuel, callBody (langDoc Ρ) fuel body args t.s = some (.error r)) ∧
    (∀ st t', ¬ Ends (machine Ρ id) ph (emitBody (em Ρ (opt c (actual c))) args.length body) pre locs args t (.exit st t')) ∧
    ¬ Ends (machine Ρ id) ph (emitBody (em Ρ (opt c (actual c))) args.length body) pre locs args t .crash :=
  function_of (same_opt Ρ c L) ph body hok hb args t pre locs hsz

/-! ## A concrete language -/

deriving instance DecidableEq for Codegen.Stop

namespace Example
open Cordy.Codegen (Expr Args)

/-- Values: numbers, lists of numbers, and functions: `div`, `divSwap` (so that `(/ a)(b)` is `b / a`) with the arguments they have so far, and `print`. -/
inductive Val where
  | num (n : Int)
  | list (xs : List Int)
  | div (xs : List Int)
  | divSwap (xs : List Int)
  | print
  deriving DecidableEq

def Val.toInt : Val → Int
  | .num n => n
  | _ => 0

/-- Unary operator: `-`; binary ones: `/` (`true`) and `-` (`false`); comparison: `<`, as an operator `none`. Variables are locals. -/
abbrev Γ₂ : Codegen.Sig := ⟨Val, Unit, Option Bool, Unit, Nat, Unit, Unit, Unit⟩

def bin (op : Option Bool) (l r : Val) : Except Unit Val :=
  match op with
  | some true => if r.toInt = 0 then .error () else .ok (.num (l.toInt / r.toInt))
  | some false => .ok (.num (l.toInt - r.toInt))
  | none => .ok (.num (if l.toInt < r.toInt then 1 else 0))

def res {S : Type} (s : S) : Except Unit Val → Out String S Val
  | .ok v => .ok v s
  | .error _ => .stop (.err "division by zero") s

/-- The state beside the variables is what was printed. -/
def call {k : Nat} (v : Val) (args : List Val) (s : Vars Val k × List Int) : Out String (Vars Val k × List Int) Val :=
  match v, args with
  | .div [], [a] => .ok (.div [a.toInt]) s
  | .divSwap [], [a] => .ok (.divSwap [a.toInt]) s
  | .div [], [] => .ok (.div []) s
  | .divSwap [], [] => .ok (.divSwap []) s
  | .div [], [a, b] => res s (bin (some true) a b)
  | .divSwap [], [a, b] => res s (bin (some true) b a)
  | .div [a], [b] => res s (bin (some true) (.num a) b)
  | .divSwap [a], [b] => res s (bin (some true) b (.num a))
  | .div [a], [] => .ok (.div [a]) s
  | .divSwap [a], [] => .ok (.divSwap [a]) s
  | .list [_], [_] => .ok (.num 0) s
  | .print, [a] => .ok (.num 0) (s.1, s.2 ++ [a.toInt])
  | _, _ => .stop (.err "bad call") s

def P₂ (k : Nat) : Prims Γ₂ String (Vars Val k × List Int) where
  bool b := .num (if b then 1 else 0)
  raise _ := "division by zero"
  truthy v _ := decide (Val.toInt v ≠ 0)
  unary _ v s := .ok (.num (-(Val.toInt v))) s
  binary op l r s := res s (bin op l r)
  cmp _ l r _ := decide (Val.toInt l < Val.toInt r)
  ofCmp _ := none
  ne := some false
  ofCmp_spec := by intro c l r s; simp [bin, res]
  load x s := match s.1.1[(x : Nat)]? with | some v => .ok v s | none => .stop (.err "no variable") s
  store x v s := .ok () (⟨s.1.1.set x v, by rw [List.length_set]; exact s.1.2⟩, s.2)
  toClosure v s := .ok v s
  capture _ v s := .ok v s
  iter v s := match (v : Val) with | .list xs => .ok (xs.map Val.num) s | _ => .stop (.err "not iterable") s
  spread _ v s := match (v : Val) with | .list xs => .ok (xs.map Val.num) s | _ => .stop (.err "not iterable") s
  mkLit _ vs s := .ok (.list (vs.map Val.toInt)) s
  slice2 _ _ s := .stop (.err "slice") s
  slice3 _ _ _ s := .stop (.err "slice") s
  index _ _ s := .ok (.num 0) s
  slice _ _ _ s := .stop (.err "slice") s
  sliceStep _ _ _ _ s := .stop (.err "slice") s
  getField a _ s := .ok a s
  setField _ _ v s := .ok v s
  bindMethod a _ s := .ok a s
  setIndex _ _ _ s := .ok () s
  pattern _ _ _ s := .ok () s
  call v vs s := call v vs s

/-- `for` goes through a list; the iterator is what is left of it. -/
def Ρ₂ : Runtime Γ₂ String (List Int) where
  prims := P₂
  nil := .num 0
  truthy v _ := decide (Val.toInt v ≠ 0)
  cmp _ l r _ := decide (Val.toInt l < Val.toInt r)
  truthy_eq := fun _ _ _ => rfl
  cmp_eq := fun _ _ _ _ _ => rfl
  iter v s := match (v : Val) with | .list xs => .ok (.list xs) s | _ => .stop (.err "not iterable") s
  next v _ := match (v : Val) with | .list (x :: xs) => some (.list xs, .num x) | _ => none
  cmpMsg _ _ _ _ := .num 7
  failed _ _ _ := "assertion failed"

def n (i : Int) : Expr Γ₂ := .const (.num i)
def x (i : Nat) : Expr Γ₂ := .load (.var i)
def print (e : Expr Γ₂) : Expr Γ₂ := .call (.const .print) (.plain e .nil)
def blk : List (Stmts.Stmt (sig Γ₂)) → Block (sig Γ₂)
  | [] => .nil
  | s :: b => .cons s (blk b)

/-- `fn f(a) { let t = 0; for i in [a, ...[8, 0], 3] { if i < 1 < 5 { continue } t = t - -i; print(24 / i) } 12 . (/ 4) - t }` -/
def f : Block (sig Γ₂) := blk [.letIn .named (n 0),
  .for .named (.literal .list (.plain (x 0) (.unroll (.literal .list (.plain (n 8) (.plain (n 0) .nil))) (.plain (n 3) .nil))))
    (blk [.ite (.compare (x 2) (.more () (n 1) (.last () (n 5)))) (blk [.cont]) .none,
      .expr (.assign (.var 1) (.binary (some false) (x 1) (.unary () (x 2)) false)),
      .expr (print (.binary (some true) (n 24) (x 2) false))]) .nil,
  .expr (.binary (some false) (.compose (n 12) (.call (.const (.divSwap [])) (.plain (n 4) .nil))) (x 1) false)]

theorem f_ok : f.ok none false := by simp [f, blk, Block.ok, Stmts.Stmt.ok, Stmts.Else.ok]
theorem f_each : f.each Expr.NoFieldCompose := by
  simp [f, blk, n, x, print, Block.each, Stmts.Stmt.each, Stmts.Else.each, Expr.NoFieldCompose, Args.NoFieldCompose, Codegen.Chain.NoFieldCompose]

instance : DecidableEq (sig Γ₂).V := inferInstanceAs (DecidableEq Val)

/-- `f(6)` prints 4, 3 and 8 and gives 3 - 17. -/
theorem f_6 : callBody (langDoc Ρ₂) 9 f [.num 6] [] = some (.ok (.num (-14), [4, 3, 8])) := by decide +kernel

/-- So does its code, where the caller has a literal under construction; and it does nothing else. -/
example : Ends (machine Ρ₂ id) .nil (emitBody (em Ρ₂ id) 1 f) [.op .exit] [()] [.num 6] ⟨[(.set, [.num 1])], [3], []⟩ (.ret (.num (-14)) ⟨[(.set, [.num 1])], [3], [4, 3, 8]⟩) ∧
    ∀ v t', Ends (machine Ρ₂ id) .nil (emitBody (em Ρ₂ id) 1 f) [.op .exit] [()] [.num 6] ⟨[(.set, [.num 1])], [3], []⟩ (.ret v t') → v = Val.num (-14) ∧ t'.s = [4, 3, 8] := by
  have hsz : (linear .nil (emitBody (em Ρ₂ id) 1 f) [.op .exit] [()]).length < 2 ^ 31 := by decide +kernel
  have h := (C74_function_partial Ρ₂ .nil f f_ok f_each [.num 6] ⟨[(.set, [.num 1])], [3], []⟩ [.op .exit] [()] hsz).1
  refine ⟨(h _ _).2 ⟨rfl, rfl, 9, f_6⟩, fun v t' ht => ?_⟩
  obtain ⟨_, _, k, hk⟩ := (h v t').1 ht
  have := Stmts.C64_rules (langDoc Ρ₂) f [.num 6] [] _ _ _ _ hk f_6
  injection this with this
  injection this with h1 h2
  exact ⟨h1, h2⟩

/-- As a program: `for i in [2, 0] { print(6 / i) }` prints 3, and stops with an error. -/
def p : Block (sig Γ₂) := blk [.for .named (.literal .list (.plain (n 2) (.plain (n 0) .nil))) (blk [.expr (print (.binary (some true) (n 6) (x 0) false))]) .nil]

example : Ends (machine Ρ₂ id) .nil (emitProgram (em Ρ₂ id) p) [] [] [] ⟨[], [], []⟩ (.err (.err "division by zero", [3], [.num 0, .list []])) :=
  ((C74_program_partial Ρ₂ .nil p (by simp [p, blk, Block.ok, Stmts.Stmt.ok]) (by simp [p, blk, n, x, print, Block.each, Stmts.Stmt.each, Expr.NoFieldCompose, Args.NoFieldCompose])
    ⟨[], [], []⟩ [] [] (by decide +kernel)).2.1 _).2 ⟨5, by decide +kernel⟩

/-! ### The optimiser -/

def c₂ : Consts Γ₂ where
  foldable v := match (v : Val) with | .num _ => true | _ => false
  cpurity v := match (v : Val) with | .num _ | .div [] | .divSwap [] => 2 | _ => 0
  truthy v := decide (Val.toInt v ≠ 0)
  foldU _ v := .ok (.num (-(Val.toInt v)))
  foldB op l r := bin op l r
  binOp v := match (v : Val) with | .div [] => some (some true) | _ => none
  swapOp v := match (v : Val) with | .divSwap [] => some (some true) | _ => none
  isOperator v := match (v : Val) with | .div [] | .divSwap [] => true | _ => false
  minNargs v := match (v : Val) with | .div [] | .divSwap [] => 2 | _ => 0
  isMin _ := false
  isMax _ := false
  isInt _ := false
  minInt := .num 0
  maxInt := .num 0
  badList _ := ()
  total _ := false

theorem captureAll_ok (k : Nat) (caps : List Unit) (v : Val) (s) : Codegen.captureAll (P₂ k) caps v s = .ok v s := by
  induction caps with
  | nil => rfl
  | cons q qs ih => simp only [Codegen.captureAll]; exact ih

theorem res_ro {S : Type} (s : S) (r : Except Unit Val) : (∃ v, res s r = .ok v s) ∨ ∃ q t, res s r = .stop q t := by
  cases r with
  | ok v => exact .inl ⟨v, rfl⟩
  | error _ => exact .inr ⟨_, _, rfl⟩

/-- The laws hold. -/
def L₂ (k : Nat) : Laws c₂ (P₂ k) where
  foldU := fun _ _ _ _ => rfl
  foldB := fun op v w s _ _ => by
    show res s (bin op v w) = _
    simp only [c₂]
    cases bin op v w <;> rfl
  truthy := fun _ _ _ => rfl
  call_bin := fun v op a b s h => by
    unfold c₂ at h
    simp only at h
    split at h
    · injection h with h; subst h; rfl
    · cases h
  call_swap := fun v op a b s _ h => by
    unfold c₂ at h
    simp only at h
    split at h
    · injection h with h; subst h; rfl
    · cases h
  op_nargs := fun v h => by
    unfold c₂ at h ⊢
    simp only at h ⊢
    rcases h with h | h
    · split at h
      · rfl
      · simp at h
    · split at h
      · rfl
      · simp at h
  partial_call := fun v vs h => by
    unfold c₂ at h
    simp only at h
    split at h
    · match vs, h with
      | [], _ => exact ⟨Val.div [], fun s => ⟨rfl, fun ws => rfl⟩⟩
      | [a], _ => exact ⟨Val.div [Val.toInt a], fun s => ⟨rfl, fun ws => by rcases ws with _ | ⟨b, _ | ⟨d, ws⟩⟩ <;> rfl⟩⟩
    · match vs, h with
      | [], _ => exact ⟨Val.divSwap [], fun s => ⟨rfl, fun ws => rfl⟩⟩
      | [a], _ => exact ⟨Val.divSwap [Val.toInt a], fun s => ⟨rfl, fun ws => by rcases ws with _ | ⟨b, _ | ⟨d, ws⟩⟩ <;> rfl⟩⟩
    · omega
  min_int := fun v w s h => by simp [c₂] at h
  max_int := fun v w s h => by simp [c₂] at h
  list_call := fun _ _ _ => rfl
  list_bad := fun vs x s h => by
    show ∃ r t, call (.list (List.map Val.toInt vs)) [x] s = .stop r t
    rcases vs with _ | ⟨a, _ | ⟨b, vs⟩⟩
    · exact ⟨_, _, rfl⟩
    · exact absurd rfl h
    · exact ⟨_, _, rfl⟩
  slice_call := fun _ _ _ _ => trivial
  slice3_call := fun _ _ _ _ _ => trivial
  load := fun y s => by
    show (∃ v, (match s.1.1[(y : Nat)]? with | some v => Out.ok v s | none => .stop (.err "no variable") s) = .ok v s) ∨ _
    cases h : s.1.1[(y : Nat)]? with
    | some v => exact .inl ⟨v, rfl⟩
    | none => exact .inr ⟨.err "no variable", s, by simp only [P₂, h]⟩
  load_total := fun _ _ h => by simp [c₂] at h
  getField := fun _ _ _ => .inl ⟨_, rfl⟩
  bindMethod := fun _ _ _ => .inl ⟨_, rfl⟩
  unary := fun _ _ _ => .inl ⟨_, rfl⟩
  binary := fun op l r s => res_ro s (bin op l r)
  mkLit := fun _ _ _ => .inl ⟨_, rfl⟩
  mkList := fun _ _ => ⟨_, rfl⟩
  Imm := fun _ => True
  imm_const := fun _ _ => trivial
  imm_unary := fun _ _ _ => .inl ⟨_, trivial, fun _ => rfl⟩
  imm_binary := fun op v w _ _ => by
    show Codegen.Fixed (Γ := Γ₂) _ fun s => res s (bin op v w)
    cases bin op v w with
    | ok x => exact .inl ⟨x, trivial, fun _ => rfl⟩
    | error _ => exact .inr fun _ => ⟨_, _, rfl⟩
  imm_truthy := fun _ _ _ _ => rfl
  imm_partial := fun v vs _ _ h => by
    unfold c₂ at h
    simp only at h
    split at h
    · match vs, h with
      | [], _ => exact ⟨Val.div [], trivial, fun s => rfl⟩
      | [a], _ => exact ⟨Val.div [Val.toInt a], trivial, fun s => rfl⟩
    · match vs, h with
      | [], _ => exact ⟨Val.divSwap [], trivial, fun s => rfl⟩
      | [a], _ => exact ⟨Val.divSwap [Val.toInt a], trivial, fun s => rfl⟩
    · omega
  function := fun v caps s => ⟨v, trivial, fun s' _ => by
    simp only [Codegen.eval, Codegen.evalW]
    split
    · rfl
    · show (Out.ok v s').bind _ = _
      rw [Codegen.Out.ok_bind]; exact captureAll_ok k caps v s'⟩

theorem f_opt : f.each (OptExact c₂) := by
  have h1 : OptExact c₂ (n 0) := ⟨rfl, trivial⟩
  have h2 : OptExact c₂ (.literal .list (.plain (x 0) (.unroll (.literal .list (.plain (n 8) (.plain (n 0) .nil))) (.plain (n 3) .nil)))) := ⟨rfl, by simp [opt, Codegen.optArgs, x, n, Expr.NoFieldCompose, Args.NoFieldCompose]⟩
  have h3 : OptExact c₂ (.compare (x 2) (.more () (n 1) (.last () (n 5)))) := ⟨rfl, by trivial⟩
  have h4 : OptExact c₂ (.assign (.var 1) (.binary (some false) (x 1) (.unary () (x 2)) false)) := ⟨rfl, ⟨trivial, trivial⟩⟩
  have h5 : OptExact c₂ (print (.binary (some true) (n 24) (x 2) false)) := ⟨rfl, ⟨trivial, ⟨trivial, trivial⟩, trivial⟩⟩
  have h6 : OptExact c₂ (.binary (some false) (.compose (n 12) (.call (.const (.divSwap [])) (.plain (n 4) .nil))) (x 1) false) := ⟨rfl, ⟨trivial, trivial⟩⟩
  exact ⟨h1, ⟨h2, ⟨⟨h3, ⟨trivial, trivial⟩, trivial⟩, h4, h5, trivial⟩, trivial⟩, h6, trivial⟩

/-- `12 . (/ 4)` is folded. -/
example : opt c₂ (actual c₂) (.compose (n 12) (.call (.const (.divSwap [])) (.plain (n 4) .nil))) = n 3 := rfl

/-- The optimised code of `f` does the same. -/
example : Ends (machine Ρ₂ id) .nil (emitBody (em Ρ₂ (opt c₂ (actual c₂))) 1 f) [] [] [.num 6] ⟨[], [], []⟩ (.ret (.num (-14)) ⟨[], [], [4, 3, 8]⟩) :=
  ((C74_optimised_partial Ρ₂ c₂ L₂ .nil f f_ok f_opt [.num 6] ⟨[], [], []⟩ [] [] (by decide +kernel)).1 _ _).2 ⟨rfl, rfl, 9, f_6⟩

end Example

end Cordy.Full
