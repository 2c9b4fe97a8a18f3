import Verif.Lemmas.Calls
import Mathlib.Data.List.Induction
/-!
# C40, C41, C42: calls
-/
namespace Cordy.Calls
variable {V S N E : Type}

/-! ## Specification -/

/-- A parameter list as documented: `r` required parameters, then some with default values, then possibly one variadic parameter. -/
def Shape (r : Nat) (ds : List E) (v : Bool) : List (Param E) :=
  List.replicate r .plain ++ ds.map .default ++ (if v then [.star] else [])

/-- What the parameters given by position are bound to, for `n` parameters which are not variadic: the arguments in order; the remaining ones, if any parameter is left for them, in a vector. -/
def bound (vector : List V → V) (n : Nat) (variadic : Bool) (args : List V) : List V :=
  if variadic ∧ n < args.length then args.take n ++ [vector (args.drop n)] else args

/-- The default values that remain to be computed after `k` arguments, the empty vector (`none`) of a variadic parameter being one. -/
def missing (r : Nat) (ds : List E) (v : Bool) (k : Nat) : List (Option E) :=
  (ds.map some ++ (if v then [none] else [])).drop (k - r)

/-- Computing the default values `es` one after the other, each in the frame with the parameters before it; `ev e below window st v below' st'` says what the expression computes and how
it changes the variables of other frames and the state. -/
inductive Fill (ev : Option E → List V → List V → S → V → List V → S → Prop) :
    List (Option E) → List V → List V → S → List V → List V → S → Prop where
  | nil (b w s) : Fill ev [] b w s b w s
  | cons {e es b w s v b' s' b'' w' s''} : ev e b w s v b' s' → Fill ev es b' (w ++ [v]) s' b'' w' s'' →
      Fill ev (e :: es) b w s b'' w' s''

/-! ## Parameter lists -/

theorem parse_snoc (ps : List (Param E)) (p : Param E) : parseParams (ps ++ [p]) = addParam (parseParams ps) p := by
  simp [parseParams]

theorem parse_plain (r : Nat) : parseParams (List.replicate r (.plain : Param E)) = { count := r, defaults := [], variadic := false, ok := true } := by
  induction r with
  | zero => rfl
  | succ r ih => rw [List.replicate_succ', parse_snoc, ih]; rfl

theorem parse_default (r : Nat) (ds : List E) : parseParams (List.replicate r .plain ++ ds.map .default) =
    { count := r + ds.length, defaults := ds.map some, variadic := false, ok := true } := by
  induction ds using List.reverseRecOn with
  | nil => simpa using parse_plain r
  | append_singleton ds e ih =>
    rw [List.map_append, ← List.append_assoc]
    show parseParams (_ ++ [_]) = _
    rw [parse_snoc, ih]
    simp [addParam, Nat.add_assoc]

theorem parse_shape (r : Nat) (ds : List E) (v : Bool) : parseParams (Shape r ds v) =
    { count := r + ds.length + (if v then 1 else 0), defaults := ds.map some ++ (if v then [none] else []), variadic := v, ok := true } := by
  cases v with
  | false => simpa [Shape] using parse_default r ds
  | true =>
    simp only [Shape, if_true]
    rw [parse_snoc, parse_default]
    rfl

def isStar : Param E → Bool
  | .star => true
  | _ => false

/-- **C40** (which parameter lists are accepted). Missing: two variadic parameters and a variadic parameter with a default value are accepted too (`C40_violation_stars`). -/
theorem C40_params_partial (ps : List (Param E)) (hd : ∀ e, Param.starDefault e ∉ ps) (hs : (ps.filter isStar).length ≤ 1) :
    (parseParams ps).ok = true ↔ ∃ r ds v, ps = Shape r ds v := by
  constructor
  · intro hok
    induction ps using List.reverseRecOn with
    | nil => exact ⟨0, [], false, rfl⟩
    | append_singleton ps p ih =>
      rw [parse_snoc] at hok
      have hd' : ∀ e, Param.starDefault e ∉ ps := fun e h => hd e (List.mem_append_left _ h)
      have hs' : (ps.filter isStar).length ≤ 1 := by
        rw [List.filter_append, List.length_append] at hs; omega
      have hok' : (parseParams ps).ok = true := by
        cases p <;> simp_all [addParam]
      obtain ⟨r, ds, v, rfl⟩ := ih hd' hs' hok'
      rw [parse_shape] at hok
      cases p with
      | plain =>
        cases v with
        | true => simp [addParam] at hok
        | false =>
          cases ds with
          | cons _ _ => simp [addParam] at hok
          | nil => exact ⟨r + 1, [], false, by simp [Shape, List.replicate_succ']⟩
      | default e =>
        simp [addParam] at hok
        subst hok
        exact ⟨r, ds ++ [e], false, by simp [Shape]⟩
      | star =>
        cases v with
        | false => exact ⟨r, ds, true, by simp [Shape]⟩
        | true => simp [Shape, List.filter_append, isStar, List.filter_cons] at hs
      | starDefault e => exact absurd (List.mem_append_right _ (by simp)) (hd e)
  · rintro ⟨r, ds, v, rfl⟩
    rw [parse_shape]

example : ∃ ps : List (Param Nat), (parseParams ps).ok = true ∧ ps = [.plain, .plain, .default 7, .star] := ⟨_, rfl, rfl⟩
example : (parseParams [.default 3, (.plain : Param Nat)]).ok = false := rfl
example : (parseParams [.star, (.default 3 : Param Nat)]).ok = false := rfl

/-- Functions have a parameter when they are variadic: what C42 assumes of functions. -/
theorem parse_wf {I : Type} (ps : List (Param E)) (head : Nat) (code : Option E → List I) : (mkFunc head (parseParams ps) code).Wf := by
  intro h
  simp only [mkFunc] at h ⊢
  induction ps using List.reverseRecOn with
  | nil => simp [parseParams] at h
  | append_singleton ps p ih => rw [parse_snoc]; cases p <;> simp [addParam]

/-! ## Calls -/

theorem prefix_length {I : Type} (ds : List (Option E)) (code : Option E → List I) (j : Nat) :
    ((List.range ds.length).map fun j => ((ds.take (j + 1)).flatMap code).length)[j]? =
      if j < ds.length then some ((ds.take (j + 1)).flatMap code).length else none := by
  rw [List.getElem?_map]
  by_cases h : j < ds.length
  · rw [List.getElem?_range h, if_pos h]; rfl
  · rw [if_neg h, List.getElem?_eq_none (by simpa using h)]; rfl

theorem callFunction_va (M : Machine V S N) (ip : Nat) (base args : List V) (f : V) (n : Nat) (hn : n < args.length) :
    (callFunction M ip (base ++ f :: args) args.length (some (args.length - n))).2 =
      base ++ f :: (args.take n ++ [M.vector (args.drop n)]) := by
  have e : (base ++ f :: args).length - (args.length - n) = base.length + 1 + n := by simp; omega
  have e2 : base ++ f :: args = (base ++ [f]) ++ args := by simp
  have e3 : (base ++ [f]).length = base.length + 1 := by simp
  simp only [callFunction, splice, e]
  rw [e2, ← e3, List.take_length_add_append, List.drop_length_add_append]
  simp

theorem getLast_range_map {α : Type} (n : Nat) (f : Nat → α) : ((List.range (n + 1)).map f).getLast? = some (f n) := by
  rw [List.range_succ, List.map_append]
  simp

/-- **C40** (arities and positional arguments). A function with `r` required parameters, default values `ds` and a variadic parameter or not, called with any arguments: too few make a partial
function (the function itself when there are none); too many are an arity error; otherwise a frame is entered whose local variables are the parameters given by position, and execution starts
after the code of the default values that are not missing. -/
theorem C40_call {I : Type} (M : Machine V S N) (head r : Nat) (ds : List E) (v : Bool) (code : Option E → List I)
    (fv : V) (hf : M.callee fv = .user (mkFunc head (parseParams (Shape r ds v)) code)) (ip : Nat) (s : S) (base args : List V) :
    invoke M ip s (base ++ fv :: args) args.length =
      if args.length < r then .done (base ++ [if args.length = 0 then fv else M.mkPartial fv args]) s
      else if v = false ∧ r + ds.length < args.length then .arity args.length
      else .user (head + ((((ds.map some ++ (if v then [none] else [])).take (args.length - r)).flatMap code).length))
        ⟨ip, base.length + 1⟩ (base ++ fv :: bound M.vector (r + ds.length) v args) := by
  generalize hfn : mkFunc head (parseParams (Shape r ds v)) code = fn at hf
  have hp : fn.nparams = r + ds.length + (if v then 1 else 0) ∧ fn.head = head ∧ fn.variadic = v := by
    rw [← hfn]; simp [mkFunc, parse_shape]
  obtain ⟨hp1, hp2, hp3⟩ := hp
  have hdl : fn.defaults.length = ds.length + (if v then 1 else 0) := by
    rw [← hfn]; cases v <;> simp [mkFunc, parse_shape]
  have hdef : fn.defaults = (List.range (ds.map some ++ (if v then [none] else [])).length).map
      fun j => (((ds.map some ++ (if v then [none] else [])).take (j + 1)).flatMap code).length := by
    rw [← hfn]; simp [mkFunc, parse_shape]
  have hmin : fn.min = r := by
    unfold Func.min; rw [hp1, hdl, if_pos (by omega)]; omega
  have hmax : fn.max = r + ds.length + (if v then 1 else 0) := hp1
  have hir : fn.inRange args.length = (decide (r ≤ args.length) && (v || decide (args.length ≤ r + ds.length + (if v then 1 else 0)))) := by
    unfold Func.inRange; rw [hmin, hp3, hmax]
  unfold invoke
  simp only [splice_call, List.getLast?_append, List.getLast?_singleton, Option.some_or, hf]
  unfold invokeUser
  simp only [splice_call, List.getLast?_append, List.getLast?_singleton, Option.some_or, hir, hmin]
  by_cases h1 : args.length < r
  · rw [if_pos h1, if_neg (by simp; omega), if_pos h1]
    by_cases h0 : args.length = 0
    · have : args = [] := by cases args <;> simp_all
      subst this; simp
    · rw [if_pos (by omega), if_neg h0]; simp
  · simp only [if_neg h1]
    by_cases h2 : v = false ∧ r + ds.length < args.length
    · rw [if_pos h2, if_neg (by simp [h2.1]; omega)]
    · rw [if_neg h2, if_pos (by cases v <;> simp_all)]
      -- the entry point
      have hjump : fn.jumpOffset args.length = some (head +
          ((((ds.map some ++ (if v then [none] else [])).take (args.length - r)).flatMap code).length)) := by
        unfold Func.jumpOffset
        rw [hmin, hp2, hp3, hmax]
        by_cases he : args.length = r
        · rw [if_pos he, he]; simp
        · rw [if_neg he]
          by_cases hva : v = true ∧ r + ds.length + 1 ≤ args.length
          · obtain ⟨rfl, hva⟩ := hva
            rw [if_pos (by simp; omega), hdef]
            simp only [if_true, List.length_append, List.length_map, List.length_singleton]
            rw [getLast_range_map]
            simp only [Option.map_some]
            rw [List.take_of_length_le (by simp), List.take_of_length_le (by simp; omega)]
          · rw [if_neg (by cases v <;> simp_all), hdef, prefix_length, if_pos (by cases v <;> simp_all <;> omega)]
            simp only [Option.map_some]
            have : args.length - r - 1 + 1 = args.length - r := by omega
            rw [this]
      unfold enter
      rw [hjump]
      simp only
      have hfr : (callFunction M ip (base ++ fv :: args) args.length (fn.numVarArgs args.length)).1 = ⟨ip, base.length + 1⟩ := by
        simp [callFunction]; omega
      rw [hfr]
      congr 1
      unfold bound
      by_cases hva : v = true ∧ r + ds.length < args.length
      · have hn : fn.numVarArgs args.length = some (args.length - (r + ds.length)) := by
          unfold Func.numVarArgs
          rw [hp3, hmax, if_pos (by simp [hva.1]; omega)]
          simp [hva.1]
        rw [if_pos hva, hn, callFunction_va _ _ _ _ _ _ hva.2]
      · have hn : fn.numVarArgs args.length = none := by
          unfold Func.numVarArgs
          rw [hp3, hmax, if_neg]
          cases v with
          | false => simp
          | true => simp at hva ⊢; omega
        rw [if_neg hva, hn]
        rfl

/-- The code of a function is at `head`: its default values one after the other, then `body`. -/
def Placed (M : Machine V S N) (head : Nat) (is : List (Instr V S)) : Prop :=
  ∀ s i, i < is.length → M.code s (head + i) = is[i]?

/-- The instructions `is`, wherever they are, compute what `ev` says and push the value (C36 for the code of an expression). -/
def Computes (M : Machine V S N) (is : List (Instr V S)) (ev : List V → List V → S → V → List V → S → Prop) : Prop :=
  ∀ (c : Cfg V S N) (drop : Nat) (hs : List (Host N)) (fr : Frame) (frs : List Frame) (b w : List V) (v : V) (b' : List V) (s' : S),
    c.hosts = .loop drop :: hs → c.frames = fr :: frs → c.stack = b ++ w → b.length = fr.fp → Placed M c.ip is → ev b w c.st v b' s' →
    b'.length = b.length ∧ ∃ ws, Run M c ws { c with ip := c.ip + is.length, stack := b' ++ (w ++ [v]), st := s' }

theorem Run.trans {M : Machine V S N} {a b c : Cfg V S N} {u v : List Nat} (h : Run M a u b) (h' : Run M b v c) : Run M a (u ++ v) c := by
  induction h with
  | refl => simpa using h'
  | head hs _ ih => rw [List.append_assoc]; exact .head hs (ih h')

theorem Placed.left {M : Machine V S N} {head : Nat} {a b : List (Instr V S)} (h : Placed M head (a ++ b)) : Placed M head a := by
  intro s i hi
  rw [h s i (by simp; omega), List.getElem?_append_left hi]

theorem Placed.right {M : Machine V S N} {head : Nat} {a b : List (Instr V S)} (h : Placed M head (a ++ b)) : Placed M (head + a.length) b := by
  intro s i hi
  rw [Nat.add_assoc, h s (a.length + i) (by simp; omega), List.getElem?_append_right (by omega)]
  congr 1
  omega

theorem fill_runs (M : Machine V S N) (code : Option E → List (Instr V S)) (ev : Option E → List V → List V → S → V → List V → S → Prop)
    (es : List (Option E)) (hc : ∀ e ∈ es, Computes M (code e) (ev e)) {b w : List V} {s : S} {b' w' : List V} {s' : S} (hfill : Fill ev es b w s b' w' s')
    (c : Cfg V S N) (drop : Nat) (hs : List (Host N)) (fr : Frame) (frs : List Frame)
    (h1 : c.hosts = .loop drop :: hs) (h2 : c.frames = fr :: frs) (h3 : c.stack = b ++ w) (h4 : b.length = fr.fp) (h5 : c.st = s)
    (h6 : Placed M c.ip (es.flatMap code)) :
    b'.length = b.length ∧ w'.length = w.length + es.length ∧
      ∃ ws, Run M c ws { c with ip := c.ip + (es.flatMap code).length, stack := b' ++ w', st := s' } := by
  induction hfill generalizing c with
  | nil b w s =>
    refine ⟨rfl, rfl, [], ?_⟩
    subst h5
    rw [← h3]
    exact .refl c
  | @cons e es b w s v b1 s1 b2 w2 s2 hev hrest ih =>
    subst h5
    simp only [List.flatMap_cons] at h6
    obtain ⟨hl, ws, hrun⟩ := hc e (by simp) c drop hs fr frs b w v b1 s1 h1 h2 h3 h4 h6.left hev
    have := ih (fun e' he' => hc e' (by simp [he'])) { c with ip := c.ip + (code e).length, stack := b1 ++ (w ++ [v]), st := s1 } h1 h2 rfl (by omega) rfl h6.right
    obtain ⟨hl2, hw2, ws2, hrun2⟩ := this
    refine ⟨by omega, by simp [hw2]; omega, ws ++ ws2, ?_⟩
    have := hrun.trans hrun2
    simpa [Nat.add_assoc] using this

theorem missing_split {I : Type} (r : Nat) (ds : List E) (v : Bool) (k : Nat) (code : Option E → List I) :
    (ds.map some ++ (if v then [none] else [])).flatMap code =
      ((ds.map some ++ (if v then [none] else [])).take (k - r)).flatMap code ++ (missing r ds v k).flatMap code := by
  rw [missing, ← List.flatMap_append, List.take_append_drop]

/-- **C40** (default values). When the call is in range, the missing default values, those and no others, are computed in order, each with the parameters before it in the frame; then the body is entered with one
local variable for each parameter. -/
theorem C40_binds (M : Machine V S N) (head r : Nat) (ds : List E) (v : Bool) (code : Option E → List (Instr V S))
    (ev : Option E → List V → List V → S → V → List V → S → Prop) (hc : ∀ e, Computes M (code e) (ev e))
    (fv : V) (hf : M.callee fv = .user (mkFunc head (parseParams (Shape r ds v)) code))
    (hp : Placed M head ((ds.map some ++ (if v then [none] else [])).flatMap code))
    (c : Cfg V S N) (drop : Nat) (hs : List (Host N)) (fr : Frame) (frs : List Frame) (nargs : S → Nat) (base args : List V)
    (h1 : c.hosts = .loop drop :: hs) (h2 : c.frames = fr :: frs) (h3 : c.stack = base ++ fv :: args) (h4 : fr.fp ≤ base.length)
    (h5 : M.code c.st c.ip = some (.call nargs)) (h6 : nargs c.st = args.length)
    (hr : r ≤ args.length) (hk : v = true ∨ args.length ≤ r + ds.length)
    (b' w' : List V) (s' : S)
    (hfill : Fill ev (missing r ds v args.length) (base ++ [fv]) (bound M.vector (r + ds.length) v args) c.st b' w' s') :
    b'.length = base.length + 1 ∧ w'.length = r + ds.length + (if v then 1 else 0) ∧
    ∃ ws, Run M c ws { c with
      ip := head + ((ds.map some ++ (if v then [none] else [])).flatMap code).length
      frames := ⟨c.ip + 1, base.length + 1⟩ :: c.frames, stack := b' ++ w', st := s' } := by
  let c1 : Cfg V S N := { c with
    ip := head + ((((ds.map some ++ (if v then [none] else [])).take (args.length - r)).flatMap code).length)
    frames := ⟨c.ip + 1, base.length + 1⟩ :: c.frames
    stack := base ++ fv :: bound M.vector (r + ds.length) v args }
  have hstep : step M c = some ([], c1) := by
    unfold step
    simp only [h1, h2, h5, h6, h3]
    rw [if_pos (by simp; omega), C40_call M head r ds v code fv hf, if_neg (by omega), if_neg (by rintro ⟨a, b⟩; cases hk <;> simp_all; omega)]
    simp [afterInvoke, c1, h1, h2]
  have hsp := missing_split r ds v args.length code
  rw [hsp] at hp
  obtain ⟨q1, q2, ws, hrun⟩ := fill_runs M code ev _ (fun e _ => hc e) hfill c1 drop hs ⟨c.ip + 1, base.length + 1⟩ c.frames
    h1 rfl (by simp [c1]) (by simp) rfl hp.right
  refine ⟨by simpa using q1, ?_, ws, ?_⟩
  · rw [q2]
    unfold bound missing
    by_cases hva : v = true ∧ r + ds.length < args.length
    · rw [if_pos hva]
      obtain ⟨rfl, hva⟩ := hva
      simp; omega
    · rw [if_neg hva]
      cases v with
      | false => simp at hk ⊢; omega
      | true => simp at hva ⊢; omega
  · have := Run.head hstep hrun
    rw [hsp, List.length_append]
    simp only [List.nil_append] at this
    rw [← Nat.add_assoc]
    exact this

/-! ## Parameter lists that should have been rejected -/

/-- **C40 is violated** by `fn f(*a, *b)` and by `fn f(a, *b = e)`, which are accepted. In the first, the call `f(x)` binds `a` to `x` itself and not to a vector (the entry point is behind the code for
`a`). In the second the required parameter `a` may be left out; and `fn f(*a = e)` can never be called: it always makes a partial function. -/
theorem C40_violation_stars :
    (parseParams [(.star : Param E), .star]).ok = true ∧
    (∀ (M : Machine V S N) (I : Type) (code : Option E → List I) (head ip : Nat) (s : S) (fv x : V) (base : List V),
      M.callee fv = .user (mkFunc head (parseParams [(.star : Param E), .star]) code) →
      invoke M ip s (base ++ [fv, x]) 1 = .user (head + (code none).length) ⟨ip, base.length + 1⟩ (base ++ [fv, x])) ∧
    (∀ e : E, (parseParams [.plain, .starDefault e]).ok = true ∧
      ∀ (I : Type) (code : Option E → List I) (head : Nat), (mkFunc head (parseParams [.plain, .starDefault e]) code).inRange 0 = true) ∧
    (∀ e : E, (parseParams [.starDefault e]).ok = true ∧
      ∀ (I : Type) (code : Option E → List I) (head n : Nat), n < 4294967295 → (mkFunc head (parseParams [.starDefault e]) code).inRange n = false) := by
  refine ⟨rfl, ?_, ?_, ?_⟩
  · intro M I code head ip s fv x base hf
    have hsp := splice_call base [x] fv
    simp only [List.length_singleton] at hsp
    unfold invoke
    simp only [hsp, List.getLast?_append, List.getLast?_singleton, Option.some_or, hf]
    simp [invokeUser, mkFunc, parseParams, addParam, Func.inRange, Func.min, Func.max, Func.numVarArgs, enter, Func.jumpOffset, callFunction,
      List.range_succ]
  · intro e
    exact ⟨rfl, fun I code head => by simp [mkFunc, parseParams, addParam, Func.inRange, Func.min, List.range_succ]⟩
  · intro e
    refine ⟨rfl, fun I code head n hn => ?_⟩
    simp [mkFunc, parseParams, addParam, Func.inRange, Func.min, List.range_succ]
    omega

/-! ## Partial application -/


/-- The number of arguments for which the code computes the number of variadic arguments of a partial function right. -/
def Safe (f : Func) (k n : Nat) : Prop := f.variadic = false ∨ k + n < f.max

theorem numVarArgs_safe {f : Func} {k n : Nat} (h : Safe f k n) : f.numVarArgs n = f.numVarArgs (k + n) := by
  unfold Func.numVarArgs
  rcases h with h | h
  · simp [h]
  · rw [if_neg (by simp; omega), if_neg (by simp; omega)]

/-- **C41** for user functions and closures: calling a function or a partial function with too few arguments `a` gives a value such that calling it with `b` is the same as the original call with `a` and `b`.
Missing: variadic functions given all their other arguments, where it fails (`C41_violation_variadic`). -/
theorem C41_user_partial (M : Machine V S N) (fv : V) (f : Func) (hf : M.callee fv = .user f) (ip ip' : Nat) (s s' : S) (base a b : List V)
    (pv : V) (hp : invoke M ip s (base ++ fv :: a) a.length = .done (base ++ [pv]) s') (hsafe : a ≠ [] → Safe f a.length b.length) :
    s' = s ∧ invoke M ip' s (base ++ pv :: b) b.length = invoke M ip' s (base ++ fv :: (a ++ b)) (a ++ b).length := by
  unfold invoke at hp
  simp only [splice_call, List.getLast?_append, List.getLast?_singleton, Option.some_or, hf, invokeUser] at hp
  by_cases hr : f.inRange a.length = true
  · rw [if_pos hr] at hp
    unfold enter at hp
    cases hj : f.jumpOffset a.length <;> simp [hj] at hp
  · rw [if_neg hr] at hp
    by_cases hl : a.length < f.min
    · rw [if_pos hl] at hp
      by_cases h0 : 0 < a.length
      · rw [if_pos h0] at hp
        simp at hp
        obtain ⟨rfl, rfl⟩ := hp
        refine ⟨rfl, ?_⟩
        have hane : a ≠ [] := by rintro rfl; simp at h0
        unfold invoke
        simp only [splice_call, List.getLast?_append, List.getLast?_singleton, Option.some_or, hf, M.callee_partial fv f a hf]
        unfold invokePartial invokeUser
        simp only [splice_call, List.length_append, List.getLast?_append, List.getLast?_singleton, Option.some_or]
        have e : insert ((base ++ M.mkPartial fv a :: b).set ((base ++ M.mkPartial fv a :: b).length - b.length - 1) fv) a b.length =
            base ++ fv :: (a ++ b) := by
          have h1 : (base ++ M.mkPartial fv a :: b).length - b.length - 1 = base.length := by simp; omega
          rw [h1]
          have h2 : (base ++ M.mkPartial fv a :: b).set base.length fv = (base ++ [fv]) ++ b := by simp
          rw [h2, insert_append]
          simp
        have e' := splice_call base (a ++ b) fv
        rw [List.length_append] at e'
        simp only [List.length_append] at e
        rw [e', e, numVarArgs_safe (hsafe hane)]
        by_cases h1 : a.length + b.length < f.min
        · have : f.inRange (a.length + b.length) = false := by simp [Func.inRange]; omega
          simp [h1, this, hane]
        · simp [h1]
      · rw [if_neg h0] at hp
        have : a = [] := by cases a <;> simp_all
        subst this
        simp at hp
        obtain ⟨rfl, rfl⟩ := hp
        simp
    · rw [if_neg hl] at hp; simp at hp

/-- The same from a partial function, so to any depth. -/
theorem C41_depth_partial (M : Machine V S N) (fv : V) (f : Func) (hf : M.callee fv = .user f) (ip ip' : Nat) (s s' : S) (base p a b : List V)
    (pv : V) (hp : invoke M ip s (base ++ M.mkPartial fv p :: a) a.length = .done (base ++ [pv]) s') (hsafe : Safe f (p.length + a.length) b.length) :
    s' = s ∧ pv = M.mkPartial fv (p ++ a) ∧
      invoke M ip' s (base ++ pv :: b) b.length = invoke M ip' s (base ++ M.mkPartial fv p :: (a ++ b)) (a ++ b).length := by
  have hpc := M.callee_partial fv f p hf
  unfold invoke at hp
  simp only [splice_call, List.getLast?_append, List.getLast?_singleton, Option.some_or, hpc, invokePartial] at hp
  by_cases hl : p.length + a.length < f.min
  · rw [if_pos hl] at hp
    simp at hp
    obtain ⟨rfl, rfl⟩ := hp
    refine ⟨rfl, rfl, ?_⟩
    have e : ∀ (q c : List V), insert ((base ++ M.mkPartial fv q :: c).set ((base ++ M.mkPartial fv q :: c).length - c.length - 1) fv) q c.length =
        base ++ fv :: (q ++ c) := by
      intro q c
      have h1 : (base ++ M.mkPartial fv q :: c).length - c.length - 1 = base.length := by simp; omega
      rw [h1]
      have h2 : (base ++ M.mkPartial fv q :: c).set base.length fv = (base ++ [fv]) ++ c := by simp
      rw [h2, insert_append]
      simp
    unfold invoke
    simp only [splice_call, List.getLast?_append, List.getLast?_singleton, Option.some_or, hpc, M.callee_partial fv f (p ++ a) hf]
    unfold invokePartial
    simp only [splice_call, e, List.append_assoc]
    have hn : f.numVarArgs b.length = f.numVarArgs (a ++ b).length := by
      rw [numVarArgs_safe hsafe, List.length_append]
      have : Safe f p.length (a.length + b.length) := by
        rcases hsafe with h | h
        · exact .inl h
        · exact .inr (by omega)
      rw [numVarArgs_safe this, Nat.add_assoc]
    rw [hn]
    simp only [List.length_append, Nat.add_assoc]
    simp
  · rw [if_neg hl] at hp
    split at hp
    · unfold enter at hp
      cases hj : f.jumpOffset (p.length + a.length) <;> simp [hj] at hp
    · simp at hp

/-- **C41 is violated** for variadic functions: with `fn f(a, b, *c)`, `f(x)(y, z)` binds `c` to `z`, but `f(x, y, z)` binds it to the vector `(z,)`. -/
theorem C41_violation_variadic (M : Machine V S N) (head ip : Nat) (s : S) (fv x y z : V) (base : List V) (off : Nat)
    (hf : M.callee fv = .user { head := head, nparams := 3, defaults := [off], variadic := true }) :
    invoke M ip s (base ++ [fv, x]) 1 = .done (base ++ [M.mkPartial fv [x]]) s ∧
    invoke M ip s (base ++ [M.mkPartial fv [x], y, z]) 2 = .user (head + off) ⟨ip, base.length + 1⟩ (base ++ [fv, x, y, z]) ∧
    invoke M ip s (base ++ [fv, x, y, z]) 3 = .user (head + off) ⟨ip, base.length + 1⟩ (base ++ [fv, x, y, M.vector [z]]) := by
  have s1 := splice_call base [x] fv
  have s2 := splice_call base [y, z] (M.mkPartial fv [x])
  have s3 := splice_call base [x, y, z] fv
  have s4 : splice (base ++ [fv, x, y, z]) 1 = (base ++ [fv, x, y], [z]) := by
    have := splice_append (base ++ [fv, x, y]) [z]
    simpa using this
  simp only [List.length_cons, List.length_nil, Nat.zero_add, Nat.reduceAdd] at s1 s2 s3
  have e : insert (base ++ [fv, y, z]) [x] 2 = base ++ [fv, x, y, z] := by
    have := insert_append (base ++ [fv]) [y, z] [x]
    simpa using this
  refine ⟨?_, ?_, ?_⟩
  · unfold invoke
    simp only [s1, List.getLast?_append, List.getLast?_singleton, Option.some_or, hf]
    simp [invokeUser, Func.inRange, Func.min, s1]
  · unfold invoke
    simp only [s2, List.getLast?_append, List.getLast?_singleton, Option.some_or, M.callee_partial fv _ [x] hf]
    have h3 : base.length + 3 - 2 - 1 = base.length := by omega
    simp [invokePartial, Func.inRange, Func.min, Func.max, Func.numVarArgs, enter, Func.jumpOffset, callFunction, h3, e]
  · unfold invoke
    simp only [s3, List.getLast?_append, List.getLast?_singleton, Option.some_or, hf]
    simp [invokeUser, Func.inRange, Func.min, Func.max, Func.numVarArgs, enter, Func.jumpOffset, callFunction, s4]

/-! ## Frames -/

/-- The control of a run that has not ended: the outermost loop, and a loop above a native function for each of its callbacks, which has frames of its own. -/
inductive Ctl : List (Host N) → Nat → Prop where
  | base (n) : Ctl [.loop 0] (n + 1)
  | native {hs n} (k e x) : Ctl hs n → Ctl (.native k e x :: hs) n
  | loop {hs n n'} (k e x) : Ctl hs n → n < n' → Ctl (.loop n :: .native k e x :: hs) n'

theorem Ctl.more {hs : List (Host N)} {n : Nat} {d : Nat} {hs' : List (Host N)} (h : Ctl hs n) (he : hs = .loop d :: hs') : Ctl hs (n + 1) := by
  cases h with
  | base n => exact .base _
  | native k e x h => simp at he
  | loop k e x h hl => exact .loop k e x h (by omega)

theorem deliver_ctl (M : Machine V S N) {c c' : Cfg V S N} (h : deliver M c = some c') (hc : Ctl c.hosts c.frames.length ∨ c.hosts = []) :
    Ctl c'.hosts c'.frames.length ∨ c'.hosts = [] := by
  unfold deliver at h
  split at h
  · rename_i k e n hs heq
    split at h
    · simp only [Option.some.injEq] at h
      subst h
      rcases hc with hc | hc
      · rw [heq] at hc
        cases hc with
        | native _ _ _ h' => exact .inl (.native _ _ _ h')
      · simp [hc] at heq
    · simp at h
  · simp only [Option.some.injEq] at h
    subst h; exact hc

theorem step_ctl (M : Machine V S N) {c c' : Cfg V S N} {w : List Nat} (hs : step M c = some (w, c')) (hc : Ctl c.hosts c.frames.length) :
    Ctl c'.hosts c'.frames.length ∨ c'.hosts = [] := by
  unfold step at hs
  split at hs
  · simp at hs
  · rename_i drop hs0 hh
    split at hs
    · split at hs
      · simp at hs; obtain ⟨_, rfl⟩ := hs; exact .inl hc
      · simp at hs
    · split at hs
      · simp only [Option.map_eq_some_iff] at hs
        obtain ⟨c1, h1, h2⟩ := hs
        simp at h2; obtain ⟨-, rfl⟩ := h2
        unfold afterInvoke at h1
        split at h1
        · simp at h1; subst h1; exact .inl (hc.more hh)
        · exact deliver_ctl M h1 (.inl hc)
        · simp at h1; subst h1; exact .inl (.native _ _ _ hc)
        all_goals simp at h1
      · simp at hs
    · rename_i fr frs hfr _
      split at hs
      · rename_i st hst
        rw [hh, hfr] at hc
        split at hs
        · rename_i hd
          simp only [Option.map_eq_some_iff] at hs
          obtain ⟨c1, h1, h2⟩ := hs
          simp at h2; obtain ⟨-, rfl⟩ := h2
          refine deliver_ctl M h1 ?_
          cases hc with
          | base n => exact .inr rfl
          | loop k e x h hl => left; simp only; subst hd; exact .native _ _ _ h
        · rename_i hd
          simp at hs; obtain ⟨_, rfl⟩ := hs
          left
          simp only [hh]
          simp only [List.length_cons] at hc
          generalize hq : frs.length + 1 = q at hc
          cases hc with
          | base n =>
            have : ∃ m, frs.length = m + 1 := ⟨frs.length - 1, by omega⟩
            obtain ⟨m, hm⟩ := this
            rw [hm]; exact .base _
          | loop k e x h hl => exact .loop _ _ _ h (by omega)
      · simp at hs
    · simp at hs
  · rename_i k e n hs0 hh
    split at hs
    · simp only [Option.map_eq_some_iff] at hs
      obtain ⟨c1, h1, h2⟩ := hs
      simp at h2; obtain ⟨-, rfl⟩ := h2
      rw [hh] at hc
      cases hc with
      | native _ _ _ h => exact deliver_ctl M h1 (.inl h)
    · simp at hs
    · simp at hs; obtain ⟨_, rfl⟩ := hs
      rw [hh] at hc
      cases hc with
      | native _ _ _ h => exact .inl (.native _ _ _ h)
    · simp only [Option.map_eq_some_iff] at hs
      obtain ⟨c1, h1, h2⟩ := hs
      simp at h2; obtain ⟨-, rfl⟩ := h2
      unfold afterInvoke at h1
      split at h1
      · simp at h1; subst h1
        left
        simp only [hh]
        rw [hh] at hc
        cases hc with
        | native _ _ _ h => exact .loop _ _ _ h (by simp)
      · exact deliver_ctl M h1 (.inl hc)
      · simp at h1; subst h1; exact .inl (.native _ _ _ hc)
      all_goals simp at h1
    · split at hs
      · simp at hs; obtain ⟨_, rfl⟩ := hs
        rw [hh] at hc
        cases hc with
        | native _ _ _ h => exact .inl (.loop _ _ _ h (by simp))
      · simp at hs

/-- The machine starts with one frame and the outermost loop; globals may be on the stack already (in the REPL). -/
def Started (c : Cfg V S N) : Prop := c.frames = [⟨0, 0⟩] ∧ c.hosts = [.loop 0]

theorem reach_ctl (M : Machine V S N) {c c' : Cfg V S N} {ws : List Nat} (hr : Run M c ws c') (hc : Ctl c.hosts c.frames.length) :
    Ctl c'.hosts c'.frames.length ∨ c'.hosts = [] := by
  induction hr with
  | refl => exact .inl hc
  | @head a b c w ws hs hrun ih =>
    rcases step_ctl M hs hc with h | h
    · exact ih h
    · cases hrun with
      | refl => exact .inr h
      | head hs' _ => simp [step, h] at hs'

/-- The call made in `c` with `base` below the function has just returned in `c'`: same activations and frames, execution continues after the call, and the stack is that of the caller with one value
in place of the function and arguments; only slots in `ws`, written by assignments to global or captured variables, may differ. -/
def Returned (c : Cfg V S N) (base : List V) (ws : List Nat) (c' : Cfg V S N) : Prop :=
  c'.hosts = c.hosts ∧ c'.frames = c.frames ∧ c'.ip = c.ip + 1 ∧
  ∃ base' v, c'.stack = base' ++ [v] ∧ base'.length = base.length ∧ ∀ j, j ∉ ws → base'[j]? = base[j]?

/-- The call is still going on in `c'`: the caller's activations and frames are below others; its part of the stack is there, and was changed by assignments only. -/
def GoesOn (c : Cfg V S N) (base : List V) (ws : List Nat) (c' : Cfg V S N) : Prop :=
  c.hosts <:+ c'.hosts ∧ c.frames <:+ c'.frames ∧ c.hosts.length + c.frames.length < c'.hosts.length + c'.frames.length ∧
  ∃ base' rest, c'.stack = base' ++ rest ∧ base'.length = base.length ∧ ∀ j, j ∉ ws → base'[j]? = base[j]?

theorem agree_split {base st : List V} {ws : List Nat} (h : Agree base ws st) :
    ∃ base' rest, st = base' ++ rest ∧ base'.length = base.length ∧ rest.length = st.length - base.length ∧ ∀ j, j ∉ ws → base'[j]? = base[j]? := by
  refine ⟨st.take base.length, st.drop base.length, by simp, by simp [h.1], by simp, fun j hj => ?_⟩
  by_cases hl : j < base.length
  · rw [List.getElem?_take, if_pos hl, h.2 j hl hj]
  · rw [List.getElem?_take, if_neg hl, List.getElem?_eq_none (by omega)]

theorem back_returned {c c' : Cfg V S N} {base : List V} {ws : List Nat} (h : Back c.hosts c.frames (c.ip + 1) base ws c') : Returned c base ws c' := by
  obtain ⟨h1, h2, h3, h4, h5⟩ := h
  obtain ⟨b', rest, e1, e2, e3, e4⟩ := agree_split h5
  have : ∃ v, rest = [v] := List.length_eq_one_iff.mp (by omega)
  obtain ⟨v, rfl⟩ := this
  exact ⟨h1, h2, h3, b', v, e1, e2, e4⟩

theorem inside_goesOn {c c' : Cfg V S N} {base : List V} {ws : List Nat} (h : Inside c.hosts c.frames (c.ip + 1) base ws c') : GoesOn c base ws c' := by
  obtain ⟨h1, m, o, h2, -⟩ := h
  obtain ⟨b', rest, e1, e2, e3, e4⟩ := agree_split h1
  obtain ⟨l1, l2, l3⟩ := h2.longer
  exact ⟨l1, l2, l3, b', rest, e1, e2, e4⟩

theorem first_step (M : Machine V S N) (hM : M.Wf) {c c' : Cfg V S N} {w : List Nat} {d : Nat} {H₀ : List (Host N)} {nargs : S → Nat} {f : V} {base args : List V}
    (h1 : c.hosts = .loop d :: H₀) (h3 : c.stack = base ++ f :: args)
    (h5 : M.code c.st c.ip = some (.call nargs)) (h6 : nargs c.st = args.length) (hs : step M c = some (w, c')) :
    Inside c.hosts c.frames (c.ip + 1) base w c' ∨ Back c.hosts c.frames (c.ip + 1) base w c' := by
  unfold step at hs
  simp only [h1, h5, h6, h3] at hs
  cases hfr : c.frames with
  | nil => simp [hfr] at hs
  | cons fr frs =>
  simp only [hfr, h6] at hs
  split at hs
  · have sh := invoke_shape M hM (c.ip + 1) c.st base args f
    have hagree : ∀ g win, Agree base [] (base ++ g :: win) := fun g win => ⟨by simp, fun j hj _ => take_get _ _ _ hj⟩
    cases hinv : invoke M (c.ip + 1) c.st (base ++ f :: args) args.length with
    | user ip' fr' st =>
      rw [hinv] at sh hs
      obtain ⟨rfl, g, win, rfl⟩ := sh
      simp [afterInvoke] at hs
      obtain ⟨rfl, rfl⟩ := hs
      exact Or.inl ⟨hagree g win, base.length + 1, none, by simp only [h1]; exact .user, by simp⟩
    | done st s' =>
      rw [hinv] at sh hs
      obtain ⟨v, rfl⟩ := sh
      simp [afterInvoke, deliver] at hs
      obtain ⟨rfl, rfl⟩ := hs
      exact Or.inr ⟨by simp [h1], by simp, rfl, by simp, hagree v []⟩
    | native keeps n' st =>
      rw [hinv] at sh hs
      simp only at sh
      subst sh
      simp [afterInvoke] at hs
      obtain ⟨rfl, rfl⟩ := hs
      refine Or.inl ⟨?_, if keeps then base.length + 1 else base.length, some (c.ip + 1), by simp only [h1]; exact .native keeps n', rfl, by cases keeps <;> simp⟩
      cases keeps with
      | true => exact hagree f []
      | false => exact ⟨by simp, fun j hj _ => by simp⟩
    | arity _ => rw [hinv] at hs; simp [afterInvoke] at hs
    | error => rw [hinv] at hs; simp [afterInvoke] at hs
    | panic => rw [hinv] at hs; simp [afterInvoke] at hs
  · simp at hs

theorem run_inside (M : Machine V S N) (hM : M.Wf) {H : List (Host N)} {F : List Frame} {r d : Nat} {H₀ : List (Host N)}
    (hH : H = .loop d :: H₀) (hd : d < F.length) {base : List V} {ws : List Nat} {a c : Cfg V S N} (hr : Run M a ws c) :
    ∀ w0, Inside H F r base w0 a →
      (∃ mid w1 w2, Run M a w1 mid ∧ Run M mid w2 c ∧ ws = w1 ++ w2 ∧ Back H F r base (w0 ++ w1) mid) ∨ Inside H F r base (w0 ++ ws) c := by
  induction hr with
  | refl c => intro w0 h; exact .inr (by simpa using h)
  | @head a b c w ws hs hrun ih =>
    intro w0 h
    rcases step_inside M hM hH hd h hs with hb | hb
    · rcases ih _ hb with ⟨mid, w1, w2, r1, r2, e, hB⟩ | hB
      · exact .inl ⟨mid, w ++ w1, w2, .head hs r1, r2, by simp [e], by simpa using hB⟩
      · exact .inr (by simpa using hB)
    · exact .inl ⟨b, w, ws, by simpa using Run.head hs (.refl b), hrun, rfl, hb⟩

/-- **C42.** In any run of a program that comes to a call, and for anything that happens after it (calls, callbacks from native functions, memoized functions, `eval`, to any depth): either the call is still
going on, with the caller's frames and stack in place, or at some point it returned, as `Returned` says. -/
theorem C42_call (M : Machine V S N) (hM : M.Wf) {c₀ c c' : Cfg V S N} {ws₀ ws : List Nat} (hstart : Started c₀) (hreach : Run M c₀ ws₀ c)
    {d : Nat} {H₀ : List (Host N)} {nargs : S → Nat} {f : V} {base args : List V}
    (h1 : c.hosts = .loop d :: H₀) (h2 : M.code c.st c.ip = some (.call nargs)) (h3 : c.stack = base ++ f :: args) (h4 : args.length = nargs c.st)
    (hr : Run M c ws c') (hne : c' ≠ c) :
    (∃ mid w1 w2, Run M c w1 mid ∧ Run M mid w2 c' ∧ ws = w1 ++ w2 ∧ Returned c base w1 mid) ∨ GoesOn c base ws c' := by
  have hd : d < c.frames.length := by
    have : Ctl c₀.hosts c₀.frames.length := by rw [hstart.1, hstart.2]; exact .base 0
    rcases reach_ctl M hreach this with h | h
    · rw [h1] at h
      generalize c.frames.length = q at h
      cases h with
      | base n => omega
      | loop k e x h hl => exact hl
    · simp [h] at h1
  cases hr with
  | refl => exact absurd rfl hne
  | @head _ b _ w ws hs hrun =>
    rcases first_step M hM h1 h3 h2 h4.symm hs with hb | hb
    · rcases run_inside M hM h1 hd hrun w hb with ⟨mid, w1, w2, r1, r2, e, hB⟩ | hB
      · exact .inl ⟨mid, w ++ w1, w2, .head hs r1, r2, by simp [e], back_returned hB⟩
      · exact .inr (inside_goesOn hB)
    · exact .inl ⟨b, w, ws, by simpa using Run.head hs (.refl b), hrun, rfl, back_returned hb⟩

/-- **C42** (the value). When a function returns with `v` on top of its part of the stack, the caller finds `v` in place of the function and
its arguments and local variables, and goes on after the call; a native function that called it gets `v`, and nothing of the call is left.
When a native function is done with the value `v`, its caller finds `v`. -/
theorem C42_value (M : Machine V S N) (c : Cfg V S N) {base win : List V} {f v : V} {fr : Frame} {frs : List Frame} {drop : Nat} {hs : List (Host N)} :
    (c.hosts = .loop drop :: hs → c.frames = fr :: frs → M.code c.st c.ip = some .ret → c.stack = base ++ f :: (win ++ [v]) →
      fr.fp = base.length + 1 →
      (drop ≠ frs.length → step M c = some ([], { c with ip := fr.ret, stack := base ++ [v], frames := frs })) ∧
      (∀ keeps n hs', drop = frs.length → hs = .native keeps false n :: hs' →
        step M c = some ([], { c with ip := fr.ret, stack := base, frames := frs, hosts := .native keeps false (M.resume n v) :: hs' }))) ∧
    (∀ n, c.hosts = .native false false n :: .loop drop :: hs → M.act n c.st = .done v →
      step M c = some ([], { c with hosts := .loop drop :: hs, stack := c.stack ++ [v] })) ∧
    (∀ n, c.hosts = .native true false n :: .loop drop :: hs → M.act n c.st = .done v → c.stack = base ++ [f] →
      step M c = some ([], { c with hosts := .loop drop :: hs, stack := base ++ [v] })) := by
  refine ⟨fun h1 h2 h3 h4 h5 => ?_, fun n h1 h2 => ?_, fun n h1 h2 h3 => ?_⟩
  · have hp : popFrame c.stack fr.fp = some (base ++ [v]) := by
      have e : base ++ f :: (win ++ [v]) = (base ++ f :: win) ++ [v] := by simp
      rw [h4, h5, popFrame, e, List.getLast?_concat]
      simp only [List.dropLast_concat]
      rw [if_pos (by simp)]
      simp [List.take_append]
      exact List.take_of_length_le (by omega)
    refine ⟨fun hd => ?_, fun keeps n hs' hd hh => ?_⟩
    · unfold step; simp only [h1, h2, h3, hp, if_neg hd]
    · unfold step; simp only [h1, h2, h3, hp, if_pos hd, hh, deliver, List.getLast?_concat, List.dropLast_concat]; simp
  · unfold step; simp only [h1, h2, deliver]; simp
  · unfold step; simp only [h1, h2, deliver]; simp [h3]

/-- **C42**, as soon as there are no more activations and frames than before the call, it has returned. -/
theorem C42_balance (M : Machine V S N) (hM : M.Wf) {c₀ c c' : Cfg V S N} {ws₀ ws : List Nat} (hstart : Started c₀) (hreach : Run M c₀ ws₀ c)
    {d : Nat} {H₀ : List (Host N)} {nargs : S → Nat} {f : V} {base args : List V}
    (h1 : c.hosts = .loop d :: H₀) (h2 : M.code c.st c.ip = some (.call nargs)) (h3 : c.stack = base ++ f :: args) (h4 : args.length = nargs c.st)
    (hr : Run M c ws c') (hne : c' ≠ c) (hle : c'.hosts.length + c'.frames.length ≤ c.hosts.length + c.frames.length) :
    ∃ mid w1 w2, Run M c w1 mid ∧ Run M mid w2 c' ∧ ws = w1 ++ w2 ∧ Returned c base w1 mid := by
  rcases C42_call M hM hstart hreach h1 h2 h3 h4 hr hne with h | ⟨_, _, h, _⟩
  · exact h
  · omega

/-! ## An example

`fn f(a, b = 7, *c) -> b` at 10; the native function `g` calls `f(5)` and gives its value. The program is `g()` (at 0) and `f(1)` (at 2). -/
namespace Example

inductive W where
  | num (n : Nat)
  | f
  | g
  | vec (l : List W)
  | part (v : W) (l : List W)

def push (w : W) : Instr W Nat := .op fun ip _ win s => some (ip + 1, win ++ [w], [], s)

/-- The native function: nothing yet, or with the value of its callback. -/
abbrev G := Option W

def deflt : Option Nat → W
  | some k => .num k
  | none => .vec []

def defCode (e : Option Nat) : List (Instr W Nat) := [push (deflt e)]

def fn : Func := mkFunc 10 (parseParams (Shape 1 [7] true)) defCode

def code : Nat → Option (Instr W Nat)
  | 0 => some (push .g)
  | 1 => some (.call fun _ => 0)
  | 2 => some (push .f)
  | 3 => some (push (.num 1))
  | 4 => some (.call fun _ => 1)
  | 10 => some (push (.num 7))
  | 11 => some (push (.vec []))
  | 12 => some (.op fun _ _ win s => win[1]?.map fun x => (13, win ++ [x], [], s))
  | 13 => some .ret
  | _ => none

def callee : W → Callee W Nat G
  | .f => .user fn
  | .g => .native true fun _ => none
  | .part .f l => .part .f fn l
  | _ => .prim fun _ _ => none

def M : Machine W Nat G where
  callee := callee
  vector := .vec
  nil := .vec []
  mkPartial := .part
  callee_partial := by
    intro fv f args h
    cases fv with
    | f => simpa [callee] using h
    | part w l => cases w <;> simp [callee] at h
    | _ => simp [callee] at h
  code := fun _ => code
  act := fun n _ => match n with
    | none => .callback .f [.num 5]
    | some v => .done v
  resume := fun _ v => some v

def start : Cfg W Nat G := ⟨0, [], [⟨0, 0⟩], [.loop 0], 0⟩

theorem wf : M.Wf := by
  refine ⟨fun v f h => ?_, fun v fv f args h => ?_⟩
  · cases v with
    | f => simp [M, callee] at h; subst h; exact parse_wf _ _ _
    | part w l => cases w <;> simp [M, callee] at h
    | _ => simp [M, callee] at h
  · cases v with
    | part w l => cases w <;> simp [M, callee] at h; obtain ⟨-, rfl, -⟩ := h; exact parse_wf _ _ _
    | _ => simp [M, callee] at h

def stepsN (M : Machine V S N) : Nat → Cfg V S N → Option (List Nat × Cfg V S N)
  | 0, c => some ([], c)
  | k + 1, c => match step M c with
    | some (w, c') => (stepsN M k c').map fun p => (w ++ p.1, p.2)
    | none => none

theorem stepsN_run {M : Machine V S N} {k : Nat} {c c' : Cfg V S N} {w : List Nat} (h : stepsN M k c = some (w, c')) : Run M c w c' := by
  induction k generalizing c w with
  | zero => simp [stepsN] at h; obtain ⟨rfl, rfl⟩ := h; exact .refl c
  | succ k ih =>
    simp only [stepsN] at h
    split at h
    · rename_i w1 c1 hs
      simp only [Option.map_eq_some_iff] at h
      obtain ⟨⟨w2, c2⟩, h1, h2⟩ := h
      simp at h2
      obtain ⟨rfl, rfl⟩ := h2
      exact .head hs (ih h1)
    · simp at h

/-- The hypotheses of C42 are met at the call of `g`: it is reached, and its callback runs `f` in a loop of its own until both return. -/
example : ∃ c c' ws, Run M start [] c ∧ c.hosts = [.loop 0] ∧ M.code c.st c.ip = some (.call fun _ => 0) ∧ c.stack = [] ++ W.g :: [] ∧
    Run M c ws c' ∧ c'.hosts.length = 1 ∧ c'.frames.length = 1 ∧ c'.ip = 2 ∧ c'.stack = [.num 7] := by
  refine ⟨⟨1, [.g], [⟨0, 0⟩], [.loop 0], 0⟩, ⟨2, [.num 7], [⟨0, 0⟩], [.loop 0], 0⟩, [], stepsN_run (k := 1) rfl, rfl, rfl, rfl, stepsN_run (k := 7) rfl, rfl, rfl, rfl, rfl⟩

/-- ... and of `f(1)` with a value below it; there the frame is entered with `b` and `c` filled in. -/
example : ∃ c ws, Run M start ws c ∧ c.ip = 12 ∧ c.stack = [.num 7, .f, .num 1, .num 7, .vec []] ∧ c.frames = [⟨5, 2⟩, ⟨0, 0⟩] := by
  exact ⟨⟨12, [.num 7, .f, .num 1, .num 7, .vec []], [⟨5, 2⟩, ⟨0, 0⟩], [.loop 0], 0⟩, [], stepsN_run (k := 13) rfl, rfl, rfl, rfl⟩

/-- The hypotheses of `C40_binds` about the code of default values. -/
example (e : Option Nat) : Computes M (defCode e) (fun b _ s v b' s' => v = deflt e ∧ b' = b ∧ s' = s) := by
  rintro c drop hs fr frs b w v b' s' h1 h2 h3 h4 hp ⟨rfl, rfl, rfl⟩
  refine ⟨rfl, [], stepsN_run (k := 1) ?_⟩
  have hc : M.code c.st c.ip = some (push (deflt e)) := hp c.st 0 (by simp [defCode])
  simp [stepsN, step, h1, h2, hc, push, writeAll, h3, ← h4, defCode]

example : M.callee .f = .user (mkFunc 10 (parseParams (Shape 1 [7] true)) defCode) ∧
    Placed M 10 (([7].map some ++ [none]).flatMap defCode) := by
  refine ⟨rfl, fun s i hi => ?_⟩
  match i, hi with
  | 0, _ => rfl
  | 1, _ => rfl
  | n + 2, h => simp [defCode] at h; omega

end Example
end Cordy.Calls
