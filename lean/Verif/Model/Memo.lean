/-!
# Memoized functions

Models `invoke_memoized` (core/mod.rs:1064-1089) and `MemoizedImpl` (vm/value/mod.rs:983-993). The rest of the interpreter is a parameter: what an activation does next (`act`) may depend on, and change, everything (`W`), and includes calling memoized functions,
itself or others, at any time.

Simplified: the hash map is a list; a key is found if its stored hash is that of the query and it is equal to the query (colliding hashes of hashbrown's 7 bit tags cannot make other keys equal).
-/
namespace Cordy.Memo

inductive Action (V W P : Type) where
  /-- the value of this activation -/
  | ret (v : V)
  /-- a runtime error; there is no way to catch it -/
  | fail
  /-- anything but calling a memoized function -/
  | tau (p : P) (w : W)
  | call (m : Nat) (args : List V)

/-- Values `V`, the state `W` and the activations `P`. Memoized functions are numbers. -/
structure Sys (V W P : Type) where
  /-- models: ptr.rs `PartialEq for ValuePtr`; what mutable values hold is in the state -/
  same : W → V → V → Bool
  /-- models: ptr.rs `Hash for ValuePtr`, of a `Vec<ValuePtr>` -/
  hash : W → List V → Nat
  /-- Does hashing the arguments look into the memoized function `m`? (ptr.rs:592, 764-768: it borrows it) -/
  touches : W → Nat → List V → Bool
  act : P → W → Action V W P
  /-- An activation goes on after its call of a memoized function. -/
  resume : P → V → P
  /-- The activation of the function that `m` wraps. -/
  body : W → Nat → List V → P

structure Entry (V : Type) where
  hash : Nat
  key : List V
  val : V
  deriving DecidableEq, Repr

/-- What can be observed. -/
inductive Event (V : Type) where
  /-- the body of `m` starts, as activation number `i` -/
  | start (i m : Nat) (args : List V)
  /-- it ended with a value -/
  | done (i m : Nat) (args : List V) (v : V)
  /-- it ended with an error -/
  | abort (i m : Nat) (args : List V)
  /-- a call of `m` got the value `v` -/
  | got (m : Nat) (args : List V) (v : V)
  deriving DecidableEq, Repr

/-- An activation that waits for the body of a memoized function. -/
structure Wait (V P : Type) where
  caller : P
  id : Nat
  m : Nat
  args : List V

structure Cfg (V W P : Type) where
  cur : P
  waits : List (Wait V P)
  caches : Nat → List (Entry V)
  w : W
  /-- the number of bodies started -/
  count : Nat
  log : List (Event V)
  crashed : Bool := false

variable {V W P : Type}

/-- Equality of two lists of arguments (`Vec`). -/
def sameArgs (S : Sys V W P) (w : W) : List V → List V → Bool
  | [], [] => true
  | a :: as, b :: bs => S.same w a b && sameArgs S w as bs
  | _, _ => false

/-- models: `HashMap::get` -/
def lookup (S : Sys V W P) (w : W) (cache : List (Entry V)) (args : List V) : Option V :=
  (cache.find? fun e => e.hash == S.hash w args && sameArgs S w e.key args).map (·.val)

/-- models: core/mod.rs:1084-1088: `.entry(args).or_insert(ret)`: the value that is there then, and the map -/
def orInsert (S : Sys V W P) (w : W) (cache : List (Entry V)) (args : List V) (v : V) : V × List (Entry V) :=
  match lookup S w cache args with
  | some v' => (v', cache)
  | none => (v, cache ++ [⟨S.hash w args, args, v⟩])

/-- models: core/mod.rs:1071-1080: the lookup, then the call of the function -/
def begin (S : Sys V W P) (c : Cfg V W P) (m : Nat) (args : List V) : Cfg V W P :=
  match lookup S c.w (c.caches m) args with
  | some v => { c with cur := S.resume c.cur v, log := c.log ++ [.got m args v] }
  | none => { c with
      cur := S.body c.w m args
      waits := ⟨c.cur, c.count, m, args⟩ :: c.waits
      count := c.count + 1
      log := c.log ++ [.start c.count m args] }

/-- models: core/mod.rs:1082-1089: after the call. `borrow_mut` holds the lock while the arguments are hashed: if this looks into the same memoized function, the interpreter panics. -/
def finish (S : Sys V W P) (c : Cfg V W P) (x : Wait V P) (rest : List (Wait V P)) (v : V) : Cfg V W P :=
  if S.touches c.w x.m x.args then { c with crashed := true }
  else
    let r := orInsert S c.w (c.caches x.m) x.args v
    { c with
      cur := S.resume x.caller r.1
      waits := rest
      caches := fun m => if m = x.m then r.2 else c.caches m
      log := c.log ++ [.done x.id x.m x.args v, .got x.m x.args r.1] }

/-- The error ends all activations (core/mod.rs:1082: `?`). -/
def failAll (c : Cfg V W P) (next : P) : Cfg V W P :=
  { c with cur := next, waits := [], log := c.log ++ c.waits.map fun x => .abort x.id x.m x.args }

/-- One step. When the program ends, or an error was reported, anything can come next (`next`): the next input of the REPL. -/
inductive Step (S : Sys V W P) : Cfg V W P → Cfg V W P → Prop where
  | tau {c p w} : c.crashed = false → S.act c.cur c.w = .tau p w → Step S c { c with cur := p, w := w }
  | call {c m args} : c.crashed = false → S.act c.cur c.w = .call m args → Step S c (begin S c m args)
  | ret {c v x rest} : c.crashed = false → S.act c.cur c.w = .ret v → c.waits = x :: rest → Step S c (finish S c x rest v)
  | next {c v} (p) : c.crashed = false → S.act c.cur c.w = .ret v → c.waits = [] → Step S c { c with cur := p }
  | fail {c} (p) : c.crashed = false → S.act c.cur c.w = .fail → Step S c (failAll c p)

inductive Steps (S : Sys V W P) : Cfg V W P → Cfg V W P → Prop where
  | refl (c) : Steps S c c
  | tail {a b c} : Steps S a b → Step S b c → Steps S a c

/-- The start: nothing was called. -/
def init (p : P) (w : W) : Cfg V W P := { cur := p, waits := [], caches := fun _ => [], w := w, count := 0, log := [] }

end Cordy.Memo
