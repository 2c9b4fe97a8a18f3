import Verif.Model.Err
import Verif.Model.Functional
/-!
# sort, min, max and heaps

`cmp` is the total comparison `Ord for ValuePtr` (`Val.cmp` of Model/Value).  The standard library's algorithms are library code: `min`,
`max` are modelled by their documented folds, `sort_unstable` by an abstract comparison program, `BinaryHeap` step by step.
-/
namespace Cordy
namespace Srt
variable {σ α β : Type}

/-- models: collections.rs:159-161 `min`: `Iterator::min` folds `|x, y| if x > y { y } else { x }` -/
def minOf (cmp : α → α → Ordering) : List α → Res α
  | [] => .error .nonEmpty
  | x :: xs => .ok (xs.foldl (fun x y => if cmp x y == .gt then y else x) x)

/-- models: collections.rs:187-189 `max`: `Iterator::max` folds `|x, y| if x > y { x } else { y }` -/
def maxOf (cmp : α → α → Ordering) : List α → Res α
  | [] => .error .nonEmpty
  | x :: xs => .ok (xs.foldl (fun x y => if cmp x y == .gt then x else y) x)

/-- models: util.rs:25-34 `catch` around a callback: on error remember it and use the default. -/
def catch_ (err : Option Err) (r : Res β) (default : β) : Option Err × β :=
  match r with
  | .ok v => (err, v)
  | .error e => (some e, default)

/-- models: collections.rs:174-181 and 202-209, `min_by_key`/`max_by_key`: the key function is called once on each element, in order, through `catch`; all
elements are visited even after an error. -/
def keyed (f : Fn1 σ α β) (dflt : β) : List α → Option Err → σ → (List (β × α) × Option Err) × σ
  | [], err, s => (([], err), s)
  | x :: xs, err, s =>
    let (r, s1) := f x s
    let (err1, k) := catch_ err r dflt
    let ((rest, err2), s2) := keyed f dflt xs err1 s1
    (((k, x) :: rest, err2), s2)

/-- models: util.rs:38-43 `join` -/
def join (v : α) : Option Err → Res α
  | some e => .error e
  | none => .ok v

/-- models: collections.rs:163-185 `min_by` with a key function (`non_empty(ret)?` first, then `join`). -/
def minBy (cmp : β → β → Ordering) (f : Fn1 σ α β) (dflt : β) (xs : List α) (s : σ) : Res α × σ :=
  let ((ks, err), s') := keyed f dflt xs none s
  (match minOf (fun a b => cmp a.1 b.1) ks with
    | .error e => .error e
    | .ok p => join p.2 err, s')

/-- models: collections.rs:191-213 `max_by` with a key function. -/
def maxBy (cmp : β → β → Ordering) (f : Fn1 σ α β) (dflt : β) (xs : List α) (s : σ) : Res α × σ :=
  let ((ks, err), s') := keyed f dflt xs none s
  (match maxOf (fun a b => cmp a.1 b.1) ks with
    | .error e => .error e
    | .ok p => join p.2 err, s')

/-- A comparison based algorithm: it ends with a list or asks how two elements compare and goes on. -/
inductive Alg (α : Type) where
  | done (xs : List α)
  | ask (a b : α) (k : Ordering → Alg α)

namespace Alg
/-- Run with a comparison function. -/
def run (cmp : α → α → Ordering) : Alg α → List α
  | .done xs => xs
  | .ask a b k => (k (cmp a b)).run cmp

/-- models: collections.rs:228-230: each comparison calls the callback `f` through `catch`, with `Equal` on error. -/
def runM (f : Fn2 σ α α Ordering) : Alg α → Option Err → σ → (List α × Option Err) × σ
  | .done xs, err, s => ((xs, err), s)
  | .ask a b k, err, s =>
    let (r, s1) := f a b s
    let (err1, o) := catch_ err r .eq
    (k o).runM f err1 s1
end Alg

/-- models: collections.rs:216-220 `sort`, for the standard library's algorithm `alg` -/
def sort (alg : List α → Alg α) (cmp : α → α → Ordering) (xs : List α) : List α := (alg xs).run cmp

/-- models: collections.rs:222-233, 247-249 `sort_by`; `f` is the callback turned into an ordering. -/
def sortBy (alg : List α → Alg α) (f : Fn2 σ α α Ordering) (xs : List α) (s : σ) : Res (List α) × σ :=
  let ((ys, err), s') := (alg xs).runM f none s
  (join ys err, s')

/-- models: collections.rs:230: `by.invoke(a, b)?.as_int_checked()?.cmp(&0)` -/
def byComparator (f : Fn2 σ α α β) (asInt : β → Res Int) : Fn2 σ α α Ordering := fun a b s =>
  match f a b s with
  | (.error e, s') => (.error e, s')
  | (.ok v, s') => match asInt v with
    | .error e => (.error e, s')
    | .ok n => (.ok (compare n 0), s')

/-- models: collections.rs:224-233 `sort_by` with a comparator function -/
def sortByComparator (alg : List α → Alg α) (f : Fn2 σ α α β) (asInt : β → Res Int) (xs : List α) (s : σ) : Res (List α) × σ := sortBy alg (byComparator f asInt) xs s

/-- models: collections.rs:237-240, `sort_unstable_by_key`: each comparison calls the key function on the left element, then on the right one, through `catch`, and compares the keys. -/
def Alg.runKey (kcmp : β → β → Ordering) (f : Fn1 σ α β) (dflt : β) : Alg α → Option Err → σ → (List α × Option Err) × σ
  | .done xs, err, s => ((xs, err), s)
  | .ask a b k, err, s =>
    let (r, s1) := f a s
    let (err1, ka) := catch_ err r dflt
    let (r, s2) := f b s1
    let (err2, kb) := catch_ err1 r dflt
    (k (kcmp ka kb)).runKey kcmp f dflt err2 s2

/-- models: collections.rs:234-249 `sort_by` with a key function -/
def sortByKey (alg : List α → Alg α) (kcmp : β → β → Ordering) (f : Fn1 σ α β) (dflt : β) (xs : List α) (s : σ) : Res (List α) × σ :=
  let ((ys, err), s') := (alg xs).runKey kcmp f dflt none s
  (join ys err, s')

/-- `Iterator::min_by` (library): of two, the second is kept if it is less -/
def keepLeast (o : Ordering) (x y : α) : α := match o with | .gt => y | _ => x

/-- `Iterator::max_by` (library): of two, the first is kept if it is greater -/
def keepGreatest (o : Ordering) (x y : α) : α := match o with | .gt => x | _ => y

/-- `Iterator::min_by`/`max_by` (library): a fold over the elements; `pick` is which of two elements is kept. -/
def foldCmp (pick : Ordering → α → α → α) (f : Fn2 σ α α Ordering) : α → List α → Option Err → σ → (α × Option Err) × σ
  | x, [], err, s => ((x, err), s)
  | x, y :: ys, err, s =>
    let (r, s1) := f x y s
    let (err1, o) := catch_ err r .eq
    foldCmp pick f (pick o x y) ys err1 s1

/-- models: collections.rs:166-173 `min_by` with a comparator function -/
def minByComparator (f : Fn2 σ α α β) (asInt : β → Res Int) (xs : List α) (s : σ) : Res α × σ :=
  match xs with
  | [] => (.error .nonEmpty, s)
  | x :: xs =>
    let ((m, err), s') := foldCmp keepLeast (byComparator f asInt) x xs none s
    (join m err, s')

/-- models: collections.rs:194-201 `max_by` with a comparator function -/
def maxByComparator (f : Fn2 σ α α β) (asInt : β → Res Int) (xs : List α) (s : σ) : Res α × σ :=
  match xs with
  | [] => (.error .nonEmpty, s)
  | x :: xs =>
    let ((m, err), s') := foldCmp keepGreatest (byComparator f asInt) x xs none s
    (join m err, s')

end Srt

/-! ## Binary heaps (std `BinaryHeap<Reverse<ValuePtr>>`)

`le a b` is `a <= b` on values (`cmp a b != Greater`); `Reverse(a) <= Reverse(b)` is `le b a`.
The library moves a "hole"; we swap, which leaves the same array. -/
namespace Heap
variable {α : Type} (le : α → α → Bool)

/-- models: `BinaryHeap::sift_up(0, pos)` (library), used by collections.rs:476 `push` -/
def siftUp (a : Array α) (pos : Nat) (h : pos < a.size) : Array α :=
  if _h0 : pos = 0 then a
  else
    if le a[(pos - 1) / 2] a[pos] then a
    else siftUp (a.swap pos ((pos - 1) / 2) h (by omega)) ((pos - 1) / 2) (by simp; omega)
termination_by pos
decreasing_by omega

/-- models: collections.rs:476 `push` on a heap: `BinaryHeap::push` appends and sifts up -/
def push (a : Array α) (v : α) : Array α := siftUp le (a.push v) a.size (by simp)

/-- models: `BinaryHeap::sift_down_to_bottom` (library) -/
def siftDownBottom (a : Array α) (pos : Nat) (h : pos < a.size) : Array α :=
  if hc : 2 * pos + 1 ≤ a.size - 2 then
    if le a[2 * pos + 1 + 1] a[2 * pos + 1] then
      siftDownBottom (a.swap pos (2 * pos + 1 + 1) h (by omega)) (2 * pos + 1 + 1) (by simp; omega)
    else siftDownBottom (a.swap pos (2 * pos + 1) h (by omega)) (2 * pos + 1) (by simp; omega)
  else if hc1 : 2 * pos + 1 = a.size - 1 then
    siftUp le (a.swap pos (2 * pos + 1) h (by omega)) (2 * pos + 1) (by simp; omega)
  else siftUp le a pos h
termination_by a.size - pos
decreasing_by all_goals (simp; omega)

/-- models: collections.rs:454 `pop` on a heap: `BinaryHeap::pop` takes the last item, exchanges it with the root and sifts down -/
def pop (a : Array α) : Option (α × Array α) :=
  if h : 0 < a.size then
    let item := a[a.size - 1]
    let b := a.pop
    if hb : 0 < b.size then
      some (b[0], siftDownBottom le (b.set 0 item) 0 (by simpa using hb))
    else some (item, b)
  else none

/-- models: `BinaryHeap::sift_down_range(pos, len)` (library), used by `rebuild` -/
def siftDown (a : Array α) (pos : Nat) (h : pos < a.size) : Array α :=
  if hc : 2 * pos + 1 ≤ a.size - 2 then
    if le a[2 * pos + 1 + 1] a[2 * pos + 1] then
      if le a[pos] a[2 * pos + 1 + 1] then a
      else siftDown (a.swap pos (2 * pos + 1 + 1) h (by omega)) (2 * pos + 1 + 1) (by simp; omega)
    else
      if le a[pos] a[2 * pos + 1] then a
      else siftDown (a.swap pos (2 * pos + 1) h (by omega)) (2 * pos + 1) (by simp; omega)
  else if hc1 : 2 * pos + 1 = a.size - 1 then
    if !(le a[pos] a[2 * pos + 1]) then a.swap pos (2 * pos + 1) h (by omega) else a
  else a
termination_by a.size - pos
decreasing_by all_goals (simp; omega)

/-- models: `BinaryHeap::rebuild` (library): sift down from `n - 1` to `0` -/
def rebuild (a : Array α) (n : Nat) : Array α :=
  match n with
  | 0 => a
  | n + 1 => if h : n < a.size then rebuild (siftDown le a n h) n else rebuild a n

/-- models: core/mod.rs:1046 `heap(xs)`: `BinaryHeap::from(vec)` -/
def ofList (xs : List α) : Array α := rebuild le xs.toArray (xs.length / 2)

/-- Operations on a heap. -/
inductive Op (α : Type) where
  | push (v : α) | pop | peek | clear | len
/-- Results. -/
inductive Out (α : Type) where
  | unit | val (v : α) | nat (n : Nat) | err (e : Err)

/-- models: collections.rs:476, 454, 440, 544; mod.rs:408 -/
def step (a : Array α) : Op α → Array α × Out α
  | .push v => (push le a v, .unit)
  | .pop => match pop le a with
    | some (v, a') => (a', .val v)
    | none => (a, .err .nonEmpty)
  | .peek => match a[0]? with
    | some v => (a, .val v)
    | none => (a, .err .nonEmpty)
  | .clear => (#[], .unit)
  | .len => (a, .nat a.size)

/-- A history. -/
def run (a : Array α) : List (Op α) → Array α × List (Out α)
  | [] => (a, [])
  | op :: ops =>
    let (a1, o) := step le a op
    let (a2, os) := run a1 ops
    (a2, o :: os)

/-- Popping until empty. -/
def drain : Nat → Array α → List α
  | 0, _ => []
  | n + 1, a => match pop le a with
    | some (v, a') => v :: drain n a'
    | none => []

end Heap
end Cordy
