import Verif.Model.Err
/-! # Ranges, indexing, slicing

Models `vm/value/range.rs`, `core/collections.rs:16-145`, `vm/value/slice.rs`, `vm/value/mod.rs:996-1046`.
All quantities are unbounded `Int`; `Props/Range.C13_no_overflow` shows the 64-bit additions of `Range::next` and
`contains` never overflow for operands in the int range. -/
namespace Cordy

/-- models: range.rs:22-26 -/
structure Range where
  start : Int
  stop : Int
  step : Int
  deriving DecidableEq, Repr

namespace Range

/-- models: range.rs:36-46 `Range::from` -/
def mk? (start stop step : Int) : Res Range :=
  if step = 0 then .error .stepZero
  else if (stop > start ∧ step > 0) ∨ (stop < start ∧ step < 0) then .ok ⟨start, stop, step⟩
  else .ok ⟨0, 0, 0⟩

/-- models: range.rs:53-59 `contains`; Rust's `%` is the truncated remainder. -/
def contains (r : Range) (value : Int) : Bool :=
  if r.step = 0 then false
  else if r.step > 0 then decide (value ≥ r.start) && decide (value < r.stop) && decide ((value - r.start).tmod r.step = 0)
  else decide (value ≤ r.start) && decide (value > r.stop) && decide ((r.start - value).tmod r.step = 0)

/-- models: range.rs:111-117 `len` -/
def len (r : Range) : Nat :=
  if r.step = 0 then 0 else (r.start - r.stop).natAbs / r.step.natAbs

/-- models: range.rs:62-76 `reverse` -/
def reverse (r : Range) : Range :=
  if r.step = 0 then r
  else if r.step > 0 then ⟨r.start + r.len * r.step, r.start + 1, -r.step⟩
  else ⟨r.start + r.len * r.step, r.start - 1, -r.step⟩

/-- models: range.rs:80-98 `next`: the value produced and the new `current`. -/
def next (r : Range) (current : Int) : Option (Int × Int) :=
  if current = r.stop ∨ r.step = 0 then none
  else if r.step > 0 then
    some (current, if current + r.step > r.stop then r.stop else current + r.step)
  else
    some (current, if current + r.step < r.stop then r.stop else current + r.step)

/-- All values `next` produces from `current` on: `Iterator` iteration until `None`. -/
def drain (r : Range) (current : Int) : List Int :=
  if h : current = r.stop ∨ r.step = 0 then []
  else if r.step > 0 then
    current :: drain r (if current + r.step > r.stop then r.stop else current + r.step)
  else
    current :: drain r (if current + r.step < r.stop then r.stop else current + r.step)
termination_by
  if current = r.stop ∨ r.step = 0 then 0
  else if r.step > 0 then (if current < r.stop then (r.stop - current).toNat else 1)
  else (if current > r.stop then (current - r.stop).toNat else 1)
decreasing_by
  all_goals (repeat' split) <;> omega

/-- models: range.rs:107-109 `to_iter` followed by iteration: `current` starts at `start`. -/
def values (r : Range) : List Int := r.drain r.start

/-- models: mod.rs:885 and 969: reverse iteration drains the reversed range. -/
def revValues (r : Range) : List Int := r.reverse.values

end Range

/-! ## Indexing -/

/-- models: collections.rs:125-131 `to_index` -/
def toIndex (len posOrNeg : Int) : Int := if posOrNeg ≥ 0 then posOrNeg else len + posOrNeg

/-- The `as usize` cast of an `i64`. -/
def asUsize (i : Int) : Nat := (i % 2 ^ 64).toNat

/-- models: mod.rs:488-493 `as_int_checked` (bools are ints 0 and 1, ptr.rs:184-190, 282) -/
def asInt : Val → Res Int
  | .int i => .ok i
  | .bool b => .ok (if b then 1 else 0)
  | _ => .error .argInt

/-- models: mod.rs:1013-1022 `check_index` -/
def checkIndex (len : Nat) (value : Val) : Res Nat := do
  let index ← asInt value
  let raw := asUsize (toIndex len index)
  if raw < len then .ok raw else .error .indexOutOfBounds

/-- `str::len`: number of UTF-8 bytes. -/
def byteLen (s : List Char) : Nat := (s.map Char.utf8Size).sum

/-- models: collections.rs:16-25 `get_index` on non-dict targets, with mod.rs:365-372 `to_index`, mod.rs:1004-1010 `len`,
mod.rs:1024-1030 `get_index`.  Note the string length is the byte length while the element is taken by character. -/
def getIndex (target index : Val) : Res Val :=
  match target with
  | .str s => do
    let i ← checkIndex (byteLen s) index
    match s[i]? with
    | some c => .ok (.str [c])
    | none => .error .panic
  | .list xs | .vector xs => do
    let i ← checkIndex xs.length index
    match xs[i]? with
    | some v => .ok v
    | none => .error .panic
  | _ => .error .argIndexable

/-- models: collections.rs:64-75 `set_index` on non-dict targets, mod.rs:1033-1045: the new contents of the target. -/
def setIndex (target index value : Val) : Res Val :=
  match target with
  | .str s => do
    let _ ← checkIndex (byteLen s) index
    .error .argIndexable
  | .list xs => do
    let i ← checkIndex xs.length index
    .ok (.list (xs.set i value))
  | .vector xs => do
    let i ← checkIndex xs.length index
    .ok (.vector (xs.set i value))
  | _ => .error .argIndexable

/-! ## Slicing -/

/-- models: collections.rs:84-92 `unwrap_or` -/
def unwrapOr (v : Val) (default : Int) : Res Int :=
  match v with
  | .int i => .ok i
  | .bool b => .ok (if b then 1 else 0)
  | .nil => .ok default
  | _ => .error .argInt

/-- `(start..stop).step_by(step)` with `step ≥ 1`. -/
def upRange (start stop : Int) (step : Nat) : List Int :=
  if h : start < stop ∧ 0 < step then start :: upRange (start + step) stop step else []
termination_by (stop - start).toNat
decreasing_by omega

/-- models: collections.rs:134-145 `rev_range` -/
def revRange (start stop : Int) (step : Nat) : List Int :=
  if h : start > stop ∧ 0 < step then start :: revRange (start - step) stop step else []
termination_by (start - stop).toNat
decreasing_by omega

/-- models: slice.rs:111-120 `accept` for a source of `len` "positions" and elements `xs`:
out-of-range positions are skipped, `nth(index).unwrap()` panics if there is no such element. -/
def accept {α : Type} (len : Nat) (xs : List α) (out : List α) (index : Int) : Res (List α) :=
  if index ≥ 0 ∧ index < len then
    match xs[index.toNat]? with
    | some v => .ok (out ++ [v])
    | none => .error .panic
  else .ok out

/-- models: collections.rs:94-121, the positions visited and accepted in turn. -/
def sliceCore {α : Type} (len : Nat) (xs : List α) (low high step : Val) : Res (List α) := do
  let step ← unwrapOr step 1
  if step = 0 then .error .stepZero
  else
    let low ← unwrapOr low (if step > 0 then 0 else -1)
    let high ← unwrapOr high (if step > 0 then (len : Int) else -(len : Int) - 1)
    let absStart := toIndex len low
    let absStop := toIndex len high
    if step > 0 then (upRange absStart absStop step.natAbs).foldlM (accept len xs) []
    else (revRange absStart absStop step.natAbs).foldlM (accept len xs) []

/-- models: collections.rs:81-121 `get_slice`, slice.rs:79-108 -/
def getSlice (target low high step : Val) : Res Val :=
  match target with
  | .str s => do let r ← sliceCore (byteLen s) s low high step; .ok (.str r)
  | .list xs => do let r ← sliceCore xs.length xs low high step; .ok (.list r)
  | .vector xs => do let r ← sliceCore xs.length xs low high step; .ok (.vector r)
  | _ => .error .argSliceable

/-- models: slice.rs:26-36 `ValuePtr::slice`: the check of each part -/
def checkBound : Val → Res Val
  | .int i => .ok (.int i)
  | .bool b => .ok (.bool b)
  | .nil => .ok .nil
  | _ => .error .argInt

/-- models: slice.rs:26-36 `ValuePtr::slice` -/
def mkSlice (start stop step : Val) : Res Val := do .ok (.slice (← checkBound start) (← checkBound stop) (← checkBound step))

/-- models: slice.rs:44-46 `apply`: a slice value applied as a function. -/
def applySlice : Val → Val → Res Val
  | .slice a b c, arg => getSlice arg a b c
  | _, _ => .error .notEvaluable

end Cordy
