/-!
# Values, equality, hashing and ordering

Models `cordy-sys/src/vm/value/ptr.rs:327-597` (`PartialEq`, `Ord`, `Hash` for `ValuePtr`) together with
`vm/value/collections.rs`, `vm/value/number.rs`, `vm/value/range.rs`, `vm/value/slice.rs`,
`vm/value/func.rs`, `vm/value/mod.rs` for the payload types.

Simplifications, all in the data type:
* a value is a finite tree (no aliasing, no cycles); object identity is modelled in `Model/Heap.lean`;
* ints and complex parts are `Int` (the word level is `Model/Repr.lean`, `Model/Arith.lean`);
* both string representations are the list of characters (`Props/Repr.C03_str_eq` justifies this for `==`;
  byte-lexicographic and code-point-lexicographic order of UTF-8 agree);
* a `Function` record is an opaque number, `Type::Memoized`, `Type::Iter`, `Type::Error`, `Type::Never` are left out.
-/
namespace Cordy

mutual
/-- The runtime values (`Type`, mod.rs:46-74, with payloads). -/
inductive Val where
  | nil
  | bool (b : Bool)
  | int (i : Int)
  | native (n : Nat)
  | field (f : Nat)
  | str (s : List Char)
  /-- `Complex`, number.rs:29: pair of `i64`, imaginary part never 0. -/
  | complex (re im : Int)
  /-- `Rational`, number.rs:98: reduced fraction (`rug::Rational` is always canonical). -/
  | rational (num : Int) (den : Nat)
  | list (xs : List Val)
  /-- `Set`, collections.rs:70: an `IndexSet`, entries in insertion order. -/
  | set (xs : List Val)
  /-- `Dict`, collections.rs:135: an `IndexMap`, its entries in insertion order.
  The default is not part of equality, order or hash and left out here. -/
  | dict (es : Ents)
  /-- `Heap`, collections.rs:213: a `BinaryHeap<Reverse<_>>`, its internal array. -/
  | heap (xs : List Val)
  | vector (xs : List Val)
  /-- `StructImpl`, mod.rs:687: the owner is identified by its `instance_type`. -/
  | struct (owner : Nat) (xs : List Val)
  | structType (owner : Nat)
  /-- `Range`, range.rs:22. -/
  | range (start stop step : Int)
  /-- `Enumerate`, range.rs:131. -/
  | enumerate (inner : Val)
  /-- `Slice`, slice.rs:18. -/
  | slice (start stop step : Val)
  /-- `Function`, func.rs:26. -/
  | func (id : Nat)
  /-- `Closure`, func.rs:207: function and identity of the environment (not compared). -/
  | closure (id env : Nat)
  /-- `PartialFunction`, func.rs:123. -/
  | partialFn (f : Val) (args : List Val)
  /-- `PartialNativeFunction`, func.rs:284. -/
  | partialNative (n : Nat) (args : List Val)
/-- Entries of a dict (a list of key-value pairs, written out to keep recursion structural). -/
inductive Ents where
  | nil
  | cons (k v : Val) (rest : Ents)
end

instance : Inhabited Val := ⟨.nil⟩

/-- The entries as a list of pairs. -/
def Ents.toList : Ents → List (Val × Val)
  | .nil => []
  | .cons k v r => (k, v) :: r.toList

/-- Entries from a list of pairs. -/
def Ents.ofList : List (Val × Val) → Ents
  | [] => .nil
  | (k, v) :: r => .cons k v (Ents.ofList r)

/-- The keys of a dict in order. -/
def Ents.keys (es : Ents) : List Val := es.toList.map (·.1)

namespace Val

/-- One machine word (or byte string) fed to the hasher. -/
inductive Tok where
  | word (i : Int)
  | bytes (s : List Char)
  deriving DecidableEq

/-! ## Hash: the sequence of words a value feeds to the hasher -/

mutual
/-- models: ptr.rs:556-597 `Hash for ValuePtr`, as the sequence of words fed to the hasher.
`int` feeds its tagged word, i.e. `2 * i`.  For `rational` the code tests `denom == 0` (ptr.rs:575), which
never holds, so the fraction itself is always fed (numerator, denominator). -/
def feed : Val → List Tok
  | .nil => [.word 1]
  | .bool b => [.word (if b then 0b100101 else 0b000101)]
  | .int i => [.word (2 * i)]
  | .native n => [.word (9 + 64 * n)]
  | .field f => [.word (13 + 64 * f)]
  | .str s => [.bytes s]
  | .complex re im => [.word re, .word im]
  | .rational n d => [.bytes [], .word n, .word d]
  | .list xs => .word xs.length :: feedL xs          -- derived on VecDeque: length prefix, then elements
  | .vector xs => .word xs.length :: feedL xs        -- derived on Vec
  | .set xs => feedL xs                              -- collections.rs:115-126
  | .dict es => feedD es                       -- collections.rs:178-189
  | .heap xs => feedL xs                             -- collections.rs:239-244
  | .struct o xs => .word o :: .word xs.length :: feedL xs   -- derived, mod.rs:686
  | .structType o => [.word o]                       -- mod.rs:797-801
  | .range a b s => [.word a, .word b, .word s]      -- derived, range.rs:21
  | .enumerate v => feed v                           -- derived, range.rs:130
  | .slice a b c => feed a ++ (feed b ++ feed c)     -- derived, slice.rs:17
  | .func id => [.word id]
  | .closure id _ => [.word id]                      -- func.rs:262-266
  | .partialFn f _ => feed f                         -- func.rs:185-189
  | .partialNative n _ => [.word n]                  -- func.rs:319-322
/-- Elements in iteration order. -/
def feedL : List Val → List Tok
  | [] => []
  | x :: xs => feed x ++ feedL xs
/-- Entries `(key, value)` in iteration order, collections.rs:182-184. -/
def feedD : Ents → List Tok
  | .nil => []
  | .cons k v r => feed k ++ (feed v ++ feedD r)
end

/-! ## Equality -/

mutual
/-- models: ptr.rs:330-386 `PartialEq for ValuePtr` and the payload types' `PartialEq`. -/
def eqv : Val → Val → Bool
  | .nil, .nil => true
  | .bool a, .bool b => a == b
  | .native a, .native b => a == b
  | .field a, .field b => a == b
  | .int a, .int b => a == b
  | .int a, .rational n d => n == a && d == 1              -- ptr.rs:347-350
  | .rational n d, .int a => n == a && d == 1              -- ptr.rs:360-363
  | .rational n d, .rational n' d' => n == n' && d == d'
  | .str a, .str b => a == b
  | .complex a b, .complex c d => a == c && b == d
  | .range a b c, .range a' b' c' => a == a' && b == b' && c == c'
  | .enumerate a, .enumerate b => eqv a b
  | .slice a b c, .slice a' b' c' => eqv a a' && eqv b b' && eqv c c'
  | .list xs, .list ys => eqvL xs ys
  | .vector xs, .vector ys => eqvL xs ys
  | .heap xs, .heap ys => eqvL xs ys                        -- collections.rs:224-228
  | .set xs, .set ys => xs.length == ys.length && allIn xs ys   -- IndexSet: lengths, then subset
  | .dict es, .dict es' => es.toList.length == es'.toList.length && allInD es es'   -- IndexMap
  | .struct o xs, .struct o' ys => o == o' && eqvL xs ys
  | .structType a, .structType b => a == b
  | .func a, .func b => a == b
  | .closure a _, .closure b _ => a == b                    -- func.rs:248-252
  | .partialFn f _, .partialFn g _ => eqv f g               -- func.rs:179-183
  | .partialNative a _, .partialNative b _ => a == b        -- func.rs:313-317
  | _, _ => false
termination_by structural x => x
/-- Elementwise equality of sequences of equal length. -/
def eqvL : List Val → List Val → Bool
  | [], [] => true
  | x :: xs, y :: ys => eqv x y && eqvL xs ys
  | _, _ => false
termination_by structural x => x
/-- `IndexSet::is_subset`: every element is found by hash lookup.  A lookup finds an entry that hashes
alike and is equal; hashing alike is idealised to feeding the same words (no collisions). -/
def allIn : List Val → List Val → Bool
  | [], _ => true
  | x :: xs, ys => ys.any (fun y => decide (feed x = feed y) && eqv x y) && allIn xs ys
termination_by structural x => x
/-- `IndexMap::eq`: every key is found and its value equal. -/
def allInD : Ents → Ents → Bool
  | .nil, _ => true
  | .cons k v r, es =>
      es.toList.any (fun e => decide (feed k = feed e.1) && eqv k e.1 && eqv v e.2) && allInD r es
termination_by structural x => x
end

/-! ## Ordering -/

/-- Numbers as the ordering sees them: `Type` ordinal 0,1,2 for nil, bool, int (ptr.rs:409-413). -/
inductive NumView where
  | small (value : Int) (ordinal : Nat)
  | cplx (re im : Int)
  | rat (num : Int) (den : Nat)

/-- models: the `Type::Nil | Type::Bool | Type::Int`, `Complex`, `Rational` arms' classification, ptr.rs:408-457 -/
def numView : Val → Option NumView
  | .nil => some (.small 0 0)
  | .bool b => some (.small (if b then 1 else 0) 1)
  | .int i => some (.small i 2)
  | .complex re im => some (.cplx re im)
  | .rational n d => some (.rat n d)
  | _ => none

/-- Comparison of fractions `a/b` and `c/d` with positive denominators. -/
def cmpRat (a : Int) (b : Nat) (c : Int) (d : Nat) : Ordering := compare (a * d) (c * b)

/-- models: ptr.rs:408-463, the numeric arms of `Ord for ValuePtr`. -/
def cmpNum : NumView → NumView → Ordering
  | .small a o, .small b p => (compare a b).then (compare o p)      -- ptr.rs:422
  | .small _ _, .cplx _ im => compare 0 im                          -- ptr.rs:424-429
  | .small a _, .rat n d => cmpRat a 1 n d                          -- ptr.rs:431-436
  | .cplx _ im, .small _ _ => (compare 0 im).swap                   -- ptr.rs:442
  | .cplx re im, .cplx re' im' => (compare im im').then (compare re re')   -- ptr.rs:443-448
  | .cplx _ im, .rat _ _ => compare im 0                            -- ptr.rs:449-453
  | .rat n d, .small b _ => (cmpRat b 1 n d).swap                   -- ptr.rs:459
  | .rat _ _, .cplx _ im => (compare im 0).swap                     -- ptr.rs:459
  | .rat n d, .rat n' d' => cmpRat n d n' d'                        -- ptr.rs:460

mutual
/-- models: ptr.rs:394-491 `Ord for ValuePtr`; unrelated types compare `Equal`. -/
def cmp : Val → Val → Ordering
  | .str a, .str b => compare a b                                   -- ptr.rs:469-474
  | .range a b c, .range a' b' c' => (compare a a').then ((compare b b').then (compare c c'))   -- derived
  | .enumerate a, .enumerate b => cmp a b                           -- derived
  | .list xs, .list ys => cmpL xs ys
  | .vector xs, .vector ys => cmpL xs ys
  | .set xs, .set ys => cmpL xs ys                                  -- collections.rs:88-98
  | .dict es, .dict es' => cmpK es es'.keys                          -- collections.rs:165-175
  | .heap xs, .heap ys => cmpHead xs ys                             -- collections.rs:233-237
  | .struct _ xs, .struct _ ys => cmpL xs ys                        -- mod.rs:730-734
  | a, b =>
    match numView a, numView b with
    | some x, some y => cmpNum x y
    | _, _ => .eq
termination_by structural x => x
/-- Lexicographic order of sequences (`VecDeque`, `Vec`, collections.rs:90-96 for sets and dicts). -/
def cmpL : List Val → List Val → Ordering
  | [], [] => .eq
  | [], _ :: _ => .lt
  | _ :: _, [] => .gt
  | x :: xs, y :: ys => (cmp x y).then (cmpL xs ys)
termination_by structural x => x
/-- The same on the keys of a dict, collections.rs:167-173. -/
def cmpK : Ents → List Val → Ordering
  | .nil, [] => .eq
  | .nil, _ :: _ => .lt
  | .cons _ _ _, [] => .gt
  | .cons k _ r, y :: ys => (cmp k y).then (cmpK r ys)
termination_by structural x => x
/-- `self.peek().cmp(&other.peek())` on `BinaryHeap<Reverse<_>>`: `None < Some`, and `Reverse` flips. -/
def cmpHead : List Val → List Val → Ordering
  | [], [] => .eq
  | [], _ :: _ => .lt
  | _ :: _, [] => .gt
  | x :: _, y :: _ => (cmp x y).swap
termination_by structural x => x
end

/-- models: operator.rs:62-65, 87-90: `<`, `>`, `<=`, `>=` are `partial_cmp` = `Some(cmp)` (util.rs:63-71). -/
def lt (a b : Val) : Bool := cmp a b == .lt
def gt (a b : Val) : Bool := cmp a b == .gt
def le (a b : Val) : Bool := cmp a b != .gt
def ge (a b : Val) : Bool := cmp a b != .lt

/-- models: mod.rs:312-327 `to_bool` -/
def toBool : Val → Bool
  | .nil => false
  | .bool b => b
  | .int i => i != 0
  | .str s => !s.isEmpty
  | .list xs | .set xs | .heap xs | .vector xs => !xs.isEmpty
  | .dict es => !es.toList.isEmpty
  | .range _ _ s => s != 0
  | .enumerate v => toBool v
  | _ => true

/-- Values that can exist: fractions are reduced with positive denominator, complex numbers have a non-zero
imaginary part (number.rs:54-57), set members and dict keys are pairwise not found by each other's lookup. -/
inductive WF : Val → Prop
  | nil : WF .nil
  | bool : WF (.bool b)
  | int : WF (.int i)
  | native : WF (.native n)
  | field : WF (.field n)
  | str : WF (.str s)
  | complex : im ≠ 0 → WF (.complex re im)
  | rational : 0 < d → Nat.gcd n.natAbs d = 1 → WF (.rational n d)
  | list : (∀ x ∈ xs, WF x) → WF (.list xs)
  | vector : (∀ x ∈ xs, WF x) → WF (.vector xs)
  | heap : (∀ x ∈ xs, WF x) → WF (.heap xs)
  | set : (∀ x ∈ xs, WF x) → xs.Pairwise (fun x y => ¬ (feed x = feed y ∧ eqv x y = true)) → WF (.set xs)
  | dict : (∀ e ∈ es.toList, WF e.1) → (∀ e ∈ es.toList, WF e.2) →
      es.keys.Pairwise (fun x y => ¬ (feed x = feed y ∧ eqv x y = true)) → WF (.dict es)
  | struct : (∀ x ∈ xs, WF x) → WF (.struct o xs)
  | structType : WF (.structType o)
  | range : WF (.range a b c)
  | enumerate : WF v → WF (.enumerate v)
  | slice : WF a → WF b → WF c → WF (.slice a b c)
  | func : WF (.func i)
  | closure : WF (.closure i e)
  | partialFn : WF f → WF (.partialFn f args)
  | partialNative : WF (.partialNative n args)

end Val
end Cordy
