/-!
# Objects, and the natives that follow the references between them

Models `copy` (core/collections.rs:706-825), and `to_str`, `to_repr_str` with the recursion guard (vm/value/mod.rs:174-290, 529-545), on a heap of objects that may refer to each other in any way.

Simplified: values without references (`nil`, integers, strings, ranges, ...) are one kind `atom` with its two texts. The recursion of Rust is recursion on fuel, the depth of the host stack. Inserting the copied elements into a set, a dict or a heap (collections.rs:727-731, 774-778) is appending them: the copies of different keys are different, and the array of a heap is in the order of a heap.
-/
namespace Cordy.Objects

/-- A value: what it shows as (`repr`, `str`), or the address of an object. -/
inductive V where
  | atom (shown plain : String)
  | ref (a : Nat)
  deriving DecidableEq, Repr

/-- The kinds of objects that refer to values. `dict` and `struct`: keys and values, in turn; the values of the fields. `func`: closures and partial functions, of user and native functions; `dflt`: the default of a dict. -/
inductive Kind where
  | list | vector | set | heap
  | dict (dflt : Option String)
  | struct (name : String) (fields : List String)
  | enumerate
  | memoized
  | func (shown plain : String)
  deriving DecidableEq, Repr

/-- Can the object be changed after it has been made? (The caches of memoized functions and the cells of closures can; neither `copy` nor `repr` looks at them.) -/
def Kind.mutable : Kind → Bool
  | .enumerate | .memoized | .func _ _ => false
  | _ => true

structure Obj where
  kind : Kind
  kids : List V
  deriving DecidableEq, Repr

/-- The address of an object is its position. -/
abbrev Heap := List Obj

/-! ## Histories -/

inductive Op where
  /-- a new object -/
  | make (o : Obj)
  /-- a mutable object gets other elements -/
  | mutate (a : Nat) (kids : List V)
  deriving Repr

def inBounds (h : Heap) : V → Bool
  | .atom _ _ => true
  | .ref a => a < h.length

/-- A dict has as many values as keys; an enumerate has one value. -/
def fits : Kind → List V → Bool
  | .dict _, kids => kids.length % 2 == 0
  | .enumerate, kids => kids.length == 1
  | _, _ => true

/-- What the program can do: use the values it has. -/
def step (h : Heap) : Op → Heap
  | .make o => if fits o.kind o.kids && o.kids.all (inBounds h) then h ++ [o] else h
  | .mutate a kids =>
    match h[a]? with
    | some o => if o.kind.mutable && fits o.kind kids && kids.all (inBounds h) then h.set a { o with kids } else h
    | none => h

def run (ops : List Op) : Heap := ops.foldl step []

/-! ## Text -/

inductive Tok where
  | text (s : String)
  /-- the abbreviation of an object that is being written -/
  | cut (s : String)
  deriving DecidableEq, Repr

def Tok.str : Tok → String
  | .text s => s
  | .cut s => s

def joinWith (sep : String) : List (List Tok) → List Tok
  | [] => []
  | [x] => x
  | x :: y :: xs => x ++ [.text sep] ++ joinWith sep (y :: xs)

/-- models: mod.rs:204-222. -/
def mapJoin (pre post : String) (xs : List (List Tok)) : List Tok := [.text pre] ++ joinWith ", " xs ++ [.text post]

/-- models: mod.rs:256 - `key: value`. -/
def pairs : List (List Tok) → List (List Tok)
  | k :: v :: xs => (k ++ [.text ": "] ++ v) :: pairs xs
  | _ => []

/-- models: mod.rs:243-285 (the text, from those of the elements). -/
def render : Kind → List (List Tok) → List Tok
  | .list, xs => mapJoin "[" "]" xs
  | .heap, xs => mapJoin "[" "]" xs
  | .vector, xs => mapJoin "(" ")" xs
  | .set, xs => mapJoin "{" "}" xs
  | .dict _, xs => mapJoin "{" "}" (pairs xs)
  | .struct name fields, xs => mapJoin (name ++ "(") ")" (List.zipWith (fun f x => [.text f, .text "="] ++ x) fields xs)
  | .enumerate, xs => [.text "enumerate("] ++ xs.flatten ++ [.text ")"]
  | .memoized, xs => [.text "@memoize "] ++ xs.flatten
  | .func s _, _ => [.text s]

/-- models: mod.rs:244-275. -/
def abbreviation : Kind → String
  | .list | .heap => "[...]"
  | .set | .dict _ => "{...}"
  | .vector => "(...)"
  | .struct name _ => name ++ "(...)"
  | _ => ""

/-- The values whose texts are needed: a closure or partial function shows only its function; `zip` with the names of the fields. -/
def shownKids (o : Obj) : List V :=
  match o.kind with
  | .func _ _ => []
  | .struct _ fields => o.kids.take fields.length
  | _ => o.kids

def mapAll {α β} (f : α → Option β) : List α → Option (List β)
  | [] => some []
  | x :: xs =>
    match f x with
    | none => none
    | some y =>
      match mapAll f xs with
      | none => none
      | some ys => some (y :: ys)

/-- models: mod.rs:195-290, 529-545. `guard`: the objects being written. `none`: the depth is used up. -/
def repr : Nat → Heap → List Nat → V → Option (List Tok)
  | 0, _, _, _ => none
  | _ + 1, _, _, .atom s _ => some [.text s]
  | n + 1, h, guard, .ref a =>
    match h[a]? with
    | none => none
    | some o =>
      if o.kind.mutable then
        if guard.contains a then some [.cut (abbreviation o.kind)]
        else (mapAll (repr n h (a :: guard)) (shownKids o)).map (render o.kind)
      else (mapAll (repr n h guard) (shownKids o)).map (render o.kind)

/-- models: mod.rs:174-188. -/
def toStr (n : Nat) (h : Heap) (v : V) : Option (List Tok) :=
  match v with
  | .atom _ s => some [.text s]
  | .ref a =>
    match h[a]? with
    | some ⟨.func _ s, _⟩ => some [.text s]
    | _ => repr n h [] v

/-- The text of a value without the guard: what `repr` of a tree is. -/
def plain : Nat → Heap → V → Option (List Tok)
  | 0, _, _ => none
  | _ + 1, _, .atom s _ => some [.text s]
  | n + 1, h, .ref a =>
    match h[a]? with
    | none => none
    | some o => (mapAll (plain n h) (shownKids o)).map (render o.kind)

/-! ## Copy -/

structure CSt where
  heap : Heap
  /-- models: the map `objects` -/
  objects : List (Nat × Nat)
  deriving DecidableEq, Repr

/-- models: collections.rs:717-745 `.map(|e| $copy(&e, objects)).collect()`. -/
def copyKids (f : V → CSt → Option (CSt × V)) : List V → CSt → Option (CSt × List V)
  | [], st => some (st, [])
  | k :: ks, st =>
    match f k st with
    | none => none
    | some (st1, k') =>
      match copyKids f ks st1 with
      | none => none
      | some (st2, ks') => some (st2, k' :: ks')

/-- models: the empty object: `$default`, `IndexMap::with_hasher(..)` (without the default of the dict), `ValuePtr::instance(owner, vec![])`. -/
def emptyCopy : Kind → Obj
  | .dict _ => ⟨.dict none, []⟩
  | k => ⟨k, []⟩

/-- models: collections.rs:734-741 - the elements are added to the copy. -/
def fill (st : CSt) (b : Nat) (ks : List V) : CSt :=
  { st with heap := st.heap.modify b (fun o => { o with kids := o.kids ++ ks }) }

def CSt.lookup (st : CSt) (a : Nat) : Option Nat := (st.objects.find? (fun x => x.1 == a)).map (·.2)

/-- models: collections.rs:710-825. -/
def copyRec : Nat → V → CSt → Option (CSt × V)
  | 0, _, _ => none
  | _ + 1, .atom s p, st => some (st, .atom s p)
  | n + 1, .ref a, st =>
    match st.heap[a]? with
    | none => none
    | some o =>
      if o.kind.mutable then
        match st.lookup a with
        | some b => some (st, .ref b)
        | none =>
          match copyKids (copyRec n) o.kids { heap := st.heap ++ [emptyCopy o.kind], objects := st.objects ++ [(a, st.heap.length)] } with
          | none => none
          | some (st1, ks) => some (fill st1 st.heap.length ks, .ref st.heap.length)
      else if o.kind = .enumerate then
        match copyKids (copyRec n) o.kids st with
        | none => none
        | some (st1, ks) => some ({ st1 with heap := st1.heap ++ [⟨.enumerate, ks⟩] }, .ref st1.heap.length)
      else some (st, .ref a)

/-- models: collections.rs:706-708. -/
def copy (n : Nat) (h : Heap) (v : V) : Option (Heap × V) :=
  (copyRec n v ⟨h, []⟩).map (fun r => (r.1.heap, r.2))

end Cordy.Objects
