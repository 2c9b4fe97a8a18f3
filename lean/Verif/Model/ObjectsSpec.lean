import Verif.Model.Objects
/-!
# What a copy is

Specification: what can be seen of a value (its tree, to any depth), which values correspond, what can be reached.
-/
namespace Cordy.Objects

/-- What can be seen of a value. `fn a`: the function `a` itself. -/
inductive Tree where
  | cut
  | atom (shown plain : String)
  | fn (a : Nat)
  | node (kind : Kind) (kids : List Tree)

/-- The collections and structs, which `copy` copies. -/
def Kind.collection : Kind → Bool
  | .list | .vector | .set | .heap | .dict _ | .struct _ _ => true
  | .enumerate | .memoized | .func _ _ => false

/-- Do `copy` and the program look into the object? (Not into closures, partial and memoized functions.) -/
def Kind.opens (k : Kind) : Bool := k.collection || k == .enumerate

/-! ## Text -/

/-- The texts of keys and values, in turn. -/
def keyValues : List String → List String
  | k :: v :: xs => (k ++ ": " ++ v) :: keyValues xs
  | _ => []

/-- The text of an object, from those of its elements. -/
def layout : Kind → List String → String
  | .list, xs => "[" ++ String.intercalate ", " xs ++ "]"
  | .heap, xs => "[" ++ String.intercalate ", " xs ++ "]"
  | .vector, xs => "(" ++ String.intercalate ", " xs ++ ")"
  | .set, xs => "{" ++ String.intercalate ", " xs ++ "}"
  | .dict _, xs => "{" ++ String.intercalate ", " (keyValues xs) ++ "}"
  | .struct name fields, xs => name ++ "(" ++ String.intercalate ", " (List.zipWith (fun f x => f ++ "=" ++ x) fields xs) ++ ")"
  | .enumerate, xs => "enumerate(" ++ String.join xs ++ ")"
  | .memoized, xs => "@memoize " ++ String.join xs
  | .func s _, _ => s

/-- The text of a value, to a depth. -/
def shown : Nat → Heap → V → Option String
  | 0, _, _ => none
  | _ + 1, _, .atom s _ => some s
  | n + 1, h, .ref a =>
    match h[a]? with
    | none => none
    | some o => (mapAll (shown n h) (shownKids o)).map (layout o.kind)

/-- What is written instead of an object inside its own text. -/
def dots : Kind → String
  | .list => "[...]"
  | .heap => "[...]"
  | .vector => "(...)"
  | .set => "{...}"
  | .dict _ => "{...}"
  | .struct name _ => name ++ "(...)"
  | .enumerate | .memoized | .func _ _ => ""

/-! ## Copies -/

/-- The first `n` levels of a value. -/
def view : Nat → Heap → V → Tree
  | 0, _, _ => .cut
  | _ + 1, _, .atom s p => .atom s p
  | n + 1, h, .ref a =>
    match h[a]? with
    | none => .cut
    | some o => if o.kind.opens then .node o.kind (o.kids.map (view n h)) else .fn a

/-- One reference that can be followed. -/
inductive Link (h : Heap) : V → V → Prop where
  | mk {a o k} : h[a]? = some o → o.kind.opens = true → k ∈ o.kids → Link h (.ref a) k

/-- Any number of them. -/
inductive Leads (h : Heap) : V → V → Prop where
  | refl (v) : Leads h v v
  | step {v w x} : Link h v w → Leads h w x → Leads h v x

/-- `m` relates the mutable objects of `h` to their copies in `h'`: corresponding values. Functions are the same; an enumerate is a new one, of the corresponding value. -/
inductive Corr (h h' : Heap) (m : Nat → Nat → Prop) : V → V → Prop where
  | atom (s p) : Corr h h' m (.atom s p) (.atom s p)
  | same {a o} : h[a]? = some o → o.kind.opens = false → Corr h h' m (.ref a) (.ref a)
  | copied {a b} : m a b → Corr h h' m (.ref a) (.ref b)
  | enum {a e k k'} : h[a]? = some ⟨.enumerate, [k]⟩ → h.length ≤ e → h'[e]? = some ⟨.enumerate, [k']⟩ → Corr h h' m k k' →
      Corr h h' m (.ref a) (.ref e)

/-! ## Cycles -/

/-- `w` is written as a part of `v`. -/
inductive Part (h : Heap) : V → V → Prop where
  | mk {a o k} : h[a]? = some o → k ∈ shownKids o → Part h (.ref a) k

/-- Some number of steps. -/
inductive Reach (h : Heap) : Nat → V → V → Prop where
  | refl (v) : Reach h 0 v v
  | step {v w x n} : Part h v w → Reach h n w x → Reach h (n + 1) v x

/-- The value contains, at any depth, an object that contains itself. -/
def Cyclic (h : Heap) (v : V) : Prop := ∃ w n m, Reach h n v w ∧ Reach h (m + 1) w w

end Cordy.Objects
