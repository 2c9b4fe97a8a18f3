import Verif.Lemmas.ValueOrd
/-!
# C09, C10, C11: equality, hashing, ordering

`Val.eqv` is `==`, `Val.feed` the words a value feeds to the hasher, `Val.lt/gt/le/ge` the comparison operators.
`Val.WF` describes the values that can exist (reduced fractions, sets and dicts without duplicate keys, ...).
-/
namespace Cordy
namespace Val

/-! ## C09 -/

/-- `!=`, operator.rs:86 `Value::from(lhs != rhs)`: Rust's derived `ne` is the negation of `eq`. -/
def ne (x y : Val) : Bool := !eqv x y

/-- C09. `==` is an equivalence relation on all values, nested to any depth, and `!=` its negation. -/
theorem C09_equivalence :
    (∀ x, eqv x x = true) ∧
    (∀ x y, WF x → WF y → eqv x y = true → eqv y x = true) ∧
    (∀ x y z, eqv x y = true → eqv y z = true → eqv x z = true) ∧
    (∀ x y, ne x y = true ↔ ¬ eqv x y = true) :=
  ⟨eqv_refl, fun x y hx hy => eqv_symm x hx y hy, eqv_trans, fun x y => by simp [ne]⟩

/-- C09. Symmetry as an equation of results. -/
theorem C09_symm_eq (x y : Val) (hx : WF x) (hy : WF y) : eqv x y = eqv y x := by
  cases h : eqv x y <;> cases h' : eqv y x <;> try rfl
  · rw [eqv_symm y hy x hx h'] at h; exact h.symm
  · rw [eqv_symm x hx y hy h] at h'; exact h'

/-- C09. Sets are equal exactly when they have the same members up to lookup, in any order. -/
theorem C09_set_order_free (xs ys : List Val) (h : xs.Perm ys) : eqv (.set xs) (.set ys) = true := by
  simp only [eqv, Bool.and_eq_true, beq_iff_eq]
  exact ⟨h.length_eq, allIn_iff.2 fun x hx => ⟨x, h.mem_iff.1 hx, rfl, eqv_refl x⟩⟩

/-- C09. Lists and vectors are equal exactly when they have equal elements position by position. -/
theorem C09_list_elementwise (xs ys : List Val) :
    (eqv (.list xs) (.list ys) = true ↔ List.Forall₂ (fun x y => eqv x y = true) xs ys) ∧
    (eqv (.vector xs) (.vector ys) = true ↔ List.Forall₂ (fun x y => eqv x y = true) xs ys) := by
  simp [eqv, eqvL_iff]

/-- C09. Numbers are equal exactly when they are the same number; values of different kinds are different. -/
theorem C09_numbers (a b : Int) (n : Int) (d : Nat) :
    (eqv (.int a) (.int b) = true ↔ a = b) ∧
    (eqv (.int a) (.rational n d) = true ↔ n = a ∧ d = 1) ∧
    (∀ s : List Char, eqv (.int a) (.str s) = false) ∧ eqv (.int a) .nil = false ∧
    (∀ xs ys, eqv (.list xs) (.vector ys) = false ∧ eqv (.list xs) (.set ys) = false) := by
  simp [eqv]

-- non-vacuity: two sets with the same members in different order, nested in a list, are well formed and equal
example :
    let a := Val.list [.set [.int 1, .str ['x']], .rational 1 2]
    let b := Val.list [.set [.str ['x'], .int 1], .rational 1 2]
    WF a ∧ WF b ∧ eqv a b = true ∧ eqv b a = true ∧ eqv a (.list []) = false := by
  refine ⟨.list ?_, .list ?_, by decide +kernel, by decide +kernel, by decide +kernel⟩ <;>
  · simp only [List.mem_cons, List.not_mem_nil, or_false, forall_eq_or_imp, forall_eq]
    refine ⟨.set ?_ ?_, .rational (by decide) (by decide)⟩
    · simp only [List.mem_cons, List.not_mem_nil, or_false, forall_eq_or_imp, forall_eq]
      first | exact ⟨.int, .str⟩ | exact ⟨.str, .int⟩
    · simp [eqv]

/-! ## C10 -/

/-- Values on which hashing agrees with `==`: no set, no dict, and no fraction that is an integer, anywhere inside
the part that is compared. -/
inductive HashOk : Val → Prop
  | nil : HashOk .nil
  | bool : HashOk (.bool b)
  | int : HashOk (.int i)
  | native : HashOk (.native n)
  | field : HashOk (.field n)
  | str : HashOk (.str s)
  | complex : HashOk (.complex re im)
  | rational : d ≠ 1 → HashOk (.rational n d)
  | list : (∀ x ∈ xs, HashOk x) → HashOk (.list xs)
  | vector : (∀ x ∈ xs, HashOk x) → HashOk (.vector xs)
  | heap : (∀ x ∈ xs, HashOk x) → HashOk (.heap xs)
  | struct : (∀ x ∈ xs, HashOk x) → HashOk (.struct o xs)
  | structType : HashOk (.structType o)
  | range : HashOk (.range a b c)
  | enumerate : HashOk v → HashOk (.enumerate v)
  | slice : HashOk a → HashOk b → HashOk c → HashOk (.slice a b c)
  | func : HashOk (.func i)
  | closure : HashOk (.closure i e)
  | partialFn : HashOk f → HashOk (.partialFn f args)
  | partialNative : HashOk (.partialNative n args)

theorem forall₂_length {R : Val → Val → Prop} {xs ys : List Val} (h : List.Forall₂ R xs ys) :
    xs.length = ys.length := by
  induction h with
  | nil => rfl
  | cons _ _ ih => simp [ih]

theorem feedL_congr {xs ys : List Val} (h : List.Forall₂ (fun x y => eqv x y = true) xs ys)
    (hf : ∀ x ∈ xs, ∀ y ∈ ys, eqv x y = true → feed x = feed y) : feedL xs = feedL ys := by
  induction h with
  | nil => rfl
  | cons h _ ih =>
    simp only [feedL]
    rw [hf _ (by simp) _ (by simp) h, ih fun x hx y hy => hf x (by simp [hx]) y (by simp [hy])]

/-- C10 (partial: values without sets, dicts and integer-valued fractions). Equal values hash alike.
Missing: the general statement, which `C10_violation_rational`, `C10_violation_set` refute. -/
theorem C10_hash_partial (x y : Val) (hx : HashOk x) (hy : HashOk y) (h : eqv x y = true) : feed x = feed y := by
  revert hx y
  induction x using size_induction with
  | _ x ih =>
    intro y hx hy h
    have hL : ∀ xs ys : List Val, sizeOf xs < sizeOf x → (∀ a ∈ xs, HashOk a) → (∀ a ∈ ys, HashOk a) →
        eqvL xs ys = true → xs.length = ys.length ∧ feedL xs = feedL ys := fun xs ys hs h1 h2 he =>
      ⟨forall₂_length (eqvL_iff.1 he), feedL_congr (eqvL_iff.1 he) fun a ha b hb =>
        ih a (by have := List.sizeOf_lt_of_mem ha; omega) b (h1 a ha) (h2 b hb)⟩
    cases hx <;> cases hy <;> simp only [eqv, Bool.false_eq_true, Bool.and_eq_true, beq_iff_eq] at h <;>
      simp only [feed] <;> first
      | (grind; done)
      | (obtain ⟨h1, h2⟩ := hL _ _ (by simp) (by assumption) (by assumption) h; rw [h1, h2]; done)
      | (exact (hL _ _ (by simp) (by assumption) (by assumption) h).2)
      | (obtain ⟨h1, h2⟩ := hL _ _ (by simp; omega) (by assumption) (by assumption) h.2; rw [h.1, h1, h2]; done)
      | skip

/-- C10, consequence (partial, same restriction): members that lookup keeps apart are pairwise unequal, so a set holds no
two equal members and a dict no two equal keys. -/
theorem C10_no_equal_members_partial (xs : List Val) (h : WF (.set xs)) (hk : ∀ x ∈ xs, HashOk x) :
    xs.Pairwise (fun x y => eqv x y = false) := by
  cases h with
  | set _ hp =>
    refine List.Pairwise.imp_of_mem ?_ hp
    intro a b ha hb hn
    cases he : eqv a b with
    | false => rfl
    | true => exact absurd ⟨C10_hash_partial a b (hk a ha) (hk b hb) he, he⟩ hn

example : HashOk (.list [.int 1, .rational 1 2, .vector [.str ['a']]]) ∧
    eqv (.list [.int 1, .rational 1 2, .vector [.str ['a']]]) (.list [.int 1, .rational 1 2, .vector [.str ['a']]]) = true := by
  refine ⟨.list ?_, eqv_refl _⟩
  simp only [List.mem_cons, List.not_mem_nil, or_false, forall_eq_or_imp, forall_eq]
  exact ⟨.int, .rational (by decide), .vector (by simp only [List.mem_cons, List.not_mem_nil, or_false, forall_eq]; exact .str)⟩

/-- C10 violated: the rational 1/1 and the int 1 are equal and hash differently, so the well-formed
(i.e. constructible) set `{1, 1/1}` has two equal members. -/
theorem C10_violation_rational :
    eqv (.int 1) (.rational 1 1) = true ∧ feed (.int 1) ≠ feed (.rational 1 1) ∧
      WF (.set [.int 1, .rational 1 1]) := by
  refine ⟨by decide, by decide, .set ?_ ?_⟩
  · simp only [List.mem_cons, List.not_mem_nil, or_false, forall_eq_or_imp, forall_eq]
    exact ⟨.int, .rational (by decide) (by decide)⟩
  · simp [feed]

/-- C10 violated: equal sets with different insertion orders hash differently. -/
theorem C10_violation_set :
    let a := Val.set [.int 1, .int 2]
    let b := Val.set [.int 2, .int 1]
    WF a ∧ WF b ∧ eqv a b = true ∧ feed a ≠ feed b := by
  refine ⟨.set ?_ ?_, .set ?_ ?_, by decide +kernel, by decide⟩
  · simp only [List.mem_cons, List.not_mem_nil, or_false, forall_eq_or_imp, forall_eq]; exact ⟨.int, .int⟩
  · simp [eqv]
  · simp only [List.mem_cons, List.not_mem_nil, or_false, forall_eq_or_imp, forall_eq]; exact ⟨.int, .int⟩
  · simp [eqv]

/-! ## C11 -/

/-- Comparable kinds: numbers without fractions, numbers with fractions (but without nil and bools), strings, and
lists or vectors of one kind. -/
inductive Kind where
  | real | frac | str
  | list (k : Kind)
  | vector (k : Kind)

/-- Membership in a kind. -/
def InKind : Kind → Val → Prop
  | .real, .nil => True
  | .real, .bool _ => True
  | .real, .int _ => True
  | .real, .complex _ im => im ≠ 0
  | .frac, .int _ => True
  | .frac, .complex _ im => im ≠ 0
  | .frac, .rational n d => 0 < d ∧ Nat.gcd n.natAbs d = 1
  | .str, .str _ => True
  | .list k, .list xs => ∀ x ∈ xs, InKind k x
  | .vector k, .vector xs => ∀ x ∈ xs, InKind k x
  | _, _ => False

theorem total_kind (k : Kind) : TotalOn (InKind k) := by
  have key : ∀ {S T : Val → Prop}, TotalOn S → (∀ x, T x → S x) → TotalOn T := fun h hi =>
    ⟨fun x y hx hy => h.swap x y (hi x hx) (hi y hy), fun x y hx hy => h.eq x y (hi x hx) (hi y hy),
      fun x y z hx hy hz => h.le x y z (hi x hx) (hi y hy) (hi z hz)⟩
  induction k with
  | real => exact key total_real fun x hx => by cases x <;> simp_all [InKind, IsReal]
  | frac => exact key total_rat fun x hx => by cases x <;> simp_all [InKind, IsRat]
  | str => exact key total_str fun x hx => by cases x <;> simp_all [InKind]
  | list k ih => exact key (total_list ih) fun x hx => by cases x <;> simp_all [InKind]
  | vector k ih => exact key (total_vector ih) fun x hx => by cases x <;> simp_all [InKind]

/-- C11 (partial: the kinds above). Exactly one of `x < y`, `x == y`, `x > y` holds; `>` is `<` flipped; `<=`, `>=` are
`<` or `==`, `>` or `==`; `<` is transitive and irreflexive.
Missing: one kind for all numbers (`C11_violation_nil`), values of unrelated types (`C11_violation_types`). -/
theorem C11_total_order_partial (k : Kind) (x y z : Val) (hx : InKind k x) (hy : InKind k y) (hz : InKind k z) :
    ((lt x y = true ∧ eqv x y = false ∧ gt x y = false) ∨ (lt x y = false ∧ eqv x y = true ∧ gt x y = false) ∨
      (lt x y = false ∧ eqv x y = false ∧ gt x y = true)) ∧
    gt x y = lt y x ∧ (le x y = (lt x y || eqv x y)) ∧ (ge x y = (gt x y || eqv x y)) ∧
    lt x x = false ∧ (lt x y = true → lt y z = true → lt x z = true) ∧
    (le x y = true → le y z = true → le x z = true) := by
  have h := total_kind k
  have he := h.eq x y hx hy
  have hs := h.swap x y hx hy
  have hr := h.rfl_ hx
  have hlt := fun a b => h.lt_of_lt_eq (x := x) (y := y) (z := z) hx hy hz a b
  have hle := h.le x y z hx hy hz
  refine ⟨?_, ?_, ?_, ?_, ?_, ?_, ?_⟩
  · cases hc : cmp x y <;> cases hq : eqv x y <;> simp_all [lt, gt]
  · cases hc : cmp x y <;> simp_all [lt, gt]
  · cases hc : cmp x y <;> cases hq : eqv x y <;> simp_all [lt, le]
  · cases hc : cmp x y <;> cases hq : eqv x y <;> simp_all [gt, ge]
  · simp [lt, hr]
  · intro h1 h2; simp only [lt, beq_iff_eq] at *; exact hlt h1 (by simp [h2])
  · intro h1 h2; simp only [le, bne_iff_ne] at *; exact hle h1 h2

/-- C11. On ints, `<` is the order of the integers; on strings it is lexicographic; lists compare lexicographically. -/
theorem C11_meaning (a b : Int) (x y : Val) (xs ys : List Val) :
    (lt (.int a) (.int b) = true ↔ a < b) ∧
    (lt (.list []) (.list (y :: ys)) = true) ∧ (lt (.list (x :: xs)) (.list []) = false) ∧
    (lt (.list (x :: xs)) (.list (y :: ys)) = true ↔ lt x y = true ∨ (cmp x y = .eq ∧ lt (.list xs) (.list ys) = true)) := by
  refine ⟨?_, by simp [lt, cmp, cmpL], by simp [lt, cmp, cmpL], ?_⟩
  · simp only [lt, cmp, numView, cmpNum, beq_iff_eq]
    rcases lt_trichotomy a b with h | h | h
    · simp [cmpI_lt.2 h, Ordering.then, h]
    · subst h; simp [cmpI_self, Ordering.then, cmpN_self]
    · simp [cmpI_gt.2 h, Ordering.then]; omega
  · simp only [lt, cmp, cmpL, beq_iff_eq]
    cases cmp x y <;> simp [Ordering.then]

/-- C11. On fractions, `<` is the order of the rational numbers. -/
theorem C11_fraction_order (n n' : Int) (d d' : Nat) :
    lt (.rational n d) (.rational n' d') = true ↔ n * d' < n' * d := by
  simp [lt, cmp, numView, cmpNum, cmpRat, cmpI_lt]

example : InKind (.list .frac) (.list [.int 3, .rational 1 2]) ∧ InKind (.list .frac) (.list [.int 3, .complex 0 1]) ∧
    lt (.list [.int 3, .rational 1 2]) (.list [.int 3, .complex 0 1]) = true := by
  refine ⟨?_, ?_, by decide +kernel⟩ <;> simp [InKind]

/-- C11 violated on numbers as a whole: `nil` and the fraction 0/1 are not equal, yet neither is smaller; and
`nil <= 0/1 <= 0` with 0/1 == 0 although `nil < 0`, so `0 <= 0/1 <= nil` but not `0 <= nil`. -/
theorem C11_violation_nil :
    let q := Val.rational 0 1
    lt .nil q = false ∧ gt .nil q = false ∧ eqv .nil q = false ∧
    le (.int 0) q = true ∧ le q .nil = true ∧ le (.int 0) .nil = false := by decide +kernel

/-- C11 violated across types: unequal values of unrelated types compare as neither smaller nor larger. -/
theorem C11_violation_types :
    lt (.int 1) (.str ['a']) = false ∧ gt (.int 1) (.str ['a']) = false ∧ eqv (.int 1) (.str ['a']) = false := by decide +kernel

end Val
end Cordy
