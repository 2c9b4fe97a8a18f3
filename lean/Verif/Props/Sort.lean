import Verif.Lemmas.Heap
import Verif.Props.Value
/-!
# C12, C20: sort, min, max, heaps

The theorems hold for any comparison that is a total preorder on the elements involved, and are instantiated with the comparison of Cordy
values of one comparable kind (C11).
-/
namespace Cordy
open Srt Heap

/-- `x <= y` of a three-way comparison. -/
def leOf {α : Type} (cmp : α → α → Ordering) (x y : α) : Bool := cmp x y != .gt

/-- `cmp` is a consistent three-way comparison on `S`: a total preorder. -/
structure IsOrder {α : Type} (cmp : α → α → Ordering) (S : α → Prop) : Prop where
  swap : ∀ x y, S x → S y → cmp y x = (cmp x y).swap
  trans : ∀ x y z, S x → S y → S z → cmp x y ≠ .gt → cmp y z ≠ .gt → cmp x z ≠ .gt

/-- Cordy's comparison is an order on each comparable kind. -/
theorem isOrder_kind (k : Val.Kind) : IsOrder Val.cmp (Val.InKind k) :=
  ⟨(Val.total_kind k).swap, (Val.total_kind k).le⟩

section
variable {α β σ : Type} {cmp : α → α → Ordering} {S : α → Prop}

theorem IsOrder.totalPre (h : IsOrder cmp S) : TotalPre (leOf cmp) S where
  total x y hx hy := by
    have := h.swap x y hx hy
    simp only [leOf, bne_iff_ne]; rw [this]; cases cmp x y <;> simp [Ordering.swap]
  trans x y z hx hy hz h1 h2 := by
    simp only [leOf, bne_iff_ne] at *; exact h.trans x y z hx hy hz h1 h2

/-! ## C12 -/

/-- `ys` is `xs` rearranged into non-decreasing order. -/
def IsSorting (cmp : α → α → Ordering) (xs ys : List α) : Prop :=
  ys.Perm xs ∧ ys.Pairwise (fun a b => cmp a b ≠ .gt)

/-- The contract of the standard library's sort: whenever the answers come from a consistent order on the elements, the result is a sorting. -/
def ValidSort (alg : List α → Alg α) : Prop :=
  ∀ (cmp : α → α → Ordering) (xs : List α), IsOrder cmp (· ∈ xs) → IsSorting cmp xs ((alg xs).run cmp)

/-- C12 `sort`: a sorting, whichever valid algorithm is used. -/
theorem C12_sort (alg : List α → Alg α) (ha : ValidSort alg) (xs : List α) (h : IsOrder cmp S) (hS : ∀ x ∈ xs, S x) :
    IsSorting cmp xs (sort alg cmp xs) :=
  ha cmp xs ⟨fun x y hx hy => h.swap x y (hS x hx) (hS y hy), fun x y z hx hy hz => h.trans x y z (hS x hx) (hS y hy) (hS z hz)⟩

/-- C12. Two sortings of the same list agree position by position up to elements that compare as equal (which for Cordy values means `==`). -/
theorem C12_sort_unique (xs ys zs : List α) (h : IsOrder cmp S) (hS : ∀ x ∈ xs, S x) (h1 : IsSorting cmp xs ys)
    (h2 : IsSorting cmp xs zs) : ys.length = zs.length ∧ ∀ (i : Nat) y z, ys[i]? = some y → zs[i]? = some z → cmp y z = .eq := by
  have hp : ys.Perm zs := h1.1.trans h2.1.symm
  refine ⟨hp.length_eq, ?_⟩
  have hSy : ∀ y ∈ ys, S y := fun y hy => hS y (h1.1.mem_iff.1 hy)
  have s1 := h1.2
  have s2 := h2.2
  clear h1 h2
  -- it suffices to bound one way: if the i-th of `ys` were greater than the i-th of `zs`, too few elements would remain
  have key : ∀ (ys zs : List α), ys.Perm zs → (∀ y ∈ ys, S y) → ys.Pairwise (fun a b => cmp a b ≠ .gt) →
      zs.Pairwise (fun a b => cmp a b ≠ .gt) → ∀ (i : Nat) y z, ys[i]? = some y → zs[i]? = some z → cmp y z ≠ .gt := by
    intro ys zs hp hSy s1 s2 i y z hy hz hgt
    have hSz : ∀ z ∈ zs, S z := fun z hz => hSy z (hp.mem_iff.2 hz)
    have hyi := (List.getElem?_eq_some_iff.1 hy)
    have hzi := (List.getElem?_eq_some_iff.1 hz)
    obtain ⟨hyl, rfl⟩ := hyi
    obtain ⟨hzl, rfl⟩ := hzi
    -- elements not greater than z: at least i+1 in zs, at most i in ys
    let P : α → Bool := fun w => cmp w zs[i] != .gt
    have c1 : i + 1 ≤ zs.countP P := by
      have : (zs.take (i + 1)).countP P = i + 1 := by
        rw [List.countP_eq_length.2]
        · simp; omega
        · intro w hw
          obtain ⟨j, hj, rfl⟩ := List.getElem_of_mem hw
          simp only [List.length_take] at hj
          simp only [List.getElem_take, P, bne_iff_ne]
          rcases Nat.lt_or_ge j i with hji | hji
          · exact List.pairwise_iff_getElem.1 s2 j i (by omega) hzl hji
          · have : j = i := by omega
            subst this
            have hr := h.swap zs[j] zs[j] (hSz _ (List.getElem_mem _)) (hSz _ (List.getElem_mem _))
            intro e; rw [e] at hr; cases hr
      have hs := List.Sublist.countP_le (p := P) (List.take_sublist (i + 1) zs)
      omega
    have c2 : ys.countP P ≤ i := by
      have : ys.countP P = (ys.take i).countP P + (ys.drop i).countP P := by
        rw [← List.countP_append, List.take_append_drop]
      have h0 : (ys.drop i).countP P = 0 := by
        rw [List.countP_eq_zero]
        intro w hw
        obtain ⟨j, hj, rfl⟩ := List.getElem_of_mem hw
        simp only [List.length_drop] at hj
        simp only [List.getElem_drop, P, bne_iff_ne, not_not]
        by_contra hle
        apply absurd hgt
        have h3 : cmp ys[i] ys[i + j] ≠ .gt := by
          rcases Nat.eq_zero_or_pos j with h0 | h0
          · subst h0
            have hr := h.swap ys[i] ys[i] (hSy _ (List.getElem_mem _)) (hSy _ (List.getElem_mem _))
            intro e; simp only [Nat.add_zero] at e; rw [e] at hr; cases hr
          · exact List.pairwise_iff_getElem.1 s1 i (i + j) hyl (by omega) (by omega)
        exact h.trans _ _ _ (hSy _ (List.getElem_mem _)) (hSy _ (List.getElem_mem _)) (hSz _ (List.getElem_mem _)) h3 hle
      have := List.countP_le_length (p := P) (l := ys.take i)
      simp at this; omega
    have := hp.countP_eq P
    omega
  intro i y z hy hz
  have a1 := key ys zs hp hSy s1 s2 i y z hy hz
  have a2 := key zs ys hp.symm (fun z hz => hSy z (hp.mem_iff.2 hz)) s2 s1 i z y hz hy
  rw [h.swap y z (hSy y (List.mem_of_getElem? hy)) (hSy z (hp.mem_iff.2 (List.mem_of_getElem? hz)))] at a2
  cases hc : cmp y z <;> simp_all [Ordering.swap]

theorem min_fold (h : IsOrder cmp S) (xs : List α) (x : α) (hx : S x) (hS : ∀ y ∈ xs, S y) :
    let m := xs.foldl (fun x y => if cmp x y == .gt then y else x) x
    m ∈ x :: xs ∧ ∀ y ∈ x :: xs, cmp m y ≠ .gt := by
  induction xs generalizing x with
  | nil =>
    have hr := h.swap x x hx hx
    refine ⟨by simp, fun y hy => ?_⟩
    simp at hy; subst hy; simp only [List.foldl_nil]; intro e; rw [e] at hr; cases hr
  | cons y ys ih =>
    have hSy := hS y (by simp)
    have hSys : ∀ z ∈ ys, S z := fun z hz => hS z (by simp [hz])
    simp only [List.foldl_cons]
    cases hc : cmp x y == .gt with
    | true =>
      simp only [if_true]
      obtain ⟨m1, m2⟩ := ih y hSy hSys
      refine ⟨List.mem_cons_of_mem _ m1, fun z hz => ?_⟩
      rcases List.mem_cons.1 hz with rfl | hz
      · have hmS : S (ys.foldl (fun x y => if cmp x y == .gt then y else x) y) := by
          rcases List.mem_cons.1 m1 with e | e
          · rw [e]; exact hSy
          · exact hSys _ e
        refine h.trans _ y z hmS hSy hx (m2 y (by simp)) ?_
        rw [h.swap z y hx hSy, eq_of_beq hc]; simp [Ordering.swap]
      · exact m2 z hz
    | false =>
      simp only [Bool.false_eq_true, if_false]
      obtain ⟨m1, m2⟩ := ih x hx hSys
      refine ⟨?_, fun z hz => ?_⟩
      · rcases List.mem_cons.1 m1 with e | e
        · rw [e]; exact List.mem_cons_self
        · exact List.mem_cons_of_mem _ (List.mem_cons_of_mem _ e)
      · rcases List.mem_cons.1 hz with rfl | hz
        · exact m2 z (by simp)
        rcases List.mem_cons.1 hz with rfl | hz
        · have hmS : S (ys.foldl (fun x y => if cmp x y == .gt then y else x) x) := by
            rcases List.mem_cons.1 m1 with e | e
            · rw [e]; exact hx
            · exact hSys _ e
          refine h.trans _ x z hmS hx hSy (m2 x (by simp)) ?_
          intro e; rw [e] at hc; cases hc
        · exact m2 z (by simp [hz])

/-- C12 `min`: an element that no element precedes; an error exactly on empty input. -/
theorem C12_min (h : IsOrder cmp S) (xs : List α) (hS : ∀ x ∈ xs, S x) :
    (xs = [] ∧ minOf cmp xs = .error .nonEmpty) ∨ ∃ m ∈ xs, minOf cmp xs = .ok m ∧ ∀ y ∈ xs, cmp y m ≠ .lt := by
  cases xs with
  | nil => exact .inl ⟨rfl, rfl⟩
  | cons x xs =>
    obtain ⟨m1, m2⟩ := min_fold h xs x (hS x (by simp)) (fun y hy => hS y (by simp [hy]))
    refine .inr ⟨_, m1, rfl, fun y hy => ?_⟩
    rw [h.swap _ y (hS _ m1) (hS y hy)]
    have := m2 y hy
    revert this; cases cmp (xs.foldl _ x) y <;> simp [Ordering.swap]

/-- The opposite order. -/
theorem IsOrder.flip (h : IsOrder cmp S) : IsOrder (fun a b => cmp b a) S where
  swap x y hx hy := h.swap y x hy hx
  trans x y z hx hy hz h1 h2 := h.trans z y x hz hy hx h2 h1

theorem max_fold (h : IsOrder cmp S) (xs : List α) (x : α) (hx : S x) (hS : ∀ y ∈ xs, S y) :
    let m := xs.foldl (fun x y => if cmp x y == .gt then x else y) x
    m ∈ x :: xs ∧ ∀ y ∈ x :: xs, cmp y m ≠ .gt := by
  induction xs generalizing x with
  | nil =>
    have hr := h.swap x x hx hx
    refine ⟨by simp, fun y hy => ?_⟩
    simp at hy; subst hy; simp only [List.foldl_nil]; intro e; rw [e] at hr; cases hr
  | cons y ys ih =>
    have hSy := hS y (by simp)
    have hSys : ∀ z ∈ ys, S z := fun z hz => hS z (by simp [hz])
    simp only [List.foldl_cons]
    cases hc : cmp x y == .gt with
    | true =>
      simp only [if_true]
      obtain ⟨m1, m2⟩ := ih x hx hSys
      refine ⟨?_, fun z hz => ?_⟩
      · rcases List.mem_cons.1 m1 with e | e
        · rw [e]; exact List.mem_cons_self
        · exact List.mem_cons_of_mem _ (List.mem_cons_of_mem _ e)
      · rcases List.mem_cons.1 hz with rfl | hz
        · exact m2 z (by simp)
        rcases List.mem_cons.1 hz with rfl | hz
        · have hmS : S (ys.foldl (fun x y => if cmp x y == .gt then x else y) x) := by
            rcases List.mem_cons.1 m1 with e | e
            · rw [e]; exact hx
            · exact hSys _ e
          refine h.trans z x _ hSy hx hmS ?_ (m2 x (by simp))
          rw [h.swap x z hx hSy, eq_of_beq hc]; simp [Ordering.swap]
        · exact m2 z (by simp [hz])
    | false =>
      simp only [Bool.false_eq_true, if_false]
      obtain ⟨m1, m2⟩ := ih y hSy hSys
      refine ⟨List.mem_cons_of_mem _ m1, fun z hz => ?_⟩
      rcases List.mem_cons.1 hz with rfl | hz
      · have hmS : S (ys.foldl (fun x y => if cmp x y == .gt then x else y) y) := by
          rcases List.mem_cons.1 m1 with e | e
          · rw [e]; exact hSy
          · exact hSys _ e
        refine h.trans z y _ hx hSy hmS ?_ (m2 y (by simp))
        intro e; rw [e] at hc; cases hc
      · exact m2 z hz

/-- C12 `max`: an element that no element follows; an error exactly on empty input. -/
theorem C12_max (h : IsOrder cmp S) (xs : List α) (hS : ∀ x ∈ xs, S x) :
    (xs = [] ∧ maxOf cmp xs = .error .nonEmpty) ∨ ∃ m ∈ xs, maxOf cmp xs = .ok m ∧ ∀ y ∈ xs, cmp y m ≠ .gt := by
  cases xs with
  | nil => exact .inl ⟨rfl, rfl⟩
  | cons x xs =>
    obtain ⟨m1, m2⟩ := max_fold h xs x (hS x (by simp)) (fun y hy => hS y (by simp [hy]))
    exact .inr ⟨_, m1, rfl, m2⟩

/-- C12 for Cordy values of one comparable kind. -/
theorem C12_values (k : Val.Kind) (alg : List Val → Alg Val) (ha : ValidSort alg) (xs : List Val) (h : ∀ x ∈ xs, Val.InKind k x) :
    ((sort alg Val.cmp xs).Perm xs ∧ (sort alg Val.cmp xs).Pairwise (fun a b => Val.le a b = true)) ∧
    (xs = [] → minOf Val.cmp xs = .error .nonEmpty ∧ maxOf Val.cmp xs = .error .nonEmpty) ∧
    (xs ≠ [] → (∃ m ∈ xs, minOf Val.cmp xs = .ok m ∧ ∀ y ∈ xs, Val.lt y m = false) ∧
      ∃ m ∈ xs, maxOf Val.cmp xs = .ok m ∧ ∀ y ∈ xs, Val.lt m y = false) := by
  have ho := isOrder_kind k
  refine ⟨?_, ?_, ?_⟩
  · obtain ⟨h1, h2⟩ := C12_sort alg ha xs ho h
    exact ⟨h1, h2.imp fun hab => by simpa [Val.le] using hab⟩
  · rintro rfl; exact ⟨rfl, rfl⟩
  · intro hne
    constructor
    · rcases C12_min ho xs h with ⟨e, _⟩ | ⟨m, h1, h2, h3⟩
      · exact absurd e hne
      · exact ⟨m, h1, h2, fun y hy => by simpa [Val.lt] using h3 y hy⟩
    · rcases C12_max ho xs h with ⟨e, _⟩ | ⟨m, h1, h2, h3⟩
      · exact absurd e hne
      · refine ⟨m, h1, h2, fun y hy => ?_⟩
        have h4 := h3 y hy
        rw [ho.swap m y (h m h1) (h y hy)] at h4
        simp only [Val.lt]
        revert h4; cases Val.cmp m y <;> simp [Ordering.swap]

/-! ### Non-vacuity: a valid algorithm exists -/

/-- Insert `x` into a sorted list, then go on with `k`. -/
def insertAlg (x : α) : List α → (List α → Alg α) → Alg α
  | [], k => k [x]
  | y :: ys, k => .ask x y fun o => if o == .gt then insertAlg x ys (fun r => k (y :: r)) else k (x :: y :: ys)

/-- Insertion sort as a comparison program. -/
def insertionSort : List α → Alg α
  | xs => go xs .done
where
  go : List α → (List α → Alg α) → Alg α
    | [], k => k []
    | x :: xs, k => go xs fun r => insertAlg x r k

theorem insertAlg_run (x : α) (ys : List α) (k : List α → Alg α) (h : IsOrder cmp S) (hx : S x) (hS : ∀ y ∈ ys, S y)
    (hs : ys.Pairwise (fun a b => cmp a b ≠ .gt)) :
    ∃ zs, (insertAlg x ys k).run cmp = (k zs).run cmp ∧ zs.Perm (x :: ys) ∧ zs.Pairwise (fun a b => cmp a b ≠ .gt) := by
  induction ys generalizing k with
  | nil => exact ⟨[x], rfl, List.Perm.refl _, by simp⟩
  | cons y ys ih =>
    rw [insertAlg, Alg.run]
    have hSy := hS y (by simp)
    rw [List.pairwise_cons] at hs
    cases hc : cmp x y == .gt with
    | true =>
      simp only [if_true]
      obtain ⟨zs, e, p, s⟩ := ih (fun r => k (y :: r)) (fun a ha => hS a (by simp [ha])) hs.2
      refine ⟨y :: zs, e, (p.cons y).trans (List.Perm.swap x y ys), List.pairwise_cons.2 ⟨fun z hz => ?_, s⟩⟩
      rcases List.mem_cons.1 (p.mem_iff.1 hz) with rfl | hz
      · rw [h.swap z y hx hSy, eq_of_beq hc]; simp [Ordering.swap]
      · exact hs.1 z hz
    | false =>
      refine ⟨x :: y :: ys, rfl, List.Perm.refl _, List.pairwise_cons.2 ⟨fun z hz => ?_, List.pairwise_cons.2 hs⟩⟩
      have hxy : cmp x y ≠ .gt := by intro e; rw [e] at hc; cases hc
      rcases List.mem_cons.1 hz with rfl | hz
      · exact hxy
      · exact h.trans _ y _ hx hSy (hS z (by simp [hz])) hxy (hs.1 z hz)

theorem insertionSort_valid : ValidSort (insertionSort (α := α)) := by
  intro cmp xs h
  have key : ∀ (l : List α) (k : List α → Alg α), (∀ x ∈ l, x ∈ xs) →
      ∃ zs, (insertionSort.go l k).run cmp = (k zs).run cmp ∧ IsSorting cmp l zs := by
    intro l
    induction l with
    | nil => intro k _; exact ⟨[], rfl, List.Perm.refl _, List.Pairwise.nil⟩
    | cons x l ih =>
      intro k hl
      obtain ⟨zs, e, p, s⟩ := ih (fun r => insertAlg x r k) (fun y hy => hl y (by simp [hy]))
      obtain ⟨ws, e2, p2, s2⟩ := insertAlg_run x zs k h (hl x (by simp)) (fun y hy => hl y (by simp [p.mem_iff.1 hy])) s
      exact ⟨ws, by rw [insertionSort.go, e, e2], p2.trans (p.cons x), s2⟩
  obtain ⟨zs, e, hs⟩ := key xs .done (fun x hx => hx)
  rw [insertionSort, e]; exact hs

example : ValidSort (insertionSort (α := Val)) ∧ (∀ x ∈ [Val.int 3, .int 1, .int 2], Val.InKind .real x) ∧
    sort insertionSort Val.cmp [.int 3, .int 1, .int 2] = [.int 1, .int 2, .int 3] := by
  refine ⟨insertionSort_valid, by simp [Val.InKind], rfl⟩

/-! ### sort_by, min_by, max_by with callbacks -/

theorem runM_err (f : Fn2 σ α α Ordering) (a : Alg α) (e : Err) (s : σ) : ∃ e', (a.runM f (some e) s).1.2 = some e' := by
  induction a generalizing e s with
  | done xs => exact ⟨e, rfl⟩
  | ask a b k ih =>
    simp only [Alg.runM, catch_]
    rcases f a b s with ⟨r, s1⟩
    cases r with
    | ok o => exact ih o e s1
    | error e' => exact ih .eq e' s1

/-- C12 `sort_by`: if every call of the callback succeeds and the answers follow an order, the result is a sorting by that order (for any valid
algorithm); the machine state may change arbitrarily in between. -/
theorem C12_sort_by (alg : List α → Alg α) (ha : ValidSort alg) (f : Fn2 σ α α Ordering) (xs : List α) (s : σ) (h : IsOrder cmp S)
    (hS : ∀ x ∈ xs, S x) (hf : ∀ a b s, (f a b s).1 = .ok (cmp a b)) :
    ∃ ys s', sortBy alg f xs s = (.ok ys, s') ∧ IsSorting cmp xs ys := by
  have key : ∀ (a : Alg α) s, (a.runM f none s).1 = (a.run cmp, none) := by
    intro a
    induction a with
    | done ys => intro s; rfl
    | ask a b k ih =>
      intro s
      have h1 := hf a b s
      rcases hr : f a b s with ⟨r, s1⟩
      rw [hr] at h1; simp only at h1; subst h1
      simp only [Alg.runM, hr, catch_, Alg.run]
      exact ih _ s1
  refine ⟨(alg xs).run cmp, ((alg xs).runM f none s).2, ?_, C12_sort alg ha xs h hS⟩
  have := key (alg xs) s
  rw [sortBy]
  rcases hr : (alg xs).runM f none s with ⟨⟨ys, err⟩, s'⟩
  rw [hr] at this; cases this; rfl

/-- The algorithm's run, from `s`, reaches a comparison whose callback fails. -/
inductive AsksFailing (f : Fn2 σ α α Ordering) : Alg α → σ → Prop
  | here {a b k s e s'} : f a b s = (.error e, s') → AsksFailing f (.ask a b k) s
  | later {a b k s o s'} : f a b s = (.ok o, s') → AsksFailing f (k o) s' → AsksFailing f (.ask a b k) s

/-- C12 `sort_by`: the result is an error exactly if some call of the callback fails. -/
theorem C12_sort_by_error (alg : List α → Alg α) (f : Fn2 σ α α Ordering) (xs : List α) (s : σ) :
    (∃ e, (sortBy alg f xs s).1 = .error e) ↔ AsksFailing f (alg xs) s := by
  have key : ∀ (a : Alg α) s, (∃ e, (a.runM f none s).1.2 = some e) ↔ AsksFailing f a s := by
    intro a
    induction a with
    | done ys => intro s; exact ⟨fun ⟨e, h⟩ => (by cases h), fun h => (by cases h)⟩
    | ask a b k ih =>
      intro s
      rcases hr : f a b s with ⟨r, s1⟩
      cases r with
      | ok o =>
        simp only [Alg.runM, hr, catch_]
        rw [ih]
        constructor
        · exact .later hr
        · intro h; cases h with
          | here h => rw [hr] at h; cases h
          | later h1 h2 => rw [hr] at h1; cases h1; exact h2
      | error e =>
        simp only [Alg.runM, hr, catch_]
        exact ⟨fun _ => .here hr, fun _ => runM_err f _ e s1⟩
  rw [← key, sortBy]
  rcases (alg xs).runM f none s with ⟨⟨ys, err⟩, s'⟩
  cases err <;> simp [join]

theorem keyed_ok (f : Fn1 σ α β) (dflt : β) (xs : List α) (err : Option Err) (s : σ) (g : α → β)
    (hf : ∀ x s, x ∈ xs → (f x s).1 = .ok (g x)) : (keyed f dflt xs err s).1 = (xs.map (fun x => (g x, x)), err) := by
  induction xs generalizing err s with
  | nil => rfl
  | cons x xs ih =>
    have h1 := hf x s (by simp)
    rcases hr : f x s with ⟨r, s1⟩
    rw [hr] at h1; simp only at h1; subst h1
    have := ih err s1 (fun y s hy => hf y s (by simp [hy]))
    rw [keyed]
    simp only [hr, catch_]
    rcases hk : keyed f dflt xs err s1 with ⟨⟨l, e⟩, s2⟩
    rw [hk] at this; cases this; rfl

/-- C12 `min_by`/`max_by` with a key function that succeeds: an element whose key no other key precedes/follows; an error on empty input. -/
theorem C12_min_max_by {kcmp : β → β → Ordering} {K : β → Prop} (f : Fn1 σ α β) (dflt : β) (xs : List α) (s : σ) (g : α → β)
    (h : IsOrder kcmp K) (hK : ∀ x ∈ xs, K (g x)) (hf : ∀ x s, x ∈ xs → (f x s).1 = .ok (g x)) :
    ((xs = [] ∧ (minBy kcmp f dflt xs s).1 = .error .nonEmpty ∧ (maxBy kcmp f dflt xs s).1 = .error .nonEmpty) ∨
     ((∃ m ∈ xs, (minBy kcmp f dflt xs s).1 = .ok m ∧ ∀ y ∈ xs, kcmp (g y) (g m) ≠ .lt) ∧
      (∃ m ∈ xs, (maxBy kcmp f dflt xs s).1 = .ok m ∧ ∀ y ∈ xs, kcmp (g y) (g m) ≠ .gt))) := by
  have hk := keyed_ok f dflt xs none s g hf
  have ho : IsOrder (fun (a b : β × α) => kcmp a.1 b.1) (fun p => K p.1) :=
    ⟨fun x y hx hy => h.swap _ _ hx hy, fun x y z hx hy hz => h.trans _ _ _ hx hy hz⟩
  have hS : ∀ p ∈ xs.map (fun x => (g x, x)), K p.1 := by
    intro p hp; obtain ⟨x, hx, rfl⟩ := List.mem_map.1 hp; exact hK x hx
  have hmin := C12_min ho _ hS
  have hmax := C12_max ho _ hS
  rw [minBy, maxBy]
  rcases hr : keyed f dflt xs none s with ⟨⟨l, e⟩, s2⟩
  rw [hr] at hk; cases hk
  simp only
  rcases hmin with ⟨e1, e2⟩ | ⟨m, m1, m2, m3⟩
  · rcases hmax with ⟨_, e3⟩ | ⟨m, m1, _, _⟩
    · refine .inl ⟨by simpa using e1, by rw [e2], by rw [e3]⟩
    · rw [e1] at m1; cases m1
  · rcases hmax with ⟨e1, _⟩ | ⟨n, n1, n2, n3⟩
    · rw [e1] at m1; cases m1
    · refine .inr ⟨?_, ?_⟩
      · obtain ⟨x, hx, rfl⟩ := List.mem_map.1 m1
        refine ⟨x, hx, by rw [m2]; rfl, fun y hy => m3 (g y, y) (List.mem_map.2 ⟨y, hy, rfl⟩)⟩
      · obtain ⟨x, hx, rfl⟩ := List.mem_map.1 n1
        refine ⟨x, hx, by rw [n2]; rfl, fun y hy => n3 (g y, y) (List.mem_map.2 ⟨y, hy, rfl⟩)⟩

/-- What the result of a comparator function means: less, equal or greater. -/
def signOf (n : Int) : Ordering := if n < 0 then .lt else if n = 0 then .eq else .gt

theorem compare_zero (n : Int) : compare n 0 = signOf n := by
  unfold signOf
  simp only [compare, compareOfLessAndEq]

/-- C12: a comparator function answers with the sign of its int result; it fails if the call fails or the result is no int. -/
theorem C12_comparator (f : Fn2 σ α α β) (asInt : β → Res Int) (a b : α) (s : σ) :
    (byComparator f asInt a b s).2 = (f a b s).2 ∧
    (∀ o, (byComparator f asInt a b s).1 = .ok o ↔ ∃ v n, (f a b s).1 = .ok v ∧ asInt v = .ok n ∧ o = signOf n) ∧
    ∀ e, (byComparator f asInt a b s).1 = .error e ↔ (f a b s).1 = .error e ∨ ∃ v, (f a b s).1 = .ok v ∧ asInt v = .error e := by
  rcases hr : f a b s with ⟨r, s1⟩
  unfold byComparator
  rw [hr]
  cases r with
  | error e => simp
  | ok v =>
    cases hv : asInt v with
    | error e => simp [hv]
    | ok n => simp [hv, compare_zero, eq_comm]

/-- C12 `sort_by` with a comparator function: if every call gives an int and their signs follow an order, the result is a sorting by that order. -/
theorem C12_sort_by_comparator (alg : List α → Alg α) (ha : ValidSort alg) (f : Fn2 σ α α β) (asInt : β → Res Int) (xs : List α) (s : σ) (g : α → α → Int) (h : IsOrder (fun a b => signOf (g a b)) S)
    (hS : ∀ x ∈ xs, S x) (hf : ∀ a b s, ∃ v, (f a b s).1 = .ok v ∧ asInt v = .ok (g a b)) :
    ∃ ys s', sortByComparator alg f asInt xs s = (.ok ys, s') ∧ IsSorting (fun a b => signOf (g a b)) xs ys :=
  C12_sort_by alg ha (byComparator f asInt) xs s h hS fun a b s => by
    obtain ⟨v, h1, h2⟩ := hf a b s
    exact ((C12_comparator f asInt a b s).2.1 _).mpr ⟨v, _, h1, h2, rfl⟩

/-- Some comparison of a run calls the key function on an element for which it fails. -/
inductive KeyFails (kcmp : β → β → Ordering) (f : Fn1 σ α β) : Alg α → σ → Prop
  | left {a b k s e s'} : f a s = (.error e, s') → KeyFails kcmp f (.ask a b k) s
  | right {a b k s ka s1 e s'} : f a s = (.ok ka, s1) → f b s1 = (.error e, s') → KeyFails kcmp f (.ask a b k) s
  | later {a b k s ka s1 kb s2} : f a s = (.ok ka, s1) → f b s1 = (.ok kb, s2) → KeyFails kcmp f (k (kcmp ka kb)) s2 → KeyFails kcmp f (.ask a b k) s

theorem runKey_err (kcmp : β → β → Ordering) (f : Fn1 σ α β) (dflt : β) (a : Alg α) (e : Err) (s : σ) : ∃ e', (a.runKey kcmp f dflt (some e) s).1.2 = some e' := by
  induction a generalizing e s with
  | done xs => exact ⟨e, rfl⟩
  | ask a b k ih =>
    simp only [Alg.runKey, catch_]
    rcases f a s with ⟨ra, s1⟩
    rcases hb : f b s1 with ⟨rb, s2⟩
    cases ra <;> cases rb <;> simp only [hb] <;> exact ih _ _ s2

/-- C12 `sort_by` with a key function: the result is an error exactly if some call of it fails. -/
theorem C12_sort_by_key_error (alg : List α → Alg α) (kcmp : β → β → Ordering) (f : Fn1 σ α β) (dflt : β) (xs : List α) (s : σ) :
    (∃ e, (sortByKey alg kcmp f dflt xs s).1 = .error e) ↔ KeyFails kcmp f (alg xs) s := by
  have key : ∀ (a : Alg α) s, (∃ e, (a.runKey kcmp f dflt none s).1.2 = some e) ↔ KeyFails kcmp f a s := by
    intro a
    induction a with
    | done ys => intro s; exact ⟨fun ⟨e, h⟩ => (by cases h), fun h => (by cases h)⟩
    | ask a b k ih =>
      intro s
      rcases ha : f a s with ⟨ra, s1⟩
      rcases hb : f b s1 with ⟨rb, s2⟩
      cases ra with
      | error e =>
        refine ⟨fun _ => .left ha, fun _ => ?_⟩
        simp only [Alg.runKey, ha, hb, catch_]
        cases rb <;> exact runKey_err kcmp f dflt _ _ s2
      | ok ka =>
        cases rb with
        | error e =>
          refine ⟨fun _ => .right ha hb, fun _ => ?_⟩
          simp only [Alg.runKey, ha, hb, catch_]
          exact runKey_err kcmp f dflt _ _ s2
        | ok kb =>
          simp only [Alg.runKey, ha, hb, catch_]
          rw [ih]
          constructor
          · exact .later ha hb
          · intro h
            cases h with
            | left h => rw [ha] at h; cases h
            | right h1 h2 => rw [ha] at h1; cases h1; rw [hb] at h2; cases h2
            | later h1 h2 h3 => rw [ha] at h1; cases h1; rw [hb] at h2; cases h2; exact h3
  rw [← key, sortByKey]
  rcases (alg xs).runKey kcmp f dflt none s with ⟨⟨ys, err⟩, s'⟩
  cases err <;> simp [join]

/-- C12 `sort_by` with a key function: if every call succeeds, the result is a sorting by the keys. -/
theorem C12_sort_by_key {kcmp : β → β → Ordering} {K : β → Prop} (alg : List α → Alg α) (ha : ValidSort alg) (f : Fn1 σ α β) (dflt : β) (xs : List α) (s : σ) (g : α → β) (h : IsOrder kcmp K)
    (hK : ∀ x ∈ xs, K (g x)) (hf : ∀ x s, (f x s).1 = .ok (g x)) :
    ∃ ys s', sortByKey alg kcmp f dflt xs s = (.ok ys, s') ∧ IsSorting (fun a b => kcmp (g a) (g b)) xs ys := by
  have key : ∀ (a : Alg α) s, (a.runKey kcmp f dflt none s).1 = (a.run (fun a b => kcmp (g a) (g b)), none) := by
    intro a
    induction a with
    | done ys => intro s; rfl
    | ask a b k ih =>
      intro s
      rcases hr : f a s with ⟨r, s1⟩
      rcases hr' : f b s1 with ⟨r', s2⟩
      have h1 := hf a s
      have h2 := hf b s1
      rw [hr] at h1; rw [hr'] at h2
      simp only at h1 h2; subst h1; subst h2
      simp only [Alg.runKey, hr, hr', catch_, Alg.run]
      exact ih _ s2
  have ho : IsOrder (fun a b => kcmp (g a) (g b)) (fun x => K (g x)) := ⟨fun x y hx hy => h.swap _ _ hx hy, fun x y z hx hy hz => h.trans _ _ _ hx hy hz⟩
  refine ⟨(alg xs).run _, ((alg xs).runKey kcmp f dflt none s).2, ?_, C12_sort alg ha xs ho hK⟩
  have := key (alg xs) s
  rw [sortByKey]
  rcases hr : (alg xs).runKey kcmp f dflt none s with ⟨⟨ys, err⟩, s'⟩
  rw [hr] at this; cases this; rfl

theorem foldCmp_ok (pick : Ordering → α → α → α) (f : Fn2 σ α α Ordering) (hf : ∀ a b s, (f a b s).1 = .ok (cmp a b)) (x : α) (xs : List α) (s : σ) :
    (foldCmp pick f x xs none s).1 = (xs.foldl (fun x y => pick (cmp x y) x y) x, none) := by
  induction xs generalizing x s with
  | nil => rfl
  | cons y ys ih =>
    have h1 := hf x y s
    rcases hr : f x y s with ⟨r, s1⟩
    rw [hr] at h1; simp only at h1; subst h1
    simp only [foldCmp, hr, catch_, List.foldl_cons]
    exact ih _ s1

/-- C12 `min_by`/`max_by` with a comparator function: if every call gives an int and their signs follow an order, an element that no other precedes/follows; an error on empty input. -/
theorem C12_min_max_by_comparator (f : Fn2 σ α α β) (asInt : β → Res Int) (xs : List α) (s : σ) (g : α → α → Int) (h : IsOrder (fun a b => signOf (g a b)) S)
    (hS : ∀ x ∈ xs, S x) (hf : ∀ a b s, ∃ v, (f a b s).1 = .ok v ∧ asInt v = .ok (g a b)) :
    ((xs = [] ∧ (minByComparator f asInt xs s).1 = .error .nonEmpty ∧ (maxByComparator f asInt xs s).1 = .error .nonEmpty) ∨
     ((∃ m ∈ xs, (minByComparator f asInt xs s).1 = .ok m ∧ ∀ y ∈ xs, 0 ≤ g y m) ∧
      (∃ m ∈ xs, (maxByComparator f asInt xs s).1 = .ok m ∧ ∀ y ∈ xs, g y m ≤ 0))) := by
  have hf' : ∀ a b s, (byComparator f asInt a b s).1 = .ok (signOf (g a b)) := fun a b s => by
    obtain ⟨v, h1, h2⟩ := hf a b s
    exact ((C12_comparator f asInt a b s).2.1 _).mpr ⟨v, _, h1, h2, rfl⟩
  have lt : ∀ n, signOf n ≠ .lt → 0 ≤ n := by intro n hn; unfold signOf at hn; split at hn <;> simp at hn; omega
  have gt : ∀ n, signOf n ≠ .gt → n ≤ 0 := by
    intro n hn; unfold signOf at hn; split at hn
    · omega
    · split at hn
      · omega
      · simp at hn
  cases xs with
  | nil => exact .inl ⟨rfl, rfl, rfl⟩
  | cons x xs =>
    right
    have hmin := C12_min h (x :: xs) hS
    have hmax := C12_max h (x :: xs) hS
    constructor
    · rcases hmin with ⟨e, _⟩ | ⟨m, m1, m2, m3⟩
      · cases e
      · refine ⟨m, m1, ?_, fun y hy => lt _ (m3 y hy)⟩
        have k := foldCmp_ok keepLeast (byComparator f asInt) hf' x xs s
        simp only [minByComparator]
        rcases hr : foldCmp keepLeast (byComparator f asInt) x xs none s with ⟨⟨ys, err⟩, s'⟩
        rw [hr] at k
        simp only [Prod.mk.injEq] at k
        obtain ⟨rfl, rfl⟩ := k
        rw [← m2]
        simp only [minOf, hr, join]
        have e : (fun x y => keepLeast (signOf (g x y)) x y) = fun x y => if (signOf (g x y) == .gt) = true then y else x := by
          funext x y
          rcases hs : signOf (g x y) <;> simp [keepLeast]
        rw [e]
    · rcases hmax with ⟨e, _⟩ | ⟨m, m1, m2, m3⟩
      · cases e
      · refine ⟨m, m1, ?_, fun y hy => gt _ (m3 y hy)⟩
        have k := foldCmp_ok keepGreatest (byComparator f asInt) hf' x xs s
        simp only [maxByComparator]
        rcases hr : foldCmp keepGreatest (byComparator f asInt) x xs none s with ⟨⟨ys, err⟩, s'⟩
        rw [hr] at k
        simp only [Prod.mk.injEq] at k
        obtain ⟨rfl, rfl⟩ := k
        rw [← m2]
        simp only [maxOf, hr, join]
        have e : (fun x y => keepGreatest (signOf (g x y)) x y) = fun x y => if (signOf (g x y) == .gt) = true then x else y := by
          funext x y
          rcases hs : signOf (g x y) <;> simp [keepGreatest]
        rw [e]

/-- Each element is compared with the one kept so far, in order; some of these calls fails. -/
inductive FoldFails (pick : Ordering → α → α → α) (f : Fn2 σ α α Ordering) : α → List α → σ → Prop
  | here {x y ys s e s'} : f x y s = (.error e, s') → FoldFails pick f x (y :: ys) s
  | later {x y ys s o s'} : f x y s = (.ok o, s') → FoldFails pick f (pick o x y) ys s' → FoldFails pick f x (y :: ys) s

theorem foldCmp_err (pick : Ordering → α → α → α) (f : Fn2 σ α α Ordering) (x : α) (xs : List α) (e : Err) (s : σ) : ∃ e', (foldCmp pick f x xs (some e) s).1.2 = some e' := by
  induction xs generalizing x e s with
  | nil => exact ⟨e, rfl⟩
  | cons y ys ih =>
    rcases hr : f x y s with ⟨r, s1⟩
    simp only [foldCmp, hr, catch_]
    cases r <;> exact ih _ _ s1

theorem foldCmp_fails (pick : Ordering → α → α → α) (f : Fn2 σ α α Ordering) (x : α) (xs : List α) (s : σ) : (∃ e, (foldCmp pick f x xs none s).1.2 = some e) ↔ FoldFails pick f x xs s := by
  induction xs generalizing x s with
  | nil => exact ⟨fun ⟨e, h⟩ => (by cases h), fun h => (by cases h)⟩
  | cons y ys ih =>
    rcases hr : f x y s with ⟨r, s1⟩
    cases r with
    | error e =>
      refine ⟨fun _ => .here hr, fun _ => ?_⟩
      simp only [foldCmp, hr, catch_]
      exact foldCmp_err pick f _ ys e s1
    | ok k =>
      simp only [foldCmp, hr, catch_]
      rw [ih]
      refine ⟨.later hr, fun h => ?_⟩
      cases h with
      | here h => rw [hr] at h; cases h
      | later h1 h2 => rw [hr] at h1; cases h1; exact h2

/-- C12 `min_by`/`max_by` with a comparator function: the result is an error exactly if there are no elements or some call fails (`C12_comparator`); of two elements the second is kept for
the minimum if the first is greater, the first for the maximum. -/
theorem C12_min_max_by_comparator_error (f : Fn2 σ α α β) (asInt : β → Res Int) (xs : List α) (s : σ) :
    ((∃ e, (minByComparator f asInt xs s).1 = .error e) ↔ xs = [] ∨ ∃ x ys, xs = x :: ys ∧ FoldFails (fun o x y => if o = .gt then y else x) (byComparator f asInt) x ys s) ∧
    ((∃ e, (maxByComparator f asInt xs s).1 = .error e) ↔ xs = [] ∨ ∃ x ys, xs = x :: ys ∧ FoldFails (fun o x y => if o = .gt then x else y) (byComparator f asInt) x ys s) := by
  have e1 : (fun o (x y : α) => if o = .gt then y else x) = keepLeast := by funext o x y; cases o <;> rfl
  have e2 : (fun o (x y : α) => if o = .gt then x else y) = keepGreatest := by funext o x y; cases o <;> rfl
  rw [e1, e2]
  cases xs with
  | nil => simp [minByComparator, maxByComparator]
  | cons x xs =>
    have k1 := foldCmp_fails keepLeast (byComparator f asInt) x xs s
    have k2 := foldCmp_fails keepGreatest (byComparator f asInt) x xs s
    simp only [minByComparator, maxByComparator]
    rcases h1 : foldCmp keepLeast (byComparator f asInt) x xs none s with ⟨⟨m, err⟩, s'⟩
    rcases h2 : foldCmp keepGreatest (byComparator f asInt) x xs none s with ⟨⟨m2, err2⟩, s2⟩
    rw [h1] at k1; rw [h2] at k2
    constructor
    · cases err <;> simp [join, ← k1]
    · cases err2 <;> simp [join, ← k2]

/-- Some call of the key function, one for each element in order, fails. -/
inductive SomeKeyFails (f : Fn1 σ α β) : List α → σ → Prop
  | here {x xs s e s'} : f x s = (.error e, s') → SomeKeyFails f (x :: xs) s
  | later {x xs s k s'} : f x s = (.ok k, s') → SomeKeyFails f xs s' → SomeKeyFails f (x :: xs) s

theorem keyed_err (f : Fn1 σ α β) (dflt : β) (xs : List α) (e : Err) (s : σ) : ∃ e', (keyed f dflt xs (some e) s).1.2 = some e' := by
  induction xs generalizing e s with
  | nil => exact ⟨e, rfl⟩
  | cons x xs ih =>
    rcases hr : f x s with ⟨r, s1⟩
    simp only [keyed, hr, catch_]
    cases r <;> exact ih _ s1

theorem keyed_fails (f : Fn1 σ α β) (dflt : β) (xs : List α) (s : σ) : (∃ e, (keyed f dflt xs none s).1.2 = some e) ↔ SomeKeyFails f xs s := by
  induction xs generalizing s with
  | nil => exact ⟨fun ⟨e, h⟩ => (by cases h), fun h => (by cases h)⟩
  | cons x xs ih =>
    rcases hr : f x s with ⟨r, s1⟩
    cases r with
    | error e =>
      refine ⟨fun _ => .here hr, fun _ => ?_⟩
      simp only [keyed, hr, catch_]
      exact keyed_err f dflt xs e s1
    | ok k =>
      simp only [keyed, hr, catch_]
      rw [ih]
      refine ⟨.later hr, fun h => ?_⟩
      cases h with
      | here h => rw [hr] at h; cases h
      | later h1 h2 => rw [hr] at h1; cases h1; exact h2

theorem keyed_values (f : Fn1 σ α β) (dflt : β) (xs : List α) (err : Option Err) (s : σ) : (keyed f dflt xs err s).1.1.map Prod.snd = xs := by
  induction xs generalizing err s with
  | nil => rfl
  | cons x xs ih =>
    simp only [keyed, List.map_cons, ih]

theorem minOf_ok (c : α → α → Ordering) (xs : List α) (h : xs ≠ []) : (∃ m, minOf c xs = .ok m) ∧ ∃ m, maxOf c xs = .ok m := by
  cases xs with
  | nil => exact absurd rfl h
  | cons x xs => exact ⟨⟨_, rfl⟩, ⟨_, rfl⟩⟩

/-- C12 `min_by`/`max_by` with a key function: the result is an error exactly if there are no elements or some call fails. -/
theorem C12_min_max_by_error (kcmp : β → β → Ordering) (f : Fn1 σ α β) (dflt : β) (xs : List α) (s : σ) :
    ((∃ e, (minBy kcmp f dflt xs s).1 = .error e) ↔ xs = [] ∨ SomeKeyFails f xs s) ∧ ((∃ e, (maxBy kcmp f dflt xs s).1 = .error e) ↔ xs = [] ∨ SomeKeyFails f xs s) := by
  rw [← keyed_fails f dflt, minBy, maxBy]
  have hv := keyed_values f dflt xs none s
  rcases hk0 : keyed f dflt xs none s with ⟨⟨ks, err⟩, s'⟩
  rw [hk0] at hv
  simp only at hv ⊢
  by_cases hx : xs = []
  · subst hx
    have : ks = [] := by simpa using hv
    subst this
    simp [minOf, maxOf]
  · have hk : ks ≠ [] := by rintro rfl; exact hx hv.symm
    obtain ⟨⟨m, hm⟩, ⟨n, hn⟩⟩ := minOf_ok (fun (a b : β × α) => kcmp a.1 b.1) ks hk
    rw [hm, hn]
    cases err <;> simp [join, hx]

/-- A comparator function by differences, on Cordy's ints: it sorts from least to greatest. -/
example : ∃ ys s', sortByComparator insertionSort (fun (a b : Int) (n : Nat) => (.ok (a - b), n + 1)) .ok [3, -1, 2] 0 = (.ok ys, s') ∧ ys = [-1, 2, 3] := ⟨_, _, rfl, by decide⟩

example : IsOrder (fun (a b : Int) => signOf (a - b)) (fun _ => True) where
  swap x y _ _ := by
    unfold signOf
    split <;> split <;> (try split) <;> (try split) <;> (try rfl) <;> omega
  trans x y z _ _ _ h1 h2 := by
    unfold signOf at *
    split at h1 <;> split at h2 <;> split <;> (try split) <;> simp_all <;> omega

/-! ## C20 -/

/-- What each operation on a bag of elements may do: the bag is a list up to order. -/
def BagSpec (le : α → α → Bool) (xs : List α) : Heap.Op α → Heap.Out α → List α → Prop
  | .push v, out, ys => out = .unit ∧ ys.Perm (v :: xs)
  | .pop, out, ys => (xs = [] ∧ out = .err .nonEmpty ∧ ys = []) ∨
      ∃ v, out = .val v ∧ xs.Perm (v :: ys) ∧ ∀ x ∈ xs, le v x = true
  | .peek, out, ys => ys.Perm xs ∧ ((xs = [] ∧ out = .err .nonEmpty) ∨ ∃ v ∈ xs, out = .val v ∧ ∀ x ∈ xs, le v x = true)
  | .clear, out, ys => out = .unit ∧ ys = []
  | .len, out, ys => ys.Perm xs ∧ out = .nat xs.length

/-- What may be put into the heap. -/
def OpIn (S : α → Prop) : Heap.Op α → Prop
  | .push v => S v
  | _ => True

variable {le : α → α → Bool}

theorem pop_spec (ht : TotalPre le S) (a : Array α) (hS : ∀ x ∈ a, S x) (hh : IsHeap le a) :
    (a = #[] ∧ Heap.pop le a = none) ∨
    ∃ v b, Heap.pop le a = some (v, b) ∧ a.toList.Perm (v :: b.toList) ∧ IsHeap le b ∧ ∀ x ∈ a, le v x = true := by
  rw [Heap.pop]
  split
  · next h =>
    right
    have hroot := isHeap_root ht a hS hh a[0] (Array.getElem?_eq_getElem h)
    simp only
    split
    · next hb =>
      have hsz : 1 < a.size := by simpa using hb
      have hpop : a.toList.Perm (a[0] :: (a.pop.set 0 (a[a.size - 1])).toList) := by
        obtain ⟨l⟩ := a
        cases l with
        | nil => simp at h
        | cons x l =>
          simp at hsz
          obtain ⟨ys, z, rfl⟩ : ∃ ys z, l = ys ++ [z] := by
            rcases List.eq_nil_or_concat l with e | ⟨ys, z, e⟩
            · simp [e] at hsz
            · exact ⟨ys, z, by simpa using e⟩
          simp only [List.getElem_toArray, List.getElem_cons_zero, List.pop_toArray, List.set_toArray]
          have : (x :: (ys ++ [z])).dropLast = x :: ys := by
            rw [← List.cons_append, List.dropLast_concat]
          simp only [this, List.set_cons_zero]
          apply List.Perm.cons
          have hz : ∀ h, (x :: (ys ++ [z]))[(x :: (ys ++ [z])).toArray.size - 1]'h = z := by
            intro h; simp
          rw [hz]
          exact List.perm_append_comm
      have hSb : ∀ x ∈ a.pop.set 0 (a[a.size - 1]), S x := fun x hx =>
        hS x (by have := hpop.mem_iff (a := x); simp only [Array.mem_toList_iff] at this; rw [this]
                 exact List.mem_cons_of_mem _ (Array.mem_toList_iff.2 hx))
      have hp := siftDownBottom_perm (le := le) (a.pop.set 0 (a[a.size - 1])) 0 (by simpa using hb)
      refine ⟨_, _, rfl, ?_, ?_, ?_⟩
      · have e0 : a.pop[0] = a[0] := by simp
        rw [e0]
        exact hpop.trans (List.Perm.cons _ (Array.perm_iff_toList_perm.1 hp).symm)
      · refine siftDownBottom_heap ht _ 0 _ hSb ⟨fun i hi hi0 hpi x y hx hy => ?_, fun h => absurd h (by omega)⟩
        have e : ∀ j, j ≠ 0 → ∀ w, (a.pop.set 0 (a[a.size - 1]))[j]? = some w → a[j]? = some w := by
          intro j hj w hw
          rw [Array.getElem?_set, if_neg (by omega)] at hw
          rw [Array.getElem?_pop] at hw
          split at hw
          · exact hw
          · cases hw
        exact hh i hi x y (e _ hpi x hx) (e _ hi0 y hy)
      · intro x hx
        have e0 : a.pop[0] = a[0] := by simp
        rw [e0]; exact hroot x hx
    · next hb =>
      have hsz : a.size = 1 := by simp at hb; omega
      obtain ⟨l⟩ := a
      match l, hsz with
      | [x], _ =>
        refine ⟨x, #[], rfl, by simp, fun i hi x y hx hy => by simp at hy, ?_⟩
        intro y hy; simp at hy; subst hy
        exact ht.refl (hS _ (by simp))
  · next h => exact .inl ⟨Array.eq_empty_of_size_eq_zero (by omega), rfl⟩

theorem heap_step (ht : TotalPre le S) (a : Array α) (hS : ∀ x ∈ a, S x) (hh : IsHeap le a) (op : Heap.Op α) (hop : OpIn S op) :
    (∀ x ∈ (Heap.step le a op).1, S x) ∧ IsHeap le (Heap.step le a op).1 ∧
    BagSpec le a.toList op (Heap.step le a op).2 (Heap.step le a op).1.toList := by
  cases op with
  | push v =>
    have hp := siftUp_perm (le := le) (a.push v) a.size (by simp)
    have hS' : ∀ x ∈ a.push v, S x := by
      intro x hx
      rcases Array.mem_push.1 hx with h | h
      · exact hS x h
      · rw [h]; exact hop
    refine ⟨fun x hx => hS' x (hp.mem_iff.1 hx), ?_, rfl, ?_⟩
    · refine siftUp_heap ht _ _ _ hS' (fun i hi hne x y hx hy => ?_) (fun h c hc hcp x y hx hy => ?_)
      · have hlt : i < a.size := by
          have := (Array.getElem?_eq_some_iff.1 hy).1; simp at this; omega
        rw [Array.getElem?_push, if_neg (by omega)] at hy
        rw [Array.getElem?_push, if_neg (by simp only [par]; omega)] at hx
        exact hh i hi x y hx hy
      · have := (Array.getElem?_eq_some_iff.1 hy).1
        simp only [par, Array.size_push] at hcp this; omega
    · refine (Array.perm_iff_toList_perm.1 hp).trans ?_
      rw [Array.toList_push]
      exact List.perm_append_comm
  | pop =>
    rcases pop_spec ht a hS hh with ⟨rfl, h2⟩ | ⟨v, b, h1, h2, h3, h4⟩
    · simp only [Heap.step, h2]
      exact ⟨hS, hh, .inl ⟨rfl, rfl, rfl⟩⟩
    · simp only [Heap.step, h1]
      refine ⟨fun x hx => hS x ?_, h3, .inr ⟨v, rfl, h2, fun x hx => h4 x (by simpa using hx)⟩⟩
      have := h2.mem_iff (a := x)
      simp only [Array.mem_toList_iff, List.mem_cons] at this
      exact this.2 (.inr hx)
  | peek =>
    simp only [Heap.step]
    cases hg : a[0]? with
    | none =>
      have : a = #[] := Array.eq_empty_of_size_eq_zero (by simpa using hg)
      exact ⟨hS, hh, List.Perm.refl _, .inl ⟨by simp [this], rfl⟩⟩
    | some v =>
      exact ⟨hS, hh, List.Perm.refl _, .inr ⟨v, by simpa using Array.mem_of_getElem? hg, rfl, fun x hx =>
        isHeap_root ht a hS hh v hg x (by simpa using hx)⟩⟩
  | clear => exact ⟨by simp [Heap.step], fun i hi x y hx hy => by simp [Heap.step] at hy, rfl, rfl⟩
  | len => exact ⟨hS, hh, List.Perm.refl _, by simp [Heap.step]⟩

/-- The states and results of a history satisfy the bag specification step by step. -/
inductive BagRun (le : α → α → Bool) : List α → List (Heap.Op α) → List (Heap.Out α) → List α → Prop
  | nil (xs : List α) : BagRun le xs [] [] xs
  | cons {xs ys zs op ops out outs} : BagSpec le xs op out ys → BagRun le ys ops outs zs → BagRun le xs (op :: ops) (out :: outs) zs

theorem heap_run (ht : TotalPre le S) (ops : List (Heap.Op α)) (a : Array α) (hS : ∀ x ∈ a, S x) (hh : IsHeap le a)
    (hops : ∀ op ∈ ops, OpIn S op) : BagRun le a.toList ops (Heap.run le a ops).2 (Heap.run le a ops).1.toList := by
  induction ops generalizing a with
  | nil => exact .nil _
  | cons op ops ih =>
    obtain ⟨h1, h2, h3⟩ := heap_step ht a hS hh op (hops op (by simp))
    exact .cons h3 (ih _ h1 h2 (fun o ho => hops o (by simp [ho])))

theorem ofList_spec (ht : TotalPre le S) (xs : List α) (hS : ∀ x ∈ xs, S x) :
    (Heap.ofList le xs).toList.Perm xs ∧ IsHeap le (Heap.ofList le xs) := by
  refine ⟨Array.perm_iff_toList_perm.1 (rebuild_perm xs.toArray (xs.length / 2)), ?_⟩
  have := rebuild_heap ht xs.toArray (xs.length / 2) (by simpa using hS) (by
    intro i hi hn x y hx hy
    have := (Array.getElem?_eq_some_iff.1 hy).1
    simp only [par, List.size_toArray] at hn this; omega)
  intro i hi; exact this i hi (Nat.zero_le _)

/-- C20. For a heap made from any elements and any history of push, pop, peek, clear and len after it, each pop and peek gives a minimal element of the
current contents, and the contents are always exactly what was put in minus what was popped. -/
theorem C20_history (ht : TotalPre le S) (xs : List α) (hS : ∀ x ∈ xs, S x) (ops : List (Heap.Op α)) (hops : ∀ op ∈ ops, OpIn S op) :
    ∃ ys, ys.Perm xs ∧ BagRun le ys ops (Heap.run le (Heap.ofList le xs) ops).2 (Heap.run le (Heap.ofList le xs) ops).1.toList := by
  obtain ⟨h1, h2⟩ := ofList_spec ht xs hS
  exact ⟨_, h1, heap_run ht ops _ (fun x hx => hS x (h1.mem_iff.1 (by simpa using hx))) h2 hops⟩

theorem drain_spec (ht : TotalPre le S) (n : Nat) (a : Array α) (hn : n = a.size) (hS : ∀ x ∈ a, S x) (hh : IsHeap le a) :
    (Heap.drain le n a).Perm a.toList ∧ (Heap.drain le n a).Pairwise (fun x y => le x y = true) := by
  induction n generalizing a with
  | zero =>
    have : a = #[] := Array.eq_empty_of_size_eq_zero hn.symm
    subst this; exact ⟨by simp [drain], by simp [drain]⟩
  | succ n ih =>
    rcases pop_spec ht a hS hh with ⟨rfl, h2⟩ | ⟨v, b, h1, h2, h3, h4⟩
    · simp at hn
    · rw [drain, h1]
      have hlen := h2.length_eq
      simp only [Array.length_toList, List.length_cons] at hlen
      have hmem : ∀ x ∈ b, x ∈ a := fun x hx => by
        have := h2.mem_iff (a := x); simp only [Array.mem_toList_iff, List.mem_cons] at this; exact this.2 (.inr hx)
      obtain ⟨i1, i2⟩ := ih b (by omega) (fun x hx => hS x (hmem x hx)) h3
      refine ⟨(i1.cons v).trans h2.symm, List.pairwise_cons.2 ⟨fun x hx => h4 x (hmem x ?_), i2⟩⟩
      simpa using i1.mem_iff.1 hx

/-- C20. Popping a heap until it is empty gives its elements in sorted order. -/
theorem C20_heapsort (ht : TotalPre le S) (xs : List α) (hS : ∀ x ∈ xs, S x) :
    (Heap.drain le xs.length (Heap.ofList le xs)).Perm xs ∧
    (Heap.drain le xs.length (Heap.ofList le xs)).Pairwise (fun x y => le x y = true) := by
  obtain ⟨h1, h2⟩ := ofList_spec ht xs hS
  have hlen := h1.length_eq
  simp only [Array.length_toList] at hlen
  obtain ⟨d1, d2⟩ := drain_spec ht xs.length (Heap.ofList le xs) hlen.symm
    (fun x hx => hS x (h1.mem_iff.1 (by simpa using hx))) h2
  exact ⟨d1.trans h1, d2⟩

end

/-- C20 for Cordy values of one comparable kind. -/
theorem C20_values (k : Val.Kind) (xs : List Val) (h : ∀ x ∈ xs, Val.InKind k x) (ops : List (Heap.Op Val))
    (hops : ∀ op ∈ ops, OpIn (Val.InKind k) op) :
    ∃ ys, ys.Perm xs ∧ BagRun Val.le ys ops (Heap.run Val.le (Heap.ofList Val.le xs) ops).2
      (Heap.run Val.le (Heap.ofList Val.le xs) ops).1.toList := by
  have ht : TotalPre Val.le (Val.InKind k) := (isOrder_kind k).totalPre
  exact C20_history ht xs h ops hops

example : (Heap.run Val.le (Heap.ofList Val.le [.int 5, .int 1, .int 4]) [.push (.int 2), .pop, .pop, .peek]).2.length = 4 ∧
    (∀ x ∈ [Val.int 5, .int 1, .int 4], Val.InKind .real x) := ⟨rfl, by simp [Val.InKind]⟩
example : Heap.drain (fun a b : Nat => decide (a ≤ b)) 5 (Heap.ofList (fun a b : Nat => decide (a ≤ b)) [5, 1, 4, 1, 3]) = [1, 1, 3, 4, 5] := by
  decide +kernel

end Cordy
