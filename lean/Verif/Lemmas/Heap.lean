import Verif.Model.Sort
/-! Helper lemmas on the binary heap model. -/
namespace Cordy
namespace Heap
variable {α : Type} {le : α → α → Bool} {S : α → Prop}

/-- `le` is a total preorder on `S`. -/
structure TotalPre (le : α → α → Bool) (S : α → Prop) : Prop where
  total : ∀ x y, S x → S y → le x y = true ∨ le y x = true
  trans : ∀ x y z, S x → S y → S z → le x y = true → le y z = true → le x z = true

theorem TotalPre.refl (h : TotalPre le S) {x} (hx : S x) : le x x = true := (h.total x x hx hx).elim id id

/-- Parent index. -/
def par (i : Nat) : Nat := (i - 1) / 2

/-- Edge from the parent of `i` to `i` is in order. -/
def Edge (le : α → α → Bool) (a : Array α) (i : Nat) : Prop :=
  ∀ x y, a[par i]? = some x → a[i]? = some y → le x y = true

/-- The heap property on the part of the tree whose parents are at least `n`. -/
def HeapFrom (le : α → α → Bool) (a : Array α) (n : Nat) : Prop := ∀ i, 0 < i → n ≤ par i → Edge le a i

/-- The heap property. -/
def IsHeap (le : α → α → Bool) (a : Array α) : Prop := ∀ i, 0 < i → Edge le a i

theorem swap_get (a : Array α) (i j : Nat) (hi : i < a.size) (hj : j < a.size) (k : Nat) :
    (a.swap i j)[k]? = if k = i then a[j]? else if k = j then a[i]? else a[k]? := by
  by_cases hk : k < a.size
  · rw [Array.getElem?_eq_getElem (by simpa using hk), Array.getElem_swap]
    split
    · rw [Array.getElem?_eq_getElem hj]
    · split
      · rw [Array.getElem?_eq_getElem hi]
      · rw [Array.getElem?_eq_getElem hk]
  · rw [Array.getElem?_eq_none (by simp; omega), if_neg (by omega), if_neg (by omega), Array.getElem?_eq_none (by omega)]

theorem siftUp_perm (a : Array α) (pos : Nat) (h : pos < a.size) : (siftUp le a pos h).Perm a := by
  induction pos using Nat.strong_induction_on generalizing a with
  | _ pos ih =>
    rw [siftUp]
    split
    · exact Array.Perm.refl _
    · split
      · exact Array.Perm.refl _
      · exact (ih _ (by omega) _ _).trans (Array.swap_perm _ _)

theorem siftUp_heap (ht : TotalPre le S) (a : Array α) (pos : Nat) (h : pos < a.size) (hS : ∀ x ∈ a, S x)
    (he : ∀ i, 0 < i → i ≠ pos → Edge le a i)
    (hg : 0 < pos → ∀ c, 0 < c → par c = pos → ∀ x y, a[par pos]? = some x → a[c]? = some y → le x y = true) :
    IsHeap le (siftUp le a pos h) := by
  induction pos using Nat.strong_induction_on generalizing a with
  | _ pos ih =>
    rw [siftUp]
    split
    · next h0 => intro i hi; exact he i hi (by omega)
    · next h0 =>
      have hpar : par pos < pos := by simp only [par]; omega
      split
      · next hle =>
        intro i hi
        by_cases hip : i = pos
        · subst hip; intro x y hx hy
          rw [Array.getElem?_eq_getElem (by simp only [par]; omega)] at hx
          rw [Array.getElem?_eq_getElem h] at hy
          cases hx; cases hy; exact hle
        · exact he i hi hip
      · next hle =>
        have hlt : a[par pos]? = some a[par pos] := Array.getElem?_eq_getElem (by omega)
        have hp : a[pos]? = some a[pos] := Array.getElem?_eq_getElem h
        have hSp : S a[pos] := hS _ (Array.getElem_mem _)
        have hSq : S a[par pos] := hS _ (Array.getElem_mem _)
        have hba : le a[pos] a[par pos] = true := (ht.total _ _ hSp hSq).elim id (fun h' => absurd h' hle)
        have hsw := swap_get a pos (par pos) h (by omega)
        refine ih (par pos) hpar (a.swap pos (par pos) h (by omega)) (by simp; omega) ?_ ?_ ?_
        · intro x hx
          exact hS x ((Array.swap_perm (xs := a) h (by omega)).mem_iff.1 hx)
        · intro i hi hip x y hx hy
          rw [hsw] at hx hy
          by_cases h1 : i = pos
          · subst h1
            rw [if_neg (by omega), if_pos rfl, hp] at hx
            rw [if_pos rfl, hlt] at hy
            cases hx; cases hy; exact hba
          · rw [if_neg h1, if_neg hip] at hy
            by_cases h2 : par i = pos
            · rw [if_pos h2, hlt] at hx; cases hx
              exact hg (by omega) i hi h2 _ _ hlt hy
            · by_cases h3 : par i = par pos
              · rw [if_neg h2, if_pos h3, hp] at hx; cases hx
                have hSy : S y := hS y (Array.mem_of_getElem? hy)
                have h4 := he i hi h1 a[par pos] y (by rw [h3]; exact hlt) hy
                exact ht.trans _ _ _ hSp hSq hSy hba h4
              · rw [if_neg h2, if_neg h3] at hx
                exact he i hi h1 x y hx hy
        · intro hpos c hc hcp x y hx hy
          rw [hsw] at hx hy
          have hpp : par (par pos) < par pos := by simp only [par] at hpos ⊢; omega
          rw [if_neg (by omega), if_neg (by omega)] at hx
          by_cases h1 : c = pos
          · subst h1
            rw [if_pos rfl, hlt] at hy; cases hy
            exact he (par c) hpos (by omega) x _ hx hlt
          · have hcne : c ≠ par pos := by
              intro e; subst e; simp only [par] at hcp hpos; omega
            rw [if_neg h1, if_neg hcne] at hy
            have h3 := he (par pos) hpos (by omega) x _ hx hlt
            have h4 := he c hc h1 a[par pos] y (by rw [hcp]; exact hlt) hy
            exact ht.trans _ _ _ (hS x (Array.mem_of_getElem? hx)) hSq (hS y (Array.mem_of_getElem? hy)) h3 h4

theorem siftDownBottom_perm (a : Array α) (pos : Nat) (h : pos < a.size) : (siftDownBottom le a pos h).Perm a := by
  induction hn : a.size - pos using Nat.strong_induction_on generalizing a pos with
  | _ n ih =>
    rw [siftDownBottom]
    split
    · split
      · exact (ih _ (by subst hn; simp; omega) _ _ _ rfl).trans (Array.swap_perm _ _)
      · exact (ih _ (by subst hn; simp; omega) _ _ _ rfl).trans (Array.swap_perm _ _)
    · split
      · exact (siftUp_perm _ _ _).trans (Array.swap_perm _ _)
      · exact siftUp_perm _ _ _

/-- What holds while the hole `pos` sinks: edges not touching `pos` are in order, and `pos`'s parent is below `pos`'s children. -/
structure HoleInv (le : α → α → Bool) (a : Array α) (pos : Nat) : Prop where
  edges : ∀ i, 0 < i → i ≠ pos → par i ≠ pos → Edge le a i
  skip : 0 < pos → ∀ c, 0 < c → par c = pos → ∀ x y, a[par pos]? = some x → a[c]? = some y → le x y = true

theorem par_eq {c p : Nat} (hc : 0 < c) : par c = p ↔ c = 2 * p + 1 ∨ c = 2 * p + 2 := by
  simp only [par]; omega

/-- Moving the smaller child `c` (with sibling `d` if it exists) into the hole keeps the invariant. -/
theorem HoleInv.move (a : Array α) (pos c : Nat) (h : pos < a.size) (hc : c < a.size) (hpc : par c = pos) (hc0 : 0 < c)
    (hinv : HoleInv le a pos)
    (hsib : ∀ d, 0 < d → par d = pos → d ≠ c → ∀ x y, a[c]? = some x → a[d]? = some y → le x y = true) :
    HoleInv le (a.swap pos c h hc) c := by
  have hsw := swap_get a pos c h hc
  have hpc' : pos < c := by simp only [par] at hpc; omega
  constructor
  · intro i hi hic hpi x y hx hy
    rw [hsw] at hx hy
    rw [if_neg (c := par i = c) hpi] at hx
    by_cases h1 : i = pos
    · subst h1
      rw [if_neg (by simp only [par]; omega)] at hx
      rw [if_pos rfl] at hy
      exact hinv.skip (by omega) c hc0 hpc x y hx hy
    · rw [if_neg h1, if_neg hic] at hy
      by_cases h2 : par i = pos
      · rw [if_pos h2] at hx
        exact hsib i hi h2 hic x y hx hy
      · rw [if_neg h2] at hx
        exact hinv.edges i hi h1 h2 x y hx hy
  · intro _ d hd hdc x y hx hy
    rw [hsw] at hx hy
    rw [hpc, if_pos rfl] at hx
    have hcd : c < d := by simp only [par] at hdc; omega
    rw [if_neg (by omega), if_neg (by omega)] at hy
    exact hinv.edges d hd (by omega) (by omega) x y (by rw [hdc]; exact hx) hy

theorem siftDownBottom_heap (ht : TotalPre le S) (a : Array α) (pos : Nat) (h : pos < a.size) (hS : ∀ x ∈ a, S x)
    (hinv : HoleInv le a pos) : IsHeap le (siftDownBottom le a pos h) := by
  induction hn : a.size - pos using Nat.strong_induction_on generalizing a pos with
  | _ n ih =>
    have hSswap : ∀ c (hc : c < a.size), ∀ x ∈ a.swap pos c h hc, S x := fun c hc x hx =>
      hS x ((Array.swap_perm (xs := a) h hc).mem_iff.1 hx)
    rw [siftDownBottom]
    split
    · next hc =>
      have e1 : a[2 * pos + 1]? = some a[2 * pos + 1] := Array.getElem?_eq_getElem (by omega)
      have e2 : a[2 * pos + 1 + 1]? = some a[2 * pos + 1 + 1] := Array.getElem?_eq_getElem (by omega)
      split
      · next hle =>
        refine ih _ (by subst hn; simp; omega) _ _ _ (hSswap _ _) ?_ rfl
        refine hinv.move a pos _ h (by omega) (by simp only [par]; omega) (by omega) ?_
        intro d hd hdp hdc x y hx hy
        have : d = 2 * pos + 1 := by rcases (par_eq hd).1 hdp with h | h <;> omega
        subst this
        rw [e2] at hx; rw [e1] at hy; cases hx; cases hy; exact hle
      · next hle =>
        refine ih _ (by subst hn; simp; omega) _ _ _ (hSswap _ _) ?_ rfl
        refine hinv.move a pos _ h (by omega) (by simp only [par]; omega) (by omega) ?_
        intro d hd hdp hdc x y hx hy
        have : d = 2 * pos + 1 + 1 := by rcases (par_eq hd).1 hdp with h | h <;> omega
        subst this
        rw [e1] at hx; rw [e2] at hy; cases hx; cases hy
        exact (ht.total _ _ (hS _ (Array.getElem_mem _)) (hS _ (Array.getElem_mem _))).elim id (fun h' => absurd h' hle)
    · next hc =>
      split
      · next hc1 =>
        have hm := hinv.move a pos (2 * pos + 1) h (by omega) (by simp only [par]; omega) (by omega) (by
          intro d hd hdp hdc x y hx hy
          have : d = 2 * pos + 1 + 1 := by rcases (par_eq hd).1 hdp with h | h <;> omega
          subst this
          rw [Array.getElem?_eq_none (by omega)] at hy; cases hy)
        refine siftUp_heap ht _ _ _ (hSswap _ _) ?_ hm.skip
        intro i hi hic
        by_cases h1 : par i = 2 * pos + 1
        · intro x y hx hy
          rw [Array.getElem?_eq_none (by rcases (par_eq hi).1 h1 with h | h <;> simp <;> omega)] at hy; cases hy
        · exact hm.edges i hi hic h1
      · next hc1 =>
        refine siftUp_heap ht _ _ _ hS ?_ hinv.skip
        intro i hi hic
        by_cases h1 : par i = pos
        · intro x y hx hy
          rw [Array.getElem?_eq_none (by rcases (par_eq hi).1 h1 with h | h <;> omega)] at hy; cases hy
        · exact hinv.edges i hi hic h1

theorem siftDown_perm (a : Array α) (pos : Nat) (h : pos < a.size) : (siftDown le a pos h).Perm a := by
  induction hn : a.size - pos using Nat.strong_induction_on generalizing a pos with
  | _ n ih =>
    rw [siftDown]
    split
    · split
      · split
        · exact Array.Perm.refl _
        · exact (ih _ (by subst hn; simp; omega) _ _ _ rfl).trans (Array.swap_perm _ _)
      · split
        · exact Array.Perm.refl _
        · exact (ih _ (by subst hn; simp; omega) _ _ _ rfl).trans (Array.swap_perm _ _)
    · split
      · split
        · exact Array.swap_perm _ _
        · exact Array.Perm.refl _
      · exact Array.Perm.refl _

/-- What holds while the element at `pos` sinks during `rebuild` from `n`. -/
structure SinkInv (le : α → α → Bool) (a : Array α) (n pos : Nat) : Prop where
  edges : ∀ i, 0 < i → n ≤ par i → par i ≠ pos → Edge le a i
  skip : 0 < pos → n ≤ par pos → ∀ c, 0 < c → par c = pos → ∀ x y, a[par pos]? = some x → a[c]? = some y → le x y = true

theorem SinkInv.move (a : Array α) (n pos c : Nat) (hnp : n ≤ pos) (h : pos < a.size) (hc : c < a.size) (hpc : par c = pos) (hc0 : 0 < c)
    (hinv : SinkInv le a n pos) (hle : le a[c] a[pos] = true)
    (hsib : ∀ d, 0 < d → par d = pos → d ≠ c → ∀ x y, a[c]? = some x → a[d]? = some y → le x y = true) :
    SinkInv le (a.swap pos c h hc) n c := by
  have hsw := swap_get a pos c h hc
  have hpc' : pos < c := by simp only [par] at hpc; omega
  constructor
  · intro i hi hni hpi x y hx hy
    rw [hsw] at hx hy
    rw [if_neg (c := par i = c) hpi] at hx
    by_cases h1 : i = pos
    · subst h1
      rw [if_neg (by simp only [par]; omega)] at hx
      rw [if_pos rfl] at hy
      exact hinv.skip (by omega) hni c hc0 hpc x y hx hy
    · by_cases h3 : i = c
      · subst h3
        rw [if_pos hpc] at hx
        rw [if_neg h1, if_pos rfl] at hy
        rw [Array.getElem?_eq_getElem hc] at hx
        rw [Array.getElem?_eq_getElem h] at hy
        cases hx; cases hy; exact hle
      · rw [if_neg h1, if_neg h3] at hy
        by_cases h2 : par i = pos
        · rw [if_pos h2] at hx
          exact hsib i hi h2 h3 x y hx hy
        · rw [if_neg h2] at hx
          exact hinv.edges i hi hni h2 x y hx hy
  · intro _ _ d hd hdc x y hx hy
    rw [hsw] at hx hy
    rw [hpc, if_pos rfl] at hx
    have hcd : c < d := by simp only [par] at hdc; omega
    rw [if_neg (by omega), if_neg (by omega)] at hy
    exact hinv.edges d hd (by omega) (by omega) x y (by rw [hdc]; exact hx) hy

theorem siftDown_heap (ht : TotalPre le S) (a : Array α) (n pos : Nat) (hnp : n ≤ pos) (h : pos < a.size) (hS : ∀ x ∈ a, S x)
    (hinv : SinkInv le a n pos) : HeapFrom le (siftDown le a pos h) n := by
  induction hm : a.size - pos using Nat.strong_induction_on generalizing a pos with
  | _ m ih =>
    have hSswap : ∀ c (hc : c < a.size), ∀ x ∈ a.swap pos c h hc, S x := fun c hc x hx =>
      hS x ((Array.swap_perm (xs := a) h hc).mem_iff.1 hx)
    have hSi : ∀ i (hi : i < a.size), S a[i] := fun i hi => hS _ (Array.getElem_mem _)
    have e0 : a[pos]? = some a[pos] := Array.getElem?_eq_getElem h
    -- stopping here is fine when `pos` is below all its children
    have stop : (∀ d, 0 < d → par d = pos → ∀ y, a[d]? = some y → le a[pos] y = true) → HeapFrom le a n := by
      intro hch i hi hni
      by_cases h1 : par i = pos
      · intro x y hx hy
        rw [h1, e0] at hx; cases hx
        exact hch i hi h1 y hy
      · exact hinv.edges i hi hni h1
    rw [siftDown]
    split
    · next hc =>
      have e1 : a[2 * pos + 1]? = some a[2 * pos + 1] := Array.getElem?_eq_getElem (by omega)
      have e2 : a[2 * pos + 1 + 1]? = some a[2 * pos + 1 + 1] := Array.getElem?_eq_getElem (by omega)
      split
      · next hle =>
        split
        · next hst =>
          refine stop (fun d hd hdp y hy => ?_)
          rcases (par_eq hd).1 hdp with h1 | h1
          · subst h1; rw [e1] at hy; cases hy
            exact ht.trans _ _ _ (hSi _ _) (hSi _ _) (hSi _ _) hst hle
          · subst h1; rw [e2] at hy; cases hy; exact hst
        · next hst =>
          refine ih _ (by subst hm; simp; omega) _ _ (by omega) _ (hSswap _ _) ?_ rfl
          refine hinv.move a n pos _ hnp h (by omega) (by simp only [par]; omega) (by omega) ?_ ?_
          · exact (ht.total _ _ (hSi _ _) (hSi _ _)).elim (fun h' => absurd h' hst) id
          · intro d hd hdp hdc x y hx hy
            have : d = 2 * pos + 1 := by rcases (par_eq hd).1 hdp with h | h <;> omega
            subst this
            rw [e2] at hx; rw [e1] at hy; cases hx; cases hy; exact hle
      · next hle =>
        have hle' : le a[2 * pos + 1] a[2 * pos + 1 + 1] = true :=
          (ht.total _ _ (hSi _ (by omega)) (hSi _ (by omega))).elim id (fun h' => absurd h' hle)
        split
        · next hst =>
          refine stop (fun d hd hdp y hy => ?_)
          rcases (par_eq hd).1 hdp with h1 | h1
          · subst h1; rw [e1] at hy; cases hy; exact hst
          · subst h1; rw [e2] at hy; cases hy
            exact ht.trans _ _ _ (hSi _ _) (hSi _ _) (hSi _ _) hst hle'
        · next hst =>
          refine ih _ (by subst hm; simp; omega) _ _ (by omega) _ (hSswap _ _) ?_ rfl
          refine hinv.move a n pos _ hnp h (by omega) (by simp only [par]; omega) (by omega) ?_ ?_
          · exact (ht.total _ _ (hSi _ _) (hSi _ _)).elim (fun h' => absurd h' hst) id
          · intro d hd hdp hdc x y hx hy
            have : d = 2 * pos + 1 + 1 := by rcases (par_eq hd).1 hdp with h | h <;> omega
            subst this
            rw [e1] at hx; rw [e2] at hy; cases hx; cases hy; exact hle'
    · next hc =>
      have only : ∀ d, 0 < d → par d = pos → ∀ y, a[d]? = some y → d = 2 * pos + 1 ∧ 2 * pos + 1 = a.size - 1 := by
        intro d hd hdp y hy
        have hlt := (Array.getElem?_eq_some_iff.1 hy).1
        rcases (par_eq hd).1 hdp with h1 | h1 <;> omega
      split
      · next hc1 =>
        split
        · next hst =>
          have hm' := hinv.move a n pos (2 * pos + 1) hnp h (by omega) (by simp only [par]; omega) (by omega)
            ((ht.total _ _ (hSi _ (by omega)) (hSi _ (by omega))).elim (fun h' => absurd h' (by simpa using hst)) id) (by
            intro d hd hdp hdc x y hx hy
            exact absurd (only d hd hdp y hy).1 hdc)
          intro i hi hni
          by_cases h1 : par i = 2 * pos + 1
          · intro x y hx hy
            rw [Array.getElem?_eq_none (by rcases (par_eq hi).1 h1 with h | h <;> simp <;> omega)] at hy; cases hy
          · exact hm'.edges i hi hni h1
        · next hst =>
          refine stop (fun d hd hdp y hy => ?_)
          obtain ⟨rfl, _⟩ := only d hd hdp y hy
          rw [Array.getElem?_eq_getElem (by omega)] at hy; cases hy
          simpa using hst
      · next hc1 =>
        exact stop (fun d hd hdp y hy => absurd (only d hd hdp y hy).2 hc1)

theorem rebuild_perm (a : Array α) (n : Nat) : (rebuild le a n).Perm a := by
  induction n generalizing a with
  | zero => exact Array.Perm.refl _
  | succ n ih =>
    rw [rebuild]
    split
    · exact (ih _).trans (siftDown_perm _ _ _)
    · exact ih _

theorem rebuild_heap (ht : TotalPre le S) (a : Array α) (n : Nat) (hS : ∀ x ∈ a, S x) (hinv : HeapFrom le a n) :
    HeapFrom le (rebuild le a n) 0 := by
  induction n generalizing a with
  | zero => exact hinv
  | succ n ih =>
    rw [rebuild]
    split
    · next h =>
      refine ih _ (fun x hx => hS x ((siftDown_perm a n h).mem_iff.1 hx)) ?_
      refine siftDown_heap ht a n n (Nat.le_refl _) h hS ⟨fun i hi hni hne => hinv i hi (by omega), ?_⟩
      intro h0 hn; simp only [par] at hn; omega
    · next h =>
      refine ih _ hS (fun i hi hni x y hx hy => ?_)
      have := (Array.getElem?_eq_some_iff.1 hx).1
      omega

theorem isHeap_root (ht : TotalPre le S) (a : Array α) (hS : ∀ x ∈ a, S x) (hh : IsHeap le a) (x : α) (hx : a[0]? = some x) :
    ∀ y ∈ a, le x y = true := by
  have key : ∀ (i : Nat) y, a[i]? = some y → le x y = true := by
    intro i
    induction i using Nat.strong_induction_on with
    | _ i ih =>
      intro y hy
      by_cases h0 : i = 0
      · subst h0; rw [hx] at hy; cases hy; exact ht.refl (hS _ (Array.mem_of_getElem? hx))
      · have hlt := (Array.getElem?_eq_some_iff.1 hy).1
        have hp : par i < i := by simp only [par]; omega
        have e : a[par i]? = some a[par i] := Array.getElem?_eq_getElem (by omega)
        exact ht.trans _ _ _ (hS _ (Array.mem_of_getElem? hx)) (hS _ (Array.getElem_mem _)) (hS _ (Array.mem_of_getElem? hy))
          (ih _ hp _ e) (hh i (by omega) _ _ e hy)
  intro y hy
  obtain ⟨i, hi, rfl⟩ := Array.getElem_of_mem hy
  exact key i _ (Array.getElem?_eq_getElem hi)

end Heap
end Cordy
