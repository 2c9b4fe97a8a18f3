import Verif.Model.ResolveSpec
import Mathlib.Tactic.ByContra
import Mathlib.Data.List.Forall2
/-!
# The tables of the parser agree with the specification of scopes
-/
namespace Cordy.Resolve

def declOf (l : Local) : Decl := ⟨l.name, l.id, l.initialized⟩

/-- The declarations of the blocks, each with the depth of its block. -/
def labelled : Nat → Blocks → List (Decl × Nat)
  | _, [] => []
  | top, b :: bs => b.map (fun d => (d, top)) ++ labelled (top - 1) bs

structure RelFn (fd top nx : Nat) (f : Fn) (bs : Blocks) : Prop where
  decls : f.locals.reverse.map (fun l => (declOf l, l.scopeDepth)) = labelled top bs
  index : ∀ (i : Nat) (l : Local), f.locals[i]? = some l → l.index = i ∧ l.functionDepth = fd
  ids : (f.locals.map (·.id)).Pairwise (· < ·)
  fresh : ∀ l ∈ f.locals, l.id < nx
  nonempty : bs ≠ []
  deep : bs.length ≤ top + 1
  noself : fd = 0 → ∀ l ∈ f.locals, l.name ≠ .this

def total (e : Env) : Nat := (e.map List.length).sum

def RelFns (nx : Nat) : List Fn → Env → Prop
  | [], [] => True
  | f :: fs, bs :: e => RelFn fs.length (total (bs :: e) - 1) nx f bs ∧ RelFns nx fs e
  | _, _ => False

structure Rel (s : St) (p : Spec) : Prop where
  fns : RelFns s.next (s.cur :: s.encl) p.env
  depth : s.scopeDepth = total p.env - 1
  next : s.next = p.next

/-! ## Lists -/

theorem find?_or {α} (p q r : α → Bool) (xs : List α) (ys : List α) (hp : ∀ x ∈ xs, p x = r x) (hp' : ∀ x ∈ xs, q x = false)
    (hq : ∀ x ∈ ys, q x = r x) (hq' : ∀ x ∈ ys, p x = false) :
    ((xs ++ ys).find? p).or ((xs ++ ys).find? q) = (xs ++ ys).find? r := by
  have h1 : xs.find? p = xs.find? r := by
    induction xs with
    | nil => rfl
    | cons x xs ih => simp only [List.find?_cons]; rw [hp x (by simp), ih (fun y hy => hp y (by simp [hy])) (fun y hy => hp' y (by simp [hy]))]
  have h2 : ys.find? q = ys.find? r := by
    induction ys with
    | nil => rfl
    | cons x xs ih => simp only [List.find?_cons]; rw [hq x (by simp), ih (fun y hy => hq y (by simp [hy])) (fun y hy => hq' y (by simp [hy]))]
  have h3 : ys.find? p = none := by simpa using hq'
  have h4 : xs.find? q = none := by simpa using hp'
  simp [List.find?_append, h1, h2, h3, h4]

theorem labelled_fst (top : Nat) (bs : Blocks) : (labelled top bs).map (·.1) = bs.flatten := by
  induction bs generalizing top with
  | nil => rfl
  | cons b bs ih => simp [labelled, ih, Function.comp_def]

theorem labelled_le {top : Nat} {bs : Blocks} {x} (h : x ∈ labelled top bs) : x.2 ≤ top := by
  induction bs generalizing top with
  | nil => simp [labelled] at h
  | cons b bs ih =>
    simp only [labelled, List.mem_append, List.mem_map] at h
    rcases h with ⟨d, _, rfl⟩ | h
    · simp
    · have := ih h; omega

theorem labelled_lt {top : Nat} {bs : Blocks} {x} (h : x ∈ labelled (top - 1) bs) (hd : bs.length ≤ top) : x.2 < top := by
  have := labelled_le h
  cases bs with
  | nil => simp [labelled] at h
  | cons b bs => simp only [List.length_cons] at hd; omega

theorem lookup_cons (bs : Blocks) (e : Env) (nm : Ref) : lookup (bs :: e) nm = (lookup [bs] nm).or (lookup e nm) := by
  simp only [lookup, List.flatten_cons, List.flatten_append, List.find?_append, List.flatten_nil, List.append_nil]
  cases List.find? (fun d => d.visible && d.name == nm) bs.flatten <;> simp

/-! ## One function -/

theorem RelFn.flat {fd top nx f bs} (h : RelFn fd top nx f bs) : f.locals.reverse.map declOf = bs.flatten := by
  rw [← labelled_fst top bs, ← h.decls]; simp [Function.comp_def]

theorem RelFn.find {fd top nx f bs} (h : RelFn fd top nx f bs) (nm : Ref) :
    lookup [bs] nm = (findLocal f (fun l => l.name == nm && l.initialized)).map (·.id) := by
  simp only [lookup, List.flatten_cons, List.flatten_nil, List.append_nil, ← h.flat, List.find?_map, findLocal]
  simp only [Option.map_map]
  congr 1
  congr 1
  funext l
  simp [declOf, Bool.and_comm]

theorem findLocal_get {f : Fn} {p l} (h : findLocal f p = some l) : l ∈ f.locals ∧ p l = true := by
  unfold findLocal at h
  exact ⟨by simpa using List.mem_of_find?_eq_some h, List.find?_some h⟩

theorem RelFn.get {fd top nx f bs} (h : RelFn fd top nx f bs) {p l} (hl : findLocal f p = some l) : f.locals[l.index]? = some l := by
  obtain ⟨h1, _⟩ := findLocal_get hl
  obtain ⟨i, hi⟩ := List.mem_iff_getElem?.1 h1
  rw [(h.index i l hi).1]; exact hi

theorem RelFn.fd {fd top nx f bs} (h : RelFn fd top nx f bs) {l} (hl : l ∈ f.locals) : l.functionDepth = fd := by
  obtain ⟨i, hi⟩ := List.mem_iff_getElem?.1 hl
  exact (h.index i l hi).2

theorem RelFn.inner {fd top nx f bs} (h : RelFn fd top nx f bs) (hfd : fd ≠ 0) (nm : Ref) :
    findLocal f (fun l => l.name == nm && l.initialized && !l.isGlobal) = findLocal f (fun l => l.name == nm && l.initialized) := by
  unfold findLocal
  have : ∀ l ∈ f.locals.reverse, (l.name == nm && l.initialized && !l.isGlobal) = (l.name == nm && l.initialized) := by
    intro l hl
    have := h.fd (by simpa using hl)
    simp [Local.isGlobal, this, hfd]
  generalize f.locals.reverse = xs at this
  induction xs with
  | nil => rfl
  | cons x xs ih => simp only [List.find?_cons]; rw [this x (by simp), ih (fun l hl => this l (by simp [hl]))]

/-- Splits the variables of the code that is not in a function: those in blocks, then the globals. -/
theorem labelled_split (bs : Blocks) (hb : bs ≠ []) :
    labelled (bs.length - 1) bs = labelled (bs.length - 1) bs.dropLast ++ (bs.getLast hb).map (fun d => (d, 0)) ∧
    ∀ x ∈ labelled (bs.length - 1) bs.dropLast, 0 < x.2 := by
  induction bs with
  | nil => exact absurd rfl hb
  | cons b bs ih =>
    cases bs with
    | nil => simp [labelled]
    | cons c cs =>
      obtain ⟨h1, h2⟩ := ih (by simp)
      have hl : (b :: c :: cs).length - 1 = cs.length + 1 := by simp
      have hl' : (c :: cs).length - 1 = cs.length := by simp
      rw [hl'] at h1 h2
      constructor
      · rw [hl]
        simp only [List.dropLast_cons_of_ne_nil (by simp : c :: cs ≠ []), List.getLast_cons (by simp : c :: cs ≠ [])]
        rw [labelled, Nat.add_sub_cancel, h1]
        simp [labelled]
      · intro x hx
        rw [hl] at hx
        simp only [List.dropLast_cons_of_ne_nil (by simp : c :: cs ≠ []), labelled, Nat.add_sub_cancel, List.mem_append, List.mem_map] at hx
        rcases hx with ⟨d, _, rfl⟩ | hx
        · simp
        · exact h2 x hx

theorem RelFn.outer {top nx f bs} (h : RelFn 0 top nx f bs) (ht : top = bs.length - 1) (nm : Ref) :
    (findLocal f (fun l => l.name == nm && l.initialized && !l.isGlobal)).or
      (findLocal f (fun l => l.name == nm && l.initialized && l.isGlobal)) = findLocal f (fun l => l.name == nm && l.initialized) ∧
    lookup [bs.dropLast] nm = (findLocal f (fun l => l.name == nm && l.initialized && !l.isGlobal)).map (·.id) := by
  subst ht
  obtain ⟨h1, h2⟩ := labelled_split bs h.nonempty
  have hd := h.decls
  rw [h1] at hd
  obtain ⟨xs, ys, hxy, hx, hy⟩ := List.map_eq_append_iff.1 hd
  have hxs : ∀ l ∈ xs, l.isGlobal = false := by
    intro l hl
    have : (declOf l, l.scopeDepth) ∈ labelled (bs.length - 1) bs.dropLast := by rw [← hx]; exact List.mem_map.2 ⟨l, hl, rfl⟩
    have := h2 _ this
    simp only at this
    simp [Local.isGlobal]; omega
  have hys : ∀ l ∈ ys, l.isGlobal = true := by
    intro l hl
    have h3 : (declOf l, l.scopeDepth) ∈ (bs.getLast h.nonempty).map (fun d => (d, 0)) := by rw [← hy]; exact List.mem_map.2 ⟨l, hl, rfl⟩
    obtain ⟨d, _, hd⟩ := List.mem_map.1 h3
    have h4 : l ∈ f.locals := by
      have : l ∈ f.locals.reverse := by rw [hxy]; simp [hl]
      simpa using this
    have := h.fd h4
    simp only [Prod.mk.injEq] at hd
    simp [Local.isGlobal, this, ← hd.2]
  constructor
  · unfold findLocal
    rw [hxy]
    exact find?_or _ _ _ xs ys (fun l hl => by simp [hxs l hl]) (fun l hl => by simp [hxs l hl]) (fun l hl => by simp [hys l hl])
      (fun l hl => by simp [hys l hl])
  · unfold findLocal
    rw [hxy, List.find?_append]
    have h3 : ys.find? (fun l => l.name == nm && l.initialized && !l.isGlobal) = none := by
      simp only [List.find?_eq_none]
      intro l hl
      simp [hys l hl]
    rw [h3]
    have h4 : bs.dropLast.flatten = xs.map declOf := by
      rw [← labelled_fst (bs.length - 1) bs.dropLast, ← hx]; simp [Function.comp_def]
    simp only [lookup, List.flatten_cons, List.flatten_nil, List.append_nil, h4, List.find?_map, Option.map_map, Option.or_none]
    have h5 : xs.find? ((fun d : Decl => d.visible && d.name == nm) ∘ declOf) = xs.find? (fun l => l.name == nm && l.initialized && !l.isGlobal) := by
      have : ∀ l ∈ xs, ((fun d : Decl => d.visible && d.name == nm) ∘ declOf) l = (l.name == nm && l.initialized && !l.isGlobal) := by
        intro l hl; simp [hxs l hl, declOf, Bool.and_comm]
      clear hx hy hxy h4 hd hxs
      induction xs with
      | nil => rfl
      | cons x xs ih => simp only [List.find?_cons]; rw [this x (by simp), ih (fun l hl => this l (by simp [hl]))]
    rw [h5]; rfl

/-! ## The enclosing functions -/

theorem findIdx_get {ups : List UpValue} {u p} (h : ups.findIdx? (· == u) = some p) : ups[p]? = some u := by
  rw [List.findIdx?_eq_some_iff_getElem] at h
  obtain ⟨h1, h2, _⟩ := h
  simp at h2
  simp [List.getElem?_eq_getElem h1, h2]

theorem findOrAdd_get (ups : List UpValue) (u : UpValue) : (findOrAdd ups u).1[(findOrAdd ups u).2]? = some u := by
  unfold findOrAdd
  split
  · next p hp => exact findIdx_get hp
  · simp

theorem bubble_get (ups : List UpValue) (i : Nat) : (bubble true ups i).1[(bubble true ups i).2]? = some ⟨false, i⟩ := by
  unfold bubble
  split
  · next p hp => exact findIdx_get hp
  · simp

theorem bubble_aligned (ups : List UpValue) (i : Nat) (h : ∀ p j : Nat, ups[p]? = some ⟨false, j⟩ → p = j) :
    (bubble false ups i).1[(bubble false ups i).2]? = some ⟨false, i⟩ := by
  unfold bubble
  split
  · next p hp =>
    have := findIdx_get hp
    have := h p i this
    subst this
    simpa using findIdx_get hp
  · simp

theorem modify_id (ls : List Local) (i j : Nat) (g : Local → Local) (hg : ∀ l, (g l).id = l.id) :
    (ls.modify i g)[j]?.map (·.id) = ls[j]?.map (·.id) := by
  rw [List.getElem?_modify]
  cases ls[j]? with
  | none => simp
  | some l => by_cases h : i = j <;> simp [h, hg]

/-- The entries that may be found are where their index says. -/
def Aligned (fs : List Fn) : Prop := ∀ f ∈ fs, ∀ p j : Nat, f.ups[p]? = some ⟨false, j⟩ → p = j

theorem RelFn.here {fd top nx f bs} (h : RelFn fd top nx f bs) {p l} (hl : findLocal f p = some l) (fs : List Fn) :
    chain ({ locals := f.locals.modify l.index (fun l => { l with captured := true }), ups := (findOrAdd f.ups ⟨true, l.index⟩).1 } :: fs)
      (findOrAdd f.ups ⟨true, l.index⟩).2 = some l.id := by
  unfold chain
  rw [findOrAdd_get]
  simp only
  refine (modify_id f.locals l.index l.index (fun l => { l with captured := true }) (fun _ => rfl)).trans ?_
  rw [h.get hl, Option.map_some]

theorem lookup_nil (nm : Ref) : lookup [] nm = none := by simp [lookup]

theorem RelFns.nonglobal {nx : Nat} {f : Fn} {fs : List Fn} {bs : Blocks} {e : Env} (h : RelFns nx (f :: fs) (bs :: e)) (nm : Ref) :
    lookup (withoutGlobals (bs :: e)) nm =
      ((findLocal f (fun l => l.name == nm && l.initialized && !l.isGlobal)).map (·.id)).or (lookup (withoutGlobals e) nm) := by
  obtain ⟨h1, h2⟩ := h
  cases fs with
  | nil =>
    cases e with
    | nil =>
      simp only [withoutGlobals, lookup_nil, Option.or_none]
      exact (RelFn.outer (by simpa using h1) (by simp [total]) nm).2
    | cons => exact h2.elim
  | cons g fs =>
    cases e with
    | nil => exact h2.elim
    | cons b e =>
      rw [withoutGlobals, lookup_cons, h1.inner (by simp), h1.find]

theorem capture_some {fix : Bool} {nx : Nat} {nm : Ref} {fs : List Fn} {e : Env} (h : RelFns nx fs e) (hf : fix = true ∨ Aligned fs)
    {fs' i} (hc : capture fix nm fs = some (fs', i)) : ∃ id, chain fs' i = some id ∧ lookup (withoutGlobals e) nm = some id := by
  induction fs generalizing e fs' i with
  | nil => simp [capture] at hc
  | cons f fs ih =>
    cases e with
    | nil => exact h.elim
    | cons bs e =>
      have hng := h.nonglobal nm
      obtain ⟨h1, h2⟩ := h
      unfold capture at hc
      split at hc
      · next l hl =>
        simp only [Option.some.injEq, Prod.mk.injEq] at hc
        obtain ⟨rfl, rfl⟩ := hc
        exact ⟨l.id, h1.here hl fs, by rw [hng, hl]; simp⟩
      · next hl =>
        split at hc
        · simp at hc
        · next fs₁ j hj =>
          simp only [Option.some.injEq, Prod.mk.injEq] at hc
          obtain ⟨rfl, rfl⟩ := hc
          obtain ⟨id, hid, hlk⟩ := ih h2 (hf.imp_right fun h g hg => h g (by simp [hg])) hj
          refine ⟨id, ?_, by rw [hng, hl, hlk]; simp⟩
          unfold chain
          have : (bubble fix f.ups j).1[(bubble fix f.ups j).2]? = some ⟨false, j⟩ := by
            cases fix
            · exact bubble_aligned _ _ (hf.resolve_left (by simp) f (by simp))
            · exact bubble_get _ _
          simp only [this, hid]

theorem capture_none {fix : Bool} {nx : Nat} {nm : Ref} {fs : List Fn} {e : Env} (h : RelFns nx fs e)
    (hc : capture fix nm fs = none) : lookup (withoutGlobals e) nm = none := by
  induction fs generalizing e with
  | nil =>
    cases e with
    | nil => simp [withoutGlobals, lookup_nil]
    | cons => exact h.elim
  | cons f fs ih =>
    cases e with
    | nil => exact h.elim
    | cons bs e =>
      have hng := h.nonglobal nm
      obtain ⟨h1, h2⟩ := h
      unfold capture at hc
      split at hc
      · simp at hc
      · next hl =>
        split at hc
        · next hj => rw [hng, hl, ih h2 hj]; rfl
        · simp at hc

/-- The globals are looked up last. -/
theorem RelFns.global {nx : Nat} {fs : List Fn} {e : Env} (h : RelFns nx fs e) (nm : Ref) {g : Fn} (hg : fs.getLast? = some g)
    (hn : lookup (withoutGlobals e) nm = none) :
    lookup e nm = (findLocal g (fun l => l.name == nm && l.initialized && l.isGlobal)).map (·.id) := by
  induction fs generalizing e with
  | nil => simp at hg
  | cons f fs ih =>
    cases e with
    | nil => exact h.elim
    | cons bs e =>
      have hng := h.nonglobal nm
      obtain ⟨h1, h2⟩ := h
      rw [hng] at hn
      cases fs with
      | nil =>
        cases e with
        | cons => exact h2.elim
        | nil =>
          simp only [List.getLast?_singleton, Option.some.injEq] at hg
          subst hg
          have h3 := (RelFn.outer (by simpa using h1) (by simp [total]) nm).1
          rw [h1.find, ← h3]
          have : findLocal f (fun l => l.name == nm && l.initialized && !l.isGlobal) = none := by
            cases hx : findLocal f (fun l => l.name == nm && l.initialized && !l.isGlobal) with
            | none => rfl
            | some l => simp [hx] at hn
          simp [this]
      | cons f' fs =>
        cases e with
        | nil => exact h2.elim
        | cons b e =>
          have hx : findLocal f (fun l => l.name == nm && l.initialized && !l.isGlobal) = none := by
            cases hx : findLocal f (fun l => l.name == nm && l.initialized && !l.isGlobal) with
            | none => rfl
            | some l => simp [hx] at hn
          rw [lookup_cons, h1.find, ← h1.inner (by simp), hx]
          simp only [hx, Option.map_none, Option.none_or] at hn ⊢
          exact ih h2 (by simpa using hg) hn

/-! ## Histories -/

theorem RelFns.length {nx : Nat} {fs : List Fn} {e : Env} (h : RelFns nx fs e) : fs.length = e.length := by
  induction fs generalizing e with
  | nil => cases e with
    | nil => rfl
    | cons => exact h.elim
  | cons f fs ih => cases e with
    | nil => exact h.elim
    | cons bs e => simp [ih h.2]

theorem RelFns.mono {nx nx' : Nat} (hn : nx ≤ nx') {fs : List Fn} {e : Env} (h : RelFns nx fs e) : RelFns nx' fs e := by
  induction fs generalizing e with
  | nil => cases e <;> simp_all [RelFns]
  | cons f fs ih =>
    cases e with
    | nil => exact h.elim
    | cons bs e =>
      obtain ⟨h1, h2⟩ := h
      exact ⟨{ h1 with fresh := fun l hl => Nat.lt_of_lt_of_le (h1.fresh l hl) hn }, ih h2⟩

/-- Only the declarations matter, not the upvalues or which variables are captured. -/
theorem RelFn.congr {fd top nx f bs} (h : RelFn fd top nx f bs) {f' : Fn}
    (hl : f'.locals.map (fun l => (declOf l, l.scopeDepth, l.index, l.functionDepth)) = f.locals.map (fun l => (declOf l, l.scopeDepth, l.index, l.functionDepth))) :
    RelFn fd top nx f' bs := by
  have h1 : f'.locals.map (fun l => (declOf l, l.scopeDepth)) = f.locals.map (fun l => (declOf l, l.scopeDepth)) := by
    have := congrArg (List.map (fun x : Decl × Nat × Nat × Nat => (x.1, x.2.1))) hl
    simpa [Function.comp_def] using this
  have h2 : f'.locals.map (·.id) = f.locals.map (·.id) := by
    have := congrArg (List.map (fun x : Decl × Nat × Nat × Nat => x.1.id)) hl
    simpa [Function.comp_def, declOf] using this
  refine ⟨?_, ?_, by rw [h2]; exact h.ids, ?_, h.nonempty, h.deep, ?_⟩
  · rw [List.map_reverse, h1, ← List.map_reverse]; exact h.decls
  · intro i l hi
    have := congrArg (fun xs => xs[i]?) hl
    simp only [List.getElem?_map, hi, Option.map_some] at this
    cases hk : f.locals[i]? with
    | none => simp [hk] at this
    | some k =>
      simp only [hk, Option.map_some, Option.some.injEq, Prod.mk.injEq] at this
      have hh := h.index i k hk
      exact ⟨this.2.2.1.trans hh.1, this.2.2.2.trans hh.2⟩
  · intro l hl'
    have : l.id ∈ f.locals.map (·.id) := by rw [← h2]; exact List.mem_map.2 ⟨l, hl', rfl⟩
    obtain ⟨k, hk, hk'⟩ := List.mem_map.1 this
    rw [← hk']; exact h.fresh k hk
  · intro hfd l hl'
    have : declOf l ∈ f.locals.map declOf := by
      have h3 := congrArg (List.map (fun x : Decl × Nat × Nat × Nat => x.1)) hl
      simp only [List.map_map, Function.comp_def] at h3
      rw [← h3]; exact List.mem_map.2 ⟨l, hl', rfl⟩
    obtain ⟨k, hk, hk'⟩ := List.mem_map.1 this
    have h4 : k.name = l.name := congrArg Decl.name hk'
    rw [← h4]; exact h.noself hfd k hk

theorem map_modify {α β} (ls : List α) (i : Nat) (g : α → α) (k : α → β) (hg : ∀ l, k (g l) = k l) : (ls.modify i g).map k = ls.map k := by
  induction ls generalizing i with
  | nil => simp
  | cons l ls ih =>
    cases i with
    | zero => simp [hg]
    | succ i => simp [ih]

theorem capture_rel {fix : Bool} {nx : Nat} {nm : Ref} {fs : List Fn} {e : Env} (h : RelFns nx fs e)
    {fs' i} (hc : capture fix nm fs = some (fs', i)) : RelFns nx fs' e ∧ fs'.length = fs.length := by
  induction fs generalizing e fs' i with
  | nil => simp [capture] at hc
  | cons f fs ih =>
    cases e with
    | nil => exact h.elim
    | cons bs e =>
      obtain ⟨h1, h2⟩ := h
      unfold capture at hc
      split at hc
      · next l hl =>
        simp only [Option.some.injEq, Prod.mk.injEq] at hc
        obtain ⟨rfl, rfl⟩ := hc
        exact ⟨⟨h1.congr (map_modify _ _ _ _ (by simp [declOf])), h2⟩, by simp⟩
      · next hl =>
        split at hc
        · simp at hc
        · next fs₁ j hj =>
          simp only [Option.some.injEq, Prod.mk.injEq] at hc
          obtain ⟨rfl, rfl⟩ := hc
          obtain ⟨h3, h4⟩ := ih h2 hj
          exact ⟨⟨by rw [h4]; exact h1.congr rfl, h3⟩, by simp [h4]⟩

theorem resolve_rel {fix : Bool} {native : String → Bool} {s : St} {p : Spec} (h : Rel s p) (nm : Ref) :
    Rel (resolve fix native s nm).1 p := by
  unfold resolve
  split
  · exact h
  · split
    · exact h
    · split
      · next fs' i hc =>
        obtain ⟨hf, hd, hn⟩ := h
        cases he : p.env with
        | nil => rw [he] at hf; exact hf.elim
        | cons bs e =>
          rw [he] at hf
          obtain ⟨h1, h2⟩ := hf
          obtain ⟨h3, h4⟩ := capture_rel h2 hc
          refine ⟨?_, hd, hn⟩
          rw [he]
          exact ⟨by rw [h4]; exact h1, h3⟩
      · exact h

theorem RelFn.add {fd top nx f b bs} (h : RelFn fd top nx f (b :: bs)) (nm : Ref) (init : Bool) (hs : fd = 0 → nm ≠ .this) :
    RelFn fd top (nx + 1) { f with locals := f.locals ++ [⟨nm, f.locals.length, top, fd, init, false, nx⟩] } ((⟨nm, nx, init⟩ :: b) :: bs) := by
  refine ⟨?_, ?_, ?_, ?_, by simp, by simpa using h.deep, ?_⟩
  · have := h.decls
    simp only [labelled] at this ⊢
    rw [List.reverse_append, List.map_append, this]
    simp [declOf]
  · intro i l hi
    simp only at hi
    rw [List.getElem?_append] at hi
    split at hi
    · exact h.index i l hi
    · have : i = f.locals.length := by
        by_contra hne
        rw [List.getElem?_eq_none (by simp; omega)] at hi
        simp at hi
      subst this
      simp at hi
      subst hi
      simp
  · simp only [List.map_append, List.map_cons, List.map_nil, List.pairwise_append, List.pairwise_cons]
    refine ⟨h.ids, by simp, ?_⟩
    intro x hx y hy
    obtain ⟨l, hl, rfl⟩ := List.mem_map.1 hx
    simp at hy; subst hy
    exact h.fresh l hl
  · intro l hl
    simp only [List.mem_append, List.mem_singleton] at hl
    rcases hl with hl | rfl
    · exact Nat.lt_succ_of_lt (h.fresh l hl)
    · exact Nat.lt_succ_self _
  · intro hfd l hl
    simp only [List.mem_append, List.mem_singleton] at hl
    rcases hl with hl | rfl
    · exact h.noself hfd l hl
    · exact hs hfd

theorem modify_append_last {α} (xs : List α) (x : α) (g : α → α) : (xs ++ [x]).modify xs.length g = xs ++ [g x] := by
  induction xs with
  | nil => simp
  | cons y ys ih => simp [ih]

theorem RelFns.add {nx : Nat} {f : Fn} {fs : List Fn} {b : Block} {bs : Blocks} {e : Env} (h : RelFns nx (f :: fs) ((b :: bs) :: e)) (nm : Ref) (init : Bool)
    (hs : fs.length = 0 → nm ≠ .this) :
    RelFns (nx + 1) ({ f with locals := f.locals ++ [⟨nm, f.locals.length, total ((b :: bs) :: e) - 1, fs.length, init, false, nx⟩] } :: fs)
      (((⟨nm, nx, init⟩ :: b) :: bs) :: e) := by
  obtain ⟨h1, h2⟩ := h
  exact ⟨by simpa [total] using h1.add nm init hs, h2.mono (Nat.le_succ _)⟩

theorem Rel.shape {s p} (h : Rel s p) : ∃ b bs e, p.env = (b :: bs) :: e := by
  cases he : p.env with
  | nil => have := h.fns; rw [he] at this; exact this.elim
  | cons bs e =>
    cases bs with
    | nil => have := h.fns; rw [he] at this; exact absurd rfl this.1.nonempty
    | cons b bs => exact ⟨b, bs, e, rfl⟩

theorem declareInternal_rel {s p} (h : Rel s p) (nm : Ref) (init : Bool) (hs : s.encl.length = 0 → nm ≠ .this) :
    Rel { (if init then initLocal (declareInternal s nm) s.cur.locals.length else declareInternal s nm) with next := s.next + 1 }
      { env := addDecl p.env ⟨nm, p.next, init⟩, next := p.next + 1 } := by
  obtain ⟨b, bs, e, he⟩ := h.shape
  obtain ⟨hf, hd, hn⟩ := h
  rw [he] at hf hd
  have := hf.add nm init hs
  rw [← hd] at this
  refine ⟨?_, ?_, by simp [hn]⟩
  · rw [he]
    cases init
    · simpa [declareInternal, addDecl, hn] using this
    · simpa [declareInternal, initLocal, modify_append_last, addDecl, hn] using this
  · rw [he]
    cases init <;> simp [declareInternal, initLocal, hd, addDecl, total]

theorem declaredHere_eq {s p} (h : Rel s p) (nm : Ref) :
    s.cur.locals.any (fun l => l.scopeDepth == s.scopeDepth && l.name == nm) = declaredHere p.env nm := by
  obtain ⟨b, bs, e, he⟩ := h.shape
  obtain ⟨hf, hd, hn⟩ := h
  rw [he] at hf hd ⊢
  obtain ⟨h1, h2⟩ := hf
  rw [← hd] at h1
  have hdd := h1.decls
  have key : (s.cur.locals.reverse.map (fun l => (declOf l, l.scopeDepth))).any (fun x => x.2 == s.scopeDepth && x.1.name == nm)
      = b.any (fun d => d.name == nm) := by
    rw [hdd]
    simp only [labelled, List.any_append, List.any_map]
    have : (labelled (s.scopeDepth - 1) bs).any (fun x => x.2 == s.scopeDepth && x.1.name == nm) = false := by
      rw [List.any_eq_false]
      intro x hx
      have := labelled_lt hx (by have := h1.deep; simpa using this)
      simp; omega
    rw [this]
    simp [Function.comp_def]
  simp only [List.any_map] at key
  simp only [declaredHere, ← key]
  rw [List.any_reverse]
  congr 1

theorem initId_rel {s p} (h : Rel s p) (id : Nat) : Rel (initId s id) { p with env := reveal p.env id } := by
  obtain ⟨b, bs, e, he⟩ := h.shape
  obtain ⟨hf, hd, hn⟩ := h
  rw [he] at hf hd
  obtain ⟨h1, h2⟩ := hf
  have hmap : (initId s id).cur.locals = s.cur.locals.map (fun l => if l.id = id then { l with initialized := true } else l) := by
    unfold initId
    have key : ∀ ls : List Local, (ls.map (·.id)).Pairwise (· < ·) →
        (match ls.findIdx? (fun l => l.id == id) with
          | some i => ls.modify i (fun l => { l with initialized := true })
          | none => ls) = ls.map (fun l => if l.id = id then { l with initialized := true } else l) := by
      intro ls
      induction ls with
      | nil => simp
      | cons l ls ih =>
        intro hp
        simp only [List.map_cons, List.pairwise_cons] at hp
        by_cases hl : l.id = id
        · simp only [List.findIdx?_cons, hl, beq_self_eq_true, if_true, List.modify_zero_cons, List.map_cons, List.cons.injEq, true_and]
          symm
          conv_rhs => rw [← List.map_id ls]
          apply List.map_congr_left
          intro k hk
          have := hp.1 k.id (List.mem_map.2 ⟨k, hk, rfl⟩)
          rw [if_neg (by omega)]; rfl
        · simp only [List.findIdx?_cons, beq_iff_eq, hl, if_false, List.map_cons]
          rw [← ih hp.2]
          cases hx : ls.findIdx? (fun l => l.id == id) <;> simp
    rw [← key _ h1.ids]
    cases hx : s.cur.locals.findIdx? (fun l => l.id == id) <;> simp [initLocal]
  have hcur : RelFn s.encl.length (total ((b :: bs) :: e) - 1) s.next (initId s id).cur
      ((b :: bs).map (fun b => b.map (fun d => if d.id = id then { d with visible := true } else d))) := by
    refine ⟨?_, ?_, ?_, ?_, by simp, by simpa using h1.deep, ?_⟩
    · rw [hmap]
      have hlab : ∀ top (bs : Blocks), labelled top (bs.map (fun b => b.map (fun d => if d.id = id then { d with visible := true } else d)))
          = (labelled top bs).map (fun x => (if x.1.id = id then { x.1 with visible := true } else x.1, x.2)) := by
        intro top bs
        induction bs generalizing top with
        | nil => rfl
        | cons b bs ih => simp [labelled, ih, Function.comp_def]
      rw [hlab, ← h1.decls, ← List.map_reverse, List.map_map, List.map_map]
      apply List.map_congr_left
      intro l _
      by_cases hl : l.id = id <;> simp [hl, declOf]
    · intro i l hi
      rw [hmap, List.getElem?_map] at hi
      cases hk : s.cur.locals[i]? with
      | none => simp [hk] at hi
      | some k =>
        simp only [hk, Option.map_some, Option.some.injEq] at hi
        have := h1.index i k hk
        subst hi
        split <;> exact this
    · rw [hmap, List.map_map]
      have : ((fun x : Local => x.id) ∘ fun l : Local => if l.id = id then { l with initialized := true } else l) = (·.id) := by
        funext l; simp only [Function.comp]; split <;> rfl
      rw [this]; exact h1.ids
    · intro l hl
      rw [hmap] at hl
      obtain ⟨k, hk, rfl⟩ := List.mem_map.1 hl
      have := h1.fresh k hk
      split <;> exact this
    · intro hfd l hl
      rw [hmap] at hl
      obtain ⟨k, hk, rfl⟩ := List.mem_map.1 hl
      have := h1.noself hfd k hk
      split <;> exact this
  have hrest : (initId s id).encl = s.encl ∧ (initId s id).scopeDepth = s.scopeDepth ∧ (initId s id).next = s.next := by
    unfold initId; split <;> simp [initLocal]
  refine ⟨?_, ?_, ?_⟩
  · rw [he, hrest.1, hrest.2.2]
    refine ⟨?_, h2⟩
    simpa [total] using hcur
  · rw [hrest.2.1, hd, he]; simp [reveal, total]
  · rw [hrest.2.2]; exact hn

theorem popLoop_locals (min : Nat) (keep : List Local) (hk : ∀ l ∈ keep, l.scopeDepth < min) :
    ∀ (n : Nat) (f : Fn), f.locals.length = n → (∃ drop, f.locals = keep ++ drop ∧ ∀ l ∈ drop, min ≤ l.scopeDepth) →
    (popLoop min n f).locals = keep := by
  have stay : ∀ (n : Nat) (f : Fn), n ≤ f.locals.length → (∀ l ∈ f.locals, l.scopeDepth < min) → popLoop min n f = f := by
    intro n
    induction n with
    | zero => intros; rfl
    | succ i ih =>
      intro f hn hl
      unfold popLoop
      rw [List.getElem?_eq_getElem (by omega : i < f.locals.length)]
      simp only
      rw [if_neg (by have := hl _ (List.getElem_mem (by omega : i < f.locals.length)); omega)]
      exact ih f (by omega) hl
  intro n
  induction n with
  | zero =>
    rintro f hn ⟨drop, hf, hd⟩
    have : f.locals = [] := by simpa using hn
    rw [this] at hf
    have hkn : keep = [] := by simpa using (List.append_eq_nil_iff.1 hf.symm).1
    simp [popLoop, this, hkn]
  | succ i ih =>
    rintro f hn ⟨drop, hf, hd⟩
    rcases List.eq_nil_or_concat drop with rfl | ⟨drop', x, rfl⟩
    · rw [stay (i + 1) f (by omega) (by rw [hf]; simpa using hk), hf]; simp
    · have hlen : (keep ++ drop').length = i := by
        rw [hf] at hn; simp at hn ⊢; omega
      unfold popLoop
      have hg : f.locals[i]? = some x := by
        rw [hf, List.concat_eq_append, ← List.append_assoc, ← hlen]; simp
      rw [hg]
      simp only
      rw [if_pos (hd x (by simp))]
      have hdl : f.locals.dropLast = keep ++ drop' := by rw [hf, List.concat_eq_append, ← List.append_assoc]; simp
      apply ih
      · rw [hdl]; exact hlen
      · exact ⟨drop', hdl, fun l hl => hd l (by simp [hl])⟩

theorem popLocals_rel {fd top nx : Nat} {f : Fn} {b c : Block} {cs : Blocks} (h : RelFn fd top nx f (b :: c :: cs)) :
    RelFn fd (top - 1) nx (popLocals f top) (c :: cs) := by
  have hd := h.decls
  rw [labelled] at hd
  obtain ⟨xs, ys, hxy, hx, hy⟩ := List.map_eq_append_iff.1 hd
  have hf : f.locals = ys.reverse ++ xs.reverse := by
    have := congrArg List.reverse hxy; simpa using this
  have hkeep : ∀ l ∈ ys.reverse, l.scopeDepth < top := by
    intro l hl
    have : (declOf l, l.scopeDepth) ∈ labelled (top - 1) (c :: cs) := by rw [← hy]; exact List.mem_map.2 ⟨l, by simpa using hl, rfl⟩
    exact labelled_lt this (by have := h.deep; simpa using this)
  have hdrop : ∀ l ∈ xs.reverse, top ≤ l.scopeDepth := by
    intro l hl
    have : (declOf l, l.scopeDepth) ∈ b.map (fun d => (d, top)) := by rw [← hx]; exact List.mem_map.2 ⟨l, by simpa using hl, rfl⟩
    obtain ⟨d, _, hd⟩ := List.mem_map.1 this
    simp only [Prod.mk.injEq] at hd
    omega
  have hl : (popLocals f top).locals = ys.reverse :=
    popLoop_locals top ys.reverse hkeep f.locals.length f rfl ⟨xs.reverse, hf, hdrop⟩
  refine ⟨by rw [hl]; simpa using hy, ?_, ?_, ?_, by simp, by have := h.deep; simp at this ⊢; omega, ?_⟩
  · intro i l hi
    rw [hl] at hi
    apply h.index i l
    rw [hf, List.getElem?_append]
    split
    · exact hi
    · rw [List.getElem?_eq_none (by omega)] at hi; simp at hi
  · rw [hl]
    have := h.ids
    rw [hf, List.map_append, List.pairwise_append] at this
    exact this.1
  · intro l hl'
    rw [hl] at hl'
    exact h.fresh l (by rw [hf]; simp at hl' ⊢; exact Or.inl hl')
  · intro hfd l hl'
    rw [hl] at hl'
    exact h.noself hfd l (by rw [hf]; simp at hl' ⊢; exact Or.inl hl')

theorem step_rel {fix : Bool} {native : String → Bool} {s : St} {p p' : Spec} (h : Rel s p) (op : Op) (hp : specStep native p op = some p') :
    Rel (step fix native s op) p' := by
  cases op with
  | declare nm init =>
    simp only [specStep, Option.some.injEq] at hp
    subst hp
    simp only [step, declareLocal]
    by_cases hn : native nm = true
    · simp only [hn, if_true, Bool.true_or]
      exact ⟨h.fns.mono (Nat.le_succ _), h.depth, by simp [h.next]⟩
    · simp only [hn, Bool.false_eq_true, if_false, Bool.false_or, declaredHere_eq h]
      by_cases hd : declaredHere p.env (.named nm) = true
      · simp only [hd, if_true]
        exact ⟨h.fns.mono (Nat.le_succ _), h.depth, by simp [h.next]⟩
      · simp only [hd, Bool.false_eq_true, if_false]
        exact declareInternal_rel h (.named nm) init (by simp)
  | declareSelf =>
    simp only [specStep] at hp
    split at hp
    · simp at hp
    · next hlen =>
      simp only [Option.some.injEq] at hp
      subst hp
      have := h.fns.length
      simp only [List.length_cons] at this
      exact declareInternal_rel h .this true (by omega)
  | declareSynthetic =>
    simp only [specStep, Option.some.injEq] at hp
    subst hp
    exact declareInternal_rel h .synthetic false (by simp)
  | init id =>
    simp only [specStep, Option.some.injEq] at hp
    subst hp
    exact initId_rel h id
  | openBlock =>
    obtain ⟨b, bs, e, he⟩ := h.shape
    simp only [specStep, he, Option.some.injEq] at hp
    subst hp
    have hf := h.fns
    have hd := h.depth
    rw [he] at hf hd
    obtain ⟨h1, h2⟩ := hf
    refine ⟨⟨?_, h2⟩, ?_, h.next⟩
    · refine ⟨?_, h1.index, h1.ids, h1.fresh, by simp, ?_, h1.noself⟩
      · simp only [step]
        rw [h1.decls]
        simp [labelled, total]
      · simp [total]
    · simp only [step, hd]; simp [total]; omega
  | closeBlock =>
    simp only [specStep] at hp
    split at hp
    · next x b bs fs he =>
      simp only [Option.some.injEq] at hp
      subst hp
      have hf := h.fns
      have hd := h.depth
      rw [he] at hf hd
      obtain ⟨h1, h2⟩ := hf
      simp only [step]
      refine ⟨⟨?_, h2⟩, ?_, h.next⟩
      · rw [hd]
        have := popLocals_rel h1
        have ht : total ((x :: b :: bs) :: fs) - 1 - 1 = total ((b :: bs) :: fs) - 1 := by simp [total]
        rw [ht] at this
        exact this
      · simp only [hd]; simp [total]
    · simp at hp
  | openFn =>
    simp only [specStep, Option.some.injEq] at hp
    subst hp
    refine ⟨⟨?_, h.fns⟩, ?_, h.next⟩
    · exact ⟨by simp [labelled, step], by simp [step], by simp [step], by simp [step], by simp, by simp [total], by simp [step]⟩
    · obtain ⟨b, bs, e, he⟩ := h.shape
      simp only [step, h.depth, he]; simp [total]; omega
  | closeFn =>
    simp only [specStep] at hp
    split at hp
    · next x f fs he =>
      simp only [Option.some.injEq] at hp
      subst hp
      have hf := h.fns
      have hd := h.depth
      rw [he] at hf hd
      obtain ⟨h1, h2⟩ := hf
      simp only [step]
      cases hen : s.encl with
      | nil => rw [hen] at h2; exact h2.elim
      | cons g gs =>
        rw [hen] at h2
        refine ⟨by simpa [closeFn, hen] using h2, ?_, by simpa [closeFn, hen] using h.next⟩
        simp only [closeFn, hen, hd]
        simp [total]
    · simp at hp
  | ref nm =>
    simp only [specStep, Option.some.injEq] at hp
    subst hp
    exact resolve_rel h nm

theorem rel_init : Rel {} {} := by
  refine ⟨⟨⟨by simp [labelled], by simp, by simp, by simp, by simp, by simp [total], by simp⟩, trivial⟩, by simp [total], rfl⟩

theorem runFrom_rel {fix : Bool} {native : String → Bool} (ops : List Op) {s : St} {p p' : Spec} (h : Rel s p)
    (hp : specRunFrom native p ops = some p') : Rel (ops.foldl (step fix native) s) p' := by
  induction ops generalizing s p with
  | nil => simp only [specRunFrom, Option.some.injEq] at hp; subst hp; exact h
  | cons op ops ih =>
    simp only [specRunFrom, Option.bind_eq_some_iff] at hp
    obtain ⟨q, hq, hq'⟩ := hp
    exact ih (step_rel h op hq) hq'

theorem run_rel {fix : Bool} {native : String → Bool} {ops : List Op} {p : Spec} (hp : specRun native ops = some p) :
    Rel (run fix native ops) p := runFrom_rel ops rel_init hp

/-! ## What a name means -/

/-- No visible declaration has the name of a native function. -/
def NoNative (native : String → Bool) (e : Env) : Prop := ∀ d ∈ e.flatten.flatten, isNative native d.name = false

theorem noNative_step {native : String → Bool} {p p' : Spec} (h : NoNative native p.env) (op : Op) (hp : specStep native p op = some p') :
    NoNative native p'.env := by
  have hadd : ∀ (e : Env) (d : Decl), NoNative native e → isNative native d.name = false → NoNative native (addDecl e d) := by
    intro e d he hd
    unfold addDecl
    split
    · intro x hx
      simp only [List.flatten_cons, List.flatten_append, List.mem_append, List.cons_append, List.mem_cons] at hx
      rcases hx with rfl | hx
      · exact hd
      · exact he x (by simpa only [List.flatten_cons, List.flatten_append, List.mem_append, or_assoc] using hx)
    · exact he
  cases op with
  | declare nm init =>
    simp only [specStep, Option.some.injEq] at hp
    subst hp
    simp only
    split
    · exact h
    · next hc =>
      simp only [Bool.or_eq_true, not_or] at hc
      exact hadd _ _ h (by simpa [isNative] using hc.1)
  | declareSelf =>
    simp only [specStep] at hp
    split at hp
    · simp at hp
    · simp only [Option.some.injEq] at hp; subst hp; exact hadd _ _ h rfl
  | declareSynthetic => simp only [specStep, Option.some.injEq] at hp; subst hp; exact hadd _ _ h rfl
  | init id =>
    simp only [specStep, Option.some.injEq] at hp; subst hp
    simp only
    unfold reveal
    split
    · next f fs he =>
      rw [he] at h
      intro x hx
      simp only [List.flatten_cons, List.flatten_append, List.mem_append] at hx
      rcases hx with hx | hx
      · simp only [List.mem_flatten, List.mem_map] at hx
        obtain ⟨_, ⟨b, hb, rfl⟩, hx⟩ := hx
        obtain ⟨d, hd, rfl⟩ := List.mem_map.1 hx
        have := h d (by simp only [List.flatten_cons, List.flatten_append, List.mem_append, List.mem_flatten]; exact Or.inl ⟨b, hb, hd⟩)
        split <;> exact this
      · exact h x (by simp only [List.flatten_cons, List.flatten_append, List.mem_append]; exact Or.inr hx)
    · intro x hx; simp at hx
  | openBlock =>
    simp only [specStep] at hp
    split at hp
    · next f fs he => simp only [Option.some.injEq] at hp; subst hp; rw [he] at h; intro x hx; exact h x (by simpa using hx)
    · simp at hp
  | closeBlock =>
    simp only [specStep] at hp
    split at hp
    · next b0 b bs fs he =>
      simp only [Option.some.injEq] at hp; subst hp; rw [he] at h
      intro x hx
      refine h x ?_
      simp only [List.flatten_cons, List.flatten_append, List.mem_append] at hx ⊢
      rcases hx with (hx | hx) | hx
      · exact Or.inl (Or.inr (Or.inl hx))
      · exact Or.inl (Or.inr (Or.inr hx))
      · exact Or.inr hx
    · simp at hp
  | openFn =>
    simp only [specStep, Option.some.injEq] at hp; subst hp
    intro x hx; exact h x (by simpa using hx)
  | closeFn =>
    simp only [specStep] at hp
    split at hp
    · next b0 f fs he =>
      simp only [Option.some.injEq] at hp; subst hp; rw [he] at h
      intro x hx
      refine h x ?_
      rw [List.flatten_cons, List.flatten_append, List.mem_append]
      exact Or.inr hx
    · simp at hp
  | ref nm => simp only [specStep, Option.some.injEq] at hp; subst hp; exact h

theorem noNative_run {native : String → Bool} {ops : List Op} {p : Spec} (hp : specRun native ops = some p) : NoNative native p.env := by
  have key : ∀ (ops : List Op) (q : Spec), NoNative native q.env → specRunFrom native q ops = some p → NoNative native p.env := by
    intro ops
    induction ops with
    | nil => intro q hq h; simp only [specRunFrom, Option.some.injEq] at h; subst h; exact hq
    | cons op ops ih =>
      intro q hq h
      simp only [specRunFrom, Option.bind_eq_some_iff] at h
      obtain ⟨r, hr, hr'⟩ := h
      exact ih r (noNative_step hq op hr) hr'
  exact key ops {} (by intro x hx; simp at hx) hp

theorem lookup_native {native : String → Bool} {e : Env} (h : NoNative native e) {nm : Ref} (hn : isNative native nm = true) : lookup e nm = none := by
  unfold lookup
  rw [Option.map_eq_none_iff, List.find?_eq_none]
  intro d hd
  have := h d hd
  intro hc
  simp only [Bool.and_eq_true, beq_iff_eq] at hc
  rw [hc.2, hn] at this
  simp at this

theorem lookup_or_global {nx : Nat} {f : Fn} {fs : List Fn} {bs : Blocks} {e : Env} (h : RelFns nx (f :: fs) (bs :: e)) (nm : Ref) (id : Nat)
    (hn : lookup (withoutGlobals (bs :: e)) nm = some id) : lookup (bs :: e) nm = some id := by
  induction e generalizing bs f fs with
  | nil =>
    cases fs with
    | cons => exact h.2.elim
    | nil =>
      have h1 : RelFn 0 (bs.length - 1) nx f bs := by simpa [total] using h.1
      have h2 := (h1.outer rfl nm).1
      rw [withoutGlobals, (h1.outer rfl nm).2] at hn
      rw [h1.find, ← h2]
      cases hx : findLocal f (fun l => l.name == nm && l.initialized && !l.isGlobal) with
      | none => simp [hx] at hn
      | some l => simpa [hx] using hn
  | cons b e ih =>
    cases fs with
    | nil => exact h.2.elim
    | cons g gs =>
      rw [withoutGlobals, lookup_cons] at hn
      rw [lookup_cons]
      cases hx : lookup [bs] nm with
      | some x => simpa [hx] using hn
      | none =>
        simp only [hx, Option.none_or] at hn ⊢
        exact ih h.2 hn

theorem RelFns.last {nx : Nat} {fs : List Fn} {e : Env} (h : RelFns nx fs e) {gl : Fn} (hgl : fs.getLast? = some gl) :
    ∃ top bs, RelFn 0 top nx gl bs := by
  induction fs generalizing e with
  | nil => simp at hgl
  | cons f fs ih =>
    cases e with
    | nil => exact h.elim
    | cons bs e =>
      cases fs with
      | nil => simp at hgl; subst hgl; exact ⟨_, _, h.1⟩
      | cons f' fs => exact ih h.2 (by simpa [List.getLast?_cons_cons] using hgl)

theorem resolve_right {fix : Bool} {native : String → Bool} {s : St} {p : Spec} (h : Rel s p) (hnn : NoNative native p.env) (nm : Ref) (hsyn : nm ≠ .synthetic)
    (hc : fix = true ∨ Aligned s.encl ∨ lookup (p.env.take 2) nm ≠ none ∨ lookup (withoutGlobals p.env) nm = none) :
    Right native p.env nm (resolve fix native s nm).1 (resolve fix native s nm).2 := by
  obtain ⟨b, bs, e, he⟩ := h.shape
  have hf := h.fns
  rw [he] at hf hc
  unfold Right
  by_cases hnat : isNative native nm = true
  · rw [lookup_native hnn hnat]
    simp [resolve, hnat]
  · rw [he]
    obtain ⟨h1, h2⟩ := hf
    have hlk := lookup_cons (b :: bs) e nm
    unfold resolve
    simp only [hnat, Bool.false_eq_true, if_false]
    rw [h1.find] at hlk
    cases hl : findLocal s.cur (fun l => l.name == nm && l.initialized) with
    | some l =>
      simp only [hl, Option.map_some, Option.some_or] at hlk
      rw [hlk]
      simp only [Local.asReference]
      by_cases hg : l.isGlobal = true
      · have hfd := h1.fd (findLocal_get hl).1
        have : l.functionDepth = 0 := by simp only [Local.isGlobal, Bool.and_eq_true, beq_iff_eq] at hg; exact hg.1
        have hen : s.encl = [] := by rw [this] at hfd; exact List.length_eq_zero_iff.1 hfd.symm
        simp [hg, meaning, hen, h1.get hl]
      · simp [hg, meaning, h1.get hl]
    | none =>
      simp only [hl, Option.map_none, Option.none_or] at hlk
      rw [hlk]
      cases e with
      | nil =>
        cases hen : s.encl with
        | cons g gs => rw [hen] at h2; exact h2.elim
        | nil => simp [capture, resolveGlobal, hen, lookup_nil]
      | cons b2 e =>
        cases hen : s.encl with
        | nil => rw [hen] at h2; exact h2.elim
        | cons g gs =>
          rw [hen] at h2
          have hcur : lookup [b :: bs] nm = none := by rw [h1.find, hl]; rfl
          have hwg : lookup (withoutGlobals ((b :: bs) :: b2 :: e)) nm = lookup (withoutGlobals (b2 :: e)) nm := by
            rw [withoutGlobals, lookup_cons, hcur]; simp
          rw [hwg] at hc
          cases hcap : capture fix nm (g :: gs) with
          | none =>
            have hn := capture_none h2 hcap
            simp only
            obtain ⟨gl, hgl⟩ : ∃ gl, (g :: gs).getLast? = some gl := by
              cases hx : (g :: gs).getLast? with
              | none => simp at hx
              | some gl => exact ⟨gl, rfl⟩
            have hgg := h2.global nm hgl hn
            rw [hgg]
            simp only [resolveGlobal, hen, hgl]
            cases nm with
            | named n =>
              simp only
              cases hx : findLocal gl (fun l => l.name == Ref.named n && l.initialized && l.isGlobal) with
              | none => simp
              | some l =>
                simp only [Option.map_some, meaning]
                have : (s.cur :: s.encl).getLast? = some gl := by
                  rw [hen, List.getLast?_cons_cons]; exact hgl
                rw [this]
                have hget : gl.locals[l.index]? = some l := by
                  obtain ⟨top, bs, hr⟩ := h2.last hgl
                  exact hr.get hx
                simp [hget]
            | this =>
              cases hx : findLocal gl (fun l => l.name == Ref.this && l.initialized && l.isGlobal) with
              | none => simp
              | some l =>
                obtain ⟨top, bs', hr⟩ := h2.last hgl
                obtain ⟨hm, hp⟩ := findLocal_get hx
                have := hr.noself rfl l hm
                simp only [Bool.and_eq_true, beq_iff_eq] at hp
                exact absurd hp.1.1 this
            | synthetic => exact absurd rfl hsyn
          | some r =>
            obtain ⟨fs', i⟩ := r
            simp only [meaning]
            have main : ∃ id, chain fs' i = some id ∧ lookup (withoutGlobals (b2 :: e)) nm = some id := by
              rcases hc with hc | hc | hc | hc
              · exact capture_some h2 (Or.inl hc) hcap
              · exact capture_some h2 (Or.inr (hen ▸ hc)) hcap
              · -- declared in the enclosing function
                have ht : lookup [b2] nm ≠ none := by
                  intro h0
                  apply hc
                  rw [List.take_succ_cons, List.take_succ_cons, List.take_zero, lookup_cons, hcur, h0]; rfl
                rw [h2.1.find] at ht
                have hng := h2.nonglobal nm
                unfold capture at hcap
                split at hcap
                · next l hl' =>
                  simp only [Option.some.injEq, Prod.mk.injEq] at hcap
                  obtain ⟨rfl, rfl⟩ := hcap
                  exact ⟨l.id, h2.1.here hl' gs, by rw [hng, hl']; simp⟩
                · next hl' =>
                  exfalso
                  split at hcap
                  · simp at hcap
                  · next fs₁ j hj =>
                    cases gs with
                    | nil => simp [capture] at hj
                    | cons g' gs =>
                      rw [h2.1.inner (by simp)] at hl'
                      rw [hl'] at ht
                      exact ht rfl
              · exfalso
                have : ∀ fs e, RelFns s.next fs e → ∀ r, capture fix nm fs = some r → lookup (withoutGlobals e) nm ≠ none := by
                  intro fs
                  induction fs with
                  | nil => intro e _ r hr; simp [capture] at hr
                  | cons f fs ih =>
                    intro e he r hr
                    cases e with
                    | nil => exact he.elim
                    | cons b e =>
                      rw [he.nonglobal nm]
                      unfold capture at hr
                      split at hr
                      · next l hl' => rw [hl']; simp
                      · next hl' =>
                        rw [hl']
                        split at hr
                        · simp at hr
                        · next fs₁ j hj => simpa using ih e he.2 _ hj
                exact this _ _ h2 _ hcap hc
            obtain ⟨id, hid, hlk'⟩ := main
            rw [lookup_or_global h2 nm id hlk']
            exact hid

/-! ## The tables of the enclosing functions only grow -/

def GrowsFn (f g : Fn) : Prop := g.locals.map (·.id) = f.locals.map (·.id) ∧ f.ups <+: g.ups

def Grows : List Fn → List Fn → Prop := List.Forall₂ GrowsFn

theorem GrowsFn.refl (f : Fn) : GrowsFn f f := ⟨rfl, List.prefix_refl _⟩
theorem Grows.refl (fs : List Fn) : Grows fs fs := by
  induction fs with
  | nil => exact .nil
  | cons f fs ih => exact .cons (.refl f) ih

theorem Grows.trans {a b c : List Fn} (h1 : Grows a b) (h2 : Grows b c) : Grows a c := by
  induction h1 generalizing c with
  | nil => exact h2
  | cons h _ ih =>
    cases h2 with
    | cons h' h2' => exact .cons ⟨h'.1.trans h.1, h.2.trans h'.2⟩ (ih h2')

theorem Grows.drop {a b : List Fn} (h : Grows a b) (n : Nat) : Grows (a.drop n) (b.drop n) := by
  induction h generalizing n with
  | nil => simpa using Grows.refl []
  | cons h h' ih =>
    cases n with
    | zero => exact .cons h h'
    | succ n => exact ih n

theorem Grows.length {a b : List Fn} (h : Grows a b) : a.length = b.length := List.Forall₂.length_eq h

theorem Grows.chain {a b : List Fn} (h : Grows a b) {i id : Nat} (hc : chain a i = some id) : chain b i = some id := by
  induction h generalizing i with
  | nil => exact hc
  | @cons f g fs gs h h' ih =>
    unfold Resolve.chain at hc ⊢
    obtain ⟨hids, ext, hext⟩ := h
    cases hu : f.ups[i]? with
    | none => rw [hu] at hc; simp at hc
    | some u =>
      have hg : g.ups[i]? = some u := by
        rw [← hext, List.getElem?_append]
        split
        · exact hu
        · rw [List.getElem?_eq_none (by omega)] at hu; simp at hu
      rw [hu] at hc
      rw [hg]
      obtain ⟨il, j⟩ := u
      cases il with
      | true =>
        simp only at hc ⊢
        rw [← List.getElem?_map] at hc ⊢
        rw [hids]; exact hc
      | false => exact ih hc

theorem findOrAdd_grows (ups : List UpValue) (u : UpValue) : ups <+: (findOrAdd ups u).1 := by
  unfold findOrAdd; split <;> simp

theorem bubble_grows (fix : Bool) (ups : List UpValue) (i : Nat) : ups <+: (bubble fix ups i).1 := by
  unfold bubble; split <;> simp

theorem capture_grows {fix : Bool} {nm : Ref} {fs fs' : List Fn} {i : Nat} (h : capture fix nm fs = some (fs', i)) : Grows fs fs' := by
  induction fs generalizing fs' i with
  | nil => simp [capture] at h
  | cons f fs ih =>
    unfold capture at h
    split at h
    · next l hl =>
      simp only [Option.some.injEq, Prod.mk.injEq] at h
      obtain ⟨rfl, rfl⟩ := h
      exact .cons ⟨map_modify _ _ _ _ (fun _ => rfl), findOrAdd_grows _ _⟩ (Grows.refl fs)
    · split at h
      · simp at h
      · next fs₁ j hj =>
        simp only [Option.some.injEq, Prod.mk.injEq] at h
        obtain ⟨rfl, rfl⟩ := h
        exact .cons ⟨rfl, bubble_grows _ _ _⟩ (ih hj)

/-- The outermost `k` of the enclosing functions. -/
def outermost (k : Nat) (fs : List Fn) : List Fn := fs.drop (fs.length - k)

theorem step_grows {fix : Bool} {native : String → Bool} (s : St) (op : Op) {k : Nat} (hk : k ≤ s.encl.length)
    (hk' : k ≤ (step fix native s op).encl.length) : Grows (outermost k s.encl) (outermost k (step fix native s op).encl) := by
  have same : ∀ s' : St, s'.encl = s.encl → Grows (outermost k s.encl) (outermost k s'.encl) := by
    intro s' h; rw [h]; exact .refl _
  cases op with
  | declare nm init =>
    apply same
    simp only [step, declareLocal]
    split
    · rfl
    · split
      · rfl
      · cases init <;> rfl
  | declareSelf => exact same _ rfl
  | declareSynthetic => exact same _ rfl
  | init id => apply same; simp only [step, initId]; split <;> rfl
  | openBlock => exact same _ rfl
  | closeBlock => exact same _ rfl
  | openFn =>
    simp only [step, outermost, List.length_cons]
    rw [Nat.succ_sub hk, List.drop_succ_cons]
    exact .refl _
  | closeFn =>
    simp only [step, closeFn] at hk' ⊢
    cases he : s.encl with
    | nil => simp only [he]; exact .refl _
    | cons f fs =>
      simp only [he] at hk' ⊢
      simp only [outermost, List.length_cons]
      rw [Nat.succ_sub hk', List.drop_succ_cons]
      exact .refl _
  | ref nm =>
    simp only [step, resolve]
    split
    · exact .refl _
    · split
      · exact .refl _
      · split
        · next fs' i hc =>
          have := capture_grows hc
          unfold outermost
          rw [← this.length]
          exact this.drop _
        · exact .refl _

theorem run_grows {fix : Bool} {native : String → Bool} (ops : List Op) (s : St) {k : Nat}
    (hk : ∀ pre suf, ops = pre ++ suf → k ≤ (pre.foldl (step fix native) s).encl.length) :
    Grows (outermost k s.encl) (outermost k (ops.foldl (step fix native) s).encl) := by
  induction ops generalizing s with
  | nil => exact .refl _
  | cons op ops ih =>
    have h1 := hk [] (op :: ops) rfl
    have h2 := hk [op] ops rfl
    refine (step_grows s op h1 h2).trans (ih _ ?_)
    intro pre suf h
    exact hk (op :: pre) suf (by rw [h]; rfl)

end Cordy.Resolve
