import Verif.Lemmas.Layout
import Verif.Props.Reporting
/-! # C66: a function value runs the code of its own definition, and stack traces name it -/
namespace Cordy.Layout
open Cordy.Graph
variable {O T L V S R : Type}

/-! ## Specification -/

/-- What the compiler guarantees of a function definition (C33 for the graph, C40 for the parameters): it ends with an opcode that stops, the default
values are blocks of it, no more of them than parameters, and a variadic parameter has one (the empty list). -/
structure FnOk (sem : Sem O T S R) (f : FnDef O T L) : Prop where
  closed : Closed sem f.code
  defaults : ∀ b ∈ f.defaults, b < f.code.length
  count : f.defaults.length ≤ f.nparams
  variadic : f.variadic = true → f.defaults ≠ []

structure UnitOk (sem : Sem O T S R) (u : Unit' O T L V) : Prop where
  main : Closed sem u.main
  fns : ∀ f, Decl.fn f ∈ u.decls → FnOk sem f

/-- How many arguments a function takes: at least the parameters without a default, at most all of them unless it is variadic. -/
def Legal (f : FnDef O T L) (n : Nat) : Prop := f.nparams ≤ n + f.defaults.length ∧ (f.variadic = false → n ≤ f.nparams)

/-- Where a call with `n` arguments starts: at the beginning if every default value is needed, else after the default values that are given. -/
def entry (f : FnDef O T L) (n : Nat) : Nat :=
  match min n f.nparams + f.defaults.length - f.nparams with
  | 0 => 0
  | k + 1 => f.defaults.getD k 0

/-- The compiler's graphs are closed: whatever was built, once the forward branches are joined and an opcode that stops is pushed. -/
theorem C66_closed (sem : Sem O T S R) (g : Graph.Code O T L) (h : Built g []) (l : L) (o : O) (ho : Stops sem o) : Closed sem (push g l o) := by
  refine ⟨C33_builder _ (.push l o h), ?_⟩
  have hp := (built_inv g [] h).pos
  refine ⟨{ g[g.length - 1] with code := g[g.length - 1].code ++ [(l, o)] }, g[g.length - 1].code, l, o, ?_, rfl, ho⟩
  simp only [push, List.length_modify, List.getElem?_modify, if_true]
  rw [List.getElem?_eq_getElem (by omega)]
  rfl

/-! ## The constant table -/

/-- The functions of the declarations, with their places in the table. -/
def fnsOf : Nat → List (Decl O T L V) → List (FnDef O T L × Nat)
  | _, [] => []
  | k, .value _ :: ds => fnsOf (k + 1) ds
  | k, .fn f :: ds => (f, k) :: fnsOf (k + 1) ds

def slotOf (nil : V) : Decl O T L V → Const V
  | .value v => .value v
  | .fn _ => .value nil

theorem declare_fold (nil : V) : ∀ (ds : List (Decl O T L V)) (p : Parsing O T L V),
    ds.foldl (declare nil) p = ⟨p.consts ++ ds.map (slotOf nil), p.functions ++ fnsOf p.consts.length ds⟩
  | [], p => by simp [fnsOf]
  | .value v :: ds, p => by simp [declare, declare_fold nil ds, fnsOf, slotOf]
  | .fn f :: ds, p => by simp [declare, declare_fold nil ds, fnsOf, slotOf]

theorem fnsOf_append (k : Nat) (a b : List (Decl O T L V)) : fnsOf k (a ++ b) = fnsOf k a ++ fnsOf (k + a.length) b := by
  induction a generalizing k with
  | nil => simp [fnsOf]
  | cons d a ih => cases d <;> simp [fnsOf, ih, Nat.add_assoc, Nat.add_comm 1]

theorem fnsOf_mem (k : Nat) (ds : List (Decl O T L V)) (p : FnDef O T L × Nat) (h : p ∈ fnsOf k ds) : k ≤ p.2 ∧ p.2 < k + ds.length ∧ Decl.fn p.1 ∈ ds := by
  induction ds generalizing k with
  | nil => simp [fnsOf] at h
  | cons d ds ih =>
    cases d with
    | value v =>
      have := ih (k + 1) h
      simp; refine ⟨by omega, by omega, this.2.2⟩
    | fn f =>
      simp only [fnsOf, List.mem_cons] at h
      rcases h with rfl | h
      · simp
      · have := ih (k + 1) h
        simp; refine ⟨by omega, by omega, .inr this.2.2⟩

/-! ## Emission only appends -/

theorem emit_code (ph : O) (noLoc : L) (g : Graph.Code O T L) (code : List (Instr O T)) (locs : List L) : ∃ c, (emit ph noLoc g code locs).1 = code ++ c :=
  ⟨_, by rw [emit_eq]⟩
theorem emit_locs (ph : O) (noLoc : L) (g : Graph.Code O T L) (code : List (Instr O T)) (locs : List L) : ∃ c, (emit ph noLoc g code locs).2.1 = locs ++ c :=
  ⟨_, by rw [emit_eq]⟩

/-- One image extends another: longer code and locations; the old functions are still there. -/
structure Ext (a b : Image O T L V) : Prop where
  code : ∃ c, b.code = a.code ++ c
  locs : ∃ c, b.locs = a.locs ++ c

theorem Ext.refl (a : Image O T L V) : Ext a a := ⟨⟨[], by simp⟩, ⟨[], by simp⟩⟩
theorem Ext.trans {a b c : Image O T L V} (h : Ext a b) (k : Ext b c) : Ext a c := by
  obtain ⟨⟨x, hx⟩, ⟨y, hy⟩⟩ := h
  obtain ⟨⟨x', hx'⟩, ⟨y', hy'⟩⟩ := k
  exact ⟨⟨x ++ x', by rw [hx', hx, List.append_assoc]⟩, ⟨y ++ y', by rw [hy', hy, List.append_assoc]⟩⟩
theorem Ext.len {a b : Image O T L V} (h : Ext a b) : a.code.length ≤ b.code.length := by
  obtain ⟨x, hx⟩ := h.code; rw [hx]; simp

theorem bakeFn_ext (ph : O) (noLoc : L) (img : Image O T L V) (p) : Ext img (bakeFn ph noLoc img p) :=
  ⟨emit_code _ _ _ _ _, emit_locs _ _ _ _ _⟩
theorem bakes_ext (ph : O) (noLoc : L) (ps : List (FnDef O T L × Nat)) (img : Image O T L V) : Ext img (ps.foldl (bakeFn ph noLoc) img) := by
  induction ps generalizing img with
  | nil => exact .refl _
  | cons p ps ih => exact (bakeFn_ext ph noLoc img p).trans (ih _)

/-- The image after the main code has been emitted. -/
def mainImg (nil : V) (ph : O) (noLoc : L) (img : Image O T L V) (u : Unit' O T L V) : Image O T L V :=
  { code := (emit ph noLoc u.main img.code img.locs).1, locs := (emit ph noLoc u.main img.code img.locs).2.1,
    consts := img.consts ++ u.decls.map (slotOf nil) }

theorem compile_eq (nil : V) (ph : O) (noLoc : L) (img : Image O T L V) (u : Unit' O T L V) :
    compile nil ph noLoc img u = (fnsOf img.consts.length u.decls).foldl (bakeFn ph noLoc) (mainImg nil ph noLoc img u) := by
  unfold compile
  simp only [declare_fold, List.nil_append]
  rfl

theorem compile_ext (nil : V) (ph : O) (noLoc : L) (img : Image O T L V) (u) : Ext img (compile nil ph noLoc img u) := by
  rw [compile_eq]
  have h : Ext img (mainImg nil ph noLoc img u) := ⟨emit_code _ _ _ _ _, emit_locs _ _ _ _ _⟩
  exact h.trans (bakes_ext ph noLoc _ _)
theorem session_ext (nil : V) (ph : O) (noLoc : L) (us) (img : Image O T L V) : Ext img (session nil ph noLoc img us) := by
  induction us generalizing img with
  | nil => exact .refl _
  | cons u us ih => exact (compile_ext nil ph noLoc img u).trans (ih _)

theorem bakeFn_consts_length (ph : O) (noLoc : L) (img : Image O T L V) (p) : (bakeFn ph noLoc img p).consts.length = img.consts.length := by
  simp [bakeFn]
theorem bakes_consts_length (ph : O) (noLoc : L) (ps : List (FnDef O T L × Nat)) (img : Image O T L V) : (ps.foldl (bakeFn ph noLoc) img).consts.length = img.consts.length := by
  induction ps generalizing img with
  | nil => rfl
  | cons p ps ih => rw [List.foldl_cons, ih, bakeFn_consts_length]
theorem bakes_consts (ph : O) (noLoc : L) (ps : List (FnDef O T L × Nat)) (img : Image O T L V) (i : Nat) (h : ∀ p ∈ ps, p.2 ≠ i) :
    (ps.foldl (bakeFn ph noLoc) img).consts[i]? = img.consts[i]? := by
  induction ps generalizing img with
  | nil => rfl
  | cons p ps ih =>
    rw [List.foldl_cons, ih _ (fun q hq => h q (List.mem_cons_of_mem _ hq))]
    unfold bakeFn
    simp only []
    rw [List.getElem?_set_ne (h p List.mem_cons_self)]

theorem compile_consts_length (nil : V) (ph : O) (noLoc : L) (img : Image O T L V) (u : Unit' O T L V) :
    (compile nil ph noLoc img u).consts.length = img.consts.length + u.decls.length := by
  rw [compile_eq, bakes_consts_length]; simp [mainImg]
theorem compile_consts (nil : V) (ph : O) (noLoc : L) (img : Image O T L V) (u : Unit' O T L V) (i : Nat) (hi : i < img.consts.length) :
    (compile nil ph noLoc img u).consts[i]? = img.consts[i]? := by
  rw [compile_eq, bakes_consts]
  · simp only [mainImg]; rw [List.getElem?_append_left hi]
  · intro p hp; have := (fnsOf_mem _ _ _ hp).1; omega
theorem session_consts (nil : V) (ph : O) (noLoc : L) (us) (img : Image O T L V) (i : Nat) (hi : i < img.consts.length) :
    (session nil ph noLoc img us).consts[i]? = img.consts[i]? := by
  induction us generalizing img with
  | nil => rfl
  | cons u us ih =>
    unfold session at ih ⊢
    rw [List.foldl_cons, ih _ (by rw [compile_consts_length]; omega), compile_consts _ _ _ _ _ _ hi]

/-! ## Extents of functions -/

/-- The code of the functions: in the code, and apart from each other. -/
structure Apart (img : Image O T L V) : Prop where
  inside : ∀ (i : Nat) F, img.consts[i]? = some (.fn F) → F.func.head ≤ F.tail ∧ F.tail < img.code.length
  apart : ∀ (i j : Nat) F G, i ≠ j → img.consts[i]? = some (.fn F) → img.consts[j]? = some (.fn G) → F.tail < G.func.head ∨ G.tail < F.func.head

/-- No function has code in a part of the code. -/
def Free (lo hi : Nat) (img : Image O T L V) : Prop := ∀ (i : Nat) F, img.consts[i]? = some (.fn F) → F.tail < lo ∨ hi ≤ F.func.head

theorem emit_grows {sem : Sem O T S R} (ph : O) (noLoc : L) (g : Graph.Code O T L) (h : Closed sem g) (s : S) (code : List (Instr O T)) (locs : List L) :
    code.length < (emit ph noLoc g code locs).1.length := by
  have h1 := at_lt ph noLoc g code locs sem h ⟨0, 0, s⟩ (Inside.start h 0 h.pos s)
  have h2 := at_ge ph noLoc g code locs 0 h.pos
  simp only [Nat.add_zero] at h1; omega

/-- The function made of a definition. -/
def made (ph : O) (noLoc : L) (img : Image O T L V) (f : FnDef O T L) : Function :=
  ⟨⟨img.code.length, f.nparams, f.defaults.map (fun b => (emit ph noLoc f.code img.code img.locs).2.2.getD b 0 - img.code.length), f.variadic⟩,
    (emit ph noLoc f.code img.code img.locs).1.length - 1, f.text⟩

theorem bakeFn_consts (ph : O) (noLoc : L) (img : Image O T L V) (p : FnDef O T L × Nat) (i : Nat) (c : Const V)
    (h : (bakeFn ph noLoc img p).consts[i]? = some c) : (i = p.2 ∧ c = .fn (made ph noLoc img p.1)) ∨ (i ≠ p.2 ∧ img.consts[i]? = some c) := by
  unfold bakeFn at h
  simp only [] at h
  by_cases hi : p.2 = i
  · subst hi
    rw [List.getElem?_set_self'] at h
    cases hx : img.consts[p.2]? with
    | none => rw [hx] at h; simp at h
    | some x => rw [hx] at h; simp at h; exact .inl ⟨rfl, h.symm⟩
  · rw [List.getElem?_set_ne hi] at h
    exact .inr ⟨fun e => hi e.symm, h⟩

theorem Apart.bakeFn {sem : Sem O T S R} (s : S) (ph : O) (noLoc : L) {img : Image O T L V} (h : Apart img) (p : FnDef O T L × Nat) (hp : Closed sem p.1.code) :
    Apart (bakeFn ph noLoc img p) := by
  have hg := emit_grows ph noLoc p.1.code hp s img.code img.locs
  have hl : (Layout.bakeFn ph noLoc img p).code.length = (emit ph noLoc p.1.code img.code img.locs).1.length := rfl
  constructor
  · intro i F hF
    rw [hl]
    rcases bakeFn_consts _ _ _ _ _ _ hF with ⟨_, e⟩ | ⟨_, hF⟩
    · cases e
      simp only [made]
      omega
    · have := h.inside i F hF; omega
  · intro i j F G hij hF hG
    rcases bakeFn_consts _ _ _ _ _ _ hF with ⟨e1, e⟩ | ⟨e1, hF⟩ <;> rcases bakeFn_consts _ _ _ _ _ _ hG with ⟨e2, e'⟩ | ⟨e2, hG⟩
    · omega
    · cases e
      right
      exact (h.inside j G hG).2
    · cases e'
      left
      exact (h.inside i F hF).2
    · exact h.apart i j F G hij hF hG

theorem Apart.bakes {sem : Sem O T S R} (s : S) (ph : O) (noLoc : L) (ps : List (FnDef O T L × Nat)) {img : Image O T L V} (h : Apart img)
    (hp : ∀ p ∈ ps, Closed sem p.1.code) : Apart (ps.foldl (Layout.bakeFn ph noLoc) img) := by
  induction ps generalizing img with
  | nil => exact h
  | cons p ps ih => exact ih (h.bakeFn s ph noLoc p (hp p List.mem_cons_self)) (fun q hq => hp q (List.mem_cons_of_mem _ hq))

theorem mainImg_fn (nil : V) (ph : O) (noLoc : L) (img : Image O T L V) (u : Unit' O T L V) (i : Nat) (F : Function)
    (h : (mainImg nil ph noLoc img u).consts[i]? = some (.fn F)) : img.consts[i]? = some (.fn F) := by
  simp only [mainImg] at h
  by_cases hi : i < img.consts.length
  · rwa [List.getElem?_append_left hi] at h
  · rw [List.getElem?_append_right (by omega), List.getElem?_map] at h
    cases hd : u.decls[i - img.consts.length]? with
    | none => rw [hd] at h; simp at h
    | some d => rw [hd] at h; cases d <;> simp [slotOf] at h

theorem Apart.main {img : Image O T L V} (nil : V) (ph : O) (noLoc : L) (h : Apart img) (u : Unit' O T L V) : Apart (mainImg nil ph noLoc img u) := by
  have hl : img.code.length ≤ (mainImg nil ph noLoc img u).code.length := by
    obtain ⟨c, hc⟩ := emit_code ph noLoc u.main img.code img.locs
    simp [mainImg, hc]
  constructor
  · intro i F hF
    have := h.inside i F (mainImg_fn _ _ _ _ _ _ _ hF)
    omega
  · intro i j F G hij hF hG
    exact h.apart i j F G hij (mainImg_fn _ _ _ _ _ _ _ hF) (mainImg_fn _ _ _ _ _ _ _ hG)

theorem Apart.compile {sem : Sem O T S R} (s : S) (nil : V) (ph : O) (noLoc : L) {img : Image O T L V} (h : Apart img) (u : Unit' O T L V) (hu : UnitOk sem u) :
    Apart (compile nil ph noLoc img u) := by
  rw [compile_eq]
  exact (h.main nil ph noLoc u).bakes s ph noLoc _ (fun p hp => (hu.fns p.1 (fnsOf_mem _ _ _ hp).2.2).closed)

theorem Apart.session {sem : Sem O T S R} (s : S) (nil : V) (ph : O) (noLoc : L) (us : List (Unit' O T L V)) {img : Image O T L V} (h : Apart img)
    (hu : ∀ u ∈ us, UnitOk sem u) : Apart (session nil ph noLoc img us) := by
  induction us generalizing img with
  | nil => exact h
  | cons u us ih => exact ih (h.compile s nil ph noLoc u (hu u List.mem_cons_self)) (fun q hq => hu q (List.mem_cons_of_mem _ hq))

theorem Apart.empty : Apart ({} : Image O T L V) := ⟨fun i F h => by simp at h, fun i j F G _ h => by simp at h⟩

theorem Free.bakes (lo hi : Nat) (ph : O) (noLoc : L) (ps : List (FnDef O T L × Nat)) {img : Image O T L V} (h : Free lo hi img) (hl : hi ≤ img.code.length) :
    Free lo hi (ps.foldl (Layout.bakeFn ph noLoc) img) := by
  induction ps generalizing img with
  | nil => exact h
  | cons p ps ih =>
    refine ih ?_ (Nat.le_trans hl (bakeFn_ext ph noLoc img p).len)
    intro i F hF
    rcases bakeFn_consts _ _ _ _ _ _ hF with ⟨_, e⟩ | ⟨_, hF⟩
    · cases e; right; exact hl
    · exact h i F hF

theorem Free.compile (lo hi : Nat) (nil : V) (ph : O) (noLoc : L) {img : Image O T L V} (u : Unit' O T L V) (h : Free lo hi img) (hl : hi ≤ img.code.length) :
    Free lo hi (compile nil ph noLoc img u) := by
  rw [compile_eq]
  refine Free.bakes lo hi ph noLoc _ (fun i F hF => h i F (mainImg_fn _ _ _ _ _ _ _ hF)) ?_
  obtain ⟨c, hc⟩ := emit_code ph noLoc u.main img.code img.locs
  simp [mainImg, hc]; omega

theorem Free.session (lo hi : Nat) (nil : V) (ph : O) (noLoc : L) (us : List (Unit' O T L V)) {img : Image O T L V} (h : Free lo hi img)
    (hl : hi ≤ img.code.length) : Free lo hi (session nil ph noLoc img us) := by
  induction us generalizing img with
  | nil => exact h
  | cons u us ih => exact ih (h.compile lo hi nil ph noLoc u hl) (Nat.le_trans hl (compile_ext nil ph noLoc img u).len)

/-! ## Owners -/

theorem owner_fn {img : Image O T L V} (h : Apart img) (i : Nat) (F : Function) (hF : img.consts[i]? = some (.fn F)) (ip : Nat)
    (h1 : F.func.head ≤ ip) (h2 : ip ≤ F.tail) : owner img.consts ip = F.text := by
  have hin : F.containsIp ip = true := by simp [Function.containsIp, h1, h2]
  unfold owner
  cases hs : img.consts.findSome? (ownerOf ip) with
  | none =>
    rw [List.findSome?_eq_none_iff] at hs
    have := hs _ (List.mem_of_getElem? hF)
    simp [ownerOf, hin] at this
  | some t =>
    obtain ⟨c, hc, ht⟩ := List.exists_of_findSome?_eq_some hs
    obtain ⟨j, hj⟩ := List.mem_iff_getElem?.1 hc
    cases c with
    | value v => simp [ownerOf] at ht
    | fn G =>
      simp only [ownerOf] at ht
      split at ht
      · rename_i hG
        simp [Function.containsIp] at hG
        cases ht
        by_cases hij : i = j
        · subst hij; rw [hF] at hj; cases hj; rfl
        · rcases h.apart i j F G hij hF hj with h | h <;> omega
      · simp at ht

theorem owner_script {img : Image O T L V} (lo hi : Nat) (h : Free lo hi img) (ip : Nat) (h1 : lo ≤ ip) (h2 : ip < hi) : owner img.consts ip = "<script>" := by
  unfold owner
  have : img.consts.findSome? (ownerOf ip) = none := by
    rw [List.findSome?_eq_none_iff]
    intro c hc
    obtain ⟨j, hj⟩ := List.mem_iff_getElem?.1 hc
    cases c with
    | value v => rfl
    | fn G =>
      simp only [ownerOf]
      rw [if_neg]
      simp [Function.containsIp]
      rcases h j G hj with h | h <;> omega
  rw [this]; rfl

/-! ## The theorems -/

theorem session_append (nil : V) (ph : O) (noLoc : L) (img : Image O T L V) (a b : List (Unit' O T L V)) :
    session nil ph noLoc img (a ++ b) = session nil ph noLoc (session nil ph noLoc img a) b := by
  simp [session]

theorem jumpOffset_entry {sem : Sem O T S R} (ph : O) (noLoc : L) (img : Image O T L V) (f : FnDef O T L) (hf : FnOk sem f) (n : Nat) (hn : Legal f n) :
    entry f n < f.code.length ∧ (made ph noLoc img f).func.jumpOffset n = some (at' (emit ph noLoc f.code img.code img.locs).2.2 (entry f n)) := by
  obtain ⟨hcl, hd, hc, hv⟩ := hf
  obtain ⟨h1, h2⟩ := hn
  have hstart : at' (emit ph noLoc f.code img.code img.locs).2.2 0 = img.code.length := by
    rw [emit_eq]
    cases hg : f.code with
    | nil => have := hcl.pos; rw [hg] at this; simp at this
    | cons b bs => simp [startsOf]
  have hmin : (made ph noLoc img f).func.min = f.nparams - f.defaults.length := by
    simp [Calls.Func.min, made, hc]
  have hmax : (made ph noLoc img f).func.max = f.nparams := rfl
  have hget : ∀ k, k < f.defaults.length → f.defaults.getD k 0 < f.code.length ∧
      ((made ph noLoc img f).func.defaults[k]?).map ((made ph noLoc img f).func.head + ·) = some (at' (emit ph noLoc f.code img.code img.locs).2.2 (f.defaults.getD k 0)) := by
    intro k hk
    have hlt : f.defaults.getD k 0 < f.code.length := by
      rw [List.getD_eq_getElem?_getD, List.getElem?_eq_getElem hk]
      exact hd _ (List.getElem_mem hk)
    refine ⟨hlt, ?_⟩
    have := at_ge ph noLoc f.code img.code img.locs _ hlt
    simp only [made]
    rw [List.getElem?_map, List.getD_eq_getElem?_getD, List.getElem?_eq_getElem hk] at *
    simp only [Option.map_some, Option.getD_some, Option.some.injEq, at'] at this ⊢
    omega
  unfold Calls.Func.jumpOffset
  rw [hmin, hmax]
  have hhead : (made ph noLoc img f).func.head = img.code.length := rfl
  have hvar : (made ph noLoc img f).func.variadic = f.variadic := rfl
  by_cases hz : n = f.nparams - f.defaults.length
  · rw [if_pos hz]
    have : entry f n = 0 := by
      unfold entry
      rw [show min n f.nparams + f.defaults.length - f.nparams = 0 by omega]
    rw [this, hstart, hhead]
    exact ⟨hcl.pos, rfl⟩
  · rw [if_neg hz, hvar]
    by_cases hva : f.variadic = true ∧ f.nparams ≤ n
    · rw [if_pos (by simp [hva])]
      have hne := hv hva.1
      have hlen : 0 < f.defaults.length := List.length_pos_iff.2 hne
      have he : entry f n = f.defaults.getD (f.defaults.length - 1) 0 := by
        unfold entry
        rw [show min n f.nparams + f.defaults.length - f.nparams = (f.defaults.length - 1) + 1 by omega]
      have := hget (f.defaults.length - 1) (by omega)
      rw [he]
      refine ⟨this.1, ?_⟩
      rw [List.getLast?_eq_getElem?, ← this.2]
      simp [made]
    · rw [if_neg (by simpa using hva)]
      have hle : n ≤ f.nparams := by
        cases hvv : f.variadic with
        | false => exact h2 hvv
        | true => simp [hvv] at hva; omega
      have he : entry f n = f.defaults.getD (n - (f.nparams - f.defaults.length) - 1) 0 := by
        unfold entry
        rw [show min n f.nparams + f.defaults.length - f.nparams = (n - (f.nparams - f.defaults.length) - 1) + 1 by omega]
      rw [he]
      exact hget _ (by omega)

theorem bakes_balanced (ph : O) (noLoc : L) (ps : List (FnDef O T L × Nat)) (img : Image O T L V) (h : img.code.length = img.locs.length) :
    (ps.foldl (bakeFn ph noLoc) img).code.length = (ps.foldl (bakeFn ph noLoc) img).locs.length := by
  induction ps generalizing img with
  | nil => exact h
  | cons p ps ih => exact ih _ (C33_locations ph noLoc p.1.code img.code img.locs h).1
theorem main_balanced (nil : V) (ph : O) (noLoc : L) (img : Image O T L V) (u : Unit' O T L V) (h : img.code.length = img.locs.length) :
    (mainImg nil ph noLoc img u).code.length = (mainImg nil ph noLoc img u).locs.length := (C33_locations ph noLoc u.main img.code img.locs h).1
theorem session_balanced (nil : V) (ph : O) (noLoc : L) (us : List (Unit' O T L V)) (img : Image O T L V) (h : img.code.length = img.locs.length) :
    (session nil ph noLoc img us).code.length = (session nil ph noLoc img us).locs.length := by
  induction us generalizing img with
  | nil => exact h
  | cons u us ih =>
    refine ih (compile nil ph noLoc img u) ?_
    rw [compile_eq]; exact bakes_balanced ph noLoc _ _ (main_balanced nil ph noLoc img u h)

/-- The state of the compilation when the function is emitted, and what becomes of it. -/
theorem placed (nil : V) (ph : O) (noLoc : L) (pre post : List (Unit' O T L V)) (u : Unit' O T L V) (ds ds' : List (Decl O T L V))
    (f : FnDef O T L) (hu : u.decls = ds ++ .fn f :: ds') :
    ∃ img : Image O T L V, ∃ tail tailL,
      (session nil ph noLoc {} (pre ++ u :: post)).code = (emit ph noLoc f.code img.code img.locs).1 ++ tail ∧
      (session nil ph noLoc {} (pre ++ u :: post)).locs = (emit ph noLoc f.code img.code img.locs).2.1 ++ tailL ∧
      (session nil ph noLoc {} (pre ++ u :: post)).consts[(session nil ph noLoc {} pre).consts.length + ds.length]? = some (.fn (made ph noLoc img f)) ∧
      img.code.length = img.locs.length := by
  rw [session_append]
  have hb0 := session_balanced nil ph noLoc pre ({} : Image O T L V) rfl
  generalize session nil ph noLoc {} pre = img0 at hb0 ⊢
  rw [show session nil ph noLoc img0 (u :: post) = session nil ph noLoc (compile nil ph noLoc img0 u) post from rfl]
  have hfns : fnsOf img0.consts.length u.decls = fnsOf img0.consts.length ds ++ (f, img0.consts.length + ds.length) :: fnsOf (img0.consts.length + ds.length + 1) ds' := by
    rw [hu, fnsOf_append]; rfl
  have hc := compile_eq nil ph noLoc img0 u
  rw [hfns, List.foldl_append, List.foldl_cons] at hc
  have hlen : ((fnsOf img0.consts.length ds).foldl (bakeFn ph noLoc) (mainImg nil ph noLoc img0 u)).consts.length = img0.consts.length + u.decls.length := by
    rw [bakes_consts_length]; simp [mainImg]
  have hbal := bakes_balanced ph noLoc (fnsOf img0.consts.length ds) _ (main_balanced nil ph noLoc img0 u hb0)
  generalize (fnsOf img0.consts.length ds).foldl (bakeFn ph noLoc) (mainImg nil ph noLoc img0 u) = img at hc hlen hbal
  have hx : Ext (bakeFn ph noLoc img (f, img0.consts.length + ds.length)) (session nil ph noLoc (compile nil ph noLoc img0 u) post) := by
    refine Ext.trans ?_ (session_ext nil ph noLoc post _)
    rw [hc]; exact bakes_ext _ _ _ _
  obtain ⟨⟨t, ht⟩, ⟨tl, htl⟩⟩ := hx
  refine ⟨img, t, tl, ht, htl, ?_, hbal⟩
  rw [session_consts _ _ _ _ _ _ (by rw [compile_consts_length, hu]; simp), hc, bakes_consts]
  · simp only [bakeFn]
    rw [List.getElem?_set_self (by rw [hlen, hu]; simp)]
    rfl
  · intro p hp; have := (fnsOf_mem _ _ _ hp).1; omega

/-- **C66** In any session (a program, and whatever is compiled after it), the constant that a function definition refers to is in the end a function with the
parameters and the name of that definition. Calling it with a legal number of arguments runs exactly the code of that definition, from the first default
value that is not given, with the same effects in the same order and the same result; every opcode that is executed on the way is at a place whose owner,
as stack traces show it, is that function. -/
theorem C66_function (sem : Sem O T S R) (nil : V) (ph : O) (noLoc : L) (pre post : List (Unit' O T L V)) (u : Unit' O T L V) (ds ds' : List (Decl O T L V))
    (f : FnDef O T L) (hu : u.decls = ds ++ .fn f :: ds') (hok : ∀ v ∈ pre ++ u :: post, UnitOk sem v)
    (hsz : (session nil ph noLoc {} (pre ++ u :: post)).code.length < 2 ^ 31) (s : S) :
    ∃ F, (session nil ph noLoc {} (pre ++ u :: post)).consts[(session nil ph noLoc {} pre).consts.length + ds.length]? = some (.fn F) ∧
      F.text = f.text ∧ (∀ n, F.func.inRange n = true ↔ Legal f n) ∧
      ∀ n, Legal f n → ∃ ip, F.func.jumpOffset n = some ip ∧
        (∀ es r, LHalts sem (session nil ph noLoc {} (pre ++ u :: post)).code ip s es r ↔ GHalts sem f.code ⟨entry f n, 0, s⟩ es r) ∧
        (∀ es ip' s', LRun sem (session nil ph noLoc {} (pre ++ u :: post)).code ip s es ip' s' →
          owner (session nil ph noLoc {} (pre ++ u :: post)).consts ip' = f.text) := by
  obtain ⟨img, tail, tailL, h1, h2, h3, _⟩ := placed nil ph noLoc pre post u ds ds' f hu
  have hfo : FnOk sem f := (hok u (by simp)).fns f (by rw [hu]; simp)
  have hap := Apart.session (sem := sem) s nil ph noLoc (pre ++ u :: post) Apart.empty hok
  have hsz' : (emit ph noLoc f.code img.code img.locs).1.length < 2 ^ 31 := by
    rw [h1] at hsz; simp only [List.length_append] at hsz; omega
  refine ⟨_, h3, rfl, fun n => ?_, fun n hn => ?_⟩
  · have hmin : (made ph noLoc img f).func.min = f.nparams - f.defaults.length := by
      simp [Calls.Func.min, made, hfo.count]
    have hmax : (made ph noLoc img f).func.max = f.nparams := rfl
    have hvar : (made ph noLoc img f).func.variadic = f.variadic := rfl
    unfold Calls.Func.inRange Legal
    rw [hmin, hmax, hvar]
    cases f.variadic <;> simp
  · obtain ⟨he, hj⟩ := jumpOffset_entry ph noLoc img f hfo n hn
    refine ⟨_, hj, ?_, ?_⟩
    · rw [h1]; exact (run_in ph noLoc f.code img.code img.locs sem hfo.closed hsz' tail _ he s).1
    · intro es ip' s' hr
      rw [h1] at hr
      obtain ⟨k1, k2, _⟩ := (run_in ph noLoc f.code img.code img.locs sem hfo.closed hsz' tail _ he s).2.1 _ _ _ hr
      exact owner_fn hap _ _ h3 ip' k1 (by simp only [made]; omega)

/-- **C66** Each program, line or `eval` of a session starts right after the code that was there; from there exactly its own main code runs, and stack traces show
it as `<script>`. -/
theorem C66_main (sem : Sem O T S R) (nil : V) (ph : O) (noLoc : L) (pre post : List (Unit' O T L V)) (u : Unit' O T L V)
    (hok : ∀ v ∈ pre ++ u :: post, UnitOk sem v) (hsz : (session nil ph noLoc {} (pre ++ u :: post)).code.length < 2 ^ 31) (s : S) :
    (∀ es r, LHalts sem (session nil ph noLoc {} (pre ++ u :: post)).code (session nil ph noLoc {} pre).code.length s es r ↔ GHalts sem u.main ⟨0, 0, s⟩ es r) ∧
    (∀ es ip' s', LRun sem (session nil ph noLoc {} (pre ++ u :: post)).code (session nil ph noLoc {} pre).code.length s es ip' s' →
      owner (session nil ph noLoc {} (pre ++ u :: post)).consts ip' = "<script>") := by
  have hcl : Closed sem u.main := (hok u (by simp)).main
  have hap := Apart.session (sem := sem) s nil ph noLoc pre Apart.empty (fun v hv => hok v (by simp [hv]))
  rw [session_append] at hsz ⊢
  generalize session nil ph noLoc {} pre = img at hap hsz ⊢
  rw [show session nil ph noLoc img (u :: post) = session nil ph noLoc (compile nil ph noLoc img u) post from rfl] at hsz ⊢
  have hx : Ext (mainImg nil ph noLoc img u) (session nil ph noLoc (compile nil ph noLoc img u) post) := by
    refine Ext.trans ?_ (session_ext nil ph noLoc post _)
    rw [compile_eq]; exact bakes_ext _ _ _ _
  have hfree : Free img.code.length (mainImg nil ph noLoc img u).code.length (session nil ph noLoc (compile nil ph noLoc img u) post) := by
    refine Free.session _ _ nil ph noLoc post ?_ ?_
    · rw [compile_eq]
      refine Free.bakes _ _ ph noLoc _ ?_ (Nat.le_refl _)
      intro i F hF
      exact .inl (hap.inside i F (mainImg_fn _ _ _ _ _ _ _ hF)).2
    · rw [compile_eq]; exact (bakes_ext _ _ _ _).len
  obtain ⟨t, ht⟩ := hx.code
  have hsz' : (emit ph noLoc u.main img.code img.locs).1.length < 2 ^ 31 := by
    rw [ht] at hsz; simp only [List.length_append, mainImg] at hsz; omega
  have hstart : at' (emit ph noLoc u.main img.code img.locs).2.2 0 = img.code.length := by
    rw [emit_eq]
    cases hg : u.main with
    | nil => have := hcl.pos; rw [hg] at this; simp at this
    | cons b bs => simp [startsOf]
  have hrun := run_in ph noLoc u.main img.code img.locs sem hcl hsz' t 0 hcl.pos s
  rw [hstart] at hrun
  rw [ht]
  refine ⟨hrun.1, fun es ip' s' hr => ?_⟩
  obtain ⟨k1, k2, _⟩ := hrun.2.1 _ _ _ hr
  exact owner_script _ _ hfree ip' k1 k2

/-- **C66** The locations of errors: when a function runs in a session, the location recorded for each opcode it reaches is the one its definition gave to it. -/
theorem C66_locations (sem : Sem O T S R) (nil : V) (ph : O) (noLoc : L) (pre post : List (Unit' O T L V)) (u : Unit' O T L V) (ds ds' : List (Decl O T L V))
    (f : FnDef O T L) (hu : u.decls = ds ++ .fn f :: ds') (hok : ∀ v ∈ pre ++ u :: post, UnitOk sem v)
    (hsz : (session nil ph noLoc {} (pre ++ u :: post)).code.length < 2 ^ 31) (s : S) :
    ∃ F, (session nil ph noLoc {} (pre ++ u :: post)).consts[(session nil ph noLoc {} pre).consts.length + ds.length]? = some (.fn F) ∧
      ∀ n, Legal f n → ∃ ip, F.func.jumpOffset n = some ip ∧
        ∀ es c b l o, GRun sem f.code ⟨entry f n, 0, s⟩ es c → f.code[c.blk]? = some b → b.code[c.pos]? = some (l, o) →
          ∃ ip', LRun sem (session nil ph noLoc {} (pre ++ u :: post)).code ip s es ip' c.st ∧
            (session nil ph noLoc {} (pre ++ u :: post)).code[ip']? = some (.op o) ∧ (session nil ph noLoc {} (pre ++ u :: post)).locs[ip']? = some l := by
  obtain ⟨img, tail, tailL, h1, h2, h3, hbal⟩ := placed nil ph noLoc pre post u ds ds' f hu
  have hfo : FnOk sem f := (hok u (by simp)).fns f (by rw [hu]; simp)
  have hsz' : (emit ph noLoc f.code img.code img.locs).1.length < 2 ^ 31 := by
    rw [h1] at hsz; simp only [List.length_append] at hsz; omega
  refine ⟨_, h3, fun n hn => ?_⟩
  obtain ⟨he, hj⟩ := jumpOffset_entry ph noLoc img f hfo n hn
  refine ⟨_, hj, fun es c b l o hg hb hp => ?_⟩
  have hl := C33_locations ph noLoc f.code img.code img.locs hbal
  obtain ⟨st, k1, k2⟩ := hl.2 c.blk b hb
  obtain ⟨k3, k4⟩ := k2 c.pos _ hp
  have hat : at' (emit ph noLoc f.code img.code img.locs).2.2 c.blk = st := by rw [at', List.getD_eq_getElem?_getD, k1]; rfl
  refine ⟨st + c.pos, ?_, ?_, ?_⟩
  · rw [h1, ← hat]; exact (run_in ph noLoc f.code img.code img.locs sem hfo.closed hsz' tail _ he s).2.2 es c hg
  · rw [h1, List.getElem?_append_left (List.getElem?_eq_some_iff.1 k3).1]; exact k3
  · rw [h2, List.getElem?_append_left (List.getElem?_eq_some_iff.1 k4).1]; exact k4

/-- **C66** Compiling more (a line of a REPL, an `eval` while functions are running) changes nothing that is there: the code and the locations are only extended, and
no constant is replaced. -/
theorem C66_stable (nil : V) (ph : O) (noLoc : L) (pre post : List (Unit' O T L V)) :
    (∃ c, (session nil ph noLoc {} (pre ++ post)).code = (session nil ph noLoc {} pre).code ++ c) ∧
    (∃ c, (session nil ph noLoc {} (pre ++ post)).locs = (session nil ph noLoc {} pre).locs ++ c) ∧
    (∃ c, (session nil ph noLoc {} (pre ++ post)).consts = (session nil ph noLoc {} pre).consts ++ c) := by
  rw [session_append]
  generalize session nil ph noLoc {} pre = img
  obtain ⟨h1, h2⟩ := session_ext nil ph noLoc post img
  refine ⟨h1, h2, (session nil ph noLoc img post).consts.drop img.consts.length, ?_⟩
  have key : (session nil ph noLoc img post).consts.take img.consts.length = img.consts := by
    apply List.ext_getElem?
    intro i
    rw [List.getElem?_take]
    split
    · rename_i hi; exact session_consts nil ph noLoc post img i hi
    · rename_i hi; rw [List.getElem?_eq_none (by omega)]
  conv => lhs; rw [← List.take_append_drop img.consts.length (session nil ph noLoc img post).consts, key]

/-! ## Stack traces -/

/-- An instruction at `ip` can be executing in an activation of the function shown as `name`: the run of the function from where a call with some legal number of
arguments starts, or the run of the main code of a unit, gets there. -/
inductive Running (sem : Sem O T S R) (nil : V) (ph : O) (noLoc : L) (us : List (Unit' O T L V)) : String → Nat → Prop
  | fn (pre post : List (Unit' O T L V)) (u : Unit' O T L V) (ds ds' : List (Decl O T L V)) (f : FnDef O T L) (F : Function) (n ip ip' : Nat) (s s' : S) (es : List (Event O T S)) :
      us = pre ++ u :: post → u.decls = ds ++ .fn f :: ds' →
      (session nil ph noLoc {} us).consts[(session nil ph noLoc {} pre).consts.length + ds.length]? = some (.fn F) → Legal f n → F.func.jumpOffset n = some ip →
      LRun sem (session nil ph noLoc {} us).code ip s es ip' s' → Running sem nil ph noLoc us f.text ip'
  | main (pre post : List (Unit' O T L V)) (u : Unit' O T L V) (ip' : Nat) (s s' : S) (es : List (Event O T S)) :
      us = pre ++ u :: post → LRun sem (session nil ph noLoc {} us).code (session nil ph noLoc {} pre).code.length s es ip' s' →
      Running sem nil ph noLoc us "<script>" ip'

/-- The lines of a stack trace, with the repetitions written out: the location of each call, and the function that was called there. -/
def lines (img : Image O T L V) (fs : List Report.Frame) : List (Option L × String) :=
  (Report.expand none fs).map fun p => (img.locs[p.1]?, owner img.consts p.2)

theorem active_lines (img : Image O T L V) : ∀ (a : String × Nat) (acts : List (String × Nat)), (∀ b ∈ a :: acts, owner img.consts b.2 = b.1) →
    (Report.activeCalls a.2 (acts.map (·.2 + 1) ++ [0])).map (fun p => (img.locs[p.1]?, owner img.consts p.2)) =
      (acts.map fun b => img.locs[b.2]?).zip ((a :: acts).map (·.1))
  | a, [], h => by simp [Report.activeCalls]
  | a, b :: acts, h => by
    have ih := active_lines img b acts (fun c hc => h c (List.mem_cons_of_mem _ hc))
    have ha := h a List.mem_cons_self
    simp only [List.map_cons, List.cons_append, Report.activeCalls, Nat.add_one_sub_one, List.zip_cons_cons, Nat.succ_ne_zero, if_false] at ih ⊢
    rw [ih, ha]

/-- **C66** When an error is raised with the functions `acts` active (innermost first, each at its current instruction; the outermost is the script or the line), the
stack trace shows for every call the location of the call and the name of the function that was called. -/
theorem C66_trace (sem : Sem O T S R) (nil : V) (ph : O) (noLoc : L) (us : List (Unit' O T L V)) (hok : ∀ v ∈ us, UnitOk sem v)
    (hsz : (session nil ph noLoc {} us).code.length < 2 ^ 31) (name : String) (ip : Nat) (acts : List (String × Nat))
    (hr : ∀ b ∈ (name, ip) :: acts, Running sem nil ph noLoc us b.1 b.2) :
    lines (session nil ph noLoc {} us) (Report.stackTrace ip (acts.map (·.2 + 1) ++ [0])) =
      (acts.map fun b => (session nil ph noLoc {} us).locs[b.2]?).zip (name :: acts.map (·.1)) := by
  have key : ∀ nm i, Running sem nil ph noLoc us nm i → owner (session nil ph noLoc {} us).consts i = nm := by
    intro nm i h
    cases h with
    | fn pre post u ds ds' f F n ip0 _ s s' es h1 h2 h3 h4 h5 h6 =>
      subst h1
      obtain ⟨F', k1, _, _, k2⟩ := C66_function sem nil ph noLoc pre post u ds ds' f h2 hok hsz s
      rw [h3] at k1
      cases k1
      obtain ⟨ip1, j1, _, j3⟩ := k2 n h4
      rw [h5] at j1
      cases j1
      exact j3 _ _ _ h6
    | main pre post u _ s s' es h1 h2 =>
      subst h1
      exact (C66_main sem nil ph noLoc pre post u hok hsz s).2 _ _ _ h2
  unfold lines
  rw [Report.C56_stack_trace]
  exact active_lines _ (name, ip) acts (fun b hb => key _ _ (hr b hb))

/-! ## An example -/

/-- Opcodes: `true` is `Return`, anything else goes on. -/
def exSem : Sem (Option Nat) Empty Nat Nat where
  op := fun o s => match o with
    | none => .error s
    | some k => .ok (s + k)
  test := fun t _ => nomatch t

/-- `fn f(a, b = 5, c = 7) { 1 ; return }` then `fn g() { 2 ; return }` -/
def exF : FnDef (Option Nat) Empty Nat := ⟨"fn f(a, b, c)", 3, false, [1, 2], [⟨[(10, some 5)], .next 1⟩, ⟨[(11, some 7)], .next 2⟩, ⟨[(12, some 1), (13, none)], .exit⟩]⟩
def exG : FnDef (Option Nat) Empty Nat := ⟨"fn g()", 0, false, [], [⟨[(20, some 2), (21, none)], .exit⟩]⟩
def exUnit : Unit' (Option Nat) Empty Nat String := ⟨[.value "x", .fn exF, .value "y", .fn exG], [⟨[(1, some 9), (2, none)], .exit⟩]⟩
def exUnit2 : Unit' (Option Nat) Empty Nat String := ⟨[.fn exG], [⟨[(3, none)], .exit⟩]⟩

example : FnOk exSem exF where
  closed := ⟨⟨fun i b n h e => by
      match i with
      | 0 => simp [exF] at h; subst h; cases e; decide
      | 1 => simp [exF] at h; subst h; cases e; decide
      | 2 => simp [exF] at h; subst h; cases e
      | i + 3 => simp [exF] at h,
    (fun i b ty => nomatch ty),
    fun i b h e => by
      match i with
      | 0 => simp [exF] at h; subst h; cases e
      | 1 => simp [exF] at h; subst h; cases e
      | 2 => rfl
      | i + 3 => simp [exF] at h⟩,
    ⟨_, [(12, some 1)], 13, none, rfl, rfl, fun s => ⟨s, rfl⟩⟩⟩
  defaults := by decide
  count := by decide
  variadic := by decide

example : (session "nil" none 0 {} [exUnit, exUnit2]).code =
    [.op (some 9), .op none, .op (some 5), .op (some 7), .op (some 1), .op none, .op (some 2), .op none, .op none, .op (some 2), .op none] := by decide
example : (List.range 11).map (owner (session "nil" none 0 {} [exUnit, exUnit2]).consts) =
    ["<script>", "<script>", "fn f(a, b, c)", "fn f(a, b, c)", "fn f(a, b, c)", "fn f(a, b, c)", "fn g()", "fn g()", "<script>", "fn g()", "fn g()"] := by decide
example : (entry exF 1, entry exF 2, entry exF 3) = (0, 1, 2) := by decide
example : Legal exF 2 ∧ ¬ Legal exF 0 ∧ ¬ Legal exF 4 := by simp [Legal, exF]

end Cordy.Layout
