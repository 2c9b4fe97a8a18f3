import Verif.Model.Decls
import Mathlib.Data.List.Forall2
/-!
# C54 struct fields are addressed by name and owner, C58 constants are interned without changing meaning
-/
namespace Cordy.Decls

/-! ## C58 -/

/-- Literals in the program text. -/
def Const.isLiteral : Const → Bool
  | .int _ | .complex _ _ | .str _ => true
  | _ => false

theorem eqv_literal (c d : Const) (hc : c.isLiteral = true) (h : Val.eqv d.toVal c.toVal = true) : d = c := by
  cases c <;> simp [Const.isLiteral] at hc <;> cases d <;> simp [Const.toVal, Val.eqv] at h <;> simp [h]

theorem eqv_module (d : Const) (i c b : Nat) (h : Val.eqv d.toVal (Const.module i c b).toVal = true) : ∃ c' b', d = .module i c' b' := by
  cases d <;> simp [Const.toVal, Val.eqv] at h
  subst h; exact ⟨_, _, rfl⟩

theorem declareConst_spec (pool : List Const) (c : Const) :
    (∃ d, (declareConst pool c).1[(declareConst pool c).2]? = some d ∧ (Val.eqv d.toVal c.toVal = true ∧ d ∈ pool ∨ d = c)) ∧
    (∀ (i : Nat) d, pool[i]? = some d → (declareConst pool c).1[i]? = some d) := by
  unfold declareConst
  split
  · rename_i i h
    rw [List.findIdx?_eq_some_iff_getElem] at h
    obtain ⟨hi, h1, _⟩ := h
    exact ⟨⟨pool[i], by simp [hi], .inl ⟨h1, List.getElem_mem hi⟩⟩, fun _ _ h => h⟩
  · exact ⟨⟨c, by simp, .inr rfl⟩, fun i d h => by
      rw [List.getElem?_append_left (List.getElem?_eq_some_iff.1 h).1]; exact h⟩

/-- The slots of functions hold the placeholder or the function; what the code refers to is in its slot. -/
structure Inv (p : Pool) : Prop where
  slots : ∀ s ∈ p.slots, p.pool[s]? = some .nil ∨ ∃ id, p.pool[s]? = some (.func id)
  refs : ∀ r ∈ p.refs, r.1.isLiteral = true → p.pool[r.2]? = some r.1

theorem Inv.act {p : Pool} (h : Inv p) (a : Act) : Inv (p.act a) := by
  cases a with
  | const c =>
    obtain ⟨⟨d, h1, h2⟩, h3⟩ := declareConst_spec p.pool c
    refine ⟨fun s hs => ?_, fun r hr hl => ?_⟩
    · rcases h.slots s hs with hs | ⟨id, hs⟩
      · exact .inl (h3 _ _ hs)
      · exact .inr ⟨id, h3 _ _ hs⟩
    · rcases List.mem_append.1 hr with hr | hr
      · exact h3 _ _ (h.refs r hr hl)
      · simp at hr; subst hr
        rcases h2 with ⟨h2, _⟩ | h2
        · rw [show (p.act (.const c)).pool = (declareConst p.pool c).1 from rfl, h1, eqv_literal c d hl h2]
        · subst h2; exact h1
  | function =>
    refine ⟨fun s hs => ?_, fun r hr hl => ?_⟩
    · rcases List.mem_append.1 hs with hs | hs
      · have : ∀ d, p.pool[s]? = some d → (p.act .function).pool[s]? = some d := fun d hd => by
          simp only [Pool.act, declareFunction]; rw [List.getElem?_append_left (List.getElem?_eq_some_iff.1 hd).1]; exact hd
        rcases h.slots s hs with hs | ⟨id, hs⟩
        · exact .inl (this _ hs)
        · exact .inr ⟨id, this _ hs⟩
      · simp [declareFunction] at hs; subst hs; left; simp [Pool.act, declareFunction]
    · have := h.refs r hr hl
      simp only [Pool.act, declareFunction]; rw [List.getElem?_append_left (List.getElem?_eq_some_iff.1 this).1]; exact this
  | bake k id =>
    unfold Pool.act
    simp only
    split
    · rename_i s hs
      have hmem := List.mem_of_getElem? hs
      refine ⟨fun s' hs' => ?_, fun r hr hl => ?_⟩
      · simp only [Decls.bake, List.getElem?_set]
        split
        · rename_i he; subst he
          have : s < p.pool.length := by rcases h.slots s hmem with h | ⟨_, h⟩ <;> exact (List.getElem?_eq_some_iff.1 h).1
          right; exact ⟨id, by simp [this]⟩
        · exact h.slots s' hs'
      · have hr' := h.refs r hr hl
        simp only [Decls.bake, List.getElem?_set]
        rw [if_neg]
        · exact hr'
        · rintro rfl
          rcases h.slots r.2 hmem with hn | ⟨_, hn⟩ <;> rw [hr'] at hn <;> simp at hn <;> rw [hn] at hl <;> simp [Const.isLiteral] at hl
    · exact h

/-- **C58** after any sequence of literals, functions and modules have been compiled (and functions filled in), in any order, every
reference the code has to a literal finds exactly that literal. -/
theorem C58_literals (acts : List Act) : ∀ r ∈ (acts.foldl Pool.act ⟨[], [], []⟩).refs, r.1.isLiteral = true →
    (acts.foldl Pool.act ⟨[], [], []⟩).pool[r.2]? = some r.1 := by
  have : ∀ p, Inv p → Inv (acts.foldl Pool.act p) := by
    induction acts with
    | nil => exact fun p h => h
    | cons a as ih => exact fun p h => ih _ (h.act a)
  exact (this _ ⟨by simp, by simp⟩).refs

/-- The instance types of the modules declared are pairwise different, as `declare_type` makes them for structs and ordinary modules. -/
def DistinctTypes (acts : List Act) : Prop :=
  (acts.filterMap (fun a => match a with | .const (.module i _ _) => some i | _ => none)).Nodup

structure InvM (p : Pool) (seen : List Nat) : Prop where
  slots : ∀ s ∈ p.slots, p.pool[s]? = some .nil ∨ ∃ id, p.pool[s]? = some (.func id)
  mods : ∀ i c b, Const.module i c b ∈ p.pool → i ∈ seen
  refs : ∀ r ∈ p.refs, ∀ i c b, r.1 = .module i c b → p.pool[r.2]? = some r.1

/-- **C58** modules and structs with different instance types are kept apart: every reference to a module finds that module. -/
theorem C58_modules (acts : List Act) (h : DistinctTypes acts) : ∀ r ∈ (acts.foldl Pool.act ⟨[], [], []⟩).refs,
    ∀ i c b, r.1 = .module i c b → (acts.foldl Pool.act ⟨[], [], []⟩).pool[r.2]? = some r.1 := by
  have key : ∀ (acts : List Act) (p : Pool) (seen : List Nat), InvM p seen →
      (seen ++ acts.filterMap (fun a => match a with | .const (.module i _ _) => some i | _ => none)).Nodup →
      ∃ seen', InvM (acts.foldl Pool.act p) seen' := by
    intro acts
    induction acts with
    | nil => exact fun p seen h _ => ⟨seen, h⟩
    | cons a as ih =>
      intro p seen h hn
      have slotsStep : ∀ c, ∀ s ∈ p.slots, (declareConst p.pool c).1[s]? = some .nil ∨ ∃ id, (declareConst p.pool c).1[s]? = some (.func id) := by
        intro c s hs
        have h3 := (declareConst_spec p.pool c).2
        rcases h.slots s hs with hs | ⟨id, hs⟩
        · exact .inl (h3 _ _ hs)
        · exact .inr ⟨id, h3 _ _ hs⟩
      cases a with
      | const c =>
        obtain ⟨⟨d, h1, h2⟩, h3⟩ := declareConst_spec p.pool c
        have hmem : ∀ x ∈ (declareConst p.pool c).1, x ∈ p.pool ∨ x = c := by
          unfold declareConst; split
          · exact fun x hx => .inl hx
          · intro x hx; simpa using hx
        by_cases hm : ∃ i k b, c = .module i k b
        · obtain ⟨i, k, b, rfl⟩ := hm
          have hi : i ∉ seen := by
            simp only [List.filterMap_cons, List.nodup_append] at hn
            exact fun hi => hn.2.2 i hi i (by simp) rfl
          refine ih _ (seen ++ [i]) ⟨slotsStep _, ?_, ?_⟩ (by simpa using hn)
          · intro i' c' b' hx
            rcases hmem _ hx with hx | hx
            · have := h.mods _ _ _ hx; simp [this]
            · injection hx with hx; simp [hx]
          · intro r hr i' c' b' he
            rcases List.mem_append.1 hr with hr | hr
            · exact h3 _ _ (h.refs r hr i' c' b' he)
            · simp at hr; subst hr
              rcases h2 with ⟨h2, h2'⟩ | h2
              · obtain ⟨c'', b'', rfl⟩ := eqv_module d i k b h2
                exact absurd (h.mods _ _ _ h2') hi
              · subst h2; exact h1
        · refine ih _ seen ⟨slotsStep _, ?_, ?_⟩ ?_
          · intro i' c' b' hx
            rcases hmem _ hx with hx | hx
            · exact h.mods _ _ _ hx
            · exact absurd ⟨_, _, _, hx.symm⟩ hm
          · intro r hr i' c' b' he
            rcases List.mem_append.1 hr with hr | hr
            · exact h3 _ _ (h.refs r hr i' c' b' he)
            · simp at hr; subst hr
              exact absurd ⟨_, _, _, he⟩ hm
          · cases c <;> simp at hm <;> simpa using hn
      | function =>
        have up : ∀ (s : Nat) d, p.pool[s]? = some d → (p.act .function).pool[s]? = some d := fun s d hd => by
          simp only [Pool.act, declareFunction]; rw [List.getElem?_append_left (List.getElem?_eq_some_iff.1 hd).1]; exact hd
        refine ih _ seen ⟨fun s hs => ?_, fun i c b hx => ?_, fun r hr i c b he => up _ _ (h.refs r hr i c b he)⟩ (by simpa using hn)
        · rcases List.mem_append.1 hs with hs | hs
          · rcases h.slots s hs with hs | ⟨id, hs⟩
            · exact .inl (up _ _ hs)
            · exact .inr ⟨id, up _ _ hs⟩
          · simp [declareFunction] at hs; subst hs; left; simp [Pool.act, declareFunction]
        · simp [Pool.act, declareFunction] at hx; exact h.mods _ _ _ hx
      | bake k id =>
        refine ih _ seen ?_ (by simpa using hn)
        unfold Pool.act
        simp only
        split
        · rename_i s hs
          have hms := List.mem_of_getElem? hs
          refine ⟨fun s' hs' => ?_, fun i c b hx => ?_, fun r hr i c b he => ?_⟩
          · simp only [Decls.bake, List.getElem?_set]
            split
            · rename_i he; subst he
              have : s < p.pool.length := by rcases h.slots s hms with h | ⟨_, h⟩ <;> exact (List.getElem?_eq_some_iff.1 h).1
              right; exact ⟨id, by simp [this]⟩
            · exact h.slots s' hs'
          · rcases List.mem_or_eq_of_mem_set hx with hx | hx
            · exact h.mods _ _ _ hx
            · simp at hx
          · have hr' := h.refs r hr i c b he
            simp only [Decls.bake, List.getElem?_set]
            rw [if_neg]
            · exact hr'
            · rintro rfl
              rcases h.slots r.2 hms with hn | ⟨_, hn⟩ <;> rw [hr'] at hn <;> simp at hn <;> rw [hn] at he <;> simp at he
        · exact h
  obtain ⟨_, hinv⟩ := key acts ⟨[], [], []⟩ [] ⟨by simp, by simp, by simp⟩ (by simpa [DistinctTypes] using h)
  exact hinv.refs

/-- **C58 (violation)** all native modules have the same instance type, so a program's second native module is replaced by its
first. -/
theorem C58_violation_native_modules :
    ([Act.const (.module noType 0 7), .const (.module noType 1 8)].foldl Pool.act ⟨[], [], []⟩).refs
      = [(.module noType 0 7, 0), (.module noType 1 8, 0)] ∧
    ([Act.const (.module noType 0 7), .const (.module noType 1 8)].foldl Pool.act ⟨[], [], []⟩).pool[0]? = some (.module noType 0 7) := by
  decide

/-- A program with literals of every kind, repeated ones, and a function. -/
example : ([Act.const (.int 1), .function, .const (.str ['1']), .const (.complex 0 1), .const (.int 1), .bake 0 5].foldl Pool.act ⟨[], [], []⟩).pool
      = [.int 1, .func 5, .str ['1'], .complex 0 1] ∧
    ([Act.const (.int 1), .function, .const (.str ['1']), .const (.complex 0 1), .const (.int 1), .bake 0 5].foldl Pool.act ⟨[], [], []⟩).refs
      = [(.int 1, 0), (.str ['1'], 2), (.complex 0 1, 3), (.int 1, 0)] := by decide

/-! ## C54 -/

/-! ### Specification: records -/

/-- An instance is its struct and a value for each of its field names. -/
structure Rec (α : Type) where
  owner : StructTy
  field : Name → Option α

/-- The operations of a program, by field name. -/
inductive NOp (α : Type) where
  | new (t : StructTy) (args : List α)
  | get (o : Nat) (x : Name)
  | set (o : Nat) (x : Name) (v : α)

/-- The meaning: constructing assigns the arguments to the field names in order; reading gives the field, or the method of that name
if it takes `self`; writing replaces one field of one instance. -/
def meaning {α : Type} (st : List (Rec α)) : NOp α → List (Rec α) × Got α
  | .new t args =>
    if t.isModule = false ∧ args.length = t.fields.length then (st ++ [⟨t, fun x => (t.fields.zip args).lookup x⟩], .made st.length)
    else (st, .err)
  | .get o x => match st[o]? with
    | none => (st, .err)
    | some r => match r.field x with
      | some v => (st, .value v)
      | none => match r.owner.methods.find? (fun m => m.name = x) with
        | some m => (st, if m.instance_ then .bound m.fn else .err)
        | none => (st, .err)
  | .set o x v => match st[o]? with
    | none => (st, .err)
    | some r => match r.field x with
      | some _ => (st.set o { r with field := fun y => if y = x then some v else r.field y }, .value v)
      | none => (st, .err)

/-- The operation as compiled: the field name becomes its index. -/
def NOp.compile {α : Type} (F : Fields) : NOp α → Option (Op α)
  | .new t args => some (.new t args)
  | .get o x => (F.index x).map (fun fi => .get o fi)
  | .set o x v => (F.index x).map (fun fi => .set o fi v)

/-! ### Lemmas -/

/-- Position of a name. -/
def pos : List Name → Name → Option Nat
  | [], _ => none
  | y :: ys, x => if y = x then some 0 else (pos ys x).map (· + 1)

theorem pos_none (ns : List Name) (x : Name) : pos ns x = none ↔ x ∉ ns := by
  induction ns with
  | nil => simp [pos]
  | cons y ys ih =>
    rw [pos]; split
    · rename_i h; simp [h]
    · rename_i h; simp [ih]; exact fun _ he => h he.symm

theorem pos_lt (ns : List Name) (x : Name) (k : Nat) (h : pos ns x = some k) : k < ns.length := by
  induction ns generalizing k with
  | nil => simp [pos] at h
  | cons y ys ih =>
    rw [pos] at h; split at h
    · simp at h; subst h; simp
    · obtain ⟨j, hj, rfl⟩ := Option.map_eq_some_iff.1 h
      have := ih j hj; simp; omega

theorem pos_get (ns : List Name) (x : Name) (k : Nat) (h : pos ns x = some k) : ns[k]? = some x := by
  induction ns generalizing k with
  | nil => simp [pos] at h
  | cons y ys ih =>
    rw [pos] at h; split at h
    · rename_i hy; simp at h; subst h; simp [hy]
    · obtain ⟨j, hj, rfl⟩ := Option.map_eq_some_iff.1 h
      simpa using ih j hj

theorem pos_inj (ns : List Name) (x y : Name) (k : Nat) (h : pos ns x = some k) (h' : pos ns y = some k) : x = y := by
  have := pos_get _ _ _ h
  rw [pos_get _ _ _ h'] at this
  simpa using this.symm

theorem pos_append (ns : List Name) (x y : Name) (hx : x ∉ ns) :
    pos (ns ++ [x]) y = if x = y then some ns.length else pos ns y := by
  induction ns with
  | nil => simp [pos]
  | cons z zs ih =>
    simp only [List.mem_cons, not_or] at hx
    simp only [List.cons_append, pos, ih hx.2]
    by_cases hz : z = y
    · have : x ≠ y := fun h => hx.1 (h.trans hz.symm)
      simp [hz, this]
    · by_cases hxy : x = y <;> simp [hz, hxy]

structure WF (F : Fields) : Prop where
  lt : ∀ x i, F.index x = some i → i < F.names.length
  inj : ∀ x y i, F.index x = some i → F.index y = some i → x = y
  look : ∀ e ∈ F.lookup, e.1.1 < F.types ∧ e.1.2 < F.names.length

/-- For this type, the table maps exactly the names `ns` to their positions. -/
def Off (F : Fields) (t : Nat) (ns : List Name) : Prop :=
  (∀ y ∈ ns, ∃ i, F.index y = some i) ∧ ∀ x i, F.index x = some i → F.offset t i = pos ns x

theorem lookup_mem {β : Type} (l : List ((Nat × Nat) × β)) (k : Nat × Nat) (v : β) (h : l.lookup k = some v) : (k, v) ∈ l := by
  induction l with
  | nil => simp at h
  | cons e l ih =>
    obtain ⟨k', v'⟩ := e
    simp only [List.lookup_cons] at h
    split at h
    · rename_i he; simp at he h; simp [he, h]
    · simp [ih h]

theorem offset_none {F : Fields} (h : WF F) (t i : Nat) (hi : F.types ≤ t ∨ F.names.length ≤ i) : F.offset t i = none := by
  cases ho : F.offset t i with
  | none => rfl
  | some v =>
    have := h.look _ (lookup_mem _ _ _ ho)
    simp only at this
    omega

theorem resolve_spec {F : Fields} (h : WF F) (x : Name) :
    WF (F.resolve x).1 ∧ (∀ y i, F.index y = some i → (F.resolve x).1.index y = some i) ∧ (F.resolve x).1.index x = some (F.resolve x).2 ∧
    (F.resolve x).1.lookup = F.lookup ∧ (F.resolve x).1.types = F.types ∧
    (∀ y i, (F.resolve x).1.index y = some i → F.index y = some i ∨ (y = x ∧ i = F.names.length ∧ F.index x = none)) := by
  unfold Fields.resolve
  split
  · rename_i i hi
    exact ⟨h, fun _ _ h => h, hi, rfl, rfl, fun _ _ h => .inl h⟩
  · rename_i hi
    have hidx : ∀ y, Fields.index { F with names := (x, F.names.length) :: F.names } y = if y = x then some F.names.length else F.index y := by
      intro y
      simp only [Fields.index, List.lookup_cons]
      by_cases hy : y = x
      · simp [hy]
      · rw [if_neg hy, show (y == x) = false by simpa using hy]
    have hback : ∀ y i, Fields.index { F with names := (x, F.names.length) :: F.names } y = some i →
        F.index y = some i ∨ (y = x ∧ i = F.names.length ∧ F.index x = none) := by
      intro y i hyi
      rw [hidx] at hyi
      split at hyi
      · rename_i hy; simp at hyi; exact .inr ⟨hy, hyi.symm, hi⟩
      · exact .inl hyi
    refine ⟨⟨fun y i hyi => ?_, fun y z i hy hz => ?_, fun e he => ?_⟩, fun y i hyi => ?_, by rw [hidx]; simp, rfl, rfl, hback⟩
    · rcases hback y i hyi with h1 | ⟨_, rfl, _⟩
      · have := h.lt _ _ h1; simp; omega
      · simp
    · rcases hback y i hy with h1 | ⟨rfl, rfl, _⟩ <;> rcases hback z _ hz with h2 | ⟨rfl, h2, _⟩
      · exact h.inj _ _ _ h1 h2
      · have := h.lt _ _ h1; omega
      · have := h.lt _ _ h2; omega
      · rfl
    · have := h.look e he; simp; omega
    · rw [hidx]; split
      · rename_i hy; rw [hy, hi] at hyi; simp at hyi
      · exact hyi

theorem Off.resolve {F : Fields} (h : WF F) {t ns} (ho : Off F t ns) (x : Name) : Off (F.resolve x).1 t ns := by
  obtain ⟨_, h2, _, h4, _, h6⟩ := resolve_spec h x
  refine ⟨fun y hy => ?_, fun y i hyi => ?_⟩
  · obtain ⟨i, hi⟩ := ho.1 y hy; exact ⟨i, h2 _ _ hi⟩
  · have e : (F.resolve x).1.offset t i = F.offset t i := by simp only [Fields.offset, h4]
    rw [e]
    rcases h6 y i hyi with h1 | ⟨rfl, rfl, hn⟩
    · exact ho.2 y i h1
    · rw [offset_none h _ _ (.inr (Nat.le_refl _))]
      symm; rw [pos_none]
      intro hy; obtain ⟨i, hi⟩ := ho.1 y hy; rw [hn] at hi; simp at hi

theorem declare_spec {F : Fields} (h : WF F) (x : Name) (ty off : Nat) (hty : ty < F.types) :
    WF (F.declare x ty off) ∧ (F.declare x ty off).types = F.types ∧
    (∀ t ns, t ≠ ty → Off F t ns → Off (F.declare x ty off) t ns) ∧
    (∀ ns, Off F ty ns → x ∉ ns → off = ns.length → Off (F.declare x ty off) ty (ns ++ [x])) := by
  obtain ⟨h1, h2, h3, h4, h5, h6⟩ := resolve_spec h x
  have hidx : ∀ y, (F.declare x ty off).index y = (F.resolve x).1.index y := fun _ => rfl
  have hoff : ∀ t i, (F.declare x ty off).offset t i = if (t, i) = (ty, (F.resolve x).2) then some off else (F.resolve x).1.offset t i := by
    intro t i
    simp only [Fields.declare, Fields.offset, List.lookup_cons]
    by_cases he : (t, i) = (ty, (F.resolve x).2)
    · simp [he]
    · rw [if_neg he]
      have : ((t, i) == (ty, (F.resolve x).2)) = false := by simpa using he
      rw [this]
  refine ⟨⟨h1.lt, h1.inj, fun e he => ?_⟩, h5, fun t ns ht ho => ⟨(ho.resolve h x).1, fun y i hyi => ?_⟩, fun ns ho hx hl => ⟨fun y hy => ?_, fun y i hyi => ?_⟩⟩
  · simp only [Fields.declare, List.mem_cons] at he
    rcases he with rfl | he
    · exact ⟨by rw [show (F.declare x ty off).types = F.types from h5]; exact hty, h1.lt _ _ h3⟩
    · exact h1.look e he
  · rw [hoff, if_neg (by simp [ht])]; exact (ho.resolve h x).2 y i hyi
  · rcases List.mem_append.1 hy with hy | hy
    · exact (ho.resolve h x).1 y hy
    · simp at hy; subst hy; exact ⟨_, h3⟩
  · rw [hoff, pos_append _ _ _ hx]
    by_cases hxy : x = y
    · subst hxy
      rw [hidx, h3] at hyi
      simp at hyi
      simp [hyi, hl]
    · have hne : i ≠ (F.resolve x).2 := by
        rintro rfl; exact hxy (h1.inj _ _ _ h3 hyi)
      rw [if_neg (by simp [hne]), if_neg hxy]
      exact (ho.resolve h x).2 y i hyi

theorem resolveAll_spec (xs : List Name) : ∀ {F : Fields}, WF F → WF (resolveAll F xs) ∧ (resolveAll F xs).types = F.types ∧
    ∀ t ns, Off F t ns → Off (resolveAll F xs) t ns := by
  induction xs with
  | nil => exact fun h => ⟨h, rfl, fun _ _ h => h⟩
  | cons x xs ih =>
    intro F h
    obtain ⟨h1, _, _, _, h5, _⟩ := resolve_spec h x
    obtain ⟨k1, k2, k3⟩ := ih h1
    exact ⟨k1, k2.trans h5, fun t ns ho => k3 t ns (ho.resolve h x)⟩

theorem declareFields_spec (ty : Nat) (xs : List Name) : ∀ {F : Fields} (ns : List Name), WF F → ty < F.types → (ns ++ xs).Nodup → Off F ty ns →
    WF (declareFields F ty ns.length xs) ∧ (declareFields F ty ns.length xs).types = F.types ∧
    Off (declareFields F ty ns.length xs) ty (ns ++ xs) ∧
    ∀ t ms, t ≠ ty → Off F t ms → Off (declareFields F ty ns.length xs) t ms := by
  induction xs with
  | nil => intro F ns h _ _ ho; exact ⟨h, rfl, by simpa [declareFields] using ho, fun _ _ _ h => h⟩
  | cons x xs ih =>
    intro F ns h hty hn ho
    obtain ⟨h1, h2, h3, h4⟩ := declare_spec h x ty ns.length hty
    have hx : x ∉ ns := by
      rw [List.nodup_append] at hn; exact fun hx => hn.2.2 x hx x (by simp) rfl
    have := ih (ns ++ [x]) h1 (by rw [h2]; exact hty) (by simpa using hn) (h4 ns ho hx rfl)
    rw [List.length_append] at this
    simp only [List.length_cons, List.length_nil, List.append_assoc, List.cons_append, List.nil_append, Nat.zero_add] at this
    obtain ⟨k1, k2, k3, k4⟩ := this
    exact ⟨k1, k2.trans h2, k3, fun t ms ht ho => k4 t ms ht (h3 t ms ht ho)⟩

theorem declareMethods_spec (ty : Nat) (xs : List (Method × List Name)) : ∀ {F : Fields} (ns : List Name), WF F → ty < F.types →
    (ns ++ xs.map (·.1.name)).Nodup → Off F ty ns →
    WF (declareMethods F ty ns.length xs) ∧ (declareMethods F ty ns.length xs).types = F.types ∧
    Off (declareMethods F ty ns.length xs) ty (ns ++ xs.map (·.1.name)) ∧
    ∀ t ms, t ≠ ty → Off F t ms → Off (declareMethods F ty ns.length xs) t ms := by
  induction xs with
  | nil => intro F ns h _ _ ho; exact ⟨h, rfl, by simpa [declareMethods] using ho, fun _ _ _ h => h⟩
  | cons x xs ih =>
    intro F ns h hty hn ho
    obtain ⟨m, uses⟩ := x
    obtain ⟨h1, h2, h3, h4⟩ := declare_spec h m.name ty ns.length hty
    obtain ⟨g1, g2, g3⟩ := resolveAll_spec uses h1
    have hx : m.name ∉ ns := by
      rw [List.nodup_append] at hn; exact fun hx => hn.2.2 m.name hx m.name (by simp) rfl
    have := ih (ns ++ [m.name]) g1 (by rw [g2, h2]; exact hty) (by simpa using hn) (g3 _ _ (h4 ns ho hx rfl))
    rw [List.length_append] at this
    simp only [List.length_cons, List.length_nil, List.append_assoc, List.cons_append, List.nil_append, Nat.zero_add] at this
    obtain ⟨k1, k2, k3, k4⟩ := this
    exact ⟨k1, k2.trans (g2.trans h2), k3, fun t ms ht ho => k4 t ms ht (g3 _ _ (h3 t ms ht ho))⟩

/-- The tables are right for a struct. -/
structure Good (F : Fields) (t : StructTy) : Prop where
  inst : t.inst ≠ noType → t.inst < F.types ∧ Off F t.inst t.fields
  native : t.inst = noType → t.isModule = true ∧ t.fields = []
  ctor : t.ctor < F.types ∧ Off F t.ctor (t.methods.map (·.name))
  module : t.isModule = true → t.fields = []

theorem newType_off {F : Fields} (h : WF F) : WF F.newType.1 ∧ F.newType.1.types = F.types + 1 ∧ F.newType.2 = F.types ∧
    (∀ t ns, Off F t ns → Off F.newType.1 t ns) ∧ Off F F.types [] := by
  refine ⟨⟨h.lt, h.inj, fun e he => ?_⟩, rfl, rfl, fun _ _ h => h, ⟨by simp, fun x i hi => ?_⟩⟩
  · have := h.look e he; simp [Fields.newType]; omega
  · rw [offset_none h _ _ (.inl (Nat.le_refl _))]; rfl

theorem declare1_types (s s' : Fields × List StructTy) (d : Decl) (hw : WF s.1) (h : declare1 s d = some s') :
    WF s'.1 ∧ s.1.types ≤ s'.1.types := by
  cases d with
  | use x => simp [declare1] at h; subst h; exact ⟨(resolve_spec hw x).1, Nat.le_of_eq (resolve_spec hw x).2.2.2.2.1.symm⟩
  | struct isModule fields methods =>
    rw [declare1] at h
    split at h
    · rename_i hn
      simp at h; subst h
      obtain ⟨a1, a2, a3, a4, a5⟩ := newType_off hw
      obtain ⟨b1, b2, b3, b4, b5⟩ := newType_off a1
      have hnd := List.nodup_append.1 hn.1
      obtain ⟨c1, c2, c3, c4⟩ := declareFields_spec s.1.newType.2 fields [] b1 (by rw [b2, a2, a3]; omega) (by simpa using hnd.1) (b4 _ _ (a4 _ _ (a3 ▸ a5)))
      obtain ⟨d1, d2, d3, d4⟩ := declareMethods_spec s.1.newType.1.newType.2 methods [] c1 (by rw [List.length_nil] at c2; rw [List.length_nil, c2, b2, b3, a2]; omega) (by simpa using hnd.2.1)
        (c4 _ _ (by rw [b3, a3, a2]; omega) (b4 _ _ (b3 ▸ b5)))
      simp only [List.length_nil] at c2 d1 d2
      exact ⟨d1, by rw [d2, c2, b2, a2]; omega⟩
    · simp at h
  | native methods =>
    rw [declare1] at h
    split at h
    · rename_i hn
      simp at h; subst h
      obtain ⟨a1, a2, a3, a4, a5⟩ := newType_off hw
      obtain ⟨d1, d2, d3, d4⟩ := declareMethods_spec s.1.newType.2 methods [] a1 (by rw [a2, a3]; omega) (by simpa using hn) (a4 _ _ (a3 ▸ a5))
      simp only [List.length_nil] at d1 d2
      exact ⟨d1, by rw [d2, a2]; omega⟩
    · simp at h

theorem declare1_good (s s' : Fields × List StructTy) (d : Decl) (hw : WF s.1) (hg : ∀ t ∈ s.2, Good s.1 t) (h : declare1 s d = some s')
    (hty : s'.1.types ≤ noType) : WF s'.1 ∧ ∀ t ∈ s'.2, Good s'.1 t := by
  cases d with
  | use x =>
    simp [declare1] at h; subst h
    obtain ⟨h1, _, _, _, h5, _⟩ := resolve_spec hw x
    refine ⟨h1, fun t ht => ?_⟩
    have := hg t ht
    exact ⟨fun hi => ⟨by simp only [h5]; exact (this.inst hi).1, (this.inst hi).2.resolve hw x⟩, this.native,
      ⟨by simp only [h5]; exact this.ctor.1, this.ctor.2.resolve hw x⟩, this.module⟩
  | struct isModule fields methods =>
    rw [declare1] at h
    split at h
    · rename_i hn
      simp at h; subst h
      obtain ⟨a1, a2, a3, a4, a5⟩ := newType_off hw
      obtain ⟨b1, b2, b3, b4, b5⟩ := newType_off a1
      have hnd := List.nodup_append.1 hn.1
      obtain ⟨c1, c2, c3, c4⟩ := declareFields_spec s.1.newType.2 fields [] b1 (by rw [b2, a2, a3]; omega) (by simpa using hnd.1) (b4 _ _ (a4 _ _ (a3 ▸ a5)))
      obtain ⟨d1, d2, d3, d4⟩ := declareMethods_spec s.1.newType.1.newType.2 methods [] c1 (by rw [List.length_nil] at c2; rw [List.length_nil, c2, b2, b3, a2]; omega) (by simpa using hnd.2.1)
        (c4 _ _ (by rw [b3, a3, a2]; omega) (b4 _ _ (b3 ▸ b5)))
      simp only [List.length_nil, List.nil_append] at c1 c2 c3 c4 d1 d2 d3 d4
      simp only [d2, c2, b2, a2] at hty
      refine ⟨d1, fun t ht => ?_⟩
      rcases List.mem_append.1 ht with ht | ht
      · have := hg t ht
        refine ⟨fun hi => ⟨?_, ?_⟩, this.native, ⟨?_, ?_⟩, this.module⟩
        · simp only [d2, c2, b2, a2]; have := (this.inst hi).1; omega
        · have hlt := (this.inst hi).1
          exact d4 _ _ (by rw [b3, a2]; omega) (c4 _ _ (by rw [a3]; omega) (b4 _ _ (a4 _ _ (this.inst hi).2)))
        · simp only [d2, c2, b2, a2]; have := this.ctor.1; omega
        · have hlt := this.ctor.1
          exact d4 _ _ (by rw [b3, a2]; omega) (c4 _ _ (by rw [a3]; omega) (b4 _ _ (a4 _ _ this.ctor.2)))
      · simp at ht; subst ht
        refine ⟨fun hi => ⟨?_, ?_⟩, ?_, ⟨?_, ?_⟩, hn.2⟩
        · show s.1.newType.2 < (declareMethods _ _ _ _).types
          rw [d2, c2, b2, a2, a3]; omega
        · exact d4 s.1.newType.2 fields (by rw [b3, a2, a3]; omega) c3
        · show s.1.newType.2 = noType → _
          rw [a3]; intro he; omega
        · show s.1.newType.1.newType.2 < (declareMethods _ _ _ _).types
          rw [d2, c2, b2, b3, a2]; omega
        · rw [List.map_map]; exact d3
    · simp at h
  | native methods =>
    rw [declare1] at h
    split at h
    · rename_i hn
      simp at h; subst h
      obtain ⟨a1, a2, a3, a4, a5⟩ := newType_off hw
      obtain ⟨d1, d2, d3, d4⟩ := declareMethods_spec s.1.newType.2 methods [] a1 (by rw [a2, a3]; omega) (by simpa using hn) (a4 _ _ (a3 ▸ a5))
      simp only [List.length_nil, List.nil_append] at d1 d2 d3 d4
      refine ⟨d1, fun t ht => ?_⟩
      rcases List.mem_append.1 ht with ht | ht
      · have := hg t ht
        refine ⟨fun hi => ⟨?_, ?_⟩, this.native, ⟨?_, ?_⟩, this.module⟩
        · simp only [d2, a2]; have := (this.inst hi).1; omega
        · have hlt := (this.inst hi).1
          exact d4 _ _ (by rw [a3]; omega) (a4 _ _ (this.inst hi).2)
        · simp only [d2, a2]; have := this.ctor.1; omega
        · have hlt := this.ctor.1
          exact d4 _ _ (by rw [a3]; omega) (a4 _ _ this.ctor.2)
      · simp at ht; subst ht
        refine ⟨fun hi => absurd rfl hi, fun _ => ⟨rfl, rfl⟩, ⟨?_, ?_⟩, fun _ => rfl⟩
        · show s.1.newType.2 < (declareMethods _ _ _ _).types
          rw [d2, a2, a3]; omega
        · rw [List.map_map]; exact d3
    · simp at h

theorem declareAll_mono (ds : List Decl) : ∀ (s s' : Fields × List StructTy), WF s.1 → declareAll s ds = some s' → s.1.types ≤ s'.1.types := by
  induction ds with
  | nil => intro s s' _ h; simp [declareAll] at h; subst h; exact Nat.le_refl _
  | cons d ds ih =>
    intro s s' hw h
    rw [declareAll] at h
    obtain ⟨s1, h1, h2⟩ := Option.bind_eq_some_iff.1 h
    have := declare1_types s s1 d hw h1
    exact Nat.le_trans this.2 (ih s1 s' this.1 h2)

theorem declareAll_good (ds : List Decl) : ∀ (s s' : Fields × List StructTy), WF s.1 → (∀ t ∈ s.2, Good s.1 t) → declareAll s ds = some s' →
    s'.1.types ≤ noType → WF s'.1 ∧ ∀ t ∈ s'.2, Good s'.1 t := by
  induction ds with
  | nil => intro s s' hw hg h _; simp [declareAll] at h; subst h; exact ⟨hw, hg⟩
  | cons d ds ih =>
    intro s s' hw hg h hty
    rw [declareAll] at h
    obtain ⟨s1, h1, h2⟩ := Option.bind_eq_some_iff.1 h
    have := declare1_types s s1 d hw h1
    have := declare1_good s s1 d hw hg h1 (Nat.le_trans (declareAll_mono ds s1 s' this.1 h2) hty)
    exact ih s1 s' this.1 this.2 h2 hty

theorem new_wf : WF Fields.new := ⟨by simp [Fields.new, Fields.index], by simp [Fields.new, Fields.index], by simp [Fields.new]⟩

theorem lookup_pos {α : Type} (ns : List Name) (vs : List α) (hl : vs.length = ns.length) (x : Name) :
    (ns.zip vs).lookup x = (pos ns x).bind (fun k => vs[k]?) := by
  induction ns generalizing vs with
  | nil => simp [pos]
  | cons y ys ih =>
    cases vs with
    | nil => simp at hl
    | cons v vs =>
      simp only [List.zip_cons_cons, List.lookup_cons, pos]
      by_cases h : y = x
      · simp [h]
      · have : (x == y) = false := by simpa using fun he : x = y => h he.symm
        rw [this, if_neg h, ih vs (by simpa using hl)]
        cases pos ys x <;> simp

theorem find_pos (ms : List Method) (x : Name) : ms.find? (fun m => m.name = x) = (pos (ms.map (·.name)) x).bind (fun k => ms[k]?) := by
  induction ms with
  | nil => simp [pos]
  | cons m ms ih =>
    simp only [List.find?_cons, List.map_cons, pos]
    by_cases h : m.name = x
    · simp [h]
    · simp only [h, decide_false, if_false, ih]
      cases pos (ms.map (·.name)) x <;> simp

/-- How the stores correspond. -/
def Rel {α : Type} (F : Fields) (o : Obj α) (r : Rec α) : Prop :=
  o.owner = r.owner ∧ Good F o.owner ∧ o.owner.isModule = false ∧ o.values.length = o.owner.fields.length ∧
    ∀ x, r.field x = (pos o.owner.fields x).bind (fun k => o.values[k]?)

theorem getElem?_rel {α β : Type} {R : α → β → Prop} {xs : List α} {ys : List β} (h : List.Forall₂ R xs ys) (i : Nat) :
    (xs[i]? = none ∧ ys[i]? = none) ∨ ∃ x y, xs[i]? = some x ∧ ys[i]? = some y ∧ R x y := by
  induction h generalizing i with
  | nil => simp
  | cons h _ ih =>
    cases i with
    | zero => exact .inr ⟨_, _, rfl, rfl, h⟩
    | succ i => simpa using ih i

theorem set_rel {α β : Type} {R : α → β → Prop} {xs : List α} {ys : List β} (h : List.Forall₂ R xs ys) (i : Nat) (x : α) (y : β) (hxy : R x y) :
    List.Forall₂ R (xs.set i x) (ys.set i y) := by
  induction h generalizing i with
  | nil => simp
  | cons h ht ih =>
    cases i with
    | zero => exact .cons hxy ht
    | succ i => exact .cons h (ih i)

theorem append_rel {α β : Type} {R : α → β → Prop} {xs : List α} {ys : List β} (h : List.Forall₂ R xs ys) (x : α) (y : β) (hxy : R x y) :
    List.Forall₂ R (xs ++ [x]) (ys ++ [y]) := by
  induction h with
  | nil => exact .cons hxy .nil
  | cons h _ ih => exact .cons h ih

theorem exec_rel {α : Type} (F : Fields) (st : List (Obj α)) (rs : List (Rec α)) (h : List.Forall₂ (Rel F) st rs) (nop : NOp α) (op : Op α)
    (hc : nop.compile F = some op) (hnew : ∀ t args, nop = .new t args → Good F t) :
    (exec F st op).2 = (meaning rs nop).2 ∧ List.Forall₂ (Rel F) (exec F st op).1 (meaning rs nop).1 := by
  cases nop with
  | new t args =>
    simp [NOp.compile] at hc; subst hc
    simp only [exec, construct, meaning]
    by_cases hm : t.isModule = true
    · simp [hm, h]
    · by_cases hl : args.length = t.fields.length
      · simp only [hm, hl]
        refine ⟨by simp [h.length_eq], ?_⟩
        simp only [ne_eq, not_true_eq_false, if_false, and_true, Bool.not_eq_true] at hm ⊢
        simp only [hm, if_true]
        exact append_rel h _ _ ⟨rfl, hnew _ _ rfl, hm, hl, fun x => lookup_pos _ _ hl x⟩
      · simp [hm, hl, h]
  | get o x =>
    obtain ⟨fi, hfi, rfl⟩ := Option.map_eq_some_iff.1 (show (F.index x).map (fun fi => Op.get o fi) = some op from hc)
    simp only [exec, meaning]
    rcases getElem?_rel h o with ⟨h1, h2⟩ | ⟨ob, r, h1, h2, h3⟩
    · simp [h1, h2, h]
    · simp only [h1, h2]
      obtain ⟨e1, g, e2, e3, e4⟩ := h3
      have hi : ob.owner.inst ≠ noType := fun hn => by rw [(g.native hn).1] at e2; simp at e2
      have o1 := (g.inst hi).2.2 x fi hfi
      have o2 := g.ctor.2.2 x fi hfi
      simp only [getField, o1, o2, e4 x]
      cases hp : pos ob.owner.fields x with
      | some k =>
        have hk := pos_lt _ _ _ hp
        have : k < ob.values.length := by omega
        simp [this, h]
      | none =>
        rw [← e1, find_pos]
        simp only [Option.bind_none]
        cases hq : pos (ob.owner.methods.map (·.name)) x with
        | some k =>
          have hk := pos_lt _ _ _ hq
          have : k < ob.owner.methods.length := by simpa using hk
          simp [this, h]
        | none => simp [h]
  | set o x v =>
    obtain ⟨fi, hfi, rfl⟩ := Option.map_eq_some_iff.1 (show (F.index x).map (fun fi => Op.set o fi v) = some op from hc)
    simp only [exec, meaning]
    rcases getElem?_rel h o with ⟨h1, h2⟩ | ⟨ob, r, h1, h2, h3⟩
    · simp [h1, h2, h]
    · simp only [h1, h2]
      obtain ⟨e1, g, e2, e3, e4⟩ := h3
      have hi : ob.owner.inst ≠ noType := fun hn => by rw [(g.native hn).1] at e2; simp at e2
      have o1 := (g.inst hi).2.2 x fi hfi
      simp only [setField, o1, e4 x]
      cases hp : pos ob.owner.fields x with
      | some k =>
        have hk := pos_lt _ _ _ hp
        have hk' : k < ob.values.length := by omega
        simp only [hk', if_true, Option.bind_some, List.getElem?_eq_getElem hk']
        refine ⟨trivial, set_rel h _ _ _ ⟨e1, g, e2, by simpa using e3, fun y => ?_⟩⟩
        simp only
        by_cases hy : y = x
        · subst hy; simp [hp, hk']
        · rw [if_neg hy, e4 y]
          cases hq : pos ob.owner.fields y with
          | none => rfl
          | some j =>
            have : k ≠ j := by
              rintro rfl
              exact hy (pos_inj _ _ _ _ hq hp)
            simp [this]
      | none => simp [h]

/-- Run compiled operations, collecting the results. -/
def execAll {α : Type} (F : Fields) (st : List (Obj α)) : List (Op α) → List (Got α)
  | [] => []
  | op :: ops => (exec F st op).2 :: execAll F (exec F st op).1 ops

/-- Run operations on records, collecting the results. -/
def meaningAll {α : Type} (rs : List (Rec α)) : List (NOp α) → List (Got α)
  | [] => []
  | op :: ops => (meaning rs op).2 :: meaningAll (meaning rs op).1 ops

/-- The operation only constructs structs of the program. -/
def NOp.Uses {α : Type} (sts : List StructTy) : NOp α → Prop
  | .new t _ => t ∈ sts
  | _ => True

/-- **C54** for every program's declarations of structs, modules and native modules (sharing field and method names in any way, with
uses of the names before or after the declarations), every sequence of constructions, reads and writes of fields gives exactly what
records addressed by name give: reads return the value last written to that field of that instance, a field the struct lacks is an
error (or its method), and nothing else changes.  In particular the process never aborts.  (`noType` = 2^32 - 1 types at most.) -/
theorem C54_records {α : Type} (ds : List Decl) (F : Fields) (sts : List StructTy) (hd : declareAll (Fields.new, []) ds = some (F, sts))
    (hty : F.types ≤ 2 ^ 32 - 1) (nops : List (NOp α)) (ops : List (Op α)) (hc : nops.map (NOp.compile F) = ops.map some)
    (hu : ∀ n ∈ nops, n.Uses sts) : execAll F [] ops = meaningAll [] nops := by
  have hg := (declareAll_good ds _ _ new_wf (by simp) hd hty).2
  have key : ∀ (nops : List (NOp α)) (ops : List (Op α)) (st : List (Obj α)) (rs : List (Rec α)), List.Forall₂ (Rel F) st rs →
      nops.map (NOp.compile F) = ops.map some → (∀ n ∈ nops, n.Uses sts) → execAll F st ops = meaningAll rs nops := by
    intro nops
    induction nops with
    | nil => intro ops st rs _ hc _; cases ops <;> simp at hc; rfl
    | cons n nops ih =>
      intro ops st rs h hc hu
      cases ops with
      | nil => simp at hc
      | cons op ops =>
        simp only [List.map_cons, List.cons.injEq] at hc
        obtain ⟨e1, e2⟩ := exec_rel F st rs h n op hc.1 (fun t args he => hg t (by have := hu n (by simp); rw [he] at this; exact this))
        simp only [execAll, meaningAll, e1]
        rw [ih ops _ _ e2 hc.2 (fun m hm => hu m (by simp [hm]))]
  exact key nops ops [] [] .nil hc hu

/-- **C54** reading a member of a struct type or module: its method, else the accessor of a field of its instances, else an error. -/
theorem C54_type_members (ds : List Decl) (F : Fields) (sts : List StructTy) (hd : declareAll (Fields.new, []) ds = some (F, sts))
    (hty : F.types ≤ 2 ^ 32 - 1) (t : StructTy) (ht : t ∈ sts) (x : Name) (fi : Nat) (hx : F.index x = some fi) :
    getTypeField F t fi = match t.methods.find? (fun m => m.name = x) with
      | some m => .method m.fn
      | none => if x ∈ t.fields then .accessor fi else .err := by
  have hwg := declareAll_good ds _ _ new_wf (by simp) hd hty
  have g := hwg.2 t ht
  rw [getTypeField, g.ctor.2.2 x fi hx, find_pos]
  cases hq : pos (t.methods.map (·.name)) x with
  | some k =>
    have : k < t.methods.length := by simpa using pos_lt _ _ _ hq
    simp [this]
  | none =>
    simp only [Option.bind_none]
    by_cases hi : t.inst = noType
    · have := (g.native hi).2
      rw [hi, offset_none hwg.1 _ _ (.inl (show F.types ≤ noType from hty))]; simp [this]
    · rw [(g.inst hi).2.2 x fi hx]
      cases hp : pos t.fields x with
      | none => simp [(pos_none _ _).1 hp]
      | some k =>
        have : x ∈ t.fields := List.mem_of_getElem? (pos_get _ _ _ hp)
        simp [this]

/-- Two structs sharing the field `y` at different offsets, the second used before its declaration, with a method `x`. -/
def exampleDecls : List Decl :=
  [.use ['z'], .struct false [['x'], ['y']] [], .struct false [['y'], ['z']] [(⟨['x'], 9, true⟩, [['w']])]]

example : (declareAll (Fields.new, []) exampleDecls).map (fun s => (s.1.names, s.1.types, s.2.map (·.inst))) =
    some ([(['w'], 3), (['y'], 2), (['x'], 1), (['z'], 0)], 4, [0, 2]) := by decide

example : (declareAll (Fields.new, []) exampleDecls).map (fun s =>
      execAll s.1 [] ([.new s.2[0]! [10, 20], .new s.2[1]! [30, 40], .set 1 2 31, .get 0 2, .get 1 2, .get 1 1, .get 0 0] : List (Op Nat))) =
    some [.made 0, .made 1, .value 31, .value 20, .value 31, .bound 9, .err] := by decide

end Cordy.Decls
