import Verif.Model.Ffi
import Verif.Props.Repr
/-! # C69: native modules -/
namespace Cordy.Ffi
open Cordy.Repr

/-! ## Specification -/

/-- Values as C sees them: trees. -/
inductive T where
  | err (b : ByteArray)
  | nil
  | bool (b : Bool)
  | int (i : I64)
  | str (b : ByteArray)
  | arr (ts : List T)

mutual
/-- What a native function is to see of an argument. `none`: it cannot be passed. -/
def asC : V → Option T
  | .nil => some .nil
  | .bool b => some (.bool b)
  | .int i => some (.int i)
  | .str s => if '\x00' ∈ s then none else some (.str (String.ofList s).toByteArray)
  | .vec vs => (asCs vs).map .arr
  | .list vs => (asCs vs).map .arr
  | .other _ => none
def asCs : List V → Option (List T)
  | [] => some []
  | v :: vs => (asC v).bind fun t => (asCs vs).map (t :: ·)
end

/-- The 63-bit integer that is equal modulo 2^63. -/
def wrap (i : I64) : I64 := BitVec.ofInt 64 (i.toInt.bmod (2 ^ 63))

/-- Text in UTF-8. -/
def textOf (b : ByteArray) : Option (List Char) := (String.fromUTF8? b).map String.toList

mutual
/-- What the result of a native function is in Cordy; the first error in it is raised. -/
def ofC? : T → Except Error V
  | .err b => .error (match textOf b with | some s => .native s | none => .invalidText)
  | .nil => .ok .nil
  | .bool b => .ok (.bool b)
  | .int i => .ok (.int (wrap i))
  | .str b => match textOf b with
    | some s => .ok (.str s)
    | none => .error .invalidText
  | .arr ts => (ofCs? ts).map .vec
def ofCs? : List T → Except Error (List V)
  | [] => .ok []
  | t :: ts => (ofC? t).bind fun v => (ofCs? ts).map (v :: ·)
end

mutual
/-- In the memory `h`, `c` is the tree `t`, which occupies exactly the addresses `fp`, each once. -/
inductive Owns (h : Heap) : CVal → T → List Nat → Prop
  | err (p : Nat) (b : ByteArray) : h[p]? = some (some (.fixed b)) → Owns h (.err p) (.err b) []
  | nil : Owns h .nil .nil []
  | bool (i : I64) (b : Bool) : (b = true ↔ i ≠ 0) → Owns h (.bool i) (.bool b) []
  | int (i : I64) : Owns h (.int i) (.int i) []
  | str (p : Nat) (b : ByteArray) : h[p]? = some (some (.bytes b)) → Owns h (.str p) (.str b) [p]
  | arr (p : Nat) (cs : List CVal) (ts : List T) (fp : List Nat) : h[p]? = some (some (.vals cs)) → OwnsAll h cs ts fp → p ∉ fp →
      Owns h (.arr p cs.length) (.arr ts) (fp ++ [p])
inductive OwnsAll (h : Heap) : List CVal → List T → List Nat → Prop
  | nil : OwnsAll h [] [] []
  | cons (c : CVal) (t : T) (f1 : List Nat) (cs : List CVal) (ts : List T) (f2 : List Nat) : Owns h c t f1 → OwnsAll h cs ts f2 → (∀ p ∈ f1, p ∉ f2) →
      OwnsAll h (c :: cs) (t :: ts) (f1 ++ f2)
end

/-! ## Text -/

theorem zero_mem_encodeChar (c : Char) : (0 : UInt8) ∈ String.utf8EncodeChar c ↔ c = '\x00' := by
  constructor
  · intro h
    unfold String.utf8EncodeChar at h
    have key : ∀ n : Nat, n < 256 → (0 : UInt8) = UInt8.ofNat n → n = 0 := by
      intro n hn h
      have := congrArg UInt8.toNat h
      simp at this
      omega
    simp only at h
    split at h
    · have h := List.mem_singleton.1 h
      have := key _ (by omega) h
      apply Char.ext; apply UInt32.toNat_inj.1; simpa using this
    · exfalso
      split at h
      · simp only [List.mem_cons, List.not_mem_nil, or_false] at h
        rcases h with h | h <;> (have := key _ (by omega) h; omega)
      split at h
      · simp only [List.mem_cons, List.not_mem_nil, or_false] at h
        rcases h with h | h | h <;> (have := key _ (by omega) h; omega)
      · simp only [List.mem_cons, List.not_mem_nil, or_false] at h
        rcases h with h | h | h | h <;> (have := key _ (by omega) h; omega)
  · rintro rfl; decide

theorem encode_eq (s : List Char) : encode s = (String.ofList s).toByteArray := rfl

theorem zero_mem_encode (s : List Char) : (encode s).data.contains 0 = true ↔ '\x00' ∈ s := by
  have : (encode s).data.contains 0 = true ↔ (0 : UInt8) ∈ s.flatMap String.utf8EncodeChar := by
    rw [← Array.contains_toList]
    simp [encode]
  rw [this, List.mem_flatMap]
  constructor
  · rintro ⟨c, hc, h⟩; rw [(zero_mem_encodeChar c).1 h] at hc; exact hc
  · intro h; exact ⟨_, h, (zero_mem_encodeChar _).2 rfl⟩

theorem decode_iff (b : ByteArray) (s : List Char) : decode b = some s ↔ (String.ofList s).toByteArray = b := by
  constructor
  · intro h
    unfold decode at h
    cases hd : b.utf8Decode? with
    | none => rw [hd] at h; simp at h
    | some a =>
      rw [hd] at h
      simp at h
      have := ByteArray.utf8Encode_get_utf8Decode? (b := b) (h := by rw [hd]; rfl)
      simp only [hd, Option.get_some] at this
      rw [← h]
      exact this
  · rintro rfl
    show (List.utf8Encode s).utf8Decode?.map Array.toList = some s
    simp

theorem textOf_iff (b : ByteArray) (s : List Char) : textOf b = some s ↔ (String.ofList s).toByteArray = b := by
  unfold textOf String.fromUTF8?
  constructor
  · intro h
    split at h
    · simp at h; subst h; simp [String.fromUTF8]
    · simp at h
  · rintro rfl
    have hv := (String.ofList s).isValidUTF8
    rw [dif_pos hv]
    have : String.fromUTF8 _ hv = String.ofList s := rfl
    rw [this]; simp

theorem decode_eq (b : ByteArray) : decode b = textOf b := by
  apply Option.ext
  intro s
  rw [decode_iff, textOf_iff]

theorem ofC_eq (i : I64) : ofC i = wrap i := by
  apply BitVec.toInt_inj.mp
  rw [ofC, wrap, toInt_asPreciseInt_fromI64, BitVec.toInt_ofInt]
  simp only [Int.bmod]
  split <;> omega

/-! ## To C -/

theorem getElem?_prefix {α} {h h' : List α} (hp : h <+: h') {p : Nat} {x : α} (hx : h[p]? = some x) : h'[p]? = some x := by
  obtain ⟨t, rfl⟩ := hp
  rw [List.getElem?_append_left (List.getElem?_eq_some_iff.1 hx).1, hx]

mutual
theorem Owns.mono {h h' : Heap} (hp : h <+: h') : ∀ {c t fp}, Owns h c t fp → Owns h' c t fp
  | _, _, _, .err p b e => .err p b (getElem?_prefix hp e)
  | _, _, _, .nil => .nil
  | _, _, _, .bool i b e => .bool i b e
  | _, _, _, .int i => .int i
  | _, _, _, .str p b e => .str p b (getElem?_prefix hp e)
  | _, _, _, .arr p cs ts fp e o n => .arr p cs ts fp (getElem?_prefix hp e) (o.mono hp) n
theorem OwnsAll.mono {h h' : Heap} (hp : h <+: h') : ∀ {c t fp}, OwnsAll h c t fp → OwnsAll h' c t fp
  | _, _, _, .nil => .nil
  | _, _, _, .cons c t f1 cs ts f2 o1 o2 n => .cons c t f1 cs ts f2 (o1.mono hp) (o2.mono hp) n
end

/-- The result of a conversion in the memory `h`: memory that was there stays as it is, what is new is exactly what the value occupies. -/
def Made {A B : Type} (own : Heap → A → B → List Nat → Prop) (h : Heap) (spec : Option B) (r : Option A × Heap) : Prop :=
  h <+: r.2 ∧ match spec with
    | none => r.1 = none
    | some t => ∃ c fp, r.1 = some c ∧ own r.2 c t fp ∧ ∀ p, p ∈ fp ↔ h.length ≤ p ∧ p < r.2.length

theorem toArray_spec {h : Heap} {o : Option (List T)} {r : Option (List CVal) × Heap} (m : Made OwnsAll h o r) : Made Owns h (o.map .arr) (toArray r) := by
  obtain ⟨r, h'⟩ := r
  obtain ⟨hp, m⟩ := m
  cases o with
  | none => simp only at m; subst m; exact ⟨hp, rfl⟩
  | some ts =>
    obtain ⟨cs, fp, rfl, ho, hf⟩ := m
    have hp' : h' <+: h' ++ [some (Cell.vals cs)] := List.prefix_append _ _
    refine ⟨hp.trans hp', .arr h'.length cs.length, fp ++ [h'.length], rfl, ?_, ?_⟩
    · refine .arr _ _ _ _ (by simp [toArray, alloc]) (ho.mono hp') (fun hm => ?_)
      have := ((hf _).1 hm).2
      simp at this
    · intro p
      have hl := hp.length_le
      simp only at hl
      simp only [List.mem_append, hf, List.mem_singleton, toArray, alloc, List.length_append, List.length_singleton]
      omega

mutual
theorem toValue_spec (v : V) (h : Heap) : Made Owns h (asC v) (toValue v h) := by
  cases v with
  | nil => exact ⟨List.prefix_rfl, _, [], rfl, .nil, by simp [toValue]⟩
  | bool b => exact ⟨List.prefix_rfl, _, [], rfl, .bool _ _ (by cases b <;> simp), by simp [toValue]⟩
  | int i => exact ⟨List.prefix_rfl, _, [], rfl, .int i, by simp [toValue]⟩
  | str s =>
    by_cases hs : '\x00' ∈ s
    · have := (zero_mem_encode s).2 hs
      simp only [asC, hs, if_true, toValue, this]
      exact ⟨List.prefix_rfl, rfl⟩
    · have : ¬ (encode s).data.contains 0 = true := fun e => hs ((zero_mem_encode s).1 e)
      simp only [asC, hs, if_false, toValue, this]
      refine ⟨List.prefix_append _ _, _, [h.length], rfl, .str _ _ (by simp [alloc, encode_eq]), ?_⟩
      intro p
      simp [alloc]
      omega
  | vec vs => exact toArray_spec (toValues_spec vs h)
  | list vs => exact toArray_spec (toValues_spec vs h)
  | other n => exact ⟨List.prefix_rfl, rfl⟩
theorem toValues_spec (vs : List V) (h : Heap) : Made OwnsAll h (asCs vs) (toValues vs h) := by
  cases vs with
  | nil => exact ⟨List.prefix_rfl, _, [], rfl, .nil, by simp [toValues]⟩
  | cons v vs =>
    have m1 := toValue_spec v h
    rw [asCs, toValues]
    generalize toValue v h = r at m1
    obtain ⟨r, h1⟩ := r
    obtain ⟨p1, m1⟩ := m1
    have m2 := toValues_spec vs h1
    cases hv : asC v with
    | none => rw [hv] at m1; simp only at m1; subst m1; exact ⟨p1, rfl⟩
    | some t =>
      rw [hv] at m1
      obtain ⟨c, f1, rfl, o1, e1⟩ := m1
      simp only [Option.bind_some]
      generalize toValues vs h1 = r at m2
      obtain ⟨r, h2⟩ := r
      obtain ⟨p2, m2⟩ := m2
      simp only at p1 p2
      cases hvs : asCs vs with
      | none => rw [hvs] at m2; simp only at m2; subst m2; exact ⟨p1.trans p2, rfl⟩
      | some ts =>
        rw [hvs] at m2
        obtain ⟨cs, f2, rfl, o2, e2⟩ := m2
        refine ⟨p1.trans p2, c :: cs, f1 ++ f2, rfl, .cons _ _ _ _ _ _ (o1.mono p2) o2 ?_, ?_⟩
        · intro p h1 h2
          have := ((e1 p).1 h1).2
          have := ((e2 p).1 h2).1
          simp only at *
          omega
        · intro p
          have l1 := p1.length_le
          have l2 := p2.length_le
          simp only [List.mem_append, e1, e2]
          simp only at *
          omega
end

/-! ## From C -/

/-- Of the memory `g` only the addresses `fp` may have been freed, and all of them were if `ok`. -/
def Freed (g g' : Heap) (fp : List Nat) (ok : Bool) : Prop :=
  g'.length = g.length ∧ (∀ p, p ∉ fp → g'[p]? = g[p]?) ∧ (ok = true → ∀ p ∈ fp, g'[p]? = some none)

def isOk {A : Type} : Except Error A → Bool
  | .ok _ => true
  | .error _ => false

theorem isOk_map {A B : Type} (f : A → B) (r : Except Error A) : isOk (r.map f) = isOk r := by cases r <;> rfl

/-- `g` is `h` as far as a value with the addresses `fp` is concerned. -/
def Same (h g : Heap) (fp : List Nat) : Prop := (∀ p ∈ fp, g[p]? = h[p]?) ∧ ∀ (p : Nat) (b : ByteArray), h[p]? = some (some (Cell.fixed b)) → g[p]? = some (some (Cell.fixed b))

theorem cellAt_of {h : Heap} {p : Nat} {c : Cell} (e : h[p]? = some (some c)) : cellAt h p = some c := by simp [cellAt, e]

theorem free_freed {h g' : Heap} {p : Nat} {c : Option Cell} (e : g'[p]? = some c) : Freed g' (free g' p) [p] true := by
  have hl : p < g'.length := (List.getElem?_eq_some_iff.1 e).1
  refine ⟨by simp [free], ?_, ?_⟩
  · intro q hq; simp at hq; simp [free, List.getElem?_set, Ne.symm hq]
  · intro _ q hq; simp at hq; subst hq; simp [free, hl]

theorem Freed.trans {g g1 g2 : Heap} {f1 f2 : List Nat} {b : Bool} (a : Freed g g1 f1 b) (c : Freed g1 g2 f2 b) (hd : ∀ p ∈ f1, p ∉ f2) : Freed g g2 (f1 ++ f2) b := by
  refine ⟨c.1.trans a.1, ?_, ?_⟩
  · intro p hp; simp at hp; rw [c.2.1 p hp.2, a.2.1 p hp.1]
  · intro hb p hp
    rcases List.mem_append.1 hp with hp | hp
    · rw [c.2.1 p (hd p hp)]; exact a.2.2 hb p hp
    · exact c.2.2 hb p hp

mutual
theorem not_fixed {h : Heap} : ∀ {c t fp}, Owns h c t fp → ∀ p ∈ fp, ∀ b, h[p]? ≠ some (some (.fixed b))
  | _, _, _, .err p b e => by simp
  | _, _, _, .nil => by simp
  | _, _, _, .bool i b e => by simp
  | _, _, _, .int i => by simp
  | _, _, _, .str p b e => by simp [e]
  | _, _, _, .arr p cs ts fp e o n => by
    intro q hq b
    rcases List.mem_append.1 hq with hq | hq
    · exact not_fixeds o q hq b
    · simp at hq; subst hq; simp [e]
theorem not_fixeds {h : Heap} : ∀ {c t fp}, OwnsAll h c t fp → ∀ p ∈ fp, ∀ b, h[p]? ≠ some (some (.fixed b))
  | _, _, _, .nil => by simp
  | _, _, _, .cons c t f1 cs ts f2 o1 o2 n => by
    intro q hq b
    rcases List.mem_append.1 hq with hq | hq
    · exact not_fixed o1 q hq b
    · exact not_fixeds o2 q hq b
end

mutual
theorem fromValue_spec {h : Heap} : ∀ {c t fp}, Owns h c t fp → ∀ g, Same h g fp →
    ∃ n g', (∀ fuel, n ≤ fuel → fromValue fuel c g = some (ofC? t, g')) ∧ Freed g g' fp (isOk (ofC? t))
  | _, _, _, .err p b e => by
    intro g hs
    refine ⟨1, g, ?_, rfl, by simp, by simp⟩
    intro fuel hf
    obtain ⟨k, rfl⟩ : ∃ k, fuel = k + 1 := ⟨fuel - 1, by omega⟩
    simp only [fromValue, cellAt_of (hs.2 p b e), ofC?, decode_eq]
    cases textOf b <;> rfl
  | _, _, _, .nil => by
    intro g hs
    refine ⟨1, g, ?_, rfl, by simp, by simp⟩
    intro fuel hf
    obtain ⟨k, rfl⟩ : ∃ k, fuel = k + 1 := ⟨fuel - 1, by omega⟩
    simp only [fromValue, ofC?]
  | _, _, _, .bool i b e => by
    intro g hs
    refine ⟨1, g, ?_, rfl, by simp, by simp⟩
    intro fuel hf
    obtain ⟨k, rfl⟩ : ∃ k, fuel = k + 1 := ⟨fuel - 1, by omega⟩
    have : decide (i ≠ 0) = b := by by_cases hi : i = 0 <;> cases b <;> simp_all
    simp only [fromValue, ofC?, this]
  | _, _, _, .int i => by
    intro g hs
    refine ⟨1, g, ?_, rfl, by simp, by simp⟩
    intro fuel hf
    obtain ⟨k, rfl⟩ : ∃ k, fuel = k + 1 := ⟨fuel - 1, by omega⟩
    simp only [fromValue, ofC?, ofC_eq]
  | _, _, _, .str p b e => by
    intro g hs
    have e' : g[p]? = some (some (.bytes b)) := by rw [hs.1 p (by simp), e]
    have hf := free_freed (h := h) e'
    refine ⟨1, free g p, ?_, hf.1, hf.2.1, fun _ => hf.2.2 rfl⟩
    intro fuel hf
    obtain ⟨k, rfl⟩ : ∃ k, fuel = k + 1 := ⟨fuel - 1, by omega⟩
    simp only [fromValue, cellAt_of e', ofC?, decode_eq]
    cases textOf b <;> rfl
  | _, _, _, .arr p cs ts fp e o n => by
    intro g hs
    have e' : g[p]? = some (some (.vals cs)) := by rw [hs.1 p (by simp), e]
    obtain ⟨k, g', h1, h2⟩ := fromValues_spec o g ⟨fun q hq => hs.1 q (by simp [hq]), hs.2⟩
    have e2 : g'[p]? = some (some (.vals cs)) := by rw [h2.2.1 p n, e']
    have hf := free_freed (h := h) e2
    refine ⟨k + 1, free g' p, ?_, ?_⟩
    · intro fuel hf
      obtain ⟨j, rfl⟩ : ∃ j, fuel = j + 1 := ⟨fuel - 1, by omega⟩
      simp only [fromValue, cellAt_of e', ofC?, Nat.lt_irrefl, if_false, List.take_length, h1 j (by omega), Option.map_some]
    · have := h2.trans (b := isOk (ofCs? ts)) ⟨hf.1, hf.2.1, fun _ => hf.2.2 rfl⟩ (fun q hq => by simp; rintro rfl; exact n hq)
      rwa [show isOk (ofC? (.arr ts)) = isOk (ofCs? ts) by rw [ofC?, isOk_map]]
theorem fromValues_spec {h : Heap} : ∀ {c t fp}, OwnsAll h c t fp → ∀ g, Same h g fp →
    ∃ n g', (∀ fuel, n ≤ fuel → fromValues fuel c g = some (ofCs? t, g')) ∧ Freed g g' fp (isOk (ofCs? t))
  | _, _, _, .nil => by
    intro g hs
    refine ⟨1, g, ?_, rfl, by simp, by simp⟩
    intro fuel hf
    obtain ⟨k, rfl⟩ : ∃ k, fuel = k + 1 := ⟨fuel - 1, by omega⟩
    simp only [fromValues, ofCs?]
  | _, _, _, .cons c t f1 cs ts f2 o1 o2 n => by
    intro g hs
    obtain ⟨k1, g1, h1, h2⟩ := fromValue_spec o1 g ⟨fun q hq => hs.1 q (by simp [hq]), hs.2⟩
    obtain ⟨k2, g2, h3, h4⟩ := fromValues_spec o2 g1 ⟨fun q hq => by
        rw [h2.2.1 q (fun hq' => n q hq' hq)]; exact hs.1 q (by simp [hq]),
      fun q b e => by rw [h2.2.1 q (fun hq' => not_fixed o1 q hq' b e)]; exact hs.2 q b e⟩
    rw [ofCs?]
    cases ht : ofC? t with
    | error x =>
      refine ⟨k1 + 1, g1, ?_, h2.1, fun p hp => h2.2.1 p (fun h => hp (by simp [h])), by simp [isOk, Except.bind]⟩
      intro fuel hf
      obtain ⟨j, rfl⟩ : ∃ j, fuel = j + 1 := ⟨fuel - 1, by omega⟩
      simp only [fromValues, h1 j (by omega), ht]
      rfl
    | ok v =>
      refine ⟨max k1 k2 + 1, g2, ?_, ?_⟩
      · intro fuel hf
        obtain ⟨j, rfl⟩ : ∃ j, fuel = j + 1 := ⟨fuel - 1, by omega⟩
        simp only [fromValues, h1 j (by omega), ht, h3 j (by omega), Option.map_some]
        rfl
      · rw [show isOk ((Except.ok v : Except Error V).bind fun v => (ofCs? ts).map (v :: ·)) = isOk (ofCs? ts) from isOk_map _ _]
        refine Freed.trans ⟨h2.1, h2.2.1, fun _ => h2.2.2 (by rw [ht]; rfl)⟩ h4 n
end

/-! ## Specification of sessions -/

/-- The native functions there are, in the order of their declarations. -/
def declared : List Step → List (List Char × List Char × Nat)
  | [] => []
  | .compile ds kept :: xs => (if kept then ds else []) ++ declared xs
  | .call .. :: xs => declared xs

def initOf : Event → Option (List Char)
  | .init m _ _ => some m
  | .call .. => none

/-- The library a module's functions are taken from: the one loaded when the module was first used, otherwise the linked file. -/
def LibraryOf (links : List Char → Option (List Char)) (disk : List Char → Option Lib) (tr : List Event) (m file : List Char) (lib : Lib) : Prop :=
  Event.init m file lib ∈ tr ∨ (m ∉ tr.filterMap initOf ∧ links m = some file ∧ disk file = some lib ∧ lib.init = true)

/-! ## The invariant -/

structure Inv (links : List Char → Option (List Char)) (l : FunctionLibrary) (st : St) : Prop where
  nodup : l.modules.Nodup
  entries : ∀ e ∈ l.methods, l.modules[e.moduleId]? = some e.moduleName
  loaded : ∀ i file lib, st.libraries i = some (file, lib) ↔ ∃ m, l.modules[i]? = some m ∧ Event.init m file lib ∈ st.trace
  once : (st.trace.filterMap initOf).Nodup
  known : ∀ m ∈ st.trace.filterMap initOf, m ∈ l.modules
  linked : ∀ m file lib, Event.init m file lib ∈ st.trace → links m = some file ∧ lib.init = true
  calls : ∀ pre suf m file sym args heap, st.trace = pre ++ .call m file sym args heap :: suf →
    ∃ lib, Event.init m file lib ∈ pre ∧ lib.sym sym ≠ none ∧ ∃ e ∈ l.methods, e.moduleName = m ∧ e.method = sym ∧ e.nargs = args.length

theorem mem_init {tr : List Event} {m file lib} (h : Event.init m file lib ∈ tr) : m ∈ tr.filterMap initOf := List.mem_filterMap.2 ⟨_, h, rfl⟩

theorem inv_start (links : List Char → Option (List Char)) : Inv links start.1 start.2 := by
  refine ⟨by simp [start], by simp [start], by simp [start], by simp [start], by simp [start], by simp [start], ?_⟩
  intro pre suf m file sym args heap h
  simp [start] at h

/-- Declaring a function: the modules grow by at most the new one. -/
theorem declare_spec (l : FunctionLibrary) (m f : List Char) (n : Nat) (hn : l.modules.Nodup) (he : ∀ e ∈ l.methods, l.modules[e.moduleId]? = some e.moduleName) :
    let r := (declareNative l m f n).1
    l.modules <+: r.modules ∧ r.modules.Nodup ∧ (∀ e ∈ r.methods, r.modules[e.moduleId]? = some e.moduleName) ∧
      l.methods <+: r.methods ∧ r.methods.map (fun e => (e.moduleName, e.method, e.nargs)) = l.methods.map (fun e => (e.moduleName, e.method, e.nargs)) ++ [(m, f, n)] := by
  intro r
  simp only [r, declareNative]
  cases hf : l.modules.findIdx? (· == m) with
  | some i =>
    refine ⟨List.prefix_rfl, hn, ?_, List.prefix_append _ _, by simp⟩
    intro e h
    rcases List.mem_append.1 h with h | h
    · exact he e h
    · simp at h
      subst h
      have := List.findIdx?_eq_some_iff_getElem.1 hf
      obtain ⟨h1, h2, _⟩ := this
      rw [List.getElem?_eq_getElem h1]
      simpa using h2
  | none =>
    have hm : m ∉ l.modules := by
      intro hm
      have := List.findIdx?_eq_none_iff.1 hf m hm
      simp at this
    refine ⟨List.prefix_append _ _, ?_, ?_, List.prefix_append _ _, by simp⟩
    · rw [List.nodup_append]
      refine ⟨hn, by simp, ?_⟩
      intro a ha b hb
      simp at hb; subst hb; rintro rfl; exact hm ha
    · intro e h
      rcases List.mem_append.1 h with h | h
      · exact getElem?_prefix (List.prefix_append _ _) (he e h)
      · simp at h; subst h; simp

theorem declareAll_spec (ds : List (List Char × List Char × Nat)) : ∀ (l : FunctionLibrary), l.modules.Nodup →
    (∀ e ∈ l.methods, l.modules[e.moduleId]? = some e.moduleName) →
    let r := declareAll l ds
    l.modules <+: r.modules ∧ r.modules.Nodup ∧ (∀ e ∈ r.methods, r.modules[e.moduleId]? = some e.moduleName) ∧
      l.methods <+: r.methods ∧ r.methods.map (fun e => (e.moduleName, e.method, e.nargs)) = l.methods.map (fun e => (e.moduleName, e.method, e.nargs)) ++ ds := by
  induction ds with
  | nil => intro l h1 h2; exact ⟨List.prefix_rfl, h1, h2, List.prefix_rfl, by simp [declareAll]⟩
  | cons d ds ih =>
    intro l h1 h2
    obtain ⟨a1, a2, a3, a4, a5⟩ := declare_spec l d.1 d.2.1 d.2.2 h1 h2
    obtain ⟨b1, b2, b3, b4, b5⟩ := ih _ a2 a3
    refine ⟨a1.trans b1, b2, b3, a4.trans b4, ?_⟩
    show (declareAll (declareNative l d.1 d.2.1 d.2.2).1 ds).methods.map _ = _
    rw [b5, a5]; simp

theorem truncate_declareAll (l : FunctionLibrary) (ds) (h1 : l.modules.Nodup) (h2 : ∀ e ∈ l.methods, l.modules[e.moduleId]? = some e.moduleName) :
    truncate (declareAll l ds) (l.modules.length, l.methods.length) = l := by
  obtain ⟨a1, _, _, a4, _⟩ := declareAll_spec ds l h1 h2
  obtain ⟨x, hx⟩ := a1
  obtain ⟨y, hy⟩ := a4
  cases l
  simp only [truncate]
  rw [← hx, ← hy]
  simp

theorem inv_compile {links} {l : FunctionLibrary} {st : St} (i : Inv links l st) (ds) (kept : Bool) :
    Inv links (compile l ds kept) st ∧
    (compile l ds kept).methods.map (fun e => (e.moduleName, e.method, e.nargs)) =
      l.methods.map (fun e => (e.moduleName, e.method, e.nargs)) ++ (if kept then ds else []) := by
  cases kept with
  | false =>
    have : compile l ds false = l := truncate_declareAll l ds i.nodup i.entries
    rw [this]; simp [i]
  | true =>
    obtain ⟨a1, a2, a3, a4, a5⟩ := declareAll_spec ds l i.nodup i.entries
    show Inv links (declareAll l ds) st ∧ _
    refine ⟨⟨a2, a3, ?_, i.once, fun m hm => a1.subset (i.known m hm), i.linked, ?_⟩, a5⟩
    · intro k file lib
      rw [i.loaded]
      constructor
      · rintro ⟨m, h1, h2⟩; exact ⟨m, getElem?_prefix a1 h1, h2⟩
      · rintro ⟨m, h1, h2⟩
        have hm : m ∈ l.modules := i.known m (List.mem_filterMap.2 ⟨_, h2, rfl⟩)
        obtain ⟨j, hj, rfl⟩ := List.getElem_of_mem hm
        have h3 : (declareAll l ds).modules[j]? = some l.modules[j] := getElem?_prefix a1 (List.getElem?_eq_getElem hj)
        have : j = k := by
          have hj' := (List.getElem?_eq_some_iff.1 h3).1
          exact (List.getElem?_inj hj' a2).1 (h3.trans h1.symm)
        subst this
        exact ⟨_, List.getElem?_eq_getElem hj, h2⟩
    · intro pre suf m file sym args heap h
      obtain ⟨lib, h1, h2, e, h3, h4⟩ := i.calls pre suf m file sym args heap h
      exact ⟨lib, h1, h2, e, a4.subset h3, h4⟩

/-! ## Calls -/

/-- The state after the library of a module was loaded. -/
def loadLib (st : St) (e : Entry) (file : List Char) (lib : Lib) : St :=
  { st with
    libraries := fun i => if i = e.moduleId then some (file, lib) else st.libraries i
    trace := st.trace ++ [.init e.moduleName file lib] }

theorem library_inited {links} {l : FunctionLibrary} {st : St} (i : Inv links l st) {e : Entry} (he : e ∈ l.methods) {file lib}
    (h : Event.init e.moduleName file lib ∈ st.trace) : st.libraries e.moduleId = some (file, lib) :=
  (i.loaded _ _ _).2 ⟨_, i.entries e he, h⟩

theorem library_none {links} {l : FunctionLibrary} {st : St} (i : Inv links l st) {e : Entry} (he : e ∈ l.methods)
    (h : e.moduleName ∉ st.trace.filterMap initOf) : st.libraries e.moduleId = none := by
  cases hl : st.libraries e.moduleId with
  | none => rfl
  | some x =>
    obtain ⟨file, lib⟩ := x
    obtain ⟨m, h1, h2⟩ := (i.loaded _ _ _).1 hl
    rw [i.entries e he] at h1
    cases h1
    exact absurd (mem_init h2) h

theorem inv_loadLib {links} {l : FunctionLibrary} {st : St} (i : Inv links l st) {e : Entry} (he : e ∈ l.methods) {file : List Char} {lib : Lib}
    (hn : e.moduleName ∉ st.trace.filterMap initOf) (hl : links e.moduleName = some file) (hi : lib.init = true) : Inv links l (loadLib st e file lib) := by
  have hlen : e.moduleId < l.modules.length := (List.getElem?_eq_some_iff.1 (i.entries e he)).1
  have htr : (loadLib st e file lib).trace.filterMap initOf = st.trace.filterMap initOf ++ [e.moduleName] := by simp [loadLib, initOf]
  refine ⟨i.nodup, i.entries, ?_, ?_, ?_, ?_, ?_⟩
  · intro k f x
    show (if k = e.moduleId then some (file, lib) else st.libraries k) = some (f, x) ↔ ∃ m, _ ∧ Event.init m f x ∈ st.trace ++ [.init e.moduleName file lib]
    by_cases hk : k = e.moduleId
    · subst hk
      rw [if_pos rfl, i.entries e he]
      constructor
      · intro h; cases h; exact ⟨_, rfl, by simp⟩
      · rintro ⟨m, h1, h2⟩
        cases h1
        rcases List.mem_append.1 h2 with h2 | h2
        · exact absurd (mem_init h2) hn
        · simp at h2; rw [h2.1, h2.2]
    · rw [if_neg hk, i.loaded]
      constructor
      · rintro ⟨m, h1, h2⟩; exact ⟨m, h1, List.mem_append_left _ h2⟩
      · rintro ⟨m, h1, h2⟩
        rcases List.mem_append.1 h2 with h2 | h2
        · exact ⟨m, h1, h2⟩
        · simp at h2
          obtain ⟨rfl, _⟩ := h2
          exact absurd ((List.getElem?_inj hlen i.nodup).1 ((i.entries e he).trans h1.symm)).symm hk
  · rw [htr, List.nodup_append]
    refine ⟨i.once, by simp, ?_⟩
    intro a ha b hb
    simp at hb; subst hb; rintro rfl; exact hn ha
  · intro m hm
    rw [htr] at hm
    rcases List.mem_append.1 hm with hm | hm
    · exact i.known m hm
    · simp at hm; subst hm; exact List.mem_of_getElem? (i.entries e he)
  · intro m f x hm
    rcases List.mem_append.1 hm with hm | hm
    · exact i.linked m f x hm
    · simp at hm; obtain ⟨rfl, rfl, rfl⟩ := hm; exact ⟨hl, hi⟩
  · intro pre suf m f sym args heap h
    rcases List.eq_nil_or_concat suf with rfl | ⟨suf, z, rfl⟩
    · have := congrArg List.getLast? h
      simp [loadLib] at this
    · rw [loadLib, List.concat_eq_append, ← List.cons_append, ← List.append_assoc] at h
      have := List.append_inj_left' h rfl
      exact i.calls pre suf m f sym args heap this

theorem toValues_length : ∀ (vs : List V) (h : Heap) (cs : List CVal) (h' : Heap), toValues vs h = (some cs, h') → cs.length = vs.length := by
  intro vs
  induction vs with
  | nil => intro h cs h' e; rw [toValues] at e; cases e; rfl
  | cons v vs ih =>
    intro h cs h' e
    rw [toValues] at e
    split at e
    · cases e
    · split at e
      · cases e
      · rename_i h2
        cases e
        simp [ih _ _ _ h2]

/-- The invariant depends on the memory in no way. -/
theorem inv_heap {links} {l : FunctionLibrary} {st : St} (i : Inv links l st) (h : Heap) : Inv links l { st with heap := h } :=
  ⟨i.nodup, i.entries, i.loaded, i.once, i.known, i.linked, i.calls⟩

theorem inv_callSymbol {links} {l : FunctionLibrary} {st : St} (i : Inv links l st) {e : Entry} (he : e ∈ l.methods) {file : List Char} {lib : Lib} {fuel : Nat}
    {args : List V} (ha : args.length = e.nargs) (hi : Event.init e.moduleName file lib ∈ st.trace) {r} {st' : St}
    (h : callSymbol fuel e file lib args st = some (r, st')) : Inv links l st' := by
  unfold callSymbol at h
  split at h
  · cases h; exact i
  · rename_i f hf
    unfold call at h
    split at h
    · cases h; exact inv_heap i _
    · rename_i cs h1 hv
      simp only [Option.map_eq_some_iff] at h
      obtain ⟨x, _, hx⟩ := h
      cases hx
      refine ⟨i.nodup, i.entries, ?_, ?_, ?_, ?_, ?_⟩
      · intro k f x
        simp only [List.mem_append, List.mem_singleton, reduceCtorEq, or_false]
        exact i.loaded k f x
      · simpa [List.filterMap_append, List.filterMap_cons, initOf] using i.once
      · simpa [List.filterMap_append, List.filterMap_cons, initOf] using i.known
      · simpa using i.linked
      · intro pre suf m f' sym args' heap h
        rcases List.eq_nil_or_concat suf with rfl | ⟨suf, z, rfl⟩
        · have := List.append_inj h (by simpa using congrArg List.length h)
          obtain ⟨h1, h2⟩ := this
          cases h2
          subst h1
          exact ⟨lib, hi, by simp [hf], e, he, rfl, rfl, by rw [toValues_length _ _ _ _ hv, ha]⟩
        · rw [List.concat_eq_append, ← List.cons_append, ← List.append_assoc] at h
          exact i.calls pre suf m f' sym args' heap (List.append_inj_left' h rfl)

theorem inv_handle {links} {l : FunctionLibrary} {st : St} (i : Inv links l st) {e : Entry} (he : e ∈ l.methods) {fuel : Nat} {disk}
    {args : List V} (ha : args.length = e.nargs) {r} {st' : St} (h : handle fuel links disk e args st = some (r, st')) : Inv links l st' := by
  unfold handle at h
  split at h
  · rename_i file lib hl
    obtain ⟨m, h1, h2⟩ := (i.loaded _ _ _).1 hl
    rw [i.entries e he] at h1
    cases h1
    exact inv_callSymbol i he ha h2 h
  · rename_i hl
    have hn : e.moduleName ∉ st.trace.filterMap initOf := by
      intro hm
      obtain ⟨x, h1, h2⟩ := List.mem_filterMap.1 hm
      cases x with
      | call => simp [initOf] at h2
      | init m f lib =>
        simp [initOf] at h2; subst h2
        rw [library_inited i he h1] at hl; simp at hl
    split at h
    · cases h; exact i
    · rename_i file hlink
      split at h
      · cases h; exact i
      · split at h
        · rename_i lib hd hi
          exact inv_callSymbol (inv_loadLib i he hn hlink hi) he ha (by simp [loadLib]) h
        · cases h; exact i

theorem inv_step {links} {l : FunctionLibrary} {st : St} (i : Inv links l st) (x : Step) {s' : FunctionLibrary × St} (h : step links (l, st) x = some s') :
    Inv links s'.1 s'.2 ∧ s'.1.methods.map (fun e => (e.moduleName, e.method, e.nargs)) =
      l.methods.map (fun e => (e.moduleName, e.method, e.nargs)) ++ declared [x] := by
  cases x with
  | compile ds kept =>
    cases h
    obtain ⟨a, b⟩ := inv_compile i ds kept
    exact ⟨a, by simpa [declared] using b⟩
  | call fuel disk id stack =>
    simp only [step, Option.map_eq_some_iff] at h
    obtain ⟨⟨r, st'⟩, h, rfl⟩ := h
    refine ⟨?_, by simp [declared]⟩
    unfold callNative at h
    split at h
    · cases h
    · rename_i e he
      split at h
      · cases h
      · simp only [Option.map_eq_some_iff] at h
        obtain ⟨⟨r, st''⟩, h, hx⟩ := h
        cases hx
        exact inv_handle i (List.mem_of_getElem? he) (by simp; omega) h

theorem declared_append (xs ys : List Step) : declared (xs ++ ys) = declared xs ++ declared ys := by
  induction xs with
  | nil => rfl
  | cons x xs ih => cases x <;> simp [declared, ih]

theorem inv_run {links} : ∀ (xs : List Step) (s s' : FunctionLibrary × St), Inv links s.1 s.2 → run links xs s = some s' →
    Inv links s'.1 s'.2 ∧ s'.1.methods.map (fun e => (e.moduleName, e.method, e.nargs)) =
      s.1.methods.map (fun e => (e.moduleName, e.method, e.nargs)) ++ declared xs
  | [], s, s', i, h => by cases h; exact ⟨i, by simp [declared]⟩
  | x :: xs, s, s', i, h => by
    simp only [run, Option.bind_eq_some_iff] at h
    obtain ⟨s1, h1, h2⟩ := h
    obtain ⟨i1, e1⟩ := inv_step i x h1
    obtain ⟨i2, e2⟩ := inv_run xs s1 s' i1 h2
    refine ⟨i2, ?_⟩
    rw [e2, e1, show x :: xs = [x] ++ xs from rfl, declared_append, List.append_assoc]

theorem inv_reached {links} {xs : List Step} {s : FunctionLibrary × St} (h : run links xs start = some s) :
    Inv links s.1 s.2 ∧ s.1.methods.map (fun e => (e.moduleName, e.method, e.nargs)) = declared xs := by
  simpa [start] using inv_run xs start s (inv_start links) h

theorem entry_of {links} {xs : List Step} {s : FunctionLibrary × St} (h : run links xs start = some s) {id : Nat} {m f : List Char} {n : Nat}
    (hd : (declared xs)[id]? = some (m, f, n)) : ∃ e, s.1.methods[id]? = some e ∧ e ∈ s.1.methods ∧ e.moduleName = m ∧ e.method = f ∧ e.nargs = n := by
  rw [← (inv_reached h).2, List.getElem?_map, Option.map_eq_some_iff] at hd
  obtain ⟨e, h1, h2⟩ := hd
  cases h2
  exact ⟨e, h1, List.mem_of_getElem? h1, rfl, rfl, rfl⟩

theorem callNative_eq {links disk} {l : FunctionLibrary} {st : St} {id : Nat} {e : Entry} (he : l.methods[id]? = some e) {rest args : List V}
    (ha : args.length = e.nargs) (fuel : Nat) :
    callNative fuel links disk l id (rest ++ args) st = (handle fuel links disk e args st).map fun x => (x.1.map fun v => rest ++ [v], x.2) := by
  have h1 : (rest ++ args).length - e.nargs = rest.length := by simp; omega
  simp only [callNative, he, h1]
  rw [if_neg (by simp; omega), List.take_left, List.drop_left]

/-! ## The theorems -/

/-- **C69** an argument is passed exactly when it is nil, a bool, an int, text without NUL, or a vector or list of such. What is passed is that value, in memory of
its own; nothing that was in the memory before is changed. -/
theorem C69_argument (v : V) (h : Heap) : h <+: (toValue v h).2 ∧
    match asC v with
    | none => (toValue v h).1 = none
    | some t => ∃ c fp, (toValue v h).1 = some c ∧ Owns (toValue v h).2 c t fp ∧ ∀ p, p ∈ fp ↔ h.length ≤ p ∧ p < (toValue v h).2.length :=
  by
  have m := toValue_spec v h
  unfold Made at m
  revert m
  cases asC v <;> exact id

/-- **C69** the result is what the native function returned (ints modulo 2^63), or the first error in it; its memory is freed once, other memory is not touched. -/
theorem C69_result (h : Heap) (c : CVal) (t : T) (fp : List Nat) (o : Owns h c t fp) :
    ∃ n h', (∀ fuel, n ≤ fuel → fromValue fuel c h = some (ofC? t, h')) ∧ h'.length = h.length ∧ (∀ p, p ∉ fp → h'[p]? = h[p]?) ∧
      (isOk (ofC? t) = true → ∀ p ∈ fp, h'[p]? = some none) := by
  obtain ⟨n, h', h1, h2⟩ := fromValue_spec o h ⟨fun _ _ => rfl, fun _ _ e => e⟩
  exact ⟨n, h', h1, h2⟩

mutual
/-- Lists come back as vectors. -/
def vectors : V → V
  | .vec vs => .vec (vectorsAll vs)
  | .list vs => .vec (vectorsAll vs)
  | v => v
def vectorsAll : List V → List V
  | [] => []
  | v :: vs => vectors v :: vectorsAll vs
end

mutual
/-- Ints are 63-bit integers. -/
def IntsOk : V → Prop
  | .int i => InIntRange i.toInt
  | .vec vs => IntsOkAll vs
  | .list vs => IntsOkAll vs
  | _ => True
def IntsOkAll : List V → Prop
  | [] => True
  | v :: vs => IntsOk v ∧ IntsOkAll vs
end

theorem wrap_self (i : I64) (h : InIntRange i.toInt) : wrap i = i := by
  have : i.toInt.bmod (2 ^ 63) = i.toInt := by
    obtain ⟨h1, h2⟩ := h
    simp only [Int.bmod]; split <;> omega
  rw [wrap, this]; simp

mutual
theorem ofC_asC : ∀ (v : V) (t : T), IntsOk v → asC v = some t → ofC? t = .ok (vectors v)
  | .nil, t, _, h => by cases h; rfl
  | .bool b, t, _, h => by cases h; rfl
  | .int i, t, hi, h => by cases h; rw [ofC?, wrap_self i hi]; rfl
  | .str s, t, _, h => by
    simp only [asC] at h
    split at h
    · cases h
    · cases h; simp only [ofC?, (textOf_iff _ s).2 rfl]; rfl
  | .vec vs, t, hi, h => by
    simp only [asC, Option.map_eq_some_iff] at h
    obtain ⟨ts, h, rfl⟩ := h
    rw [ofC?, ofCs_asCs vs ts hi h]; rfl
  | .list vs, t, hi, h => by
    simp only [asC, Option.map_eq_some_iff] at h
    obtain ⟨ts, h, rfl⟩ := h
    rw [ofC?, ofCs_asCs vs ts hi h]; rfl
  | .other n, t, _, h => by cases h
theorem ofCs_asCs : ∀ (vs : List V) (ts : List T), IntsOkAll vs → asCs vs = some ts → ofCs? ts = .ok (vectorsAll vs)
  | [], ts, _, h => by cases h; rfl
  | v :: vs, ts, hi, h => by
    simp only [asCs, Option.bind_eq_some_iff, Option.map_eq_some_iff] at h
    obtain ⟨t, h1, ts, h2, rfl⟩ := h
    rw [ofCs?, ofC_asC v t hi.1 h1, ofCs_asCs vs ts hi.2 h2]; rfl
end

/-- **C69** a value that is passed to C and returned comes back as it was, but for lists, which are then vectors; no memory is lost and none is freed twice. -/
theorem C69_round_trip (v : V) (t : T) (h : Heap) (hv : asC v = some t) (hi : IntsOk v) :
    ∃ c n h', (toValue v h).1 = some c ∧ (∀ fuel, n ≤ fuel → fromValue fuel c (toValue v h).2 = some (.ok (vectors v), h')) ∧
      (∀ p, p < h.length → h'[p]? = h[p]?) ∧ ∀ p, h.length ≤ p → p < h'.length → h'[p]? = some none := by
  have m := C69_argument v h
  rw [hv] at m
  obtain ⟨_, c, fp, h1, o, hf⟩ := m
  obtain ⟨n, h', h2, h3, h4, h5⟩ := C69_result _ _ _ _ o
  rename_i hp
  rw [ofC_asC v t hi hv] at h2 h5
  refine ⟨c, n, h', h1, h2, ?_, ?_⟩
  · intro p hl
    rw [h4 p (fun hm => by have := ((hf p).1 hm).1; omega)]
    rw [List.getElem?_eq_getElem hl]
    exact getElem?_prefix hp (List.getElem?_eq_getElem hl)
  · intro p hl hu
    exact h5 rfl p ((hf p).2 ⟨hl, by omega⟩)

/-- **C69** in every session: the functions that can be called are those declared, in that order; whatever native code was run, it was a function that the program
declares, with as many arguments as declared, in the library linked to its module, after that library was initialised for the module; and no module is initialised twice. -/
theorem C69_session (links : List Char → Option (List Char)) (steps : List Step) (s : FunctionLibrary × St) (h : run links steps start = some s) :
    s.1.methods.map (fun e => (e.moduleName, e.method, e.nargs)) = declared steps ∧
    (s.2.trace.filterMap initOf).Nodup ∧
    ∀ pre suf m file sym args heap, s.2.trace = pre ++ .call m file sym args heap :: suf →
      links m = some file ∧ (m, sym, args.length) ∈ declared steps ∧ ∃ lib, Event.init m file lib ∈ pre ∧ lib.sym sym ≠ none := by
  obtain ⟨i, hd⟩ := inv_reached h
  refine ⟨hd, i.once, ?_⟩
  intro pre suf m file sym args heap ht
  obtain ⟨lib, h1, h2, e, h3, h4, h5, h6⟩ := i.calls pre suf m file sym args heap ht
  refine ⟨(i.linked m file lib (by rw [ht]; simp [h1])).1, ?_, lib, h1, h2⟩
  rw [← hd]
  exact List.mem_map.2 ⟨e, h3, by rw [h4, h5, h6]⟩

/-- **C69** a call of a declared function whose library is there, with arguments that can be passed: the library is initialised if it was not, the function is called once
and sees the arguments, in memory of their own, and its result is what it returned. -/
theorem C69_called (links : List Char → Option (List Char)) (disk : List Char → Option Lib) (steps : List Step) (s : FunctionLibrary × St) (h : run links steps start = some s)
    (id : Nat) (m f file : List Char) (n : Nat) (hd : (declared steps)[id]? = some (m, f, n)) (rest args : List V) (ha : args.length = n)
    (lib : Lib) (hl : LibraryOf links disk s.2.trace m file lib) (g : ExternFunc) (hg : lib.sym f = some g) (ts : List T) (ht : asCs args = some ts) :
    ∃ cs h1 fp, OwnsAll h1 cs ts fp ∧ s.2.heap <+: h1 ∧ (∀ p, p ∈ fp ↔ s.2.heap.length ≤ p ∧ p < h1.length) ∧
      ∀ t fp', Owns (g cs h1).2 (g cs h1).1 t fp' → ∃ k s', ∀ fuel, k ≤ fuel →
        callNative fuel links disk s.1 id (rest ++ args) s.2 = some ((ofC? t).map fun v => rest ++ [v], s') ∧
        s'.trace = s.2.trace ++ (if m ∈ s.2.trace.filterMap initOf then [] else [.init m file lib]) ++ [.call m file f cs h1] ∧
        Freed (g cs h1).2 s'.heap fp' (isOk (ofC? t)) := by
  obtain ⟨i, _⟩ := inv_reached h
  obtain ⟨e, h1, he, rfl, rfl, rfl⟩ := entry_of h hd
  have mk := toValues_spec args s.2.heap
  rw [ht] at mk
  obtain ⟨hp, cs, fp, hc, ho, hf⟩ := mk
  refine ⟨cs, (toValues args s.2.heap).2, fp, ho, hp, hf, ?_⟩
  intro t fp' ot
  obtain ⟨k, h', hk, hfr⟩ := fromValue_spec ot _ ⟨fun _ _ => rfl, fun _ _ e => e⟩
  have hv : toValues args s.2.heap = (some cs, (toValues args s.2.heap).2) := by rw [← hc]
  have key : ∀ (st : St), st.heap = s.2.heap → ∀ fuel, k ≤ fuel → callSymbol fuel e file lib args st =
      some (ofC? t, { st with heap := h', trace := st.trace ++ [.call e.moduleName file e.method cs (toValues args s.2.heap).2] }) := by
    intro st hst fuel hfu
    simp only [callSymbol, hg, call, hst]
    rw [hv]
    simp only [hk fuel hfu, Option.map_some]
  rcases hl with hl | ⟨hn, hl, hdk, hi⟩
  · have hm : e.moduleName ∈ s.2.trace.filterMap initOf := List.mem_filterMap.2 ⟨_, hl, rfl⟩
    refine ⟨k, { s.2 with heap := h', trace := s.2.trace ++ [.call e.moduleName file e.method cs (toValues args s.2.heap).2] }, fun fuel hfu => ⟨?_, ?_, ?_⟩⟩
    · rw [callNative_eq h1 ha]
      simp only [handle, library_inited i he hl, key s.2 rfl fuel hfu, Option.map_some]
    · rw [if_pos hm]; simp
    · exact hfr
  · refine ⟨k, { loadLib s.2 e file lib with
      heap := h', trace := (loadLib s.2 e file lib).trace ++ [.call e.moduleName file e.method cs (toValues args s.2.heap).2] }, fun fuel hfu => ⟨?_, ?_, ?_⟩⟩
    · rw [callNative_eq h1 ha]
      simp only [handle, library_none i he hn, hl, hdk, hi, if_true]
      have := key (loadLib s.2 e file lib) rfl fuel hfu
      simp only [loadLib] at this ⊢
      rw [this]
      rfl
    · rw [if_neg hn]; rfl
    · exact hfr

/-- **C69** otherwise no native function is called and the call fails: no link, no such library, a library without `_cordy_api_init`, no such function in it, an argument that
cannot be passed. A library that could not be loaded can be loaded by a later call. -/
theorem C69_not_called (links : List Char → Option (List Char)) (disk : List Char → Option Lib) (steps : List Step) (s : FunctionLibrary × St) (h : run links steps start = some s)
    (id : Nat) (m f : List Char) (n : Nat) (hd : (declared steps)[id]? = some (m, f, n)) (rest args : List V) (ha : args.length = n) (fuel : Nat) :
    (m ∉ s.2.trace.filterMap initOf → links m = none → callNative fuel links disk s.1 id (rest ++ args) s.2 = some (.error .noLink, s.2)) ∧
    (m ∉ s.2.trace.filterMap initOf → ∀ file, links m = some file → disk file = none →
      callNative fuel links disk s.1 id (rest ++ args) s.2 = some (.error .noLibrary, s.2)) ∧
    (m ∉ s.2.trace.filterMap initOf → ∀ file lib, links m = some file → disk file = some lib → lib.init = false →
      callNative fuel links disk s.1 id (rest ++ args) s.2 = some (.error .noInit, s.2)) ∧
    ∀ file lib, LibraryOf links disk s.2.trace m file lib →
      (lib.sym f = none ∨ asCs args = none) → ∃ x s', callNative fuel links disk s.1 id (rest ++ args) s.2 = some (.error x, s') ∧
        (x = if lib.sym f = none then .noSymbol else .incompatible) ∧
        s'.trace = s.2.trace ++ (if m ∈ s.2.trace.filterMap initOf then [] else [.init m file lib]) := by
  obtain ⟨i, _⟩ := inv_reached h
  obtain ⟨e, h1, he, rfl, rfl, rfl⟩ := entry_of h hd
  refine ⟨fun hn hl => ?_, fun hn file hl hdk => ?_, fun hn file lib hl hdk hi => ?_, ?_⟩
  · rw [callNative_eq h1 ha]; simp only [handle, library_none i he hn, hl]; rfl
  · rw [callNative_eq h1 ha]; simp only [handle, library_none i he hn, hl, hdk]; rfl
  · rw [callNative_eq h1 ha]; simp only [handle, library_none i he hn, hl, hdk, hi]; rfl
  · intro file lib hl hf
    have key : ∀ st : St, ∃ s', callSymbol fuel e file lib args st = some (.error (if lib.sym e.method = none then .noSymbol else .incompatible), s') ∧ s'.trace = st.trace := by
      intro st
      cases hg : lib.sym e.method with
      | none => exact ⟨st, by simp [callSymbol, hg], rfl⟩
      | some g =>
        have hc : asCs args = none := by simpa [hg] using hf
        have mk := toValues_spec args st.heap
        rw [hc] at mk
        have hv : toValues args st.heap = (none, (toValues args st.heap).2) := by rw [← mk.2]
        refine ⟨{ st with heap := (toValues args st.heap).2 }, ?_, rfl⟩
        simp only [callSymbol, hg, call]
        rw [hv]
        simp
    rcases hl with hl | ⟨hn, hl, hdk, hi⟩
    · obtain ⟨s', a, b⟩ := key s.2
      refine ⟨_, s', ?_, rfl, ?_⟩
      · rw [callNative_eq h1 ha]; simp only [handle, library_inited i he hl, a]; rfl
      · rw [b, if_pos (mem_init hl)]; simp
    · obtain ⟨s', a, b⟩ := key (loadLib s.2 e file lib)
      refine ⟨_, s', ?_, rfl, ?_⟩
      · rw [callNative_eq h1 ha]
        simp only [handle, library_none i he hn, hl, hdk, hi, if_true]
        simp only [loadLib] at a
        rw [a]; rfl
      · rw [b, if_neg hn]; rfl

/-! ## A session with a library -/

/-- A library with one function `id`, which returns its first argument. -/
def idLib : Lib := ⟨true, fun f => if f = ['i', 'd'] then some fun cs h => (cs.headD .nil, h) else none⟩

/-- Arguments of all kinds that can be passed, nested. -/
def sample : V := .list [.vec [.int 3, .str ['a', 'é']], .bool true, .nil]

example : (asC sample).isSome = true ∧ IntsOk sample := ⟨by decide, by simp [sample, IntsOk, IntsOkAll, InIntRange]⟩
example : asC (.vec [.int 3, .other 0]) = none ∧ asC (.str ['a', '\x00']) = none := by decide

theorem idSession : ∃ s, run (fun _ => some ['x']) [.compile [(['m'], ['i', 'd'], 1)] true] start = some s ∧ s.2.trace = [] := ⟨_, rfl, rfl⟩

example (disk : List Char → Option Lib) (hd : disk ['x'] = some idLib) : ∃ s, run (fun _ => some ['x']) [.compile [(['m'], ['i', 'd'], 1)] true] start = some s ∧
    (declared [.compile [(['m'], ['i', 'd'], 1)] true])[0]? = some (['m'], ['i', 'd'], 1) ∧ LibraryOf (fun _ => some ['x']) disk s.2.trace ['m'] ['x'] idLib ∧
    (idLib.sym ['i', 'd']).isSome = true := by
  obtain ⟨s, h1, h2⟩ := idSession
  exact ⟨s, h1, rfl, .inr ⟨by simp [h2], rfl, hd, rfl⟩, rfl⟩

/-- Ints of 64 bits wrap around. -/
example : wrap 0x4000000000000000#64 = 0xc000000000000000#64 ∧ ofC 0x4000000000000000#64 = 0xc000000000000000#64 := by decide

end Cordy.Ffi
