import Verif.Lemmas.IndexMap
import Verif.Model.Dict
/-!
# C18, C19, C21, C59: dicts, sets and lists under every history
-/
namespace Cordy
open IndexMap

/-! ## C18: specification

An ordered finite map: the surviving keys in order of first insertion, and what each key maps to (a function). -/

/-- Specification state of a dict. -/
structure OMap (κ ν : Type) where
  order : List κ
  val : κ → Option ν
  default : Option (Default ν)

namespace OMap
variable {κ ν : Type} [BEq κ]

/-- Write `v` at `k`: the key keeps its place if present, otherwise comes last. -/
def write (m : OMap κ ν) (k : κ) (v : ν) : OMap κ ν :=
  { m with
    order := if (m.val k).isSome then m.order else m.order ++ [k]
    val := fun x => if k == x then some v else m.val x }

/-- Forget `k`. -/
def erase (m : OMap κ ν) (k : κ) : OMap κ ν :=
  { m with order := m.order.filter (fun x => !(x == k)), val := fun x => if k == x then none else m.val x }

/-- What each operation must do. -/
def step (m : OMap κ ν) : Dict.Op κ ν → OMap κ ν × Dict.Out κ ν
  | .set k v => (m.write k v, .unit)
  | .get k r =>
    match m.val k, m.default with
    | some v, _ => (m, .val v)
    | none, none => (m, .err .keyNotPresent)
    | none, some (.const v) => (m.write k v, .val v)
    | none, some .call =>
      match r with
      | .ok v => (m.write k v, .val v)
      | .error e => (m, .err e)
  | .contains k => (m, .bool (m.val k).isSome)
  | .remove k => (m.erase k, .bool (m.val k).isSome)
  | .pop =>
    match m.order.getLast? with
    | none => (m, .err .nonEmpty)
    | some k =>
      match m.val k with
      | some v => ({ m.erase k with order := m.order.dropLast }, .pair k v)
      | none => (m, .err .panic)
  | .peek =>
    match m.order.head? with
    | none => (m, .err .nonEmpty)
    | some k =>
      match m.val k with
      | some v => (m, .pair k v)
      | none => (m, .err .panic)
  | .clear => ({ m with order := [], val := fun _ => none }, .unit)
  | .setDefault d => ({ m with default := some d }, .unit)
  | .len => (m, .nat m.order.length)

/-- A history of the specification. -/
def run (m : OMap κ ν) : List (Dict.Op κ ν) → OMap κ ν × List (Dict.Out κ ν)
  | [] => (m, [])
  | op :: ops =>
    let (m1, o) := step m op
    let (m2, os) := run m1 ops
    (m2, o :: os)

end OMap

variable {κ ν : Type} [BEq κ] [EquivBEq κ]

/-- The specification state a dict represents. -/
def Dict.abs (d : Dict κ ν) : OMap κ ν :=
  { order := d.entries.map (·.1), val := get? d.entries, default := d.default }

theorem abs_write (d : Dict κ ν) (k : κ) (v : ν) :
    Dict.abs { d with entries := insert d.entries k v } = d.abs.write k v := by
  simp only [Dict.abs, OMap.write, keys_insert, contains_iff]
  congr 1
  funext x; rw [get?_insert]

theorem dict_step (d : Dict κ ν) (h : Distinct d.entries) (op : Dict.Op κ ν) :
    Distinct (d.step op).1.entries ∧ (d.step op).1.abs = (d.abs.step op).1 ∧ (d.step op).2 = (d.abs.step op).2 := by
  cases op with
  | set k v => exact ⟨h.insert k v, abs_write d k v, rfl⟩
  | get k r =>
    simp only [Dict.step, Dict.getIndex, OMap.step]
    have hv : d.abs.val k = get? d.entries k := rfl
    have hd : d.abs.default = d.default := rfl
    rw [hv, hd]
    cases hg : get? d.entries k with
    | some v => cases d.default <;> exact ⟨h, rfl, rfl⟩
    | none =>
      have hi : ∀ v, Distinct (entryOrInsert d.entries k v).2 ∧
          Dict.abs { d with entries := (entryOrInsert d.entries k v).2 } = d.abs.write k v ∧
          (entryOrInsert d.entries k v).1 = v := by
        intro v
        simp only [entryOrInsert, hg]
        rw [← insert_eq_append hg]
        exact ⟨h.insert k v, abs_write d k v, trivial⟩
      cases hdd : d.default with
      | none => exact ⟨h, rfl, rfl⟩
      | some df =>
        cases df with
        | const v =>
          obtain ⟨h1, h2, h3⟩ := hi v
          rw [hdd] at h2
          exact ⟨h1, h2, congrArg Dict.Out.val h3⟩
        | call =>
          cases r with
          | error e => exact ⟨h, by simp [Dict.abs, hdd], rfl⟩
          | ok v =>
            obtain ⟨h1, h2, h3⟩ := hi v
            rw [hdd] at h2
            exact ⟨h1, h2, congrArg Dict.Out.val h3⟩
  | contains k => exact ⟨h, rfl, by simp [Dict.step, OMap.step, contains_iff, Dict.abs]⟩
  | remove k =>
    refine ⟨h.sublist List.eraseP_sublist, ?_, by simp [Dict.step, OMap.step, contains_iff, Dict.abs]⟩
    simp only [Dict.step, OMap.step, Dict.abs, OMap.erase, keys_shiftRemove]
    congr 1
    · exact eraseP_eq_filter (distinct_keys.1 h) k
    · funext x; rw [get?_shiftRemove h]
  | pop =>
    simp only [Dict.step, OMap.step, IndexMap.pop]
    have e1 : d.abs.order.getLast? = d.entries.getLast?.map (·.1) := by simp [Dict.abs]
    cases hl : d.entries.getLast? with
    | none => rw [e1, hl]; exact ⟨h, rfl, rfl⟩
    | some e =>
      obtain ⟨ys, hys⟩ := List.getLast?_eq_some_iff.1 hl
      have hg : get? d.entries e.1 = some e.2 :=
        get?_of_distinct_mem h (by rw [hys]; simp) (BEq.refl (a := e.1))
      rw [e1, hl]
      simp only [Option.map_some]
      have hv : d.abs.val e.1 = some e.2 := hg
      rw [hv]
      refine ⟨h.sublist (List.dropLast_sublist _), ?_, rfl⟩
      simp only [Dict.abs, OMap.erase]
      congr 1
      · simp [List.map_dropLast]
      · funext x
        rw [hys, List.dropLast_concat, get?_append_single]
        have hd' : ∀ a ∈ ys, (a.1 == e.1) = false := by
          intro a ha
          rw [hys] at h
          exact (List.pairwise_append.1 h).2.2 a ha e (by simp)
        cases hx : e.1 == x with
        | true =>
          have : get? ys x = none := by
            rw [get?_none_iff]; intro a ha
            have := hd' a ha
            rw [beq_comm', beq_congr_left hx, beq_comm'] at this; exact this
          simp [this]
        | false => cases get? ys x <;> simp
  | peek =>
    simp only [Dict.step, OMap.step]
    have e1 : d.abs.order.head? = d.entries.head?.map (·.1) := by simp [Dict.abs]
    cases hl : d.entries.head? with
    | none => rw [e1, hl]; exact ⟨h, rfl, rfl⟩
    | some e =>
      have hg : get? d.entries e.1 = some e.2 :=
        get?_of_distinct_mem h (List.mem_of_head? hl) (BEq.refl (a := e.1))
      rw [e1, hl]
      simp only [Option.map_some]
      have hv : d.abs.val e.1 = some e.2 := hg
      rw [hv]
      exact ⟨h, rfl, rfl⟩
  | clear => exact ⟨List.Pairwise.nil, rfl, rfl⟩
  | setDefault df => exact ⟨h, rfl, rfl⟩
  | len => exact ⟨h, rfl, by simp [Dict.step, OMap.step, Dict.abs]⟩

/-- C18. Under every history of operations, a dict with distinct keys returns what the ordered finite map returns, ends in the
state it represents, and its keys stay distinct. -/
theorem C18_refinement (ops : List (Dict.Op κ ν)) (d : Dict κ ν) (h : Distinct d.entries) :
    Distinct (d.run ops).1.entries ∧ (d.run ops).1.abs = (d.abs.run ops).1 ∧ (d.run ops).2 = (d.abs.run ops).2 := by
  induction ops generalizing d with
  | nil => exact ⟨h, rfl, rfl⟩
  | cons op ops ih =>
    obtain ⟨h1, h2, h3⟩ := dict_step d h op
    obtain ⟨h4, h5, h6⟩ := ih _ h1
    simp only [Dict.run, OMap.run]
    exact ⟨h4, by rw [h5, h2], by rw [h6, h3, h2]⟩

/-- C18. In particular from the empty dict. -/
theorem C18_from_empty (ops : List (Dict.Op κ ν)) :
    let d : Dict κ ν := ⟨[], none⟩
    let m : OMap κ ν := ⟨[], fun _ => none, none⟩
    Distinct (d.run ops).1.entries ∧ (d.run ops).2 = (m.run ops).2 ∧
    (∀ k, get? (d.run ops).1.entries k = (m.run ops).1.val k) ∧ (d.run ops).1.entries.map (·.1) = (m.run ops).1.order := by
  have h := C18_refinement ops (⟨[], none⟩ : Dict κ ν) List.Pairwise.nil
  have e : Dict.abs (⟨[], none⟩ : Dict κ ν) = ⟨[], fun _ => none, none⟩ := rfl
  rw [e] at h
  refine ⟨h.1, h.2.2, fun k => ?_, ?_⟩
  · rw [← h.2.1]; rfl
  · rw [← h.2.1]; rfl

/-- The value a history (without `pop` and defaults) leaves at `k`: that of the last write to `k` not followed by a delete. -/
def lastWrite (k : κ) : List (Dict.Op κ ν) → Option ν → Option ν
  | [], cur => cur
  | .set k' v :: ops, cur => lastWrite k ops (if k' == k then some v else cur)
  | .remove k' :: ops, cur => lastWrite k ops (if k' == k then none else cur)
  | .clear :: ops, _ => lastWrite k ops none
  | _ :: ops, cur => lastWrite k ops cur

/-- C18. Without a default and without `pop`, what is read at a key is the last value written and not deleted. -/
theorem C18_last_write (ops : List (Dict.Op κ ν)) (d : Dict κ ν) (h : Distinct d.entries) (hd : d.default = none)
    (hops : ∀ op ∈ ops, op ≠ .pop ∧ ∀ df, op ≠ .setDefault df) (k : κ) :
    get? (d.run ops).1.entries k = lastWrite k ops (get? d.entries k) := by
  induction ops generalizing d with
  | nil => rfl
  | cons op ops ih =>
    have h1 := (dict_step d h op).1
    have hop := hops op (by simp)
    have hdef : (d.step op).1.default = none := by
      cases op with
      | get k r =>
        simp only [Dict.step, Dict.getIndex, hd]
        cases get? d.entries k <;> exact hd
      | pop => exact absurd rfl hop.1
      | peek => simp only [Dict.step]; cases d.entries.head? <;> exact hd
      | setDefault df => exact absurd rfl (hop.2 df)
      | _ => exact hd
    have := ih (d.step op).1 h1 hdef (fun o ho => hops o (by simp [ho]))
    simp only [Dict.run]
    rw [this]
    cases op with
    | set k' v => simp only [Dict.step, lastWrite, get?_insert]
    | get k r =>
      simp only [Dict.step, Dict.getIndex, hd, lastWrite]
      cases get? d.entries k <;> rfl
    | remove k' => simp only [Dict.step, lastWrite, get?_shiftRemove h]
    | pop => exact absurd rfl hop.1
    | peek => simp only [Dict.step, lastWrite]; cases d.entries.head? <;> rfl
    | setDefault df => exact absurd rfl (hop.2 df)
    | contains _ => rfl
    | clear => rfl
    | len => rfl

/-- C18 for Cordy values as keys: lookup relation `Val.sim` (hash alike and equal). -/
theorem C18_values (ops : List (Dict.Op KeyVal Val)) :
    Distinct ((⟨[], none⟩ : Dict KeyVal Val).run ops).1.entries ∧
    ((⟨[], none⟩ : Dict KeyVal Val).run ops).2 = (OMap.run ⟨[], fun _ => none, none⟩ ops).2 :=
  ⟨(C18_from_empty ops).1, (C18_from_empty ops).2.1⟩

-- non-vacuity: a history with overwrite, delete and re-insert over ints
example :
    ((⟨[], none⟩ : Dict Nat Nat).run [.set 1 10, .set 2 20, .set 1 11, .remove 2, .set 2 21, .pop]).1.entries = [(1, 11)] := rfl

/-- The keys in order of their first occurrence. -/
def firstKeys {κ : Type} [BEq κ] : List κ → List κ
  | [] => []
  | k :: ks => k :: (firstKeys ks).filter (fun x => !(k == x))

theorem firstKeys_filter {κ : Type} [BEq κ] [EquivBEq κ] (p : κ → Bool) (hp : ∀ a b, a == b → p a = p b) (ks : List κ) : firstKeys (ks.filter p) = (firstKeys ks).filter p := by
  induction ks with
  | nil => rfl
  | cons k ks ih =>
    rw [List.filter_cons]
    split
    · rename_i h
      simp only [firstKeys, ih, List.filter_cons, h, if_true, List.filter_filter]
      congr 2
      funext x; exact Bool.and_comm _ _
    · rename_i h
      simp only [firstKeys, ih, List.filter_cons, h, if_false, List.filter_filter]
      refine List.filter_congr fun x _ => ?_
      cases hk : k == x
      · simp
      · have := hp k x hk; simp [← this, h]

theorem extend_spec {κ ν : Type} [BEq κ] [EquivBEq κ] (es m : List (κ × ν)) (h : Distinct m) :
    Distinct (extend m es) ∧ (∀ k, get? (extend m es) k = ((es.reverse.find? fun e => e.1 == k).map (·.2)).or (get? m k)) ∧
    (extend m es).map (·.1) = m.map (·.1) ++ firstKeys ((es.map (·.1)).filter fun k => !contains m k) := by
  induction es generalizing m with
  | nil => exact ⟨h, fun k => by simp [extend], by simp [extend, firstKeys]⟩
  | cons e es ih =>
    obtain ⟨h1, h2, h3⟩ := ih (insert m e.1 e.2) (h.insert e.1 e.2)
    have he : extend m (e :: es) = extend (insert m e.1 e.2) es := rfl
    rw [he]
    refine ⟨h1, fun k => ?_, ?_⟩
    · rw [h2, get?_insert, List.reverse_cons, List.find?_append]
      cases (es.reverse.find? fun e => e.1 == k) with
      | some x => simp
      | none => cases hk : e.1 == k <;> simp [hk]
    · rw [h3, keys_insert, List.map_cons, List.filter_cons]
      have hc : ∀ k, contains (insert m e.1 e.2) k = ((e.1 == k) || contains m k) := fun k => contains_insert m e.1 e.2 k
      simp only [hc]
      have hcc : ∀ a b : κ, a == b → contains m a = contains m b := fun a b hab => by rw [contains_iff, contains_iff, get?_congr m hab]
      cases hm : contains m e.1
      · simp only [Bool.false_eq_true, if_false, Bool.not_false, if_true, firstKeys, List.append_assoc, List.cons_append, List.nil_append, List.append_cancel_left_eq, List.cons.injEq, true_and]
        rw [← firstKeys_filter _ (fun a b hab => by
          have : (e.1 == a) = (e.1 == b) := by
            cases h1 : e.1 == a <;> cases h2 : e.1 == b <;> first | rfl | (exfalso)
            · exact absurd (PartialEquivBEq.trans h2 (PartialEquivBEq.symm hab)) (by simp [h1])
            · exact absurd (PartialEquivBEq.trans h1 hab) (by simp [h2])
          rw [this]) , List.filter_filter]
        congr 2
        funext x; simp [Bool.not_or]
      · simp only [if_true, Bool.not_true, Bool.false_eq_true, if_false]
        congr 3
        funext x
        cases hx : e.1 == x
        · simp
        · simp [← hcc _ _ hx, hm]

/-- C18 `dict(xs)`: an error exactly if some element is not a pair; otherwise every key has the value of the last pair with that key, the keys are distinct, in the order of their first occurrence, and there is no default. -/
theorem C18_from_pairs {κ ν τ : Type} [BEq κ] [EquivBEq κ] (toPair : τ → Res (κ × ν)) (xs : List τ) :
    ((∃ e, Dict.ofPairs toPair xs = .error e) ↔ ∃ x ∈ xs, ∃ e, toPair x = .error e) ∧
    ∀ es, List.Forall₂ (fun x p => toPair x = .ok p) xs es → ∃ d, Dict.ofPairs toPair xs = .ok d ∧ Distinct d.entries ∧ d.default = none ∧
      (∀ k, get? d.entries k = (es.reverse.find? fun e => e.1 == k).map (·.2)) ∧ d.entries.map (·.1) = firstKeys (es.map (·.1)) := by
  have hall : ∀ (xs : List τ) es, List.Forall₂ (fun x p => toPair x = .ok p) xs es → xs.mapM toPair = .ok es := by
    intro xs es h
    induction h with
    | nil => rfl
    | cons h1 _ ih => rw [List.mapM_cons, h1, ih]; rfl
  constructor
  · unfold Dict.ofPairs
    induction xs with
    | nil => simp [pure, Except.pure]
    | cons x xs ih =>
      rw [List.mapM_cons]
      cases hx : toPair x with
      | error e => simp [hx, bind, Except.bind]
      | ok p =>
        cases hr : xs.mapM toPair with
        | error e =>
          rw [hr] at ih
          simpa [hx, hr, bind, Except.bind] using ih
        | ok ps =>
          rw [hr] at ih
          simpa [hx, hr, bind, Except.bind, pure, Except.pure] using ih
  · intro es h
    obtain ⟨h1, h2, h3⟩ := extend_spec es ([] : List (κ × ν)) List.Pairwise.nil
    refine ⟨⟨extend [] es, none⟩, by rw [Dict.ofPairs, hall xs es h], h1, rfl, fun k => by rw [h2]; simp [get?_nil], ?_⟩
    rw [h3]
    have : (fun k => !contains ([] : List (κ × ν)) k) = fun _ => true := by funext k; rfl
    rw [this, List.filter_eq_self.mpr (fun _ _ => rfl)]
    rfl

example : (Dict.ofPairs (κ := Nat) (ν := Nat) (fun p => if p.1 < 9 then .ok p else .error .nonEmpty) [(3, 1), (2, 5), (3, 7)]) = .ok ⟨[(3, 7), (2, 5)], none⟩ := rfl

/-! ## C59 -/

/-- C59. A lookup of a present key returns the stored value, changes nothing and does not consult the default. -/
theorem C59_present (cb cb' : List (κ × ν) → Res ν × List (κ × ν)) (d : Dict κ ν) (k : κ) (v : ν)
    (h : get? d.entries k = some v) : d.getIndex cb k = (.ok v, d) ∧ d.getIndex cb' k = d.getIndex cb k := by
  simp only [Dict.getIndex, h]; cases d.default <;> exact ⟨rfl, trivial⟩

/-- C59. Without a default, a lookup of a missing key raises a key error and changes nothing. -/
theorem C59_no_default (cb : List (κ × ν) → Res ν × List (κ × ν)) (d : Dict κ ν) (k : κ)
    (h : get? d.entries k = none) (hd : d.default = none) : d.getIndex cb k = (.error .keyNotPresent, d) := by
  simp only [Dict.getIndex, h, hd]

/-- C59. With a default, a lookup of a missing key that succeeds returns the value then stored at the key; looking the
key up again returns the same value, whatever the default would now give, and changes nothing.  This includes default functions that
modify the dict, even at that key. -/
theorem C59_default_once (cb cb' : List (κ × ν) → Res ν × List (κ × ν)) (d d' : Dict κ ν) (k : κ) (v : ν)
    (h : d.getIndex cb k = (.ok v, d')) :
    get? d'.entries k = some v ∧ d'.default = d.default ∧ d'.getIndex cb' k = (.ok v, d') := by
  have key : get? d'.entries k = some v ∧ d'.default = d.default := by
    simp only [Dict.getIndex] at h
    cases hd : d.default with
    | none =>
      rw [hd] at h
      cases hg : get? d.entries k with
      | none => rw [hg] at h; cases h
      | some w => rw [hg] at h; cases h; exact ⟨hg, hd⟩
    | some df =>
      rw [hd] at h
      cases hg : get? d.entries k with
      | some w => rw [hg] at h; cases h; exact ⟨hg, hd⟩
      | none =>
        rw [hg] at h
        simp only at h
        have aux : ∀ (es : List (κ × ν)) (w : ν), entryOrInsert es k w = (v, d'.entries) →
            get? d'.entries k = some v := by
          intro es w he
          simp only [entryOrInsert] at he
          cases hg' : get? es k with
          | some u => rw [hg'] at he; cases he; exact hg'
          | none => rw [hg'] at he; injection he with h1 h2; subst h1; rw [← h2]; simp [get?_append_single, hg']
        cases df with
        | const w =>
          injection h with h1 h2
          injection h1 with h1
          exact ⟨aux d.entries w (by rw [← h1, ← h2]), by rw [← h2]⟩
        | call =>
          simp only at h
          rcases hc : cb d.entries with ⟨r, es⟩
          rw [hc] at h
          cases r with
          | error e => injection h with h1 h2; cases h1
          | ok w =>
            injection h with h1 h2
            injection h1 with h1
            exact ⟨aux es w (by rw [← h1, ← h2]), by rw [← h2]⟩
  refine ⟨key.1, key.2, ?_⟩
  exact (C59_present cb' cb' d' k v key.1).1

/-- C59. A constant default stores and returns that constant under the missing key, after all other entries. -/
theorem C59_constant (cb : List (κ × ν) → Res ν × List (κ × ν)) (d : Dict κ ν) (k : κ) (v : ν)
    (h : get? d.entries k = none) (hd : d.default = some (.const v)) :
    d.getIndex cb k = (.ok v, { d with entries := d.entries ++ [(k, v)] }) := by
  simp only [Dict.getIndex, h, hd, entryOrInsert]

/-- C59. A default function is called on the dict as it is; if it fails, nothing is stored beyond what it did itself. -/
theorem C59_function (cb : List (κ × ν) → Res ν × List (κ × ν)) (d : Dict κ ν) (k : κ)
    (h : get? d.entries k = none) (hd : d.default = some .call) :
    (∀ e es, cb d.entries = (.error e, es) → d.getIndex cb k = (.error e, { d with entries := es })) ∧
    (∀ v es, cb d.entries = (.ok v, es) → get? es k = none →
      d.getIndex cb k = (.ok v, { d with entries := es ++ [(k, v)] })) := by
  constructor
  · intro e es hc; simp only [Dict.getIndex, h, hd, hc]
  · intro v es hc hn; simp only [Dict.getIndex, h, hd, hc, entryOrInsert, hn]

example : (⟨[(1, 10)], some (.const 0)⟩ : Dict Nat Nat).getIndex (fun es => (.ok 7, es)) 2
    = (.ok 0, ⟨[(1, 10), (2, 0)], some (.const 0)⟩) := rfl

/-! ## C19: specification -/

/-- What an operation on a mathematical set `P` (a predicate) may return and leave. -/
def SetSpec (P : κ → Bool) : SetM.Op κ → SetM.Out κ → (κ → Bool) → Prop
  | .push k, out, P' => out = .unit ∧ ∀ x, P' x = (P x || k == x)
  | .remove k, out, P' => out = .bool (P k) ∧ ∀ x, P' x = (P x && !(k == x))
  | .contains k, out, P' => out = .bool (P k) ∧ P' = P
  | .pop, out, P' => (∃ k, out = .val k ∧ P k = true ∧ ∀ x, P' x = (P x && !(k == x))) ∨
      (out = .err .nonEmpty ∧ P' = P ∧ ∀ x, P x = false)
  | .peek, out, P' => P' = P ∧ ((∃ k, out = .val k ∧ P k = true) ∨ (out = .err .nonEmpty ∧ ∀ x, P x = false))
  | .clear, out, P' => out = .unit ∧ ∀ x, P' x = false
  | .union ks, out, P' => out = .unit ∧ ∀ x, P' x = (P x || ks.any (· == x))
  | .intersect ks, out, P' => out = .unit ∧ ∀ x, P' x = (P x && ks.any (· == x))
  | .difference ks, out, P' => out = .unit ∧ ∀ x, P' x = (P x && !ks.any (· == x))
  | .len, out, P' => P' = P ∧ ∃ reps : List κ, out = .nat reps.length ∧
      reps.Pairwise (fun a b => (a == b) = false) ∧ ∀ x, P x = reps.any (· == x)

open IndexSet

theorem push_foldl (ks : List κ) (s : T κ) (h : Distinct s) :
    Distinct (ks.foldl push s) ∧ ∀ x, contains (ks.foldl push s) x = (contains s x || ks.any (· == x)) := by
  induction ks generalizing s with
  | nil => exact ⟨h, by simp⟩
  | cons k ks ih =>
    obtain ⟨h1, h2⟩ := ih (push s k) (h.insert k ())
    refine ⟨h1, fun x => ?_⟩
    rw [List.foldl_cons, h2, push, contains_insert, List.any_cons]
    cases k == x <;> cases contains s x <;> simp

theorem ofList_contains (ks : List κ) : Distinct (ofList ks) ∧ ∀ x, contains (ofList ks) x = ks.any (· == x) := by
  have := push_foldl ks [] List.Pairwise.nil
  exact ⟨this.1, fun x => by rw [ofList, this.2]; simp [contains]⟩

theorem swap_foldl (ks : List κ) (s : T κ) (h : Distinct s) :
    Distinct (ks.foldl swapRemove s) ∧ ∀ x, contains (ks.foldl swapRemove s) x = (contains s x && !ks.any (· == x)) := by
  induction ks generalizing s with
  | nil => exact ⟨h, by simp⟩
  | cons k ks ih =>
    have hp := swapRemove_perm s k
    have hd : Distinct (swapRemove s k) := Distinct.perm (h.sublist List.eraseP_sublist) hp.symm
    obtain ⟨h1, h2⟩ := ih (swapRemove s k) hd
    refine ⟨h1, fun x => ?_⟩
    rw [List.foldl_cons, h2, contains_perm hp, contains_shiftRemove h, List.any_cons]
    cases k == x <;> cases contains s x <;> simp

theorem filter_contains (s : T κ) (p : κ → Bool) (hp : ∀ a b, a == b → p a = p b) (x : κ) :
    contains (s.filter (fun e => p e.1)) x = (contains s x && p x) := by
  induction s with
  | nil => rfl
  | cons e s ih =>
    by_cases hpe : p e.1
    · rw [List.filter_cons_of_pos (by simpa using hpe)]
      simp only [contains, List.any_cons] at *
      rw [ih]
      cases hx : e.1 == x
      · simp
      · simp [← hp _ _ hx, hpe]
    · rw [List.filter_cons_of_neg (by simpa using hpe)]
      simp only [contains, List.any_cons] at *
      rw [ih]
      cases hx : e.1 == x
      · simp
      · have : p x = false := by rw [← hp _ _ hx]; simpa using hpe
        simp [this]

theorem any_congr (ks : List κ) {a b : κ} (h : a == b) : ks.any (· == a) = ks.any (· == b) := by
  induction ks with
  | nil => rfl
  | cons k ks ih => rw [List.any_cons, List.any_cons, ih, beq_comm' k a, beq_comm' k b, beq_congr_left h]

theorem contains_congr (s : T κ) {a b : κ} (h : a == b) : contains s a = contains s b := by
  rw [contains_iff, contains_iff, get?_congr s h]

theorem set_step (s : T κ) (h : Distinct s) (op : SetM.Op κ) :
    Distinct (SetM.step s op).1 ∧ SetSpec (contains s) op (SetM.step s op).2 (contains (SetM.step s op).1) := by
  cases op with
  | push k => exact ⟨h.insert k (), rfl, fun x => by rw [SetM.step, push, contains_insert, Bool.or_comm]⟩
  | remove k =>
    exact ⟨h.sublist List.eraseP_sublist, rfl, fun x => by rw [SetM.step, contains_shiftRemove h, Bool.and_comm]⟩
  | contains k => exact ⟨h, rfl, rfl⟩
  | pop =>
    simp only [SetM.step, IndexMap.pop]
    cases hl : s.getLast? with
    | none =>
      rw [List.getLast?_eq_none_iff] at hl; subst hl
      exact ⟨h, .inr ⟨rfl, rfl, fun _ => rfl⟩⟩
    | some e =>
      obtain ⟨ys, hys⟩ := List.getLast?_eq_some_iff.1 hl
      refine ⟨h.sublist (List.dropLast_sublist _), .inl ⟨e.1, rfl, ?_, fun x => ?_⟩⟩
      · exact List.any_eq_true.2 ⟨e, by rw [hys]; simp, BEq.refl (a := e.1)⟩
      · rw [hys, List.dropLast_concat]
        simp only [contains, List.any_append, List.any_cons, List.any_nil, Bool.or_false]
        cases hx : e.1 == x
        · simp
        · simp only [Bool.or_true, Bool.not_true, Bool.and_false, List.any_eq_false]
          intro a ha
          rw [hys] at h
          have := (List.pairwise_append.1 h).2.2 a ha e (by simp)
          rw [beq_comm', beq_congr_left hx, beq_comm'] at this; simp [this]
  | peek =>
    simp only [SetM.step]
    cases hl : s.head? with
    | none =>
      rw [List.head?_eq_none_iff] at hl; subst hl
      exact ⟨h, rfl, .inr ⟨rfl, fun _ => rfl⟩⟩
    | some e =>
      exact ⟨h, rfl, .inl ⟨e.1, rfl, List.any_eq_true.2 ⟨e, List.mem_of_head? hl, BEq.refl (a := e.1)⟩⟩⟩
  | clear => exact ⟨List.Pairwise.nil, rfl, fun _ => rfl⟩
  | union ks =>
    have := push_foldl ks s h
    exact ⟨this.1, rfl, this.2⟩
  | intersect ks =>
    refine ⟨h.sublist List.filter_sublist, rfl, fun x => ?_⟩
    have hc := (ofList_contains ks).2
    simp only [SetM.step, intersect]
    rw [filter_contains s (fun k => contains (ofList ks) k) (fun a b hab => by rw [hc, hc, any_congr ks hab])]
    rw [hc]
  | difference ks =>
    have := swap_foldl ks s h
    exact ⟨this.1, rfl, this.2⟩
  | len =>
    refine ⟨h, rfl, s.map (·.1), by simp [SetM.step], distinct_keys.1 h, fun x => ?_⟩
    simp [contains, List.any_map, Function.comp_def]

/-- C19. Under every history each operation on a set does what it should on the mathematical set of its members, and the
members stay pairwise distinct. -/
theorem C19_history (ops : List (SetM.Op κ)) (op : SetM.Op κ) :
    let s := (SetM.run ([] : T κ) ops).1
    Distinct s ∧ SetSpec (contains s) op (SetM.step s op).2 (contains (SetM.step s op).1) := by
  have key : ∀ (ops : List (SetM.Op κ)) (s : T κ), Distinct s → Distinct (SetM.run s ops).1 := by
    intro ops
    induction ops with
    | nil => intro s h; exact h
    | cons o os ih => intro s h; exact ih _ (set_step s h o).1
  have h := key ops [] List.Pairwise.nil
  exact ⟨h, (set_step _ h op).2⟩

/-- C19. Operators `|`, `&`, `-`, `^` compute union, intersection, difference and symmetric difference, without duplicates. -/
theorem C19_operators (a b : T κ) (x : κ) :
    (contains (opUnion a b) x = (contains a x || contains b x) ∧ Distinct (opUnion a b)) ∧
    (contains (opInter a b) x = (contains a x && contains b x) ∧ Distinct (opInter a b)) ∧
    (contains (opDiff a b) x = (contains a x && !contains b x) ∧ Distinct (opDiff a b)) ∧
    (contains (opSymDiff a b) x = (contains a x != contains b x) ∧ Distinct (opSymDiff a b)) := by
  have hf : ∀ (s : T κ) (p : κ → Bool), (∀ a b, a == b → p a = p b) →
      ((elems s).filter p).any (· == x) = (contains s x && p x) := by
    intro s p hp
    rw [← filter_contains s p hp]
    simp only [elems, contains, List.filter_map, List.any_map]; rfl
  have he : ∀ s : T κ, (elems s).any (· == x) = contains s x := by
    intro s; simp only [elems, contains, List.any_map]; rfl
  have hc : ∀ s : T κ, ∀ a b : κ, a == b → contains s a = contains s b := fun s a b h => contains_congr s h
  have hn : ∀ s : T κ, ∀ a b : κ, a == b → (!contains s a) = (!contains s b) := fun s a b h => by rw [hc s a b h]
  refine ⟨⟨?_, (ofList_contains _).1⟩, ⟨?_, (ofList_contains _).1⟩, ⟨?_, (ofList_contains _).1⟩, ⟨?_, (ofList_contains _).1⟩⟩
  · rw [opUnion, (ofList_contains _).2, List.any_append, he, hf b _ (hn a)]
    cases contains a x <;> cases contains b x <;> rfl
  · rw [opInter, (ofList_contains _).2, hf a _ (hc b)]
  · rw [opDiff, (ofList_contains _).2, hf a _ (hn b)]
  · rw [opSymDiff, (ofList_contains _).2, List.any_append, hf a _ (hn b), hf b _ (hn a)]
    cases contains a x <;> cases contains b x <;> rfl

/-- C19. Iteration order is insertion order: a pushed element keeps its place if present and comes last otherwise; removal
keeps the others in order. -/
theorem C19_order (s : T κ) (h : Distinct s) (k : κ) :
    elems (SetM.step s (.push k)).1 = (if contains s k then elems s else elems s ++ [k]) ∧
    elems (SetM.step s (.remove k)).1 = (elems s).filter (fun x => !(x == k)) := by
  refine ⟨keys_insert s k (), ?_⟩
  simp only [SetM.step, elems, keys_shiftRemove]
  exact eraseP_eq_filter (distinct_keys.1 h) k

example : (SetM.run ([] : T Nat) [.push 1, .push 2, .push 1, .union [3, 2], .difference [1]]).1 = [(3, ()), (2, ())] := rfl

/-! ## C21 -/

/-- What an operation must do to the sequence `xs`, in terms of splitting it at a position. -/
def ListSpec {α : Type} (xs : List α) : ListM.Op α → ListM.Out α → List α → Prop
  | .push v, out, ys => out = .unit ∧ ys = xs ++ [v]
  | .pushFront v, out, ys => out = .unit ∧ ys = v :: xs
  | .pop, out, ys => (xs = [] ∧ out = .err .nonEmpty ∧ ys = xs) ∨ (∃ v, xs = ys ++ [v] ∧ out = .val v)
  | .popFront, out, ys => (xs = [] ∧ out = .err .nonEmpty ∧ ys = xs) ∨ (∃ v, xs = v :: ys ∧ out = .val v)
  | .peek, out, ys => ys = xs ∧ ((xs = [] ∧ out = .err .nonEmpty) ∨ ∃ v r, xs = v :: r ∧ out = .val v)
  | .insert i v, out, ys =>
      (¬ (0 ≤ i ∧ i ≤ xs.length) ∧ out = .err .indexOutOfBounds ∧ ys = xs) ∨
      (∃ l r, xs = l ++ r ∧ (l.length : Int) = i ∧ ys = l ++ v :: r ∧ out = .unit)
  | .remove i, out, ys =>
      (¬ (0 ≤ i ∧ i < xs.length) ∧ out = .err .indexOutOfBounds ∧ ys = xs) ∨
      (∃ l v r, xs = l ++ v :: r ∧ (l.length : Int) = i ∧ ys = l ++ r ∧ out = .val v)
  | .clear, out, ys => out = .unit ∧ ys = []
  | .len, out, ys => ys = xs ∧ out = .nat xs.length

theorem insertIdx_take_drop {α : Type} (xs : List α) (n : Nat) (v : α) (h : n ≤ xs.length) :
    xs.insertIdx n v = xs.take n ++ v :: xs.drop n := by
  induction n generalizing xs with
  | zero => simp
  | succ n ih =>
    cases xs with
    | nil => simp at h
    | cons x xs => simp [ih xs (by simpa using h)]

/-- C21. Every list operation, on every list (hence after every history), does what it should to the mathematical
sequence, and raises an error exactly on empty or out of range input leaving the list unchanged. -/
theorem C21_step {α : Type} (xs : List α) (op : ListM.Op α) :
    ListSpec xs op (ListM.step xs op).2 (ListM.step xs op).1 := by
  cases op with
  | push v => exact ⟨rfl, rfl⟩
  | pushFront v => exact ⟨rfl, rfl⟩
  | pop =>
    simp only [ListM.step]
    cases hl : xs.getLast? with
    | none => rw [List.getLast?_eq_none_iff] at hl; exact .inl ⟨hl, rfl, rfl⟩
    | some v =>
      obtain ⟨ys, hys⟩ := List.getLast?_eq_some_iff.1 hl
      exact .inr ⟨v, by rw [hys]; simp, rfl⟩
  | popFront =>
    cases xs with
    | nil => exact .inl ⟨rfl, rfl, rfl⟩
    | cons v r => exact .inr ⟨v, rfl, rfl⟩
  | peek =>
    cases xs with
    | nil => exact ⟨rfl, .inl ⟨rfl, rfl⟩⟩
    | cons v r => exact ⟨rfl, .inr ⟨v, r, rfl, rfl⟩⟩
  | insert i v =>
    simp only [ListM.step]
    by_cases h : 0 ≤ i ∧ i < xs.length
    · rw [if_pos h]
      refine .inr ⟨xs.take i.toNat, xs.drop i.toNat, by simp, by simp; omega, ?_, rfl⟩
      exact insertIdx_take_drop xs i.toNat v (by omega)
    · rw [if_neg h]
      by_cases h' : i = xs.length
      · rw [if_pos h']; exact .inr ⟨xs, [], by simp, h'.symm, rfl, rfl⟩
      · rw [if_neg h']; exact .inl ⟨by omega, rfl, rfl⟩
  | remove i =>
    simp only [ListM.step]
    by_cases h : 0 ≤ i ∧ i < xs.length
    · have hlt : i.toNat < xs.length := by omega
      rw [if_pos h, List.getElem?_eq_getElem hlt]
      refine .inr ⟨xs.take i.toNat, xs[i.toNat], xs.drop (i.toNat + 1), ?_, by simp; omega, ?_, rfl⟩
      · rw [List.getElem_cons_drop, List.take_append_drop]
      · exact List.eraseIdx_eq_take_drop_succ xs i.toNat
    · rw [if_neg h]; exact .inl ⟨h, rfl, rfl⟩
  | clear => exact ⟨rfl, rfl⟩
  | len => exact ⟨rfl, rfl⟩

/-- C21. The specification determines result and new contents, so `C21_step` pins the operations down. -/
theorem C21_deterministic {α : Type} (xs : List α) (op : ListM.Op α) (o o' : ListM.Out α) (ys ys' : List α)
    (h : ListSpec xs op o ys) (h' : ListSpec xs op o' ys') : o = o' ∧ ys = ys' := by
  cases op with
  | pop =>
    rcases h with ⟨h1, h2, h3⟩ | ⟨v, h1, h2⟩ <;> rcases h' with ⟨h1', h2', h3'⟩ | ⟨v', h1', h2'⟩
    · exact ⟨h2.trans h2'.symm, h3.trans h3'.symm⟩
    · subst h1; simp at h1'
    · subst h1'; simp at h1
    · subst h1; have := List.append_inj' h1' rfl; simp_all
  | insert i v =>
    rcases h with ⟨h1, h2, h3⟩ | ⟨l, r, h1, h2, h3, h4⟩ <;> rcases h' with ⟨h1', h2', h3'⟩ | ⟨l', r', h1', h2', h3', h4'⟩
    · exact ⟨h2.trans h2'.symm, h3.trans h3'.symm⟩
    · subst h1'; simp at h1; omega
    · subst h1; simp at h1'; omega
    · subst h1; have := List.append_inj h1' (by omega); simp_all
  | remove i =>
    rcases h with ⟨h1, h2, h3⟩ | ⟨l, v, r, h1, h2, h3, h4⟩ <;>
      rcases h' with ⟨h1', h2', h3'⟩ | ⟨l', v', r', h1', h2', h3', h4'⟩
    · exact ⟨h2.trans h2'.symm, h3.trans h3'.symm⟩
    · subst h1'; simp at h1; omega
    · subst h1; simp at h1'; omega
    · subst h1; have := List.append_inj h1' (by omega); simp_all
  | popFront =>
    rcases h with ⟨h1, h2, h3⟩ | ⟨v, h1, h2⟩ <;> rcases h' with ⟨h1', h2', h3'⟩ | ⟨v', h1', h2'⟩ <;> simp_all
  | peek =>
    rcases h with ⟨h0, ⟨h1, h2⟩ | ⟨v, r, h1, h2⟩⟩ <;> rcases h' with ⟨h0', ⟨h1', h2'⟩ | ⟨v', r', h1', h2'⟩⟩ <;> simp_all
  | push v => simp_all [ListSpec]
  | pushFront v => simp_all [ListSpec]
  | clear => simp_all [ListSpec]
  | len => simp_all [ListSpec]

/-- What a history of operations on a list does: each step as specified. -/
inductive ListRuns {α : Type} : List α → List (ListM.Op α) → List (ListM.Out α) → List α → Prop
  | nil {xs} : ListRuns xs [] [] xs
  | cons {xs op out ys ops outs zs} : ListSpec xs op out ys → ListRuns ys ops outs zs → ListRuns xs (op :: ops) (out :: outs) zs

/-- C21: under every history of operations, a list does what the steps say. -/
theorem C21_history {α : Type} (xs : List α) (ops : List (ListM.Op α)) : ListRuns xs ops (ListM.run xs ops).2 (ListM.run xs ops).1 := by
  induction ops generalizing xs with
  | nil => exact .nil
  | cons op ops ih => exact .cons (C21_step xs op) (ih _)

example : (ListM.run [1, 2, 3] [.insert 1 9, .remove 0, .popFront, .insert 5 0]).1 = [2, 3] := rfl

/-! ## C63: counter -/

/-- C63: `counter(xs)` maps every value to the number of elements equal to it (and has no entry for values that do not occur);
its keys are pairwise different. -/
theorem C63_counter {κ : Type} [BEq κ] [EquivBEq κ] (xs : List κ) (k : κ) :
    get? (Dict.counter xs) k = (if xs.countP (· == k) = 0 then none else some (xs.countP (· == k))) ∧
    Distinct (Dict.counter xs) := by
  suffices h : ∀ (xs : List κ) (m : List (κ × Nat)) (c : κ → Nat), Distinct m →
      (∀ k, get? m k = if c k = 0 then none else some (c k)) → (∀ a b : κ, a == b → c a = c b) →
      let m' := xs.foldl (fun m k => match get? m k with | some n => insert m k (n + 1) | none => m ++ [(k, 1)]) m
      Distinct m' ∧ ∀ k, get? m' k = if c k + xs.countP (· == k) = 0 then none else some (c k + xs.countP (· == k)) by
    have := h xs [] (fun _ => 0) List.Pairwise.nil (by intro k; simp [get?_nil]) (by simp)
    refine ⟨?_, this.1⟩
    have := this.2 k
    simp only [Nat.zero_add] at this
    exact this
  intro xs
  induction xs with
  | nil => intro m c h1 h2 _; exact ⟨h1, by simpa using h2⟩
  | cons x xs ih =>
    intro m c h1 h2 h3
    simp only [List.foldl_cons]
    have hstep : ∀ m', Distinct m' → (∀ k, get? m' k = if x == k then some (c x + 1) else get? m k) →
        let m'' := xs.foldl (fun m k => match get? m k with | some n => insert m k (n + 1) | none => m ++ [(k, 1)]) m'
        Distinct m'' ∧ ∀ k, get? m'' k = if c k + (x :: xs).countP (· == k) = 0 then none else some (c k + (x :: xs).countP (· == k)) := by
      intro m' d hm
      have := ih m' (fun k => if x == k then c k + 1 else c k) d (by
        intro k; rw [hm k]
        by_cases hk : x == k
        · simp [hk, h3 x k hk]
        · simp [hk, h2 k]) (by
        intro a b hab
        have : (x == a) = (x == b) := by rw [beq_comm' x a, beq_comm' x b]; exact beq_congr_left hab
        simp only [this, h3 a b hab])
      refine ⟨this.1, fun k => ?_⟩
      rw [this.2 k, List.countP_cons]
      by_cases hk : x == k
      · simp [hk]; omega
      · simp [hk]
    cases hx : get? m x with
    | some n =>
      have hn : n = c x := by
        have := h2 x; rw [hx] at this
        split at this
        · cases this
        · exact Option.some.inj this
      subst hn
      exact hstep _ (h1.insert x _) (fun k => get?_insert m x _ k)
    | none =>
      have hn : c x = 0 := by
        have := h2 x; rw [hx] at this
        split at this
        · assumption
        · cases this
      have e := insert_eq_append (v := 1) hx
      exact hstep (m ++ [(x, 1)]) (e ▸ h1.insert x 1) (fun k => by rw [← e, get?_insert, hn])

example : Dict.counter [1, 2, 1, 3, 1] = [(1, 3), (2, 1), (3, 1)] := rfl

end Cordy
