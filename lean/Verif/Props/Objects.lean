import Verif.Lemmas.ObjCopy
/-!
# C27, C28: copy, repr and str of any graph of objects
-/
namespace Cordy.Objects

/-! ## C28 -/

/-- After any history, `repr` of any value ends, with a recursion no deeper than the square of the number of objects; and with any larger depth the result is the same. -/
theorem C28_terminates (ops : List Op) (v : V) (hv : inBounds (run ops) v = true) :
    let d := (run ops).length * ((run ops).length + 1) + (run ops).length + 1
    ∃ out, repr d (run ops) [] v = some out ∧ ∀ n, d ≤ n → repr n (run ops) [] v = some out := by
  intro d
  have h1 : free (run ops) [] * ((run ops).length + 1) ≤ (run ops).length * ((run ops).length + 1) := Nat.mul_le_mul_right _ (free_le _ _)
  have h2 := rank_le hv
  obtain ⟨out, ho⟩ := repr_some (wf_run ops) d [] v hv (by omega)
  exact ⟨out, ho, fun n hn => repr_mono hn ho⟩

/-- And so does `str`. -/
theorem C28_str_terminates (ops : List Op) (v : V) (hv : inBounds (run ops) v = true) :
    let d := (run ops).length * ((run ops).length + 1) + (run ops).length + 1
    ∃ out, ∀ n, d ≤ n → toStr n (run ops) v = some out := by
  intro d
  obtain ⟨out, _, ho⟩ := C28_terminates ops v hv
  unfold toStr
  cases v with
  | atom s p => exact ⟨_, fun _ _ => rfl⟩
  | ref a =>
    simp only
    split
    · exact ⟨_, fun _ _ => rfl⟩
    · exact ⟨out, ho⟩

/-- There is an abbreviation in the text exactly if an object that is written contains itself, through any number of other objects. -/
theorem C28_abbreviated_iff (ops : List Op) (v : V) (n : Nat) (out : List Tok) (ho : repr n (run ops) [] v = some out) :
    (∃ c, Tok.cut c ∈ out) ↔ Cyclic (run ops) v := by
  constructor
  · rintro ⟨c, hc⟩
    rcases cut_cyclic ho hc with h | ⟨a, ha, _⟩
    · exact h
    · simp at ha
  · exact cyclic_cut (even_run ops) ho

/-- All else is written in full, as if there were no guard; objects that appear more than once are written each time. -/
theorem C28_full (ops : List Op) (v : V) (n : Nat) (out : List Tok) (ho : repr n (run ops) [] v = some out) (hc : ¬ Cyclic (run ops) v) :
    plain n (run ops) v = some out :=
  repr_plain (even_run ops) ho (fun c hcc => hc ((C28_abbreviated_iff ops v n out ho).1 ⟨c, hcc⟩))

/-- And in full means: the text of the elements between the brackets of the collection. -/
theorem C28_text (ops : List Op) (v : V) (n : Nat) (out : List Tok) (ho : repr n (run ops) [] v = some out) (hc : ¬ Cyclic (run ops) v) :
    shown n (run ops) v = some (text out) :=
  plain_shown (C28_full ops v n out ho hc)

/-- An abbreviation is that of an object which is a part of itself. -/
theorem C28_dots (ops : List Op) (v : V) (n : Nat) (out : List Tok) (ho : repr n (run ops) [] v = some out) (c : String) (hc : Tok.cut c ∈ out) :
    ∃ a o k m, (run ops)[a]? = some o ∧ Reach (run ops) k v (.ref a) ∧ Reach (run ops) (m + 1) (.ref a) (.ref a) ∧ c = dots o.kind := by
  rcases cut_dots ho hc with h | ⟨a, ha, _⟩
  · exact h
  · simp at ha

/-- `str` is `repr`, but for a value that is not part of another: a string is written as it is and a function by its name. -/
theorem C28_str (ops : List Op) (v : V) (n : Nat) :
    toStr n (run ops) v = (match v with
      | .atom _ s => some [.text s]
      | .ref a => match (run ops)[a]? with
        | some ⟨.func _ s, _⟩ => some [.text s]
        | _ => repr n (run ops) [] v) := by
  cases v <;> rfl

/-- `let a = [1]; let b = {a}; a.push(b)`: `[1, {[...]}]`. -/
example : (run [.make ⟨.list, [.atom "1" "1"]⟩, .make ⟨.set, [.ref 0]⟩, .mutate 0 [.atom "1" "1", .ref 1]]).length = 2 ∧
    (repr 7 (run [.make ⟨.list, [.atom "1" "1"]⟩, .make ⟨.set, [.ref 0]⟩, .mutate 0 [.atom "1" "1", .ref 1]]) [] (.ref 0)).map (fun o => String.join (o.map Tok.str))
      = some "[1, {[...]}]" := by
  decide +kernel

example : Cyclic (run [.make ⟨.list, [.atom "1" "1"]⟩, .make ⟨.set, [.ref 0]⟩, .mutate 0 [.atom "1" "1", .ref 1]]) (.ref 0) := by
  refine ⟨.ref 0, 0, 1, .refl _, .step (w := .ref 1) ?_ (.step (w := .ref 0) ?_ (.refl _))⟩
  · exact .mk (o := ⟨.list, [.atom "1" "1", .ref 1]⟩) (by decide +kernel) (by simp [shownKids])
  · exact .mk (o := ⟨.set, [.ref 0]⟩) (by decide +kernel) (by simp [shownKids])

/-- `let a = [1]; (a, a)`: no abbreviation. -/
example : (repr 7 (run [.make ⟨.list, [.atom "1" "1"]⟩, .make ⟨.vector, [.ref 0, .ref 0]⟩]) [] (.ref 1)).map (fun o => String.join (o.map Tok.str))
      = some "([1], [1])" := by
  decide +kernel

/-! ## C27 -/

theorem copy_inv {ops : List Op} {v : V} {n : Nat} {h' : Heap} {v' : V} (hv : inBounds (run ops) v = true) (hc : copy n (run ops) v = some (h', v')) :
    ∃ st, st.heap = h' ∧ Inv (run ops) [] st ∧ Corr (run ops) st.heap st.m v v' := by
  unfold copy at hc
  rw [Option.map_eq_some_iff] at hc
  obtain ⟨⟨st, w⟩, h1, h2⟩ := hc
  simp only [Prod.mk.injEq] at h2
  obtain ⟨rfl, rfl⟩ := h2
  obtain ⟨i, _, c⟩ := copyRec_ok (wf_run ops) (even_run ops) n [] v ⟨run ops, []⟩ st w hv (inv_start _) h1
  exact ⟨st, rfl, i, c⟩

/-- `copy` of any value ends, cycles or not. -/
theorem C27_terminates (ops : List Op) (v : V) (hv : inBounds (run ops) v = true) :
    let d := (run ops).length * ((run ops).length + 1) + (run ops).length + 1
    ∃ r, ∀ n, d ≤ n → copy n (run ops) v = some r := by
  intro d
  have h1 : free (run ops) [] * ((run ops).length + 1) ≤ (run ops).length * ((run ops).length + 1) := Nat.mul_le_mul_right _ (free_le _ _)
  have h2 := rank_le hv
  obtain ⟨r, hr⟩ := copyRec_some (wf_run ops) (even_run ops) d [] v ⟨run ops, []⟩ hv (inv_start _) (by simp only [List.map_nil]; omega)
  exact ⟨(r.1.heap, r.2), fun n hn => by unfold copy; rw [copyRec_mono hn hr]; rfl⟩

/-- What there was is not changed. -/
theorem C27_original (ops : List Op) (v : V) (hv : inBounds (run ops) v = true) (n : Nat) (h' : Heap) (v' : V)
    (hc : copy n (run ops) v = some (h', v')) (a : Nat) (o : Obj) (ho : (run ops)[a]? = some o) : h'[a]? = some o := by
  obtain ⟨st, rfl, hi, _⟩ := copy_inv hv hc
  exact hi.pre a o ho

/-- The copy has the same sharing and the same cycles: objects and their copies are one to one, each copy is of the same kind (a dict without its default), with the corresponding elements. -/
theorem C27_isomorphic (ops : List Op) (v : V) (hv : inBounds (run ops) v = true) (n : Nat) (h' : Heap) (v' : V)
    (hc : copy n (run ops) v = some (h', v')) :
    ∃ m : Nat → Nat → Prop, Corr (run ops) h' m v v' ∧
      (∀ a b b', m a b → m a b' → b = b') ∧ (∀ a a' b, m a b → m a' b → a = a') ∧
      ∀ a b, m a b → ∃ o o', (run ops)[a]? = some o ∧ h'[b]? = some o' ∧ o.kind.collection = true ∧
        (o'.kind = o.kind ∨ ∃ d, o.kind = .dict d ∧ o'.kind = .dict none) ∧
        List.Forall₂ (Corr (run ops) h' m) o.kids o'.kids := by
  obtain ⟨st, rfl, hi, hcorr⟩ := copy_inv hv hc
  refine ⟨st.m, hcorr, hi.func, hi.inj, ?_⟩
  intro a b hab
  obtain ⟨o, o', h1, h2, h3, h4, h5, h6, _⟩ := hi.dom a b hab
  refine ⟨o, o', h1, h4, mutable_eq o.kind ▸ h2, ?_, h6 (by simp)⟩
  rw [h5]
  cases o.kind with
  | dict d => exact Or.inr ⟨d, rfl, rfl⟩
  | _ => exact Or.inl rfl

/-- Missing: dicts with a default. The copy looks like the original, to any depth. -/
theorem C27_equal_partial (ops : List Op) (v : V) (hv : inBounds (run ops) v = true) (n : Nat) (h' : Heap) (v' : V)
    (hc : copy n (run ops) v = some (h', v'))
    (hd : ∀ (a : Nat) (o : Obj) d, (run ops)[a]? = some o → o.kind ≠ .dict (some d)) (depth : Nat) :
    view depth (run ops) v = view depth h' v' := by
  obtain ⟨st, rfl, hi, hcorr⟩ := copy_inv hv hc
  exact view_corr hi (fun a o d h1 h2 => hd a o d h1 h2) depth hcorr

theorem leads_inBounds {h h' : Heap} (hw : WF h) (hpre : ∀ (a : Nat) (o : Obj), h[a]? = some o → h'[a]? = some o) {v w : V} (hl : Leads h' v w)
    (hv : inBounds h v = true) : inBounds h w = true := by
  induction hl with
  | refl => exact hv
  | step h1 _ ih =>
    apply ih
    cases h1 with
    | @mk a o k ho hop hk =>
      simp only [inBounds, decide_eq_true_eq] at hv
      have h2 : h[a]? = some h[a] := List.getElem?_eq_getElem hv
      have h3 := hpre a _ h2
      rw [ho] at h3
      obtain rfl : o = h[a] := by simpa using h3
      exact (hw a _ h2).1 _ hk

/-- No collection, struct or enumerate can be reached from both. (Not looking into functions: see `C27_violation_partial_function`.) -/
theorem C27_disjoint (ops : List Op) (v : V) (hv : inBounds (run ops) v = true) (n : Nat) (h' : Heap) (v' : V)
    (hc : copy n (run ops) v = some (h', v')) (a : Nat) (o : Obj) (ho : h'[a]? = some o) (hm : o.kind.opens = true)
    (h1 : Leads h' v (.ref a)) : ¬ Leads h' v' (.ref a) := by
  obtain ⟨st, rfl, hi, hcorr⟩ := copy_inv hv hc
  intro h2
  have h3 := leads_inBounds (wf_run ops) hi.pre h1 hv
  simp only [inBounds, decide_eq_true_eq] at h3
  obtain ⟨w, hw⟩ := corr_leads hi hcorr h2
  obtain ⟨a0, o0, o', rfl, g1, g2, g3, g4, g5⟩ := inv_kids hi hw rfl
  rw [ho] at g2
  obtain rfl : o = o' := by simpa using g2
  by_cases hop : o0.kind.opens = true
  · have := (g4 hop).1; omega
  · obtain ⟨_, rfl⟩ := g5 (by simpa using hop)
    exact hop hm

theorem step_keeps {h : Heap} {op : Op} {a : Nat} {o : Obj} (ho : h[a]? = some o) (hop : ∀ t ks, op = .mutate t ks → t = a → o.kind.mutable = false) :
    (step h op)[a]? = some o := by
  cases op with
  | make x =>
    simp only [step]
    split
    · rw [List.getElem?_append]
      split
      · exact ho
      · rw [List.getElem?_eq_none (by omega)] at ho; simp at ho
    · exact ho
  | mutate t ks =>
    simp only [step]
    split
    · next x hx =>
      split
      · next hc =>
        simp only [Bool.and_eq_true] at hc
        rw [List.getElem?_set]
        split
        · next hta =>
          have := hop t ks rfl hta
          subst hta
          rw [ho] at hx
          obtain rfl : o = x := by simpa using hx
          rw [hc.1.1] at this; simp at this
        · exact ho
      · exact ho
    · exact ho

theorem steps_keep {ops : List Op} {h : Heap} {a : Nat} {o : Obj} (ho : h[a]? = some o)
    (hop : ∀ t ks, Op.mutate t ks ∈ ops → t = a → o.kind.mutable = false) : (ops.foldl step h)[a]? = some o := by
  induction ops generalizing h with
  | nil => exact ho
  | cons op ops ih =>
    exact ih (step_keeps ho (fun t ks h1 h2 => hop t ks (by simp [h1]) h2)) (fun t ks h1 h2 => hop t ks (by simp [h1]) h2)

/-- Whatever is later made and changed, other than the objects that `copy` made, cannot be seen through the copy. -/
theorem C27_copy_unaffected (ops : List Op) (v : V) (hv : inBounds (run ops) v = true) (n : Nat) (h' : Heap) (v' : V)
    (hc : copy n (run ops) v = some (h', v')) (later : List Op)
    (hl : ∀ a ks, Op.mutate a ks ∈ later → a < (run ops).length ∨ h'.length ≤ a) (depth : Nat) :
    view depth (later.foldl step h') v' = view depth h' v' := by
  obtain ⟨st, rfl, hi, hcorr⟩ := copy_inv hv hc
  symm
  apply view_frame (fun a => ∃ w, Corr (run ops) st.heap st.m w (.ref a))
  · rintro a ⟨w, hw⟩
    obtain ⟨a0, o0, o', rfl, g1, g2, g3, g4, g5⟩ := inv_kids hi hw rfl
    refine ⟨o', g2, steps_keep g2 ?_, ?_⟩
    · intro t ks ht hta
      subst hta
      have hlt : t < st.heap.length := by
        by_contra hge
        rw [List.getElem?_eq_none (by omega)] at g2
        simp at g2
      by_cases hop : o0.kind.opens = true
      · have := (g4 hop).1
        rcases hl t ks ht with h | h <;> omega
      · obtain ⟨_, rfl⟩ := g5 (by simpa using hop)
        by_contra hmm
        exact hop (opens_of_mutable (by simpa using hmm))
    · intro hop b hb
      exact corr_link hi hw (.mk g2 hop hb)
  · rintro a rfl
    exact ⟨v, hcorr⟩

/-- And what is later made and changed, other than the objects there were before `copy`, cannot be seen through the original. -/
theorem C27_original_unaffected (ops : List Op) (v : V) (hv : inBounds (run ops) v = true) (n : Nat) (h' : Heap) (v' : V)
    (hc : copy n (run ops) v = some (h', v')) (later : List Op)
    (hl : ∀ a ks, Op.mutate a ks ∈ later → (run ops).length ≤ a) (depth : Nat) :
    view depth (later.foldl step h') v = view depth (run ops) v := by
  obtain ⟨st, rfl, hi, hcorr⟩ := copy_inv hv hc
  symm
  apply view_frame (fun a => a < (run ops).length)
  · intro a ha
    have h1 : (run ops)[a]? = some (run ops)[a] := List.getElem?_eq_getElem ha
    refine ⟨_, h1, steps_keep (hi.pre a _ h1) ?_, ?_⟩
    · intro t ks ht hta
      have := hl t ks ht
      omega
    · intro _ b hb
      have := (wf_run ops a _ h1).1 _ hb
      simpa [inBounds] using this
  · rintro a rfl
    simpa [inBounds] using hv

/-- The default of a dict is lost (collections.rs:771: `IndexMap::with_hasher(..).to_value()`). -/
theorem C27_violation_default :
    copy 9 (run [.make ⟨.dict (some "fn() -> 0"), []⟩]) (.ref 0) =
      some ([⟨.dict (some "fn() -> 0"), []⟩, ⟨.dict none, []⟩], .ref 1) := by
  decide +kernel

/-- A partial function is not copied, nor the list that it holds: the "copy" is the same object, and a change of the list is seen through it. -/
theorem C27_violation_partial_function :
    copy 9 (run [.make ⟨.list, []⟩, .make ⟨.func "fn f(a, b)" "f", [.ref 0]⟩]) (.ref 1) =
      some (run [.make ⟨.list, []⟩, .make ⟨.func "fn f(a, b)" "f", [.ref 0]⟩], .ref 1) := by
  decide +kernel

/-- `let a = [1]; let b = (a, a, enumerate(a)); a.push(b); copy(b)`: shared, cyclic, with an enumerate. -/
example : (copy 20 (run [.make ⟨.list, []⟩, .make ⟨.enumerate, [.ref 0]⟩, .make ⟨.vector, [.ref 0, .ref 0, .ref 1]⟩, .mutate 0 [.atom "1" "1", .ref 2]]) (.ref 2)) =
    some ([⟨.list, [.atom "1" "1", .ref 2]⟩, ⟨.enumerate, [.ref 0]⟩, ⟨.vector, [.ref 0, .ref 0, .ref 1]⟩,
      ⟨.vector, [.ref 4, .ref 4, .ref 5]⟩, ⟨.list, [.atom "1" "1", .ref 3]⟩, ⟨.enumerate, [.ref 4]⟩], .ref 3) := by
  decide +kernel

/-- A later history as in `C27_copy_unaffected`: the original list gets the copy as an element. -/
example : (step [⟨.list, [.atom "1" "1"]⟩, ⟨.list, [.atom "1" "1"]⟩] (.mutate 0 [.ref 1]))[0]? = some ⟨.list, [.ref 1]⟩ := by
  decide +kernel

end Cordy.Objects
