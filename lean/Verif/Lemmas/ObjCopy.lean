import Verif.Model.ObjectsSpec
import Verif.Lemmas.ObjRepr
import Mathlib.Data.List.Forall2
/-!
# Copies of any graph of objects
-/
namespace Cordy.Objects

abbrev CSt.m (st : CSt) : Nat → Nat → Prop := fun a b => (a, b) ∈ st.objects

structure Inv (h : Heap) (O : List Nat) (st : CSt) : Prop where
  pre : ∀ (a : Nat) (o : Obj), h[a]? = some o → st.heap[a]? = some o
  len : h.length ≤ st.heap.length
  dom : ∀ a b, (a, b) ∈ st.objects → ∃ o o', h[a]? = some o ∧ o.kind.mutable = true ∧ h.length ≤ b ∧ st.heap[b]? = some o' ∧
    o'.kind = (emptyCopy o.kind).kind ∧ (a ∉ O → List.Forall₂ (Corr h st.heap st.m) o.kids o'.kids) ∧ (a ∈ O → o'.kids = [])
  func : ∀ a b b', (a, b) ∈ st.objects → (a, b') ∈ st.objects → b = b'
  inj : ∀ a a' b, (a, b) ∈ st.objects → (a', b) ∈ st.objects → a = a'
  opens : ∀ a ∈ O, ∃ b, (a, b) ∈ st.objects

structure Ext (st st' : CSt) : Prop where
  objects : ∀ x ∈ st.objects, x ∈ st'.objects
  heap : ∀ (a : Nat) (o : Obj), st.heap[a]? = some o → st'.heap[a]? = some o
  len : st.heap.length ≤ st'.heap.length

theorem Ext.refl (st : CSt) : Ext st st := ⟨fun _ h => h, fun _ _ h => h, Nat.le_refl _⟩
theorem Ext.trans {a b c : CSt} (h1 : Ext a b) (h2 : Ext b c) : Ext a c :=
  ⟨fun x h => h2.objects x (h1.objects x h), fun i o h => h2.heap i o (h1.heap i o h), Nat.le_trans h1.len h2.len⟩

theorem Corr.mono {h h1 h2 : Heap} {m1 m2 : Nat → Nat → Prop} (hm : ∀ a b, m1 a b → m2 a b)
    (hh : ∀ (e : Nat) ks, h1[e]? = some ⟨.enumerate, ks⟩ → h2[e]? = some ⟨.enumerate, ks⟩) {v w : V} (hc : Corr h h1 m1 v w) : Corr h h2 m2 v w := by
  induction hc with
  | atom s p => exact .atom s p
  | same h1 h2 => exact .same h1 h2
  | copied h => exact .copied (hm _ _ h)
  | enum h1 h2 h3 _ ih => exact .enum h1 h2 (hh _ _ h3) ih

theorem corrAll_mono {h h1 h2 : Heap} {m1 m2 : Nat → Nat → Prop} (hm : ∀ a b, m1 a b → m2 a b)
    (hh : ∀ (e : Nat) ks, h1[e]? = some ⟨.enumerate, ks⟩ → h2[e]? = some ⟨.enumerate, ks⟩) {vs ws : List V}
    (hc : List.Forall₂ (Corr h h1 m1) vs ws) : List.Forall₂ (Corr h h2 m2) vs ws :=
  hc.imp (fun _ _ h => h.mono hm hh)

theorem Ext.corr {h : Heap} {st st' : CSt} (he : Ext st st') {v w : V} (hc : Corr h st.heap st.m v w) : Corr h st'.heap st'.m v w :=
  hc.mono (fun a b hab => he.objects (a, b) hab) (fun e ks hk => he.heap e _ hk)

/-- What copying one value does. -/
def CopyOk (h : Heap) (f : V → CSt → Option (CSt × V)) : Prop :=
  ∀ O v st st' v', inBounds h v = true → Inv h O st → f v st = some (st', v') → Inv h O st' ∧ Ext st st' ∧ Corr h st'.heap st'.m v v'

theorem copyKids_ok {h : Heap} {f} (hf : CopyOk h f) {O ks st st' ks'} (hb : ∀ k ∈ ks, inBounds h k = true) (hi : Inv h O st)
    (hc : copyKids f ks st = some (st', ks')) : Inv h O st' ∧ Ext st st' ∧ List.Forall₂ (Corr h st'.heap st'.m) ks ks' := by
  induction ks generalizing st st' ks' with
  | nil => simp only [copyKids, Option.some.injEq, Prod.mk.injEq] at hc; obtain ⟨rfl, rfl⟩ := hc; exact ⟨hi, .refl _, .nil⟩
  | cons k ks ih =>
    unfold copyKids at hc
    split at hc
    · simp at hc
    · next st1 k1 hk1 =>
      split at hc
      · simp at hc
      · next st2 ks2 hks2 =>
        simp only [Option.some.injEq, Prod.mk.injEq] at hc
        obtain ⟨rfl, rfl⟩ := hc
        obtain ⟨i1, e1, c1⟩ := hf O k st st1 k1 (hb k (by simp)) hi hk1
        obtain ⟨i2, e2, c2⟩ := ih (fun x hx => hb x (by simp [hx])) i1 hks2
        exact ⟨i2, e1.trans e2, .cons (e2.corr c1) c2⟩

theorem lookup_some {st : CSt} {a b : Nat} (h : st.lookup a = some b) : (a, b) ∈ st.objects := by
  unfold CSt.lookup at h
  rw [Option.map_eq_some_iff] at h
  obtain ⟨x, hx, rfl⟩ := h
  have h1 := List.mem_of_find?_eq_some hx
  have h2 := List.find?_some hx
  simp only [beq_iff_eq] at h2
  obtain ⟨c, d⟩ := x
  simp only at h2; subst h2
  exact h1

theorem lookup_none {st : CSt} {a : Nat} (h : st.lookup a = none) (b : Nat) : (a, b) ∉ st.objects := by
  unfold CSt.lookup at h
  rw [Option.map_eq_none_iff, List.find?_eq_none] at h
  intro hm
  have := h _ hm
  simp at this

theorem emptyCopy_mutable {k : Kind} (h : k.mutable = true) : (emptyCopy k).kind.mutable = true := by
  cases k <;> simp_all [emptyCopy, Kind.mutable]

theorem emptyCopy_kids (k : Kind) : (emptyCopy k).kids = [] := by
  cases k <;> simp [emptyCopy]

theorem mutable_eq (k : Kind) : k.mutable = k.collection := by cases k <;> rfl

theorem opens_of_mutable {k : Kind} (h : k.mutable = true) : k.opens = true := by simp [Kind.opens, ← mutable_eq, h]

theorem inv_open {h : Heap} {O : List Nat} {st : CSt} (hi : Inv h O st) {a : Nat} {o : Obj} (ho : h[a]? = some o) (hm : o.kind.mutable = true)
    (hl : st.lookup a = none) : Inv h (a :: O) { heap := st.heap ++ [emptyCopy o.kind], objects := st.objects ++ [(a, st.heap.length)] } := by
  have hlt : ∀ a' b', (a', b') ∈ st.objects → b' < st.heap.length := by
    intro a' b' hab
    obtain ⟨x, x', _, _, _, hx, _⟩ := hi.dom a' b' hab
    by_contra hge
    rw [List.getElem?_eq_none (by omega)] at hx
    simp at hx
  refine ⟨?_, ?_, ?_, ?_, ?_, ?_⟩
  · intro c x hx
    have := hi.pre c x hx
    rw [List.getElem?_append]
    split
    · exact this
    · rw [List.getElem?_eq_none (by omega)] at this; simp at this
  · have := hi.len; simp; omega
  · intro a' b' hab
    simp only [List.mem_append, List.mem_singleton, Prod.mk.injEq] at hab
    rcases hab with hab | ⟨rfl, rfl⟩
    · obtain ⟨x, x', h1, h2, h3, h4, h5, h6, h7⟩ := hi.dom a' b' hab
      have hne : a' ≠ a := by rintro rfl; exact lookup_none hl _ hab
      refine ⟨x, x', h1, h2, h3, ?_, h5, ?_, ?_⟩
      · simp only
        rw [List.getElem?_append_left (hlt a' b' hab)]; exact h4
      · intro hno
        refine corrAll_mono (fun c d hcd => by simp only [CSt.m, List.mem_append]; exact Or.inl hcd) ?_ (h6 (fun hh => hno (by simp [hh])))
        intro e ks he
        simp only
        rw [List.getElem?_append]
        split
        · exact he
        · rw [List.getElem?_eq_none (by omega)] at he; simp at he
      · intro hao
        rcases List.mem_cons.1 hao with h8 | h8
        · exact absurd h8 hne
        · exact h7 h8
    · refine ⟨o, emptyCopy o.kind, ho, hm, hi.len, by simp, rfl, fun hno => absurd (by simp) hno, fun _ => emptyCopy_kids _⟩
  · intro a' b b' h1 h2
    simp only [List.mem_append, List.mem_singleton, Prod.mk.injEq] at h1 h2
    rcases h1 with h1 | ⟨rfl, rfl⟩ <;> rcases h2 with h2 | ⟨h2, h3⟩
    · exact hi.func _ _ _ h1 h2
    · subst h2; exact absurd h1 (lookup_none hl _)
    · exact absurd h2 (lookup_none hl _)
    · exact h3.symm
  · intro a1 a2 b h1 h2
    simp only [List.mem_append, List.mem_singleton, Prod.mk.injEq] at h1 h2
    rcases h1 with h1 | ⟨rfl, rfl⟩ <;> rcases h2 with h2 | ⟨h2, h3⟩
    · exact hi.inj _ _ _ h1 h2
    · have := hlt _ _ h1; omega
    · have := hlt _ _ h2; omega
    · exact h2.symm
  · intro c hc
    rcases List.mem_cons.1 hc with rfl | hc
    · exact ⟨st.heap.length, by simp⟩
    · obtain ⟨b, hb⟩ := hi.opens c hc
      exact ⟨b, by simp [hb]⟩

theorem fill_get {st : CSt} {b : Nat} {ks : List V} {x : Obj} (hx : st.heap[b]? = some x) (c : Nat) :
    (fill st b ks).heap[c]? = if c = b then some { x with kids := x.kids ++ ks } else st.heap[c]? := by
  simp only [fill, List.getElem?_modify]
  by_cases h : c = b
  · subst h; simp [hx]
  · have h' : ¬ b = c := fun hh => h hh.symm
    rw [if_neg h]; simp [h']

theorem inv_fill {h : Heap} {O : List Nat} {st : CSt} {a b : Nat} {o : Obj} {ks : List V} (hi : Inv h (a :: O) st) (hO : a ∉ O) (hab : (a, b) ∈ st.objects)
    (ho : h[a]? = some o) (hk : List.Forall₂ (Corr h st.heap st.m) o.kids ks) : Inv h O (fill st b ks) := by
  obtain ⟨y, x, h1, h2, h3, h4, h5, _, h7⟩ := hi.dom a b hab
  rw [ho] at h1
  obtain rfl : o = y := by simpa using h1
  have hkids := h7 (by simp)
  have hxm : x.kind.mutable = true := by rw [h5]; exact emptyCopy_mutable h2
  have hobj : (fill st b ks).objects = st.objects := rfl
  have henum : ∀ (e : Nat) l, st.heap[e]? = some ⟨.enumerate, l⟩ → (fill st b ks).heap[e]? = some ⟨.enumerate, l⟩ := by
    intro e l he
    rw [fill_get h4, if_neg ?_]
    · exact he
    · rintro rfl
      rw [h4] at he
      obtain rfl : x = _ := by simpa using he
      simp [Kind.mutable] at hxm
  refine ⟨?_, ?_, ?_, hi.func, hi.inj, fun c hc => hi.opens c (by simp [hc])⟩
  · intro c z hz
    rw [fill_get h4, if_neg ?_]
    · exact hi.pre c z hz
    · rintro rfl
      rw [List.getElem?_eq_none (by omega)] at hz
      simp at hz
  · simp only [fill, List.length_modify]; exact hi.len
  · intro a' b' hab'
    rw [hobj] at hab'
    by_cases hb : b' = b
    · subst hb
      obtain rfl := hi.inj _ _ _ hab hab'
      refine ⟨o, { x with kids := x.kids ++ ks }, ho, h2, h3, ?_, h5, ?_, fun hh => absurd hh hO⟩
      · rw [fill_get h4, if_pos rfl]
      · intro _
        rw [hkids]
        exact corrAll_mono (fun _ _ hh => hh) henum hk
    · obtain ⟨z, z', g1, g2, g3, g4, g5, g6, g7⟩ := hi.dom a' b' hab'
      have hne : a' ≠ a := by rintro rfl; exact hb (hi.func _ _ _ hab' hab)
      refine ⟨z, z', g1, g2, g3, ?_, g5, ?_, ?_⟩
      · rw [fill_get h4, if_neg hb]; exact g4
      · intro hno
        exact corrAll_mono (fun _ _ hh => hh) henum (g6 (by simp [hne, hno]))
      · intro hh; exact g7 (by simp [hh])

theorem copyRec_ok {h : Heap} (hw : WF h) (hev : Even h) (n : Nat) : CopyOk h (copyRec n) := by
  induction n with
  | zero => intro O v st st' v' _ _ hc; simp [copyRec] at hc
  | succ n ih =>
    intro O v st st' v' hb hi hc
    cases v with
    | atom s p =>
      simp only [copyRec, Option.some.injEq, Prod.mk.injEq] at hc
      obtain ⟨rfl, rfl⟩ := hc
      exact ⟨hi, .refl _, .atom s p⟩
    | ref a =>
      simp only [inBounds, decide_eq_true_eq] at hb
      have ho : h[a]? = some h[a] := List.getElem?_eq_getElem hb
      generalize h[a] = o at ho
      obtain ⟨hk1, _⟩ := hw a o ho
      unfold copyRec at hc
      rw [hi.pre a o ho] at hc
      simp only at hc
      split at hc
      · next hm =>
        split at hc
        · next b hl =>
          simp only [Option.some.injEq, Prod.mk.injEq] at hc
          obtain ⟨rfl, rfl⟩ := hc
          exact ⟨hi, .refl _, .copied (lookup_some hl)⟩
        · next hl =>
          split at hc
          · simp at hc
          · next st1 ks hks =>
            simp only [Option.some.injEq, Prod.mk.injEq] at hc
            obtain ⟨rfl, rfl⟩ := hc
            have hi0 := inv_open hi ho hm hl
            obtain ⟨i1, e1, c1⟩ := copyKids_ok ih hk1 hi0 hks
            have hab : (a, st.heap.length) ∈ st1.objects := e1.objects _ (by simp)
            have hO : a ∉ O := by
              intro hh
              obtain ⟨b, hb'⟩ := hi.opens a hh
              exact lookup_none hl _ hb'
            refine ⟨inv_fill i1 hO hab ho c1, ?_, .copied hab⟩
            have hx : st1.heap[st.heap.length]? = some (emptyCopy o.kind) := e1.heap _ _ (by simp)
            refine ⟨fun x hx => e1.objects x (by simp [hx]), ?_, ?_⟩
            · intro c x hcx
              have hclt : c < st.heap.length := by
                by_contra hge
                rw [List.getElem?_eq_none (by omega)] at hcx
                simp at hcx
              rw [fill_get hx, if_neg (by omega)]
              exact e1.heap c x (by simp only; rw [List.getElem?_append_left hclt]; exact hcx)
            · have := e1.len
              simp only [fill, List.length_modify]
              simp at this; omega
      · next hm =>
        split at hc
        · next hk =>
          split at hc
          · simp at hc
          · next st1 ks hks =>
            simp only [Option.some.injEq, Prod.mk.injEq] at hc
            obtain ⟨rfl, rfl⟩ := hc
            obtain ⟨i1, e1, c1⟩ := copyKids_ok ih hk1 hi hks
            have hx : Ext st1 { st1 with heap := st1.heap ++ [⟨.enumerate, ks⟩] } := by
              refine ⟨fun _ hh => hh, ?_, by simp⟩
              intro c x hcx
              simp only
              rw [List.getElem?_append]
              split
              · exact hcx
              · rw [List.getElem?_eq_none (by omega)] at hcx; simp at hcx
            obtain ⟨k0, hk0⟩ : ∃ k0, o.kids = [k0] := by
              have := hev a o ho
              rw [hk] at this
              simp only [fits, beq_iff_eq] at this
              exact List.length_eq_one_iff.1 this
            rw [hk0] at c1
            cases c1 with
            | cons c1 c2 =>
              next k0' l2 =>
              cases c2
              refine ⟨?_, e1.trans hx, ?_⟩
              · refine ⟨fun c x hh => hx.heap _ _ (i1.pre c x hh), by have := i1.len; simp; omega, ?_, i1.func, i1.inj, i1.opens⟩
                intro a' b' hab'
                obtain ⟨z, z', g1, g2, g3, g4, g5, g6, g7⟩ := i1.dom a' b' hab'
                exact ⟨z, z', g1, g2, g3, hx.heap _ _ g4, g5, fun hno => (g6 hno).imp (fun _ _ hh => hx.corr hh), g7⟩
              · refine .enum (k := k0) (k' := k0') ?_ i1.len (by simp) (hx.corr c1)
                rw [ho]
                obtain ⟨kd, kk⟩ := o
                simp only at hk hk0
                rw [hk, hk0]
        · next hk =>
          simp only [Option.some.injEq, Prod.mk.injEq] at hc
          obtain ⟨rfl, rfl⟩ := hc
          refine ⟨hi, .refl _, .same ho ?_⟩
          simp only [Kind.opens, Bool.or_eq_false_iff, beq_eq_false_iff_ne]
          exact ⟨by rw [← mutable_eq]; simpa using hm, hk⟩

/-! ## Termination -/

theorem free_mono {h : Heap} {g g' : List Nat} (hg : ∀ a ∈ g, a ∈ g') : free h g' ≤ free h g := by
  unfold free
  rw [← List.countP_eq_length_filter, ← List.countP_eq_length_filter]
  apply List.countP_mono_left
  intro a _ ha
  simp only [List.contains_eq_mem, Bool.not_eq_true', decide_eq_false_iff_not] at ha ⊢
  exact fun hh => ha (hg a hh)

theorem copyKids_some {h : Heap} {f} (hf : CopyOk h f) {O : List Nat} {c : Nat}
    {ks : List V} (hs : ∀ k ∈ ks, ∀ st, Inv h O st → free h (st.objects.map (·.1)) ≤ c → ∃ r, f k st = some r) {st}
    (hb : ∀ k ∈ ks, inBounds h k = true) (hi : Inv h O st) (hc : free h (st.objects.map (·.1)) ≤ c) : ∃ r, copyKids f ks st = some r := by
  induction ks generalizing st with
  | nil => exact ⟨_, rfl⟩
  | cons k ks ih =>
    obtain ⟨⟨st1, k1⟩, h1⟩ := hs k (by simp) st hi hc
    obtain ⟨i1, e1, _⟩ := hf O k st st1 k1 (hb k (by simp)) hi h1
    have hc1 : free h (st1.objects.map (·.1)) ≤ c := by
      refine Nat.le_trans (free_mono ?_) hc
      intro a ha
      obtain ⟨x, hx, rfl⟩ := List.mem_map.1 ha
      exact List.mem_map.2 ⟨x, e1.objects x hx, rfl⟩
    obtain ⟨⟨st2, ks2⟩, h2⟩ := ih (fun x hx => hs x (by simp [hx])) (fun x hx => hb x (by simp [hx])) i1 hc1
    exact ⟨(st2, k1 :: ks2), by simp [copyKids, h1, h2]⟩

theorem copyRec_some {h : Heap} (hw : WF h) (hev : Even h) (n : Nat) (O : List Nat) (v : V) (st : CSt) (hb : inBounds h v = true) (hi : Inv h O st)
    (hn : free h (st.objects.map (·.1)) * (h.length + 1) + rank v < n) : ∃ r, copyRec n v st = some r := by
  induction n generalizing O v st with
  | zero => omega
  | succ n ih =>
    cases v with
    | atom s p => exact ⟨_, rfl⟩
    | ref a =>
      simp only [inBounds, decide_eq_true_eq] at hb
      have ho : h[a]? = some h[a] := List.getElem?_eq_getElem hb
      generalize h[a] = o at ho
      obtain ⟨hk1, hk2⟩ := hw a o ho
      unfold copyRec
      rw [hi.pre a o ho]
      simp only
      split
      · next hm =>
        split
        · exact ⟨_, rfl⟩
        · next hl =>
          have hi0 := inv_open hi ho hm hl
          have hnot : a ∉ st.objects.map (·.1) := by
            intro hh
            obtain ⟨⟨a', b⟩, hx, rfl⟩ := List.mem_map.1 hh
            exact lookup_none hl b hx
          have hfree : free h ((st.objects ++ [(a, st.heap.length)]).map (·.1)) < free h (st.objects.map (·.1)) := by
            refine Nat.lt_of_le_of_lt (free_mono ?_) (free_cons hb hnot)
            intro c hc
            simp at hc ⊢
            rcases hc with rfl | hc
            · exact Or.inr rfl
            · exact Or.inl hc
          obtain ⟨⟨st1, ks⟩, hks⟩ := copyKids_some (copyRec_ok hw hev n) (O := a :: O) (c := free h ((st.objects ++ [(a, st.heap.length)]).map (·.1)))
            (ks := o.kids) (fun k hk st' hi' hc' => by
              apply ih _ k st' (hk1 k hk) hi'
              have hr := rank_le (hk1 k hk)
              have hm1 : (free h (st'.objects.map (·.1)) + 1) * (h.length + 1) ≤ free h (st.objects.map (·.1)) * (h.length + 1) :=
                Nat.mul_le_mul_right _ (by omega)
              rw [Nat.add_mul] at hm1
              omega) hk1 hi0 (Nat.le_refl _)
          rw [hks]
          exact ⟨_, rfl⟩
      · next hm =>
        have hm' : o.kind.mutable = false := by simpa using hm
        split
        · next hk =>
          obtain ⟨⟨st1, ks⟩, hks⟩ := copyKids_some (copyRec_ok hw hev n) (O := O) (c := free h (st.objects.map (·.1)))
            (ks := o.kids) (fun k hk st' hi' hc' => by
              apply ih _ k st' (hk1 k hk) hi'
              have hr : rank k < rank (.ref a) := by
                cases k with
                | atom => simp [rank]
                | ref b => have := hk2 hm' b hk; simp only [rank]; omega
              have hm1 : free h (st'.objects.map (·.1)) * (h.length + 1) ≤ free h (st.objects.map (·.1)) * (h.length + 1) :=
                Nat.mul_le_mul_right _ hc'
              omega) hk1 hi (Nat.le_refl _)
          rw [hks]
          exact ⟨_, rfl⟩
        · exact ⟨_, rfl⟩

theorem inv_start (h : Heap) : Inv h [] ⟨h, []⟩ :=
  ⟨fun _ _ hh => hh, Nat.le_refl _, by simp, by simp, by simp, by simp⟩

theorem copyKids_mono {f g : V → CSt → Option (CSt × V)} (hfg : ∀ v st r, f v st = some r → g v st = some r) {ks st r}
    (h : copyKids f ks st = some r) : copyKids g ks st = some r := by
  induction ks generalizing st r with
  | nil => exact h
  | cons k ks ih =>
    unfold copyKids at h ⊢
    split at h
    · simp at h
    · next st1 k1 h1 =>
      rw [hfg _ _ _ h1]
      simp only
      split at h
      · simp at h
      · next st2 ks2 h2 => rw [ih h2]; exact h

theorem copyRec_mono {n m : Nat} (hnm : n ≤ m) {v st r} (h : copyRec n v st = some r) : copyRec m v st = some r := by
  induction n generalizing m v st r with
  | zero => simp [copyRec] at h
  | succ n ih =>
    obtain ⟨m, rfl⟩ : ∃ m', m = m' + 1 := ⟨m - 1, by omega⟩
    have hle : n ≤ m := by omega
    cases v with
    | atom s p => exact h
    | ref a =>
      unfold copyRec at h ⊢
      split at h
      · simp at h
      · next o ho =>
        split at h
        · next hm =>
          simp only [hm, if_true]
          split at h
          · next b hb => exact h
          · next hb =>
            split at h
            · simp at h
            · next st1 ks hks => rw [copyKids_mono (fun v st r hh => ih hle hh) hks]; exact h
        · next hm =>
          simp only [hm, Bool.false_eq_true, if_false]
          split at h
          · next hk =>
            simp only [hk, if_true]
            split at h
            · simp at h
            · next st1 ks hks => rw [copyKids_mono (fun v st r hh => ih hle hh) hks]; exact h
          · next hk => simp only [hk, if_false]; exact h

/-! ## What can be seen -/

/-- Two heaps in which a set of objects, with all that they lead to, is the same. -/
theorem view_frame {h h' : Heap} (P : Nat → Prop)
    (hP : ∀ a, P a → ∃ o, h[a]? = some o ∧ h'[a]? = some o ∧ (o.kind.opens = true → ∀ b, V.ref b ∈ o.kids → P b))
    (n : Nat) (v : V) (hv : ∀ a, v = .ref a → P a) : view n h v = view n h' v := by
  induction n generalizing v with
  | zero => rfl
  | succ n ih =>
    cases v with
    | atom s p => rfl
    | ref a =>
      obtain ⟨o, h1, h2, h3⟩ := hP a (hv a rfl)
      unfold view
      rw [h1, h2]
      simp only
      split
      · next ho =>
        congr 1
        apply List.map_congr_left
        intro k hk
        exact ih k (fun b hb => h3 ho b (hb ▸ hk))
      · rfl

theorem inv_kids {h : Heap} {st : CSt} (hi : Inv h [] st) {v v' : V} (hc : Corr h st.heap st.m v v') {a' : Nat} (hv : v' = .ref a') :
    ∃ a o o', v = .ref a ∧ h[a]? = some o ∧ st.heap[a']? = some o' ∧ o'.kind = (if o.kind.mutable then (emptyCopy o.kind).kind else o.kind) ∧
      (o.kind.opens = true → h.length ≤ a' ∧ List.Forall₂ (Corr h st.heap st.m) o.kids o'.kids) ∧ (o.kind.opens = false → a' = a ∧ o' = o) := by
  cases hc with
  | atom s p => cases hv
  | @same a o ho hop =>
    cases hv
    refine ⟨a', o, o, rfl, ho, hi.pre a' o ho, ?_, fun hh => by rw [hop] at hh; simp at hh, fun _ => ⟨rfl, rfl⟩⟩
    rw [if_neg]
    intro hm
    rw [opens_of_mutable hm] at hop; simp at hop
  | @copied a b hab =>
    cases hv
    obtain ⟨o, o', h1, h2, h3, h4, h5, h6, _⟩ := hi.dom a a' hab
    exact ⟨a, o, o', rfl, h1, h4, by rw [if_pos h2]; exact h5, fun _ => ⟨h3, h6 (by simp)⟩, fun hh => by rw [opens_of_mutable h2] at hh; simp at hh⟩
  | @enum a e k k' h1 h2 h3 h4 =>
    cases hv
    exact ⟨a, _, _, rfl, h1, h3, by simp [Kind.mutable], fun _ => ⟨h2, .cons h4 .nil⟩, fun hh => by simp [Kind.opens] at hh⟩

theorem view_corr {h : Heap} {st : CSt} (hi : Inv h [] st) (hd : ∀ (a : Nat) (o : Obj) d, h[a]? = some o → o.kind = .dict (some d) → False)
    (n : Nat) {v v' : V} (hc : Corr h st.heap st.m v v') : view n h v = view n st.heap v' := by
  induction n generalizing v v' with
  | zero => rfl
  | succ n ih =>
    cases v' with
    | atom s p => cases hc; rfl
    | ref a' =>
      obtain ⟨a, o, o', rfl, h1, h2, h3, h4, h5⟩ := inv_kids hi hc rfl
      unfold view
      rw [h1, h2]
      simp only
      by_cases hop : o.kind.opens = true
      · obtain ⟨_, hk⟩ := h4 hop
        have hkind : o'.kind = o.kind := by
          rw [h3]
          split
          · have := hd a o
            cases hok : o.kind with
            | dict d =>
              cases d with
              | none => rfl
              | some d => exact (hd a o d h1 hok).elim
            | _ => rfl
          · rfl
        rw [hkind, if_pos hop, if_pos hop]
        congr 1
        clear h1 h2 h3 h4 h5 hkind
        generalize o.kids = xs at hk
        generalize o'.kids = ys at hk
        induction hk with
        | nil => rfl
        | cons hx _ ih' => simp only [List.map_cons, ih hx, ih']
      · have hop' : o.kind.opens = false := by simpa using hop
        obtain ⟨rfl, rfl⟩ := h5 hop'
        rw [if_neg hop, if_neg hop]

theorem corr_link {h : Heap} {st : CSt} (hi : Inv h [] st) {v v' w' : V} (hc : Corr h st.heap st.m v v') (hl : Link st.heap v' w') :
    ∃ w, Corr h st.heap st.m w w' := by
  cases hl with
  | @mk a' o'' k ho hop hk =>
    obtain ⟨a, o, o', rfl, h1, h2, h3, h4, h5⟩ := inv_kids hi hc rfl
    rw [ho] at h2
    obtain rfl : o'' = o' := by simpa using h2
    by_cases hop' : o.kind.opens = true
    · obtain ⟨_, hf⟩ := h4 hop'
      obtain ⟨w, _, hw⟩ : ∃ w, w ∈ o.kids ∧ Corr h st.heap st.m w w' := by
        clear h3 h4 h5 ho h1 hop'
        generalize o.kids = xs at hf
        generalize o''.kids = ys at hf hk
        induction hf with
        | nil => simp at hk
        | cons hx _ ih =>
          rcases List.mem_cons.1 hk with rfl | hk
          · exact ⟨_, by simp, hx⟩
          · obtain ⟨w, hw, hw'⟩ := ih hk
            exact ⟨w, by simp [hw], hw'⟩
      exact ⟨w, hw⟩
    · obtain ⟨_, rfl⟩ := h5 (by simpa using hop')
      exact absurd hop hop'

theorem corr_leads {h : Heap} {st : CSt} (hi : Inv h [] st) {v v' w' : V} (hc : Corr h st.heap st.m v v') (hl : Leads st.heap v' w') :
    ∃ w, Corr h st.heap st.m w w' := by
  induction hl generalizing v with
  | refl => exact ⟨v, hc⟩
  | step h1 _ ih =>
    obtain ⟨w, hw⟩ := corr_link hi hc h1
    exact ih hw

end Cordy.Objects
