import Verif.Model.ObjectsSpec
import Mathlib.Tactic.ByContra
import Mathlib.Tactic.Ring
/-!
# The text of any graph of objects
-/
namespace Cordy.Objects

/-- All references lead to objects; objects that cannot change refer to older ones. -/
def WF (h : Heap) : Prop :=
  ∀ (a : Nat) (o : Obj), h[a]? = some o → (∀ k ∈ o.kids, inBounds h k = true) ∧ (o.kind.mutable = false → ∀ b, V.ref b ∈ o.kids → b < a)

theorem inBounds_mono {h h' : Heap} (hl : h.length ≤ h'.length) {v : V} (hv : inBounds h v = true) : inBounds h' v = true := by
  cases v with
  | atom => rfl
  | ref a => simp only [inBounds, decide_eq_true_eq] at hv ⊢; omega

theorem wf_step {h : Heap} (hw : WF h) (op : Op) : WF (step h op) := by
  cases op with
  | make o =>
    simp only [step]
    split
    · next hk =>
      simp only [Bool.and_eq_true, List.all_eq_true] at hk
      replace hk := hk.2
      intro a x hx
      rw [List.getElem?_append] at hx
      split at hx
      · obtain ⟨h1, h2⟩ := hw a x hx
        exact ⟨fun k hk' => inBounds_mono (by simp) (h1 k hk'), h2⟩
      · next ha =>
        have : a = h.length := by
          by_contra hne
          rw [List.getElem?_eq_none (by simp; omega)] at hx
          simp at hx
        subst this
        simp at hx
        subst hx
        refine ⟨fun k hk' => inBounds_mono (by simp) (hk k hk'), fun _ b hb => ?_⟩
        have := hk _ hb
        simpa [inBounds] using this
    · exact hw
  | mutate a kids =>
    simp only [step]
    split
    · next o ho =>
      split
      · next hc =>
        simp only [Bool.and_eq_true, List.all_eq_true] at hc
        replace hc := (And.intro hc.1.1 hc.2 : _ ∧ _)
        intro c x hx
        rw [List.getElem?_set] at hx
        split at hx
        · next hca =>
          subst hca
          split at hx
          · simp at hx
            subst hx
            refine ⟨fun k hk => inBounds_mono (by simp) (hc.2 k hk), fun hm => ?_⟩
            simp only at hm
            rw [hc.1] at hm; simp at hm
          · simp at hx
        · obtain ⟨h1, h2⟩ := hw c x hx
          exact ⟨fun k hk => inBounds_mono (by simp) (h1 k hk), h2⟩
      · exact hw
    · exact hw

theorem wf_run (ops : List Op) : WF (run ops) := by
  have : ∀ (ops : List Op) (h : Heap), WF h → WF (ops.foldl step h) := by
    intro ops
    induction ops with
    | nil => intro h hw; exact hw
    | cons op ops ih => intro h hw; exact ih _ (wf_step hw op)
  exact this ops [] (by intro a o h; simp at h)

/-- Dicts have as many keys as values. -/
def Even (h : Heap) : Prop := ∀ (a : Nat) (o : Obj), h[a]? = some o → fits o.kind o.kids = true

theorem even_step {h : Heap} (hw : Even h) (op : Op) : Even (step h op) := by
  cases op with
  | make o =>
    simp only [step]
    split
    · next hk =>
      simp only [Bool.and_eq_true] at hk
      intro a x hx
      rw [List.getElem?_append] at hx
      split at hx
      · exact hw a x hx
      · have := List.mem_of_getElem? hx
        simp at this
        subst this
        exact hk.1
    · exact hw
  | mutate a kids =>
    simp only [step]
    split
    · next o ho =>
      split
      · next hc =>
        simp only [Bool.and_eq_true] at hc
        intro c x hx
        rw [List.getElem?_set] at hx
        split at hx
        · split at hx
          · simp at hx; subst hx; exact hc.1.2
          · simp at hx
        · exact hw c x hx
      · exact hw
    · exact hw

theorem even_run (ops : List Op) : Even (run ops) := by
  have : ∀ (ops : List Op) (h : Heap), Even h → Even (ops.foldl step h) := by
    intro ops
    induction ops with
    | nil => intro h hw; exact hw
    | cons op ops ih => intro h hw; exact ih _ (even_step hw op)
  exact this ops [] (by intro a o h; simp at h)

/-! ## Termination -/

theorem mapAll_some {α β} {f : α → Option β} {xs : List α} (h : ∀ x ∈ xs, ∃ y, f x = some y) : ∃ ys, mapAll f xs = some ys := by
  induction xs with
  | nil => exact ⟨[], rfl⟩
  | cons x xs ih =>
    obtain ⟨y, hy⟩ := h x (by simp)
    obtain ⟨ys, hys⟩ := ih (fun z hz => h z (by simp [hz]))
    exact ⟨y :: ys, by simp [mapAll, hy, hys]⟩

theorem mapAll_mem {α β} {f : α → Option β} {xs : List α} {ys : List β} (h : mapAll f xs = some ys) :
    (∀ x ∈ xs, ∃ y ∈ ys, f x = some y) ∧ (∀ y ∈ ys, ∃ x ∈ xs, f x = some y) := by
  induction xs generalizing ys with
  | nil => simp only [mapAll, Option.some.injEq] at h; subst h; simp
  | cons x xs ih =>
    unfold mapAll at h
    split at h
    · simp at h
    · next y hy =>
      split at h
      · simp at h
      · next zs hzs =>
        simp only [Option.some.injEq] at h
        subst h
        obtain ⟨h1, h2⟩ := ih hzs
        constructor
        · intro z hz
          rcases List.mem_cons.1 hz with rfl | hz
          · exact ⟨y, by simp, hy⟩
          · obtain ⟨w, hw, hw'⟩ := h1 z hz
            exact ⟨w, by simp [hw], hw'⟩
        · intro z hz
          rcases List.mem_cons.1 hz with rfl | hz
          · exact ⟨x, by simp, hy⟩
          · obtain ⟨w, hw, hw'⟩ := h2 z hz
            exact ⟨w, by simp [hw], hw'⟩

theorem mapAll_congr {α β} {f g : α → Option β} {xs : List α} (h : ∀ x ∈ xs, f x = g x) : mapAll f xs = mapAll g xs := by
  induction xs with
  | nil => rfl
  | cons x xs ih => simp only [mapAll, h x (by simp), ih (fun z hz => h z (by simp [hz]))]

theorem shownKids_sub (o : Obj) {k} (hk : k ∈ shownKids o) : k ∈ o.kids := by
  unfold shownKids at hk
  split at hk
  · simp at hk
  · exact List.mem_of_mem_take hk
  · exact hk

/-- The objects that are not in the guard. -/
def free (h : Heap) (g : List Nat) : Nat := ((List.range h.length).filter (fun a => !g.contains a)).length

theorem free_cons {h : Heap} {g : List Nat} {a : Nat} (ha : a < h.length) (hg : a ∉ g) : free h (a :: g) < free h g := by
  unfold free
  have hsub : ((List.range h.length).filter (fun x => !(a :: g).contains x)) =
      ((List.range h.length).filter (fun x => !g.contains x)).filter (fun x => x != a) := by
    rw [List.filter_filter]
    congr 1
    funext x
    simp only [List.contains_cons, Bool.not_or, bne]
  rw [hsub]
  have hmem : a ∈ (List.range h.length).filter (fun x => !g.contains x) := by simp [ha, hg]
  rw [← List.countP_eq_length_filter]
  have h1 : List.countP (fun x => x != a) (List.filter (fun x => !g.contains x) (List.range h.length)) ≤
      (List.filter (fun x => !g.contains x) (List.range h.length)).length := List.countP_le_length
  rcases Nat.lt_or_eq_of_le h1 with h2 | h2
  · exact h2
  · rw [List.countP_eq_length] at h2
    have := h2 a hmem
    simp at this

theorem free_le (h : Heap) (g : List Nat) : free h g ≤ h.length := by
  unfold free
  have := List.length_filter_le (fun a => !g.contains a) (List.range h.length)
  simpa using this

def rank : V → Nat
  | .atom _ _ => 0
  | .ref a => a + 1

theorem rank_le {h : Heap} {v : V} (hv : inBounds h v = true) : rank v ≤ h.length := by
  cases v with
  | atom => simp [rank]
  | ref a => simp only [inBounds, decide_eq_true_eq] at hv; simp only [rank]; omega

theorem repr_some {h : Heap} (hw : WF h) (n : Nat) (g : List Nat) (v : V) (hv : inBounds h v = true)
    (hn : free h g * (h.length + 1) + rank v < n) : ∃ out, repr n h g v = some out := by
  induction n generalizing g v with
  | zero => omega
  | succ n ih =>
    cases v with
    | atom s p => exact ⟨_, rfl⟩
    | ref a =>
      simp only [inBounds, decide_eq_true_eq] at hv
      have ho : h[a]? = some h[a] := List.getElem?_eq_getElem hv
      obtain ⟨hk1, hk2⟩ := hw a _ ho
      unfold repr
      rw [ho]
      simp only
      split
      · split
        · exact ⟨_, rfl⟩
        · next hg =>
          have hg' : a ∉ g := by simpa using hg
          have hf := free_cons hv hg'
          obtain ⟨ys, hys⟩ := mapAll_some (f := repr n h (a :: g)) (xs := shownKids h[a]) (fun k hk => by
            apply ih _ _ (hk1 k (shownKids_sub _ hk))
            have hr := rank_le (hk1 k (shownKids_sub _ hk))
            have : (free h (a :: g) + 1) * (h.length + 1) ≤ free h g * (h.length + 1) := Nat.mul_le_mul_right _ hf
            rw [Nat.add_mul] at this
            omega)
          exact ⟨_, by rw [hys]; rfl⟩
      · next hm =>
        have hm' : h[a].kind.mutable = false := by simpa using hm
        obtain ⟨ys, hys⟩ := mapAll_some (f := repr n h g) (xs := shownKids h[a]) (fun k hk => by
          apply ih _ _ (hk1 k (shownKids_sub _ hk))
          have hr : rank k < rank (.ref a) := by
            cases k with
            | atom => simp [rank]
            | ref b => have := hk2 hm' b (shownKids_sub _ hk); simp only [rank]; omega
          omega)
        exact ⟨_, by rw [hys]; rfl⟩

theorem mapAll_mono {α β} {f g : α → Option β} (hfg : ∀ x y, f x = some y → g x = some y) {xs : List α} {ys : List β}
    (h : mapAll f xs = some ys) : mapAll g xs = some ys := by
  rw [← h]
  exact (mapAll_congr (fun x hx => by
    obtain ⟨y, _, hy⟩ := (mapAll_mem h).1 x hx
    rw [hy, hfg x y hy])).symm

theorem repr_mono {n m : Nat} (hnm : n ≤ m) {h : Heap} {g : List Nat} {v : V} {out} (ho : repr n h g v = some out) : repr m h g v = some out := by
  induction n generalizing m g v out with
  | zero => simp [repr] at ho
  | succ n ih =>
    obtain ⟨m, rfl⟩ : ∃ m', m = m' + 1 := ⟨m - 1, by omega⟩
    cases v with
    | atom s p => exact ho
    | ref a =>
      unfold repr at ho ⊢
      split at ho
      · simp at ho
      · next o hoa =>
        split at ho
        · next hm =>
          simp only [hm, if_true]
          split at ho
          · next hg => rw [if_pos hg]; exact ho
          · next hg =>
            rw [if_neg hg]
            rw [Option.map_eq_some_iff] at ho ⊢
            obtain ⟨ys, hys, rfl⟩ := ho
            exact ⟨ys, mapAll_mono (fun x y hy => ih (by omega) hy) hys, rfl⟩
        · next hm =>
          simp only [hm, if_false, Bool.false_eq_true]
          rw [Option.map_eq_some_iff] at ho ⊢
          obtain ⟨ys, hys, rfl⟩ := ho
          exact ⟨ys, mapAll_mono (fun x y hy => ih (by omega) hy) hys, rfl⟩

/-! ## Where it is cut -/

theorem Reach.trans {h : Heap} {n m : Nat} {u v w : V} (h1 : Reach h n u v) (h2 : Reach h m v w) : Reach h (n + m) u w := by
  induction h1 with
  | refl => simpa using h2
  | step hp _ ih => have := Reach.step hp (ih h2); rw [Nat.add_right_comm]; exact this

theorem cut_joinWith {sep : String} {xs : List (List Tok)} {c : String} (h : Tok.cut c ∈ joinWith sep xs) : ∃ x ∈ xs, Tok.cut c ∈ x := by
  induction xs using joinWith.induct with
  | case1 => simp [joinWith] at h
  | case2 x => exact ⟨x, by simp, by simpa [joinWith] using h⟩
  | case3 x y xs ih =>
    simp only [joinWith, List.mem_append, List.mem_singleton, reduceCtorEq, or_false] at h
    rcases h with h | h
    · exact ⟨x, by simp, h⟩
    · obtain ⟨z, hz, hz'⟩ := ih h
      exact ⟨z, by simp at hz ⊢; tauto, hz'⟩

theorem cut_pairs {xs : List (List Tok)} {c : String} {y : List Tok} (hy : y ∈ pairs xs) (h : Tok.cut c ∈ y) : ∃ x ∈ xs, Tok.cut c ∈ x := by
  induction xs using pairs.induct with
  | case1 k v xs ih =>
    simp only [pairs, List.mem_cons] at hy
    rcases hy with rfl | hy
    · simp only [List.mem_append, List.mem_singleton, reduceCtorEq, or_false] at h
      rcases h with h | h
      · exact ⟨k, by simp, h⟩
      · exact ⟨v, by simp, h⟩
    · obtain ⟨z, hz, hz'⟩ := ih hy
      exact ⟨z, by simp [hz], hz'⟩
  | case2 xs hx => 
    unfold pairs at hy
    split at hy
    · next k v xs' => exact absurd rfl (hx k v xs')
    · simp at hy

theorem cut_render {k : Kind} {xs : List (List Tok)} {c : String} (h : Tok.cut c ∈ render k xs) : ∃ x ∈ xs, Tok.cut c ∈ x := by
  cases k with
  | list => simp only [render, mapJoin, List.mem_append, List.mem_singleton, reduceCtorEq, or_false, false_or] at h; exact cut_joinWith h
  | vector => simp only [render, mapJoin, List.mem_append, List.mem_singleton, reduceCtorEq, or_false, false_or] at h; exact cut_joinWith h
  | set => simp only [render, mapJoin, List.mem_append, List.mem_singleton, reduceCtorEq, or_false, false_or] at h; exact cut_joinWith h
  | heap => simp only [render, mapJoin, List.mem_append, List.mem_singleton, reduceCtorEq, or_false, false_or] at h; exact cut_joinWith h
  | dict d =>
    simp only [render, mapJoin, List.mem_append, List.mem_singleton, reduceCtorEq, or_false, false_or] at h
    obtain ⟨y, hy, hc⟩ := cut_joinWith h
    exact cut_pairs hy hc
  | struct name fields =>
    simp only [render, mapJoin, List.mem_append, List.mem_singleton, reduceCtorEq, or_false, false_or] at h
    obtain ⟨y, hy, hc⟩ := cut_joinWith h
    have : ∀ (fs : List String) (xs : List (List Tok)), y ∈ List.zipWith (fun f x => [Tok.text f, .text "="] ++ x) fs xs → ∃ x ∈ xs, Tok.cut c ∈ x := by
      intro fs
      induction fs with
      | nil => intro xs h; simp at h
      | cons f fs ih =>
        intro xs h
        cases xs with
        | nil => simp at h
        | cons x xs =>
          simp only [List.zipWith_cons_cons, List.mem_cons] at h
          rcases h with rfl | h
          · simp only [List.mem_append, List.mem_cons, reduceCtorEq, List.not_mem_nil, or_false, false_or] at hc
            exact ⟨x, by simp, hc⟩
          · obtain ⟨z, hz, hz'⟩ := ih xs h
            exact ⟨z, by simp [hz], hz'⟩
    exact this fields xs hy
  | enumerate => simp only [render, List.mem_append, List.mem_singleton, reduceCtorEq, or_false, false_or, List.mem_flatten] at h; exact h
  | memoized => simp only [render, List.mem_append, List.mem_singleton, reduceCtorEq, or_false, false_or, List.mem_flatten] at h; exact h
  | func s p => simp [render] at h

/-- What is cut is a part of itself. -/
theorem cut_cyclic {n : Nat} {h : Heap} {g : List Nat} {v : V} {out c} (ho : repr n h g v = some out) (hc : Tok.cut c ∈ out) :
    Cyclic h v ∨ ∃ a ∈ g, ∃ m, Reach h m v (.ref a) := by
  induction n generalizing g v out with
  | zero => simp [repr] at ho
  | succ n ih =>
    cases v with
    | atom s p => simp only [repr, Option.some.injEq] at ho; subst ho; simp at hc
    | ref a =>
      unfold repr at ho
      split at ho
      · simp at ho
      · next o hoa =>
        have cyc : ∀ k ∈ shownKids o, Cyclic h k → Cyclic h (.ref a) := by
          rintro k hk ⟨w, n, m, h1, h2⟩
          exact ⟨w, n + 1, m, .step (.mk hoa hk) h1, h2⟩
        split at ho
        · split at ho
          · next hg => exact Or.inr ⟨a, by simpa using hg, 0, .refl _⟩
          · rw [Option.map_eq_some_iff] at ho
            obtain ⟨ys, hys, rfl⟩ := ho
            obtain ⟨y, hy, hcy⟩ := cut_render hc
            obtain ⟨k, hk, hky⟩ := (mapAll_mem hys).2 y hy
            rcases ih hky hcy with hh | ⟨b, hb, m, hm⟩
            · exact Or.inl (cyc k hk hh)
            · rcases List.mem_cons.1 hb with rfl | hb
              · exact Or.inl ⟨.ref b, 0, m, .refl _, .step (.mk hoa hk) hm⟩
              · exact Or.inr ⟨b, hb, m + 1, .step (.mk hoa hk) hm⟩
        · rw [Option.map_eq_some_iff] at ho
          obtain ⟨ys, hys, rfl⟩ := ho
          obtain ⟨y, hy, hcy⟩ := cut_render hc
          obtain ⟨k, hk, hky⟩ := (mapAll_mem hys).2 y hy
          rcases ih hky hcy with hh | ⟨b, hb, m, hm⟩
          · exact Or.inl (cyc k hk hh)
          · exact Or.inr ⟨b, hb, m + 1, .step (.mk hoa hk) hm⟩

/-! ## Without a cut it is the text of a tree -/

theorem mem_joinWith {sep : String} {xs : List (List Tok)} {x : List Tok} (hx : x ∈ xs) {c} (hc : c ∈ x) : c ∈ joinWith sep xs := by
  induction xs using joinWith.induct with
  | case1 => simp at hx
  | case2 y => simp at hx; subst hx; simpa [joinWith] using hc
  | case3 y z xs ih =>
    rcases List.mem_cons.1 hx with rfl | hx
    · simp [joinWith, hc]
    · simp [joinWith, ih hx]

theorem render_cut {o : Obj} {xs : List (List Tok)} (hlen : xs.length = (shownKids o).length) (heven : ∀ d, o.kind = .dict d → 2 ∣ o.kids.length)
    {x : List Tok} (hx : x ∈ xs) {c : String} (hc : Tok.cut c ∈ x) : Tok.cut c ∈ render o.kind xs := by
  obtain ⟨k, kids⟩ := o
  cases k with
  | list => simp [render, mapJoin, mem_joinWith hx hc]
  | vector => simp [render, mapJoin, mem_joinWith hx hc]
  | set => simp [render, mapJoin, mem_joinWith hx hc]
  | heap => simp [render, mapJoin, mem_joinWith hx hc]
  | dict d =>
    simp only [render, mapJoin, List.mem_append]
    refine Or.inl (Or.inr ?_)
    have hev : 2 ∣ xs.length := by rw [hlen]; exact heven d rfl
    have : ∃ y ∈ pairs xs, Tok.cut c ∈ y := by
      clear hlen heven
      induction xs using pairs.induct with
      | case1 k v xs ih =>
        simp only [List.mem_cons] at hx
        rcases hx with rfl | rfl | hx
        · exact ⟨_, by simp only [pairs, List.mem_cons]; exact Or.inl rfl, by simp [hc]⟩
        · exact ⟨_, by simp only [pairs, List.mem_cons]; exact Or.inl rfl, by simp [hc]⟩
        · obtain ⟨y, hy, hy'⟩ := ih hx (by simp only [List.length_cons] at hev; omega)
          exact ⟨y, by simp only [pairs, List.mem_cons]; exact Or.inr hy, hy'⟩
      | case2 xs hxs =>
        exfalso
        match xs, hxs with
        | [], _ => simp at hx
        | [_], _ => simp at hev
        | k :: v :: xs, hxs => exact hxs k v xs rfl
    obtain ⟨y, hy, hy'⟩ := this
    exact mem_joinWith hy hy'
  | struct name fields =>
    simp only [render, mapJoin, List.mem_append]
    refine Or.inl (Or.inr ?_)
    have hle : xs.length ≤ fields.length := by rw [hlen]; simp [shownKids]
    have : ∃ y ∈ List.zipWith (fun f x => [Tok.text f, .text "="] ++ x) fields xs, Tok.cut c ∈ y := by
      clear hlen heven
      induction fields generalizing xs with
      | nil => simp at hle; subst hle; simp at hx
      | cons f fs ih =>
        cases xs with
        | nil => simp at hx
        | cons z zs =>
          rcases List.mem_cons.1 hx with rfl | hx
          · exact ⟨[Tok.text f, .text "="] ++ x, by simp, by simp [hc]⟩
          · obtain ⟨y, hy, hy'⟩ := ih hx (by simpa using hle)
            exact ⟨y, by simp only [List.zipWith_cons_cons, List.mem_cons]; exact Or.inr hy, hy'⟩
    obtain ⟨y, hy, hy'⟩ := this
    exact mem_joinWith hy hy'
  | enumerate => simp only [render, List.mem_append, List.mem_flatten]; exact Or.inl (Or.inr ⟨x, hx, hc⟩)
  | memoized => simp only [render, List.mem_append, List.mem_flatten]; exact Or.inr ⟨x, hx, hc⟩
  | func s p => simp [shownKids] at hlen; subst hlen; simp at hx

theorem mapAll_length {α β} {f : α → Option β} {xs : List α} {ys : List β} (h : mapAll f xs = some ys) : ys.length = xs.length := by
  induction xs generalizing ys with
  | nil => simp only [mapAll, Option.some.injEq] at h; subst h; rfl
  | cons x xs ih =>
    unfold mapAll at h
    split at h
    · simp at h
    · split at h
      · simp at h
      · next zs hzs => simp only [Option.some.injEq] at h; subst h; simp [ih hzs]

theorem repr_plain {n : Nat} {h : Heap} (he : Even h) {g : List Nat} {v : V} {out} (ho : repr n h g v = some out) (hc : ∀ c, Tok.cut c ∉ out) :
    plain n h v = some out := by
  induction n generalizing g v out with
  | zero => simp [repr] at ho
  | succ n ih =>
    cases v with
    | atom s p => exact ho
    | ref a =>
      unfold repr at ho
      unfold plain
      split at ho
      · simp at ho
      · next o hoa =>
        have main : ∀ g' ys, mapAll (repr n h g') (shownKids o) = some ys → out = render o.kind ys → mapAll (plain n h) (shownKids o) = some ys := by
          intro g' ys hys hout
          rw [← hys]
          apply mapAll_congr
          intro k hk
          obtain ⟨y, hy, hky⟩ := (mapAll_mem hys).1 k hk
          rw [hky]
          apply ih hky
          intro c hcy
          apply hc c
          rw [hout]
          exact render_cut (mapAll_length hys) (fun d hd => by have := he a o hoa; rw [hd] at this; simpa [fits, Nat.dvd_iff_mod_eq_zero] using this) hy hcy
        split at ho
        · split at ho
          · next hg =>
            simp only [Option.some.injEq] at ho
            exact absurd (by rw [← ho]; simp) (hc (abbreviation o.kind))
          · rw [Option.map_eq_some_iff] at ho
            obtain ⟨ys, hys, rfl⟩ := ho
            rw [main _ ys hys rfl]; rfl
        · rw [Option.map_eq_some_iff] at ho
          obtain ⟨ys, hys, rfl⟩ := ho
          rw [main _ ys hys rfl]; rfl

theorem plain_bounded {n : Nat} {h : Heap} {v w : V} {out m} (ho : plain n h v = some out) (hr : Reach h m v w) : m < n := by
  induction n generalizing v out m with
  | zero => simp [plain] at ho
  | succ n ih =>
    cases hr with
    | refl => omega
    | step hp hr' =>
      cases hp with
      | mk hoa hk =>
        unfold plain at ho
        rw [hoa] at ho
        simp only [Option.map_eq_some_iff] at ho
        obtain ⟨ys, hys, _⟩ := ho
        obtain ⟨y, _, hy⟩ := (mapAll_mem hys).1 _ hk
        have := ih hy hr'
        omega

theorem cyclic_unbounded {h : Heap} {v : V} (hc : Cyclic h v) (k : Nat) : ∃ m w, k ≤ m ∧ Reach h m v w := by
  obtain ⟨w, n, m, h1, h2⟩ := hc
  have : ∀ k, ∃ j, k ≤ j ∧ Reach h j w w := by
    intro k
    induction k with
    | zero => exact ⟨0, Nat.le_refl _, .refl _⟩
    | succ k ih => obtain ⟨j, hj, hr⟩ := ih; exact ⟨j + (m + 1), by omega, hr.trans h2⟩
  obtain ⟨j, hj, hr⟩ := this k
  exact ⟨n + j, w, by omega, h1.trans hr⟩

theorem cyclic_cut {n : Nat} {h : Heap} (he : Even h) {v : V} {out} (ho : repr n h [] v = some out) (hc : Cyclic h v) : ∃ c, Tok.cut c ∈ out := by
  by_contra hne
  have hp := repr_plain he ho (fun c hcc => hne ⟨c, hcc⟩)
  obtain ⟨m, w, hm, hr⟩ := cyclic_unbounded hc n
  have := plain_bounded hp hr
  omega

/-! ## The text -/

/-- The text of a list of tokens. -/
def text (ts : List Tok) : String := String.join (ts.map Tok.str)

theorem text_append (a b : List Tok) : text (a ++ b) = text a ++ text b := by simp [text, String.join_append]
theorem text_cons (a : Tok) (b : List Tok) : text (a :: b) = a.str ++ text b := by simp [text, String.join_cons]
theorem text_nil : text [] = "" := by simp [text]
theorem text_single (a : Tok) : text [a] = a.str := by simp [text_cons, text_nil]

theorem text_joinWith (sep : String) (xs : List (List Tok)) : text (joinWith sep xs) = String.intercalate sep (xs.map text) := by
  induction xs using joinWith.induct with
  | case1 => simp [joinWith, text_nil]
  | case2 x => simp [joinWith]
  | case3 x y xs ih => simp only [joinWith, text_append, text_single, ih, List.map_cons, String.intercalate_cons_cons]; rfl

theorem text_flatten (xs : List (List Tok)) : text xs.flatten = String.join (xs.map text) := by
  induction xs with
  | nil => simp [text_nil]
  | cons x xs ih => simp [text_append, ih, String.join_cons]

theorem text_pairs (xs : List (List Tok)) : (pairs xs).map text = keyValues (xs.map text) := by
  induction xs using pairs.induct with
  | case1 k v xs ih => simp only [pairs, keyValues, List.map_cons, ih, text_append, text_single, Tok.str]
  | case2 xs h =>
    rcases xs with _ | ⟨a, _ | ⟨b, xs⟩⟩
    · rfl
    · rfl
    · exact absurd rfl (h a b xs)

theorem text_render (k : Kind) (xs : List (List Tok)) : text (render k xs) = layout k (xs.map text) := by
  cases k <;> simp only [render, layout, mapJoin, text_append, text_single, text_joinWith, text_flatten, text_pairs, Tok.str]
  · next name fields =>
    congr 3
    induction fields generalizing xs with
    | nil => simp
    | cons f fs ih =>
      cases xs with
      | nil => simp
      | cons x xs =>
        simp only [List.zipWith_cons_cons, List.map_cons, ih, List.cons.injEq, and_true]
        simp [text_cons, Tok.str, String.append_assoc]

theorem plain_shown {n : Nat} {h : Heap} {v : V} {out : List Tok} (ho : plain n h v = some out) : shown n h v = some (text out) := by
  induction n generalizing v out with
  | zero => simp [plain] at ho
  | succ n ih =>
    cases v with
    | atom s p => simp only [plain, Option.some.injEq] at ho; subst ho; simp [shown, text_single, Tok.str]
    | ref a =>
      unfold plain at ho
      unfold shown
      split at ho
      · simp at ho
      · next o hoa =>
        rw [Option.map_eq_some_iff] at ho
        obtain ⟨ys, hys, rfl⟩ := ho
        simp only [text_render]
        have : ∀ (ks : List V) ys, mapAll (plain n h) ks = some ys → mapAll (shown n h) ks = some (ys.map text) := by
          intro ks
          induction ks with
          | nil => intro ys h; simp [mapAll] at h; subst h; rfl
          | cons k ks ihk =>
            intro ys h
            unfold mapAll at h
            split at h
            · simp at h
            · next y hy =>
              split at h
              · simp at h
              · next ys' hys' =>
                simp only [Option.some.injEq] at h
                subst h
                simp [mapAll, ih hy, ihk _ hys']
        rw [hoa]
        simp only [this _ _ hys]; rfl

theorem cut_dots {n : Nat} {h : Heap} {g : List Nat} {v : V} {out c} (ho : repr n h g v = some out) (hc : Tok.cut c ∈ out) :
    (∃ a o k m, h[a]? = some o ∧ Reach h k v (.ref a) ∧ Reach h (m + 1) (.ref a) (.ref a) ∧ c = dots o.kind) ∨
    ∃ a ∈ g, ∃ o m, h[a]? = some o ∧ Reach h m v (.ref a) ∧ c = dots o.kind := by
  induction n generalizing g v out with
  | zero => simp [repr] at ho
  | succ n ih =>
    cases v with
    | atom s p => simp only [repr, Option.some.injEq] at ho; subst ho; simp at hc
    | ref a =>
      unfold repr at ho
      split at ho
      · simp at ho
      · next o hoa =>
        split at ho
        · next hm =>
          split at ho
          · next hg =>
            simp only [Option.some.injEq] at ho
            subst ho
            simp only [List.mem_singleton, Tok.cut.injEq] at hc
            refine Or.inr ⟨a, by simpa using hg, o, 0, hoa, .refl _, ?_⟩
            rw [hc]
            cases hk : o.kind <;> rw [hk] at hm <;> simp_all [abbreviation, dots, Kind.mutable]
          · rw [Option.map_eq_some_iff] at ho
            obtain ⟨ys, hys, rfl⟩ := ho
            obtain ⟨y, hy, hcy⟩ := cut_render hc
            obtain ⟨k, hk, hky⟩ := (mapAll_mem hys).2 y hy
            rcases ih hky hcy with ⟨b, o', i, m, h1, h2, h3, h4⟩ | ⟨b, hb, o', m, h1, hm, h4⟩
            · exact Or.inl ⟨b, o', i + 1, m, h1, .step (.mk hoa hk) h2, h3, h4⟩
            · rcases List.mem_cons.1 hb with rfl | hb
              · exact Or.inl ⟨b, o', 0, m, h1, .refl _, .step (.mk hoa hk) hm, h4⟩
              · exact Or.inr ⟨b, hb, o', m + 1, h1, .step (.mk hoa hk) hm, h4⟩
        · rw [Option.map_eq_some_iff] at ho
          obtain ⟨ys, hys, rfl⟩ := ho
          obtain ⟨y, hy, hcy⟩ := cut_render hc
          obtain ⟨k, hk, hky⟩ := (mapAll_mem hys).2 y hy
          rcases ih hky hcy with ⟨b, o', i, m, h1, h2, h3, h4⟩ | ⟨b, hb, o', m, h1, hm, h4⟩
          · exact Or.inl ⟨b, o', i + 1, m, h1, .step (.mk hoa hk) h2, h3, h4⟩
          · exact Or.inr ⟨b, hb, o', m + 1, h1, .step (.mk hoa hk) hm, h4⟩

end Cordy.Objects
