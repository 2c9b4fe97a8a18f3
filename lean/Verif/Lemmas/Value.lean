import Verif.Model.Value
import Mathlib.Tactic.Linarith
import Mathlib.Tactic.Ring
/-! Helper lemmas for `Props/Value.lean`. -/
namespace Cordy
namespace Val

/-- What a hash lookup of `x` accepts. -/
def sim (x y : Val) : Prop := feed x = feed y ∧ eqv x y = true

theorem allIn_iff {xs ys : List Val} : allIn xs ys = true ↔ ∀ x ∈ xs, ∃ y ∈ ys, sim x y := by
  induction xs with
  | nil => simp [allIn]
  | cons x xs ih => simp [allIn, ih, sim, List.any_eq_true]

theorem allInD_iff {es es' : Ents} :
    allInD es es' = true ↔ ∀ e ∈ es.toList, ∃ e' ∈ es'.toList, sim e.1 e'.1 ∧ eqv e.2 e'.2 = true := by
  match es with
  | .nil => simp [allInD, Ents.toList]
  | .cons k v r =>
    have ih := allInD_iff (es := r) (es' := es')
    simp only [allInD, Ents.toList, Bool.and_eq_true, ih, List.any_eq_true, List.forall_mem_cons, sim]
    simp [and_assoc]

theorem eqvL_iff {xs ys : List Val} :
    eqvL xs ys = true ↔ List.Forall₂ (fun x y => eqv x y = true) xs ys := by
  induction xs generalizing ys with
  | nil =>
    cases ys with
    | nil => simp [eqvL]
    | cons => simp only [eqvL, Bool.false_eq_true, false_iff]; intro h; cases h
  | cons x xs ih =>
    cases ys with
    | nil => simp only [eqvL, Bool.false_eq_true, false_iff]; intro h; cases h
    | cons => simp [eqvL, ih]

theorem Ents.size_lt {es : Ents} : ∀ e ∈ es.toList, sizeOf e.1 < sizeOf es ∧ sizeOf e.2 < sizeOf es := by
  match es with
  | .nil => simp [Ents.toList]
  | .cons k v r =>
    have ih := Ents.size_lt (es := r)
    intro e he
    simp only [Ents.toList, List.mem_cons] at he
    rcases he with rfl | he
    · simp; omega
    · have := ih e he; simp; omega

/-- Induction on the size of a value. -/
theorem size_induction {P : Val → Prop} (h : ∀ x, (∀ y, sizeOf y < sizeOf x → P y) → P x) (x : Val) : P x :=
  h x (fun y _ => size_induction h y)
termination_by sizeOf x

/-- Pigeonhole: an injective choice between lists of the same length is onto. -/
theorem onto_of_inj {α β : Type _} {R : α → α → Prop} {S : α → β → Prop} :
    ∀ (xs : List α) (ys : List β), ys.length ≤ xs.length → (∀ x ∈ xs, ∃ y ∈ ys, S x y) →
      (∀ a ∈ xs, ∀ b ∈ xs, ∀ y, S a y → S b y → R a b) → xs.Pairwise (fun a b => ¬ R a b) →
      ∀ y ∈ ys, ∃ x ∈ xs, S x y
  | [], ys, hl, _, _, _, y, hy => by
      cases ys
      · simp at hy
      · simp at hl
  | x :: xs, ys, hl, hex, hinj, hp, y, hy => by
      obtain ⟨y0, hy0, hs⟩ := hex x (by simp)
      obtain ⟨l1, l2, rfl⟩ := List.append_of_mem hy0
      have hp' := List.pairwise_cons.1 hp
      have ih := onto_of_inj xs (l1 ++ l2) (by simp at hl ⊢; omega)
        (fun x' hx' => by
          obtain ⟨y', hy', hs'⟩ := hex x' (by simp [hx'])
          simp only [List.mem_append, List.mem_cons] at hy'
          rcases hy' with h | rfl | h
          · exact ⟨y', by simp [h], hs'⟩
          · exact absurd (hinj x (by simp) x' (by simp [hx']) _ hs hs') (hp'.1 x' hx')
          · exact ⟨y', by simp [h], hs'⟩)
        (fun a ha b hb => hinj a (by simp [ha]) b (by simp [hb])) hp'.2
      simp only [List.mem_append, List.mem_cons] at hy
      rcases hy with h | rfl | h
      · obtain ⟨a, ha, hs'⟩ := ih y (by simp [h]); exact ⟨a, by simp [ha], hs'⟩
      · exact ⟨x, by simp, hs⟩
      · obtain ⟨a, ha, hs'⟩ := ih y (by simp [h]); exact ⟨a, by simp [ha], hs'⟩

theorem forall₂_refl' {α} {R : α → α → Prop} (xs : List α) (h : ∀ x ∈ xs, R x x) : List.Forall₂ R xs xs := by
  induction xs with
  | nil => exact .nil
  | cons x xs ih => exact .cons (h x (by simp)) (ih fun y hy => h y (by simp [hy]))

theorem forall₂_symm' {α} {R : α → α → Prop} {xs ys : List α} (h : List.Forall₂ R xs ys)
    (hs : ∀ x ∈ xs, ∀ y ∈ ys, R x y → R y x) : List.Forall₂ R ys xs := by
  induction h with
  | nil => exact .nil
  | cons h _ ih => exact .cons (hs _ (by simp) _ (by simp) h) (ih fun y hy z hz => hs y (by simp [hy]) z (by simp [hz]))

theorem forall₂_trans' {α} {R : α → α → Prop} {xs ys zs : List α} (h : List.Forall₂ R xs ys) (h' : List.Forall₂ R ys zs)
    (hs : ∀ x ∈ xs, ∀ y z, R x y → R y z → R x z) : List.Forall₂ R xs zs := by
  induction h generalizing zs with
  | nil => exact h'
  | cons h _ ih =>
    cases h' with
    | cons h1 h2 => exact .cons (hs _ (by simp) _ _ h h1) (ih h2 fun y hy z hz => hs y (by simp [hy]) z hz)

theorem eqv_refl (x : Val) : eqv x x = true := by
  induction x using size_induction with
  | _ x ih =>
    have hL : ∀ xs : List Val, sizeOf xs < sizeOf x → eqvL xs xs = true := fun xs h =>
      eqvL_iff.2 (forall₂_refl' xs fun y hy => ih y (by have := List.sizeOf_lt_of_mem hy; omega))
    have hI : ∀ xs : List Val, sizeOf xs < sizeOf x → allIn xs xs = true := fun xs h =>
      allIn_iff.2 fun y hy => ⟨y, hy, rfl, ih y (by have := List.sizeOf_lt_of_mem hy; omega)⟩
    have hD : ∀ xs : Ents, sizeOf xs < sizeOf x → allInD xs xs = true := fun xs h =>
      allInD_iff.2 fun y hy => ⟨y, hy, ⟨rfl, ih _ (by have := (Ents.size_lt y hy).1; omega)⟩,
        ih _ (by have := (Ents.size_lt y hy).2; omega)⟩
    cases x <;> simp [eqv]
    case list => apply hL; simp
    case vector => apply hL; simp
    case heap => apply hL; simp
    case struct => apply hL; simp
    case set => apply hI; simp
    case dict => apply hD; simp
    case enumerate => apply ih; simp
    case partialFn => apply ih; simp; omega
    case slice => exact ⟨⟨ih _ (by simp; omega), ih _ (by simp; omega)⟩, ih _ (by simp)⟩

theorem eqv_trans (x : Val) : ∀ y z, eqv x y = true → eqv y z = true → eqv x z = true := by
  induction x using size_induction with
  | _ x ih =>
    have hL : ∀ xs ys zs : List Val, sizeOf xs < sizeOf x → eqvL xs ys = true → eqvL ys zs = true →
        eqvL xs zs = true := fun xs ys zs h h1 h2 =>
      eqvL_iff.2 (forall₂_trans' (eqvL_iff.1 h1) (eqvL_iff.1 h2)
        fun y hy => ih y (by have := List.sizeOf_lt_of_mem hy; omega))
    have hI : ∀ xs ys zs : List Val, sizeOf xs < sizeOf x → allIn xs ys = true → allIn ys zs = true →
        allIn xs zs = true := fun xs ys zs h h1 h2 => allIn_iff.2 fun a ha => by
      obtain ⟨b, hb, hs⟩ := allIn_iff.1 h1 a ha
      obtain ⟨c, hc, hs'⟩ := allIn_iff.1 h2 b hb
      exact ⟨c, hc, hs.1.trans hs'.1, ih a (by have := List.sizeOf_lt_of_mem ha; omega) _ _ hs.2 hs'.2⟩
    have hD : ∀ xs ys zs : Ents, sizeOf xs < sizeOf x → allInD xs ys = true → allInD ys zs = true →
        allInD xs zs = true := fun xs ys zs h h1 h2 => allInD_iff.2 fun a ha => by
      obtain ⟨b, hb, hs, hv⟩ := allInD_iff.1 h1 a ha
      obtain ⟨c, hc, hs', hv'⟩ := allInD_iff.1 h2 b hb
      have := Ents.size_lt a ha
      exact ⟨c, hc, ⟨hs.1.trans hs'.1, ih _ (by omega) _ _ hs.2 hs'.2⟩, ih _ (by omega) _ _ hv hv'⟩
    intro y z hxy hyz
    cases x <;> cases y <;> simp only [eqv, Bool.false_eq_true] at hxy <;>
      cases z <;> simp only [eqv, Bool.false_eq_true] at hyz <;>
      simp only [eqv, Bool.and_eq_true, beq_iff_eq] at * <;>
      first
      | (grind; done)
      | (exact hL _ _ _ (by simp) hxy hyz)
      | (exact ⟨by omega, hL _ _ _ (by simp; omega) hxy.2 hyz.2⟩)
      | (exact ⟨by omega, hI _ _ _ (by simp) hxy.2 hyz.2⟩)
      | (exact ⟨by omega, hD _ _ _ (by simp) hxy.2 hyz.2⟩)
      | (exact ih _ (by simp) _ _ hxy hyz)
      | (exact ih _ (by simp; omega) _ _ hxy hyz)
      | (exact ⟨⟨ih _ (by simp; omega) _ _ hxy.1.1 hyz.1.1, ih _ (by simp; omega) _ _ hxy.1.2 hyz.1.2⟩,
          ih _ (by simp) _ _ hxy.2 hyz.2⟩)

theorem eqv_symm (x : Val) : WF x → ∀ y, WF y → eqv x y = true → eqv y x = true := by
  induction x using size_induction with
  | _ x ih =>
    have hL : ∀ xs ys : List Val, sizeOf xs < sizeOf x → (∀ a ∈ xs, WF a) → (∀ a ∈ ys, WF a) →
        eqvL xs ys = true → eqvL ys xs = true := fun xs ys h hx hy h1 =>
      eqvL_iff.2 (forall₂_symm' (eqvL_iff.1 h1)
        fun a ha b hb => ih a (by have := List.sizeOf_lt_of_mem ha; omega) (hx a ha) b (hy b hb))
    intro hx y hy hxy
    cases hx <;> cases hy <;> simp only [eqv, Bool.false_eq_true, Bool.and_eq_true, beq_iff_eq] at * <;>
      first
      | (grind; done)
      | (refine hL _ _ (by simp) ?_ ?_ hxy <;> assumption)
      | (refine ⟨by omega, hL _ _ (by simp; omega) ?_ ?_ hxy.2⟩ <;> assumption)
      | skip
    case set.set xs hw hp ys hw' hp' =>
      have hsz : ∀ a ∈ xs, sizeOf a < sizeOf (Val.set xs) := fun a ha => by
        have := List.sizeOf_lt_of_mem ha; simp; omega
      have h1 := allIn_iff.1 hxy.2
      refine ⟨hxy.1.symm, allIn_iff.2 fun b hb => ?_⟩
      obtain ⟨a, ha, hb', hs⟩ := onto_of_inj (R := sim) (S := fun a b => b ∈ ys ∧ sim a b) xs ys (by omega)
        (fun a ha => by obtain ⟨b, hb, hs⟩ := h1 a ha; exact ⟨b, hb, hb, hs⟩)
        (fun a1 h1 a2 h2 b hs1 hs2 => ⟨hs1.2.1.trans hs2.2.1.symm,
          eqv_trans _ _ _ hs1.2.2 (ih a2 (hsz a2 h2) (hw a2 h2) b (hw' b hs1.1) hs2.2.2)⟩) hp b hb
      exact ⟨a, ha, hs.1.symm, ih a (hsz a ha) (hw a ha) b (hw' b hb) hs.2⟩
    case dict.dict es hk hv hp es' hk' hv' hp' =>
      have hsz : ∀ a ∈ es.toList, sizeOf a.1 < sizeOf (Val.dict es) ∧ sizeOf a.2 < sizeOf (Val.dict es) :=
        fun a ha => by have := Ents.size_lt a ha; simp; omega
      have h1 := allInD_iff.1 hxy.2
      refine ⟨hxy.1.symm, allInD_iff.2 fun b hb => ?_⟩
      obtain ⟨a, ha, hb', hs, hvv⟩ := onto_of_inj (R := fun a b => sim a.1 b.1)
        (S := fun a b => b ∈ es'.toList ∧ sim a.1 b.1 ∧ eqv a.2 b.2 = true) es.toList es'.toList (by omega)
        (fun a ha => by obtain ⟨b, hb, hs⟩ := h1 a ha; exact ⟨b, hb, hb, hs⟩)
        (fun a1 h1 a2 h2 b hs1 hs2 => ⟨hs1.2.1.1.trans hs2.2.1.1.symm,
          eqv_trans _ _ _ hs1.2.1.2 (ih a2.1 (hsz a2 h2).1 (hk a2 h2) b.1 (hk' b hs1.1) hs2.2.1.2)⟩)
        (by simpa [Ents.keys, List.pairwise_map, sim] using hp) b hb
      exact ⟨a, ha, ⟨hs.1.symm, ih a.1 (hsz a ha).1 (hk a ha) b.1 (hk' b hb) hs.2⟩,
        ih a.2 (hsz a ha).2 (hv a ha) b.2 (hv' b hb) hvv⟩
end Val
end Cordy
