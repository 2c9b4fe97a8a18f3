import Verif.Model.Sum
/-!
# C86: `sum` and `concat`
-/
namespace Cordy.Sums
open Cordy.Op Cordy.Repr

/-- The integer a value stands for: a bool is 0 or 1. -/
inductive IsInt : Val → Int → Prop
  | int (i : Int) : IsInt (.int i) i
  | bool (b : Bool) : IsInt (.bool b) (if b then 1 else 0)

theorem intOf_some {v : Val} {i : Int} (h : IsInt v i) : intOf v = some (BitVec.ofInt 64 i) := by
  cases h with
  | int i => rfl
  | bool b => cases b <;> rfl

theorem intOf_none {v : Val} : intOf v = none ↔ ∀ i, ¬ IsInt v i := by
  constructor
  · intro h i hi
    rw [intOf_some hi] at h
    simp at h
  · intro h
    cases v with
    | int i => exact absurd (.int i) (h i)
    | bool b => exact absurd (.bool b) (h _)
    | _ => rfl

theorem sumLoop_ints (vs : List Val) : ∀ (ns : List Int) (a : Int), List.Forall₂ IsInt vs ns → sumLoop (BitVec.ofInt 64 a) vs = .ok (BitVec.ofInt 64 (a + ns.sum)) := by
  induction vs with
  | nil => intro ns a h; cases h; simp [sumLoop]
  | cons v vs ih =>
    intro ns a h
    cases h with
    | cons h1 h2 =>
      simp only [sumLoop, intOf_some h1, ← BitVec.ofInt_add]
      rw [ih _ _ h2, List.sum_cons, ← Int.add_assoc]

/-- **C86** `sum` of ints (and bools) of any number is their sum if it is an int, whatever the sums on the way are; otherwise it is that number modulo 2^63, as for `+`. -/
theorem C86_sum (vs : List Val) (ns : List Int) (h : List.Forall₂ IsInt vs ns) : sum vs = .ok (.int (Int.bmod ns.sum (2 ^ 63))) ∧
    (-2 ^ 62 ≤ ns.sum → ns.sum < 2 ^ 62 → sum vs = .ok (.int ns.sum)) := by
  have e : sum vs = .ok (.int (Int.bmod ns.sum (2 ^ 63))) := by
    have := sumLoop_ints vs ns 0 h
    simp only [Int.zero_add] at this
    simp only [sum, show (0 : I64) = BitVec.ofInt 64 0 from rfl, this, boxI, BitVec.toInt_ofInt]
    congr 2
    exact Int.bmod_bmod_of_dvd (by decide)
  refine ⟨e, fun h1 h2 => ?_⟩
  rw [e, Int.bmod_eq_of_le (by omega) (by omega)]

/-- **C86** the order does not matter. -/
theorem C86_sum_order (vs ws : List Val) (ns : List Int) (h : List.Forall₂ IsInt vs ns) (hp : vs.Perm ws) : sum ws = sum vs := by
  have key : ∀ (vs ws : List Val), vs.Perm ws → ∀ ns, List.Forall₂ IsInt vs ns → ∃ ms, List.Forall₂ IsInt ws ms ∧ ms.sum = ns.sum := by
    intro vs ws hp
    induction hp with
    | nil => intro ns h; exact ⟨ns, h, rfl⟩
    | cons x _ ih =>
      intro ns h
      cases h with
      | cons h1 h2 =>
        obtain ⟨ms, h3, h4⟩ := ih _ h2
        exact ⟨_, .cons h1 h3, by simp [h4]⟩
    | swap x y l =>
      intro ns h
      cases h with
      | cons h1 h2 =>
        cases h2 with
        | cons h3 h4 => exact ⟨_, .cons h3 (.cons h1 h4), by simp only [List.sum_cons]; omega⟩
    | trans _ _ ih1 ih2 =>
      intro ns h
      obtain ⟨ms, h1, h2⟩ := ih1 _ h
      obtain ⟨ks, h3, h4⟩ := ih2 _ h1
      exact ⟨ks, h3, by omega⟩
  obtain ⟨ms, h1, h2⟩ := key vs ws hp ns h
  rw [(C86_sum ws ms h1).1, (C86_sum vs ns h).1, h2]

/-- **C86** `sum` fails exactly if there is a value that is no int, with the first of those. -/
theorem C86_sum_error (vs : List Val) (v : Val) : sum vs = .error v ↔ ∃ a b, vs = a ++ v :: b ∧ (∀ x ∈ a, ∃ i, IsInt x i) ∧ ∀ i, ¬ IsInt v i := by
  have key : ∀ (vs : List Val) (acc : I64), sumLoop acc vs = .error v ↔ ∃ a b, vs = a ++ v :: b ∧ (∀ x ∈ a, ∃ i, IsInt x i) ∧ ∀ i, ¬ IsInt v i := by
    intro vs
    induction vs with
    | nil => intro acc; simp [sumLoop]
    | cons w vs ih =>
      intro acc
      cases e : intOf w with
      | some i =>
        have hw : ∃ i, IsInt w i := Classical.byContradiction fun hn => by
          rw [intOf_none.2 fun i hi => hn ⟨i, hi⟩] at e
          simp at e
        simp only [sumLoop, e, ih]
        constructor
        · rintro ⟨a, b, rfl, h1, h2⟩
          exact ⟨w :: a, b, rfl, fun x hx => by
            rcases List.mem_cons.1 hx with rfl | hx
            · exact hw
            · exact h1 x hx, h2⟩
        · rintro ⟨a, b, h0, h1, h2⟩
          cases a with
          | nil =>
            simp only [List.nil_append, List.cons.injEq] at h0
            obtain ⟨rfl, rfl⟩ := h0
            obtain ⟨i, hi⟩ := hw
            exact absurd hi (h2 i)
          | cons x a =>
            simp only [List.cons_append, List.cons.injEq] at h0
            exact ⟨a, b, h0.2, fun y hy => h1 y (by simp [hy]), h2⟩
      | none =>
        have hw := intOf_none.1 e
        simp only [sumLoop, e, Except.error.injEq]
        constructor
        · rintro rfl
          exact ⟨[], vs, rfl, by simp, hw⟩
        · rintro ⟨a, b, h0, h1, h2⟩
          cases a with
          | nil =>
            simp only [List.nil_append, List.cons.injEq] at h0
            exact h0.1
          | cons x a =>
            simp only [List.cons_append, List.cons.injEq] at h0
            obtain ⟨rfl, _⟩ := h0
            obtain ⟨i, hi⟩ := h1 w (by simp)
            exact absurd hi (hw i)
  rw [← key vs 0]
  unfold sum
  cases sumLoop 0 vs <;> simp

variable {σ α γ : Type}

/-- **C86** `concat` is `flat_map` with the function that gives back its argument. -/
theorem C86_concat_flat_map (items : α → σ → Res (List α)) (get : σ → Nat → Option α) (fuel : Nat) (s : σ) :
    concat items get fuel s = Fun.flatMap items (fun x s => (.ok x, s)) get fuel s := by
  unfold concat Fun.flatMap
  congr 2
  funext acc x s
  simp only [Fun.callThen]
  cases items x s <;> rfl

/-- **C86** `concat` of a list is the elements of its elements in order, if all of them are iterable; otherwise it fails as the first of them that is not. Nothing is changed. -/
theorem C86_concat (items : γ → σ → Res (List α)) (xs : List γ) (s : σ) (fuel : Nat) (h : xs.length < fuel) :
    concat items (fun _ i => xs[i]?) fuel s = some ((xs.mapM fun x => items x s).map List.flatten, s) := by
  have key : ∀ (ys zs : List γ) (acc : List α) (fuel : Nat), xs = zs ++ ys → ys.length < fuel →
      Fun.finish (ρ := List α) id (Fun.forLoop (fun (_ : σ) (i : Nat) => xs[i]?) (fun acc x s =>
        match items x s with
        | .ok es => (.ok (.inl (acc ++ es)), s)
        | .error e => (.error e, s)) fuel acc zs.length s) = some ((ys.mapM fun x => items x s).map fun l => acc ++ l.flatten, s) := by
    intro ys
    induction ys with
    | nil =>
      intro zs acc fuel hx hf
      obtain ⟨n, rfl⟩ : ∃ n, fuel = n + 1 := ⟨fuel - 1, by simp at hf; omega⟩
      have : xs[zs.length]? = none := by rw [hx]; simp
      simp [Fun.forLoop, this, Fun.finish, Except.map, pure, Except.pure]
    | cons y ys ih =>
      intro zs acc fuel hx hf
      obtain ⟨n, rfl⟩ : ∃ n, fuel = n + 1 := ⟨fuel - 1, by simp at hf; omega⟩
      have : xs[zs.length]? = some y := by rw [hx]; simp
      simp only [Fun.forLoop, this]
      cases e : items y s with
      | error e => simp [Fun.finish, List.mapM_cons, e, Except.map, bind, Except.bind]
      | ok es =>
        have := ih (zs ++ [y]) (acc ++ es) n (by rw [hx]; simp) (by simp at hf; omega)
        rw [List.length_append] at this
        simp only [List.length_cons, List.length_nil, Nat.zero_add] at this
        simp only
        rw [this, List.mapM_cons, e]
        cases ys.mapM fun x => items x s <;> simp [Except.map, bind, Except.bind, pure, Except.pure]
  have := key xs [] [] fuel rfl h
  simp only [List.nil_append, List.length_nil] at this
  exact this

example : sum [.int (2 ^ 61), .int (2 ^ 61), .bool true, .int (-1)] = .ok (.int (-2 ^ 62)) := by rfl
example : sum [.int (2 ^ 61), .int (2 ^ 61), .int (-1), .bool true, .int (-1)] = .ok (.int (2 ^ 62 - 1)) :=
  (C86_sum _ [2 ^ 61, 2 ^ 61, -1, 1, -1] (.cons (.int _) (.cons (.int _) (.cons (.int _) (.cons (.bool true) (.cons (.int _) .nil)))))).2 (by decide) (by decide)
example : sum [.int 1, .str ['a'], .nil] = .error (.str ['a']) := (C86_sum_error _ _).2 ⟨[.int 1], [.nil], rfl, by simp; exact ⟨1, .int 1⟩, by intro i h; cases h⟩
example : concat (σ := Unit) (fun (x : List Nat) _ => .ok x) (fun _ i => [[1, 2], [], [3]][i]?) 4 () = some (.ok [1, 2, 3], ()) := C86_concat _ [[1, 2], [], [3]] () 4 (by decide)

end Cordy.Sums
