import Verif.Lemmas.Value
/-! Ordering lemmas for `Props/Value.lean`. -/
namespace Cordy
namespace Val

/-- `cmp` is a total order on `S` whose equality is `==`. -/
structure TotalOn (S : Val → Prop) : Prop where
  swap : ∀ x y, S x → S y → cmp y x = (cmp x y).swap
  eq : ∀ x y, S x → S y → (cmp x y = .eq ↔ eqv x y = true)
  le : ∀ x y z, S x → S y → S z → cmp x y ≠ .gt → cmp y z ≠ .gt → cmp x z ≠ .gt

theorem cmpI_lt {a b : Int} : compare a b = .lt ↔ a < b := compare_lt_iff_lt
theorem cmpI_gt {a b : Int} : compare a b = .gt ↔ b < a := compare_gt_iff_gt
theorem cmpI_eq {a b : Int} : compare a b = .eq ↔ a = b := compare_eq_iff_eq
theorem cmpN_lt {a b : Nat} : compare a b = .lt ↔ a < b := compare_lt_iff_lt
theorem cmpN_gt {a b : Nat} : compare a b = .gt ↔ b < a := compare_gt_iff_gt
theorem cmpN_eq {a b : Nat} : compare a b = .eq ↔ a = b := compare_eq_iff_eq

theorem cmpI_swap (a b : Int) : compare b a = (compare a b).swap := by
  rcases lt_trichotomy a b with h | h | h
  · rw [cmpI_lt.2 h, cmpI_gt.2 h]; rfl
  · subst h; rw [cmpI_eq.2 rfl]; rfl
  · rw [cmpI_gt.2 h, cmpI_lt.2 h]; rfl

theorem then_swap (a b : Ordering) : (a.then b).swap = a.swap.then b.swap := by cases a <;> rfl

/-- From a key into a linear order. -/
theorem then_ne_gt {a b : Ordering} : a.then b ≠ .gt ↔ a = .lt ∨ (a = .eq ∧ b ≠ .gt) := by
  cases a <;> simp [Ordering.then]

theorem then_eq_eq {a b : Ordering} : a.then b = .eq ↔ a = .eq ∧ b = .eq := by
  cases a <;> simp [Ordering.then]

variable {S : Val → Prop}

theorem TotalOn.rfl_ (h : TotalOn S) {x} (hx : S x) : cmp x x = .eq := (h.eq x x hx hx).2 (eqv_refl x)

theorem TotalOn.eq_symm (h : TotalOn S) {x y} (hx : S x) (hy : S y) (e : cmp x y = .eq) : cmp y x = .eq := by
  rw [h.swap x y hx hy, e]; rfl

theorem TotalOn.lt_of_eq_lt (h : TotalOn S) {x y z} (hx : S x) (hy : S y) (hz : S z) (e : cmp x y ≠ .gt)
    (l : cmp y z = .lt) : cmp x z = .lt := by
  have h1 := h.le x y z hx hy hz e (by simp [l])
  rcases hc : cmp x z with _ | _ | _
  · rfl
  · exfalso
    have := h.le z x y hz hx hy (by rw [h.eq_symm hx hz hc]; simp) e
    rw [h.swap y z hy hz, l] at this; simp at this
  · exact absurd hc h1

theorem TotalOn.lt_of_lt_eq (h : TotalOn S) {x y z} (hx : S x) (hy : S y) (hz : S z) (l : cmp x y = .lt)
    (e : cmp y z ≠ .gt) : cmp x z = .lt := by
  have h1 := h.le x y z hx hy hz (by simp [l]) e
  rcases hc : cmp x z with _ | _ | _
  · rfl
  · exfalso
    have := h.le y z x hy hz hx e (by rw [h.eq_symm hx hz hc]; simp)
    rw [h.swap x y hx hy, l] at this; simp at this
  · exact absurd hc h1

theorem TotalOn.eq_trans (h : TotalOn S) {x y z} (hx : S x) (hy : S y) (hz : S z) (e : cmp x y = .eq)
    (e' : cmp y z = .eq) : cmp x z = .eq :=
  (h.eq _ _ hx hz).2 (eqv_trans _ _ _ ((h.eq _ _ hx hy).1 e) ((h.eq _ _ hy hz).1 e'))

theorem cmpL_swap (h : TotalOn S) : ∀ xs ys, (∀ x ∈ xs, S x) → (∀ y ∈ ys, S y) → cmpL ys xs = (cmpL xs ys).swap
  | [], [], _, _ => by simp [cmpL]
  | [], _ :: _, _, _ => by simp [cmpL]
  | _ :: _, [], _, _ => by simp [cmpL]
  | x :: xs, y :: ys, h1, h2 => by
    rw [cmpL, cmpL, then_swap, ← h.swap _ _ (h1 x (by simp)) (h2 y (by simp)),
      ← cmpL_swap h xs ys (fun a ha => h1 a (by simp [ha])) (fun a ha => h2 a (by simp [ha]))]

theorem cmpL_eq (h : TotalOn S) : ∀ xs ys, (∀ x ∈ xs, S x) → (∀ y ∈ ys, S y) → (cmpL xs ys = .eq ↔ eqvL xs ys = true)
  | [], [], _, _ => by simp [cmpL, eqvL]
  | [], _ :: _, _, _ => by simp [cmpL, eqvL]
  | _ :: _, [], _, _ => by simp [cmpL, eqvL]
  | x :: xs, y :: ys, h1, h2 => by
    rw [cmpL, eqvL, then_eq_eq, h.eq _ _ (h1 x (by simp)) (h2 y (by simp)),
      cmpL_eq h xs ys (fun a ha => h1 a (by simp [ha])) (fun a ha => h2 a (by simp [ha])), Bool.and_eq_true]

theorem cmpL_le (h : TotalOn S) : ∀ xs ys zs, (∀ x ∈ xs, S x) → (∀ y ∈ ys, S y) → (∀ y ∈ zs, S y) →
    cmpL xs ys ≠ .gt → cmpL ys zs ≠ .gt → cmpL xs zs ≠ .gt
  | [], _, [], _, _, _, _, _ => by simp [cmpL]
  | [], _, _ :: _, _, _, _, _, _ => by simp [cmpL]
  | _ :: _, [], _, _, _, _, h, _ => by simp [cmpL] at h
  | _ :: _, _ :: _, [], _, _, _, _, h => by simp [cmpL] at h
  | x :: xs, y :: ys, z :: zs, hx, hy, hz, h1, h2 => by
    rw [cmpL, then_ne_gt] at h1 h2 ⊢
    have sx := hx x (by simp); have sy := hy y (by simp); have sz := hz z (by simp)
    rcases h1 with h1 | ⟨h1, h1'⟩ <;> rcases h2 with h2 | ⟨h2, h2'⟩
    · exact .inl (h.lt_of_lt_eq sx sy sz h1 (by simp [h2]))
    · exact .inl (h.lt_of_lt_eq sx sy sz h1 (by simp [h2]))
    · exact .inl (h.lt_of_eq_lt sx sy sz (by simp [h1]) h2)
    · exact .inr ⟨h.eq_trans sx sy sz h1 h2, cmpL_le h xs ys zs (fun a ha => hx a (by simp [ha]))
        (fun a ha => hy a (by simp [ha])) (fun a ha => hz a (by simp [ha])) h1' h2'⟩

theorem total_list (h : TotalOn S) : TotalOn (fun v => ∃ xs, v = .list xs ∧ ∀ x ∈ xs, S x) where
  swap := by rintro _ _ ⟨xs, rfl, hx⟩ ⟨ys, rfl, hy⟩; simpa [cmp] using cmpL_swap h xs ys hx hy
  eq := by rintro _ _ ⟨xs, rfl, hx⟩ ⟨ys, rfl, hy⟩; simpa [cmp, eqv] using cmpL_eq h xs ys hx hy
  le := by
    rintro _ _ _ ⟨xs, rfl, hx⟩ ⟨ys, rfl, hy⟩ ⟨zs, rfl, hz⟩
    simpa only [cmp] using cmpL_le h xs ys zs hx hy hz

theorem total_vector (h : TotalOn S) : TotalOn (fun v => ∃ xs, v = .vector xs ∧ ∀ x ∈ xs, S x) where
  swap := by rintro _ _ ⟨xs, rfl, hx⟩ ⟨ys, rfl, hy⟩; simpa [cmp] using cmpL_swap h xs ys hx hy
  eq := by rintro _ _ ⟨xs, rfl, hx⟩ ⟨ys, rfl, hy⟩; simpa [cmp, eqv] using cmpL_eq h xs ys hx hy
  le := by
    rintro _ _ _ ⟨xs, rfl, hx⟩ ⟨ys, rfl, hy⟩ ⟨zs, rfl, hz⟩
    simpa only [cmp] using cmpL_le h xs ys zs hx hy hz

/-! strings -/

theorem total_str : TotalOn (fun v => ∃ s, v = .str s) where
  swap := by
    rintro _ _ ⟨a, rfl⟩ ⟨b, rfl⟩
    simp only [cmp]
    exact Std.OrientedCmp.eq_swap (cmp := (compare : List Char → List Char → Ordering))
  eq := by
    rintro _ _ ⟨a, rfl⟩ ⟨b, rfl⟩
    simp only [cmp, eqv, beq_iff_eq]
    exact Std.LawfulEqCmp.compare_eq_iff_eq (cmp := (compare : List Char → List Char → Ordering))
  le := by
    rintro _ _ _ ⟨a, rfl⟩ ⟨b, rfl⟩ ⟨c, rfl⟩
    simp only [cmp]
    intro h1 h2
    have h1' : (compare a b).isLE := by cases h : compare a b <;> simp_all
    have h2' : (compare b c).isLE := by cases h : compare b c <;> simp_all
    have := Std.TransCmp.isLE_trans (cmp := (compare : List Char → List Char → Ordering)) h1' h2'
    intro h; rw [h] at this; simp at this

/-! numbers without rationals -/

/-- nil, bools, ints and complex numbers. -/
def IsReal : Val → Prop
  | .nil | .bool _ | .int _ => True
  | .complex _ im => im ≠ 0
  | _ => False

/-- (imaginary part, value, type ordinal). -/
def rkey : Val → Int × Int × Int
  | .nil => (0, 0, 0)
  | .bool b => (0, if b then 1 else 0, 1)
  | .int i => (0, i, 2)
  | .complex re im => (im, re, 0)
  | _ => (0, 0, 0)

theorem compare_natCast (a b : Nat) : compare (a : Int) (b : Int) = compare a b := by
  rcases Nat.lt_trichotomy a b with h | h | h
  · rw [cmpN_lt.2 h, cmpI_lt.2 (by omega)]
  · subst h; simp
  · rw [cmpN_gt.2 h, cmpI_gt.2 (by omega)]

theorem nz_then {im : Int} (h : im ≠ 0) (o : Ordering) : (compare im 0).then o = compare im 0 := by
  have : compare im (0 : Int) ≠ .eq := fun h' => h (cmpI_eq.1 h')
  cases h' : compare im (0 : Int) <;> simp_all [Ordering.then]

theorem nz_then' {im : Int} (h : im ≠ 0) (o : Ordering) : (compare 0 im).then o = compare 0 im := by
  have : compare (0 : Int) im ≠ .eq := fun h' => h (cmpI_eq.1 h').symm
  cases h' : compare (0 : Int) im <;> simp_all [Ordering.then]

theorem then_eq_left (a : Ordering) : a.then .eq = a := by cases a <;> rfl
theorem eq_then (a : Ordering) : Ordering.eq.then a = a := rfl
theorem cmpI_self (a : Int) : compare a a = .eq := cmpI_eq.2 rfl

theorem cmpN_self (a : Nat) : compare a a = .eq := cmpN_eq.2 rfl

theorem cmp_rkey {x y : Val} (hx : IsReal x) (hy : IsReal y) :
    cmp x y = (compare (rkey x).1 (rkey y).1).then
      ((compare (rkey x).2.1 (rkey y).2.1).then (compare (rkey x).2.2 (rkey y).2.2)) := by
  cases x <;> simp only [IsReal] at hx <;> cases y <;> simp only [IsReal] at hy <;>
    simp only [cmp, numView, cmpNum, rkey, cmpI_self, cmpN_self, eq_then, then_eq_left, ← cmpI_swap] <;>
    first
    | done
    | rfl
    | (rw [nz_then hx])
    | (rw [nz_then' hy])

theorem cmp_ne_gt_int {a b : Int} : compare a b ≠ .gt ↔ a ≤ b := by
  rw [Ne, cmpI_gt]; omega

theorem total_real : TotalOn IsReal where
  swap x y hx hy := by
    rw [cmp_rkey hx hy, cmp_rkey hy hx, then_swap, then_swap, ← cmpI_swap, ← cmpI_swap, ← cmpI_swap]
  eq x y hx hy := by
    rw [cmp_rkey hx hy, then_eq_eq, then_eq_eq, cmpI_eq, cmpI_eq, cmpI_eq]
    cases x <;> simp only [IsReal] at hx <;> cases y <;> simp only [IsReal] at hy <;> simp [rkey, eqv]
    case bool.bool a b => cases a <;> cases b <;> simp
    all_goals (first | grind | omega)
  le x y z hx hy hz := by
    rw [cmp_rkey hx hy, cmp_rkey hy hz, cmp_rkey hx hz]
    simp only [then_ne_gt, cmpI_lt, cmpI_eq, cmp_ne_gt_int]
    omega

/-! ints, complex numbers and rationals -/

/-- ints, complex numbers and rationals. -/
def IsRat : Val → Prop
  | .int _ => True
  | .complex _ im => im ≠ 0
  | .rational n d => 0 < d ∧ Nat.gcd n.natAbs d = 1
  | _ => False

/-- (imaginary part, numerator, denominator). -/
def qkey : Val → Int × Int × Nat
  | .int i => (0, i, 1)
  | .complex re im => (im, re, 1)
  | .rational n d => (0, n, d)
  | _ => (0, 0, 1)

theorem qkey_pos {x : Val} (hx : IsRat x) : 0 < (qkey x).2.2 := by
  cases x <;> simp_all [IsRat, qkey]

theorem cmp_qkey {x y : Val} (hx : IsRat x) (hy : IsRat y) :
    cmp x y = (compare (qkey x).1 (qkey y).1).then (cmpRat (qkey x).2.1 (qkey x).2.2 (qkey y).2.1 (qkey y).2.2) := by
  cases x <;> simp only [IsRat] at hx <;> cases y <;> simp only [IsRat] at hy <;>
    simp only [cmp, numView, cmpNum, qkey, cmpRat, cmpI_self, eq_then, then_eq_left, ← cmpI_swap, cmpN_self,
      Nat.cast_one, Int.mul_one, Int.one_mul] <;>
    first
    | done
    | rfl
    | (rw [nz_then hx])
    | (rw [nz_then' hy])

theorem frac_le_trans {a c e : Int} {b d f : Nat} (_ : 0 < b) (hd : 0 < d) (_ : 0 < f)
    (h1 : a * d ≤ c * b) (h2 : c * f ≤ e * d) : a * f ≤ e * b := by
  have hd' : (0 : Int) < d := by omega
  have h3 : (a * d) * f ≤ (c * b) * f := mul_le_mul_of_nonneg_right h1 (by omega)
  have h4 : (c * f) * b ≤ (e * d) * b := mul_le_mul_of_nonneg_right h2 (by omega)
  have : (a * f) * d ≤ (e * b) * d := by nlinarith
  exact le_of_mul_le_mul_right this hd'

theorem frac_lt_of {a c e : Int} {b d f : Nat} (hb : 0 < b) (hd : 0 < d) (hf : 0 < f)
    (h1 : a * d ≤ c * b) (h2 : c * f ≤ e * d) : a * f < e * b ∨ (a * f = e * b) := by
  have := frac_le_trans hb hd hf h1 h2; omega

theorem frac_eq {n n' : Int} {d d' : Nat} (hd : 0 < d) (hd' : 0 < d') (hg : Nat.gcd n.natAbs d = 1)
    (hg' : Nat.gcd n'.natAbs d' = 1) (h : n * d' = n' * d) : n = n' ∧ d = d' := by
  have hN : n.natAbs * d' = n'.natAbs * d := by
    have := congrArg Int.natAbs h; simpa [Int.natAbs_mul] using this
  have h1 : d ∣ d' := (Nat.Coprime.dvd_of_dvd_mul_left (Nat.coprime_comm.1 hg) (by rw [hN]; exact Dvd.intro_left _ rfl))
  have h2 : d' ∣ d := (Nat.Coprime.dvd_of_dvd_mul_left (Nat.coprime_comm.1 hg') (by rw [← hN]; exact Dvd.intro_left _ rfl))
  have e := Nat.dvd_antisymm h1 h2
  subst e
  exact ⟨Int.eq_of_mul_eq_mul_right (by omega) h, rfl⟩

theorem total_rat : TotalOn IsRat where
  swap x y hx hy := by
    rw [cmp_qkey hx hy, cmp_qkey hy hx, then_swap, ← cmpI_swap, cmpRat, cmpRat, ← cmpI_swap]
  eq x y hx hy := by
    rw [cmp_qkey hx hy, then_eq_eq, cmpRat, cmpI_eq, cmpI_eq]
    cases x <;> simp only [IsRat] at hx <;> cases y <;> simp only [IsRat] at hy <;> simp [qkey, eqv]
    case int.rational a n d =>
      constructor
      · intro h; have := frac_eq (d := 1) (by omega) hy.1 (by simp) hy.2 (by simpa using h); omega
      · rintro ⟨rfl, rfl⟩; simp
    case rational.int n d a =>
      constructor
      · intro h; have := frac_eq (d' := 1) hx.1 (by omega) hx.2 (by simp) (by simpa using h); omega
      · rintro ⟨rfl, rfl⟩; simp
    case rational.rational =>
      constructor
      · intro h; exact frac_eq hx.1 hy.1 hx.2 hy.2 h
      · rintro ⟨rfl, rfl⟩; rfl
    all_goals (first | grind | omega)
  le x y z hx hy hz := by
    rw [cmp_qkey hx hy, cmp_qkey hy hz, cmp_qkey hx hz]
    simp only [then_ne_gt, cmpI_lt, cmpI_eq, cmpRat, cmp_ne_gt_int]
    have := @frac_le_trans (qkey x).2.1 (qkey y).2.1 (qkey z).2.1 _ _ _ (qkey_pos hx) (qkey_pos hy) (qkey_pos hz)
    grind

end Val
end Cordy
