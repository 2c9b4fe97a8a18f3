import Verif.Lemmas.Range
import Mathlib.Data.List.FinRange
/-!
# C13 - C17: ranges, indexing, slicing
-/
namespace Cordy
namespace Range

/-! ## C13 -/

/-- `x` lies strictly before the bound `b` when walking in the direction of `s`. -/
def Before (s b x : Int) : Prop := (0 < s ∧ x < b) ∨ (s < 0 ∧ b < x)

instance (s b x : Int) : Decidable (Before s b x) := by unfold Before; infer_instance

/-- C13. Iterating `range(a, b, s)` yields at position `i` the term `a + i*s` if it is strictly before `b`, and has ended
otherwise: exactly the arithmetic progression, in order. -/
theorem C13_values (a b s : Int) (r : Range) (h : mk? a b s = .ok r) (i : Nat) :
    r.values[i]? = if Before s b (a + i * s) then some (a + i * s) else none := by
  unfold mk? at h
  split at h
  · cases h
  · split at h <;> cases h
    · rcases lt_or_gt_of_ne ‹¬ s = 0› with hs | hs
      · rw [values, drain_neg _ hs i _ (by simp; omega)]
        simp only [Before]
        congr 1; simp; omega
      · rw [values, drain_pos _ hs i _ (by simp; omega)]
        simp only [Before]
        congr 1; simp; omega
    · rw [values, drain_nil _ rfl, if_neg]
      · rfl
      · rintro (⟨h1, h2⟩ | ⟨h1, h2⟩)
        · have : 0 ≤ (i : Int) * s := Int.mul_nonneg (by omega) (by omega); omega
        · have : (i : Int) * s ≤ 0 := Int.mul_nonpos_of_nonneg_of_nonpos (by omega) (by omega); omega

/-- C13. A zero step raises an error, and nothing else does. -/
theorem C13_step_zero (a b s : Int) :
    (mk? a b s = .error .stepZero ↔ s = 0) ∧ (s ≠ 0 → ∃ r, mk? a b s = .ok r) := by
  unfold mk?
  by_cases h : s = 0
  · simp [h]
  · simp only [h, if_false, ne_eq, not_false_eq_true, forall_const]
    split <;> simp

/-- The yielded values as a set: those before `b` that are a whole number of steps from `a`. -/
theorem mem_values (a b s : Int) (r : Range) (h : mk? a b s = .ok r) (x : Int) :
    x ∈ r.values ↔ ∃ i : Nat, x = a + i * s ∧ Before s b x := by
  rw [List.mem_iff_getElem?]
  constructor
  · rintro ⟨i, hi⟩
    rw [C13_values a b s r h] at hi
    split at hi
    · cases hi; exact ⟨i, rfl, by assumption⟩
    · cases hi
  · rintro ⟨i, rfl, hb⟩
    exact ⟨i, by rw [C13_values a b s r h, if_pos hb]⟩

/-- C13. `x in range(a, b, s)` holds exactly for the values iteration yields. -/
theorem C13_contains (a b s : Int) (r : Range) (h : mk? a b s = .ok r) (x : Int) :
    r.contains x = true ↔ x ∈ r.values := by
  rw [mem_values a b s r h]
  unfold mk? at h
  split at h
  · cases h
  rename_i hs0
  split at h <;> cases h
  · rename_i hne
    simp only [contains, hs0, if_false]
    rcases lt_or_gt_of_ne hs0 with hs | hs
    · rw [if_neg (by simp; omega)]
      simp only [Bool.and_eq_true, decide_eq_true_eq]
      constructor
      · rintro ⟨⟨h1, h2⟩, h3⟩
        obtain ⟨k, hk⟩ := Int.dvd_of_tmod_eq_zero h3
        have hk0 : k ≤ 0 := by
          by_contra hc
          have : s * k < 0 := Int.mul_neg_of_neg_of_pos hs (by omega)
          omega
        refine ⟨(-k).toNat, ?_, .inr ⟨hs, h2⟩⟩
        rw [Int.toNat_of_nonneg (by omega), Int.neg_mul, Int.mul_comm]; omega
      · rintro ⟨i, rfl, hb⟩
        have : (i : Int) * s ≤ 0 := Int.mul_nonpos_of_nonneg_of_nonpos (by omega) (by omega)
        simp only [Before] at hb
        refine ⟨⟨by omega, by omega⟩, Int.tmod_eq_zero_of_dvd ⟨-(i : Int), ?_⟩⟩
        rw [Int.mul_neg, Int.mul_comm]; omega
    · rw [if_pos (by simp; omega)]
      simp only [Bool.and_eq_true, decide_eq_true_eq]
      constructor
      · rintro ⟨⟨h1, h2⟩, h3⟩
        obtain ⟨k, hk⟩ := Int.dvd_of_tmod_eq_zero h3
        have hk0 : 0 ≤ k := by
          by_contra hc
          have : s * k < 0 := Int.mul_neg_of_pos_of_neg hs (by omega)
          omega
        refine ⟨k.toNat, ?_, .inl ⟨hs, h2⟩⟩
        rw [Int.toNat_of_nonneg hk0, Int.mul_comm]; omega
      · rintro ⟨i, rfl, hb⟩
        have : 0 ≤ (i : Int) * s := Int.mul_nonneg (by omega) (by omega)
        simp only [Before] at hb
        refine ⟨⟨by omega, by omega⟩, Int.tmod_eq_zero_of_dvd ⟨(i : Int), ?_⟩⟩
        rw [Int.mul_comm]; omega
  · simp only [contains, if_true, Bool.false_eq_true, false_iff, not_exists, not_and]
    rintro i rfl (⟨h1, h2⟩ | ⟨h1, h2⟩)
    · have : 0 ≤ (i : Int) * s := Int.mul_nonneg (by omega) (by omega); omega
    · have : (i : Int) * s ≤ 0 := Int.mul_nonpos_of_nonneg_of_nonpos (by omega) (by omega); omega

/-- C13. With operands in the int range every 64-bit addition and subtraction performed while iterating or testing
membership stays within 64 bits, so the unbounded model is exact. -/
theorem C13_no_overflow (a b s x : Int) (r : Range) (h : mk? a b s = .ok r) (v : Int)
    (ha : -2^62 ≤ a ∧ a < 2^62) (hb : -2^62 ≤ b ∧ b < 2^62) (hs : -2^62 ≤ s ∧ s < 2^62) (hx : -2^62 ≤ x ∧ x < 2^62)
    (hv : v ∈ r.values) :
    (-2^63 ≤ v + s ∧ v + s < 2^63) ∧ (-2^63 ≤ x - a ∧ x - a < 2^63) ∧ (-2^63 ≤ a - x ∧ a - x < 2^63) ∧
    (-2^62 ≤ v ∧ v < 2^62) := by
  obtain ⟨i, rfl, hb'⟩ := (mem_values a b s r h v).1 hv
  rcases hb' with ⟨h1, h2⟩ | ⟨h1, h2⟩
  · have : 0 ≤ (i : Int) * s := Int.mul_nonneg (by omega) (by omega); omega
  · have : (i : Int) * s ≤ 0 := Int.mul_nonpos_of_nonneg_of_nonpos (by omega) (by omega); omega

example : mk? 10 0 (-3) = .ok ⟨10, 0, -3⟩ ∧ Before (-3) 0 (10 + 3 * -3) ∧ ¬ Before (-3) 0 (10 + 4 * -3) := by decide

/-! ## C14 -/

theorem values_length (a b s : Int) (r : Range) (h : mk? a b s = .ok r) (n : Nat) :
    n < r.values.length ↔ Before s b (a + n * s) := by
  have := C13_values a b s r h n
  constructor
  · intro hn
    rw [List.getElem?_eq_getElem hn] at this
    split at this
    · assumption
    · cases this
  · intro hb
    rw [if_pos hb] at this
    exact (List.getElem?_eq_some_iff.1 this).1

theorem mk?_cases {a b s : Int} {r : Range} (h : mk? a b s = .ok r) :
    (r = ⟨a, b, s⟩ ∧ ((a < b ∧ 0 < s) ∨ (b < a ∧ s < 0))) ∨
    (r = ⟨0, 0, 0⟩ ∧ s ≠ 0 ∧ ¬ ((a < b ∧ 0 < s) ∨ (b < a ∧ s < 0))) := by
  unfold mk? at h
  split at h
  · cases h
  · split at h <;> cases h
    · exact .inl ⟨rfl, by assumption⟩
    · exact .inr ⟨rfl, by assumption, by assumption⟩

theorem before_iff {a b s : Int} (h : (a < b ∧ 0 < s) ∨ (b < a ∧ s < 0)) (n : Nat) :
    Before s b (a + n * s) ↔ n * s.natAbs < (b - a).natAbs := by
  rcases h with ⟨h1, h2⟩ | ⟨h1, h2⟩
  · obtain ⟨t, rfl⟩ := Int.eq_ofNat_of_zero_le h2.le
    have e : ((n * t : Nat) : Int) = n * t := by push_cast; rfl
    simp only [Before, Int.natAbs_natCast]; omega
  · obtain ⟨t, ht⟩ := Int.eq_ofNat_of_zero_le (a := -s) (by omega)
    have hs : s = -(t : Int) := by omega
    subst hs
    have e : ((n * t : Nat) : Int) = n * t := by push_cast; rfl
    simp only [Before, Int.natAbs_neg, Int.natAbs_natCast, Int.mul_neg]; omega

/-- C14, len: `len(range(a,b,s))` is the number of values iterated exactly when the range is empty or the step divides the
distance of its bounds. -/
theorem C14_len_iff (a b s : Int) (r : Range) (h : mk? a b s = .ok r) :
    r.len = r.values.length ↔ (r.values = [] ∨ s ∣ b - a) := by
  have hl := values_length a b s r h
  rcases mk?_cases h with ⟨rfl, hne⟩ | ⟨rfl, hs, _⟩
  · have hs0 : s ≠ 0 := by omega
    have ht : 0 < s.natAbs := by omega
    simp only [before_iff hne] at hl
    have e : (Range.mk a b s).len = (b - a).natAbs / s.natAbs := by
      simp only [len, hs0, if_false]; congr 1; omega
    have hnn : (Range.mk a b s).values ≠ [] := by
      have : 0 < (Range.mk a b s).values.length := (hl 0).2 (by omega)
      intro hc; rw [hc] at this; simp at this
    rw [e, ← Int.natAbs_dvd_natAbs]
    generalize (Range.mk a b s).values.length = L at *
    generalize hd : (b - a).natAbs = d at *
    generalize s.natAbs = t at *
    simp only [hnn, false_or]
    constructor
    · intro hL
      by_contra hnd
      have : d / t * t < d := lt_of_le_of_ne (Nat.div_mul_le_self d t) (fun hc => hnd ⟨d / t, by rw [Nat.mul_comm]; exact hc.symm⟩)
      have := (hl _).2 this
      omega
    · rintro ⟨k, rfl⟩
      rw [Nat.mul_div_cancel_left _ ht]
      have h1 := hl k
      have h2 := hl (k - 1)
      have hk : k ≠ 0 := by
        rintro rfl; simp at hd; omega
      rw [Nat.mul_comm t k, Nat.mul_lt_mul_right ht] at h1 h2
      omega
  · simp [len, values, drain_nil]

/-- C14, len (partial: steps that divide the distance of the bounds, in particular 1 and -1).
Missing: other steps, where the value is one too small (`C14_violation_len`). -/
theorem C14_len_partial (a b s : Int) (r : Range) (h : mk? a b s = .ok r) (hd : s ∣ b - a) : r.len = r.values.length :=
  (C14_len_iff a b s r h).2 (.inr hd)

/-- C14 violated: `len(range(0, 5, 2))` is 2 but three values are iterated. -/
theorem C14_violation_len : ∃ r, mk? 0 5 2 = .ok r ∧ r.values = [0, 2, 4] ∧ r.len = 2 := by
  refine ⟨⟨0, 5, 2⟩, rfl, ?_, rfl⟩
  simp [values, drain]

theorem drain_head (r : Range) (c : Int) : (r.drain c).head? = none ∨ (r.drain c).head? = some c := by
  rw [drain]; split
  · exact .inl rfl
  · split <;> exact .inr rfl

/-- C14, reverse: reversed traversal of a non-empty range gives the values in opposite order exactly when the step
exceeds the distance of the bounds (so there is only one value).  In all other cases it is wrong. -/
theorem C14_reverse_iff (a b s : Int) (r : Range) (h : mk? a b s = .ok r) (hne : r.values ≠ []) :
    r.revValues = r.values.reverse ↔ (b - a).natAbs < s.natAbs := by
  have hl := values_length a b s r h
  have hm := mem_values a b s r h
  rcases mk?_cases h with ⟨rfl, hd⟩ | ⟨rfl, _, _⟩
  · have hs0 : s ≠ 0 := by omega
    have ht : 0 < s.natAbs := by omega
    have e : (Range.mk a b s).len = (b - a).natAbs / s.natAbs := by
      simp only [len, hs0, if_false]; congr 1; omega
    constructor
    · intro heq
      by_contra hge
      have hge' : s.natAbs ≤ (b - a).natAbs := by omega
      by_cases hdv : s ∣ b - a
      · -- the first value of the reversed traversal is `b`
        have hb : a + ((b - a).natAbs / s.natAbs : Nat) * s = b := by
          obtain ⟨k, hk⟩ := hdv
          have hk0 : 0 ≤ k := by
            by_contra hc
            rcases hd with ⟨h1, h2⟩ | ⟨h1, h2⟩
            · have := Int.mul_neg_of_pos_of_neg h2 (show k < 0 by omega); omega
            · have := Int.mul_pos_of_neg_of_neg h2 (show k < 0 by omega); omega
          have : ((b - a).natAbs / s.natAbs : Nat) = k.natAbs := by
            rw [hk, Int.natAbs_mul, Nat.mul_div_cancel_left _ ht]
          rw [this, Int.natAbs_of_nonneg hk0, Int.mul_comm]; omega
        have hstart : (Range.mk a b s).reverse.start = b := by
          simp only [reverse, hs0, if_false, e]
          split <;> exact hb
        have hh := drain_head (Range.mk a b s).reverse (Range.mk a b s).reverse.start
        rw [hstart] at hh
        have heq' : (Range.mk a b s).reverse.drain b = (Range.mk a b s).values.reverse := by
          rw [← heq, revValues, values, hstart]
        rw [heq', List.head?_reverse] at hh
        rcases hh with hh | hh
        · rw [List.getLast?_eq_none_iff] at hh; exact hne hh
        · obtain ⟨_, _, hb'⟩ := (hm b).1 (List.mem_of_getLast? hh)
          simp only [Before] at hb'; omega
      · -- `a` is missing
        have ha : a ∈ (Range.mk a b s).values := (hm a).2 ⟨0, by simp, by simp only [Before]; omega⟩
        have ha' : a ∈ (Range.mk a b s).revValues := by rw [heq]; simpa using ha
        have hq1 : 1 ≤ (b - a).natAbs / s.natAbs := (Nat.one_le_div_iff ht).2 hge'
        have ht2 : 2 ≤ s.natAbs := by
          by_contra hc
          exact hdv (Int.natAbs_dvd_natAbs.1 (by rw [show s.natAbs = 1 by omega]; exact Nat.one_dvd _))
        rw [revValues, values, List.mem_iff_getElem?] at ha'
        obtain ⟨i, hi⟩ := ha'
        generalize (b - a).natAbs / s.natAbs = q at *
        rcases hd with ⟨h1, h2⟩ | ⟨h1, h2⟩
        · have hq : s * 1 ≤ s * q := Int.mul_le_mul_of_nonneg_left (by omega) (by omega)
          rw [Int.mul_comm s q] at hq
          have er : (Range.mk a b s).reverse = ⟨a + q * s, a + 1, -s⟩ := by
            simp only [reverse, hs0, if_false, e]; rw [if_pos (by omega)]
          rw [er, drain_neg _ (by simp; omega) _ _ (by simp; omega)] at hi
          split at hi
          · rename_i hlt; injection hi with hi; rw [hi] at hlt; simp at hlt; try omega
          · cases hi
        · have hq : s * q ≤ s * 1 := Int.mul_le_mul_of_nonpos_left (by omega) (by omega)
          rw [Int.mul_comm s q] at hq
          have er : (Range.mk a b s).reverse = ⟨a + q * s, a - 1, -s⟩ := by
            simp only [reverse, hs0, if_false, e]; rw [if_neg (by omega)]
          rw [er, drain_pos _ (by simp; omega) _ _ (by simp; omega)] at hi
          split at hi
          · rename_i hlt; injection hi with hi; rw [hi] at hlt; simp at hlt; try omega
          · cases hi
    · intro hlt
      have h0 : (b - a).natAbs / s.natAbs = 0 := Nat.div_eq_of_lt hlt
      have hv : (Range.mk a b s).values = [a] := by
        have h1 := (hl 0).2 (by simp only [Before]; omega)
        have h2 := (hl 1)
        simp only [Before] at h2
        have hlen : (Range.mk a b s).values.length = 1 := by omega
        obtain ⟨x, hx⟩ := List.length_eq_one_iff.1 hlen
        have := C13_values a b s _ h 0
        rw [hx] at this ⊢
        rw [if_pos (by simp only [Before]; omega)] at this
        simpa using this
      rw [hv]
      rcases hd with ⟨h1, h2⟩ | ⟨h1, h2⟩
      · have er : (Range.mk a b s).reverse = ⟨a, a + 1, -s⟩ := by
          simp only [reverse, hs0, if_false, e, h0]; rw [if_pos (by omega)]; simp
        rw [revValues, values, er, drain, dif_neg (by simp; omega), if_neg (by simp; omega), if_pos (by simp; omega),
          drain, dif_pos (.inl rfl)]
        rfl
      · have er : (Range.mk a b s).reverse = ⟨a, a - 1, -s⟩ := by
          simp only [reverse, hs0, if_false, e, h0]; rw [if_neg (by omega)]; simp
        rw [revValues, values, er, drain, dif_neg (by simp; omega), if_pos (by simp; omega), if_pos (by simp; omega),
          drain, dif_pos (.inl rfl)]
        rfl
  · exact absurd (by simp [values, drain_nil]) hne

/-- C14, reverse (partial: empty and one-value ranges with a step beyond the bound).
Missing: every other range, where reversed traversal is wrong by `C14_reverse_iff`. -/
theorem C14_reverse_partial (a b s : Int) (r : Range) (h : mk? a b s = .ok r)
    (hd : r.values = [] ∨ (b - a).natAbs < s.natAbs) : r.revValues = r.values.reverse := by
  by_cases hne : r.values = []
  · rcases mk?_cases h with ⟨rfl, hc⟩ | ⟨rfl, _, _⟩
    · have := (values_length a b s _ h 0).2 (by simp only [Before]; omega)
      rw [hne] at this; simp at this
    · simp [revValues, values, reverse, drain_nil]
  · exact (C14_reverse_iff a b s r h hne).2 (hd.resolve_left hne)

/-- C14 violated: reversed traversal of `range(0, 10, 2)` is 10, 8, 6, 4, 2. -/
theorem C14_violation_reverse :
    ∃ r, mk? 0 10 2 = .ok r ∧ r.values = [0, 2, 4, 6, 8] ∧ r.revValues = [10, 8, 6, 4, 2] := by
  refine ⟨⟨0, 10, 2⟩, rfl, ?_, ?_⟩ <;> simp [revValues, reverse, len, values, drain]

end Range

/-! ## C15 -/

/-- An optional int operand as a value: `nil` when omitted. -/
def optVal : Option Int → Val
  | none => .nil
  | some i => .int i

/-- Where a bound `v` points: non-negative from the front, negative from the end. -/
def resolve (len : Nat) (v : Int) : Int := if 0 ≤ v then v else len + v

/-- First position of the progression. -/
def lowPos (len : Nat) (step : Int) : Option Int → Int
  | none => if 0 < step then 0 else (len : Int) - 1
  | some v => resolve len v

/-- Exclusive end of the progression. -/
def highPos (len : Nat) (step : Int) : Option Int → Int
  | none => if 0 < step then len else -1
  | some v => resolve len v

/-- Specification of slicing: `ps` is the list of selected positions.  It is strictly monotone in the direction of the
step, and holds exactly the existing positions on the progression from `lowPos` up to but not including `highPos`. -/
structure SlicePositions (len : Nat) (lo hi : Option Int) (step : Int) (ps : List (Fin len)) : Prop where
  ordered : ps.Pairwise (fun p q => if 0 < step then p < q else q < p)
  mem : ∀ p : Fin len, p ∈ ps ↔ step ∣ (p : Int) - lowPos len step lo ∧
    (if 0 < step then lowPos len step lo ≤ p ∧ (p : Int) < highPos len step hi
     else (p : Int) ≤ lowPos len step lo ∧ highPos len step hi < p)

/-- Positions of a list of integers that exist. -/
def toFins (n : Nat) (qs : List Int) : List (Fin n) :=
  qs.filterMap fun p : Int => if h : 0 ≤ p ∧ p < n then some ⟨p.toNat, by omega⟩ else none

theorem toFins_mem {n : Nat} {qs : List Int} {p : Fin n} : p ∈ toFins n qs ↔ (p : Int) ∈ qs := by
  simp only [toFins, List.mem_filterMap]
  constructor
  · rintro ⟨a, ha, h⟩
    split at h
    · cases h; simp only [Int.toNat_of_nonneg (by omega : 0 ≤ a)]; exact ha
    · cases h
  · intro h; exact ⟨p, h, by rw [dif_pos (by omega)]; simp⟩

theorem toFins_map {α : Type} (xs : List α) (qs : List Int) :
    (qs.filter (fun p : Int => decide (0 ≤ p ∧ p < xs.length))).filterMap (fun p : Int => xs[p.toNat]?)
      = (toFins xs.length qs).map xs.get := by
  induction qs with
  | nil => rfl
  | cons q qs ih =>
    by_cases h : 0 ≤ q ∧ q < xs.length
    · rw [List.filter_cons_of_pos (by simpa using h), toFins, List.filterMap_cons, List.filterMap_cons]
      rw [List.getElem?_eq_getElem (by omega), dif_pos h]
      simp only [List.map_cons, ih]; rfl
    · rw [List.filter_cons_of_neg (by simpa using h), toFins, List.filterMap_cons, dif_neg h, ih]; rfl

theorem toFins_pairwise {n : Nat} {qs : List Int} {R : Int → Int → Prop} {S : Fin n → Fin n → Prop}
    (h : qs.Pairwise R) (hRS : ∀ p q : Fin n, R p q → S p q) : (toFins n qs).Pairwise S := by
  refine List.Pairwise.filterMap (R := R) _ ?_ h
  intro a a' hR b hb b' hb'
  split at hb
  · split at hb'
    · cases hb; cases hb'
      apply hRS; simp only [Int.toNat_of_nonneg (by omega : 0 ≤ a), Int.toNat_of_nonneg (by omega : 0 ≤ a')]; exact hR
    · cases hb'
  · cases hb

theorem sliceCore_spec {α : Type} (xs : List α) (lo hi st : Option Int) (hst : st ≠ some 0) :
    ∃ ps : List (Fin xs.length), SlicePositions xs.length lo hi (st.getD 1) ps ∧
      sliceCore xs.length xs (optVal lo) (optVal hi) (optVal st) = .ok (ps.map xs.get) := by
  have hs0 : st.getD 1 ≠ 0 := by cases st <;> simp_all
  have e1 : unwrapOr (optVal st) 1 = .ok (st.getD 1) := by cases st <;> rfl
  generalize hS : st.getD 1 = s at *
  have e2 : unwrapOr (optVal lo) (if s > 0 then 0 else -1) = .ok (lo.getD (if s > 0 then 0 else -1)) := by
    cases lo <;> rfl
  have e3 : unwrapOr (optVal hi) (if s > 0 then (xs.length : Int) else -(xs.length : Int) - 1)
      = .ok (hi.getD (if s > 0 then (xs.length : Int) else -(xs.length : Int) - 1)) := by
    cases hi <;> rfl
  have e4 : toIndex xs.length (lo.getD (if s > 0 then 0 else -1)) = lowPos xs.length s lo := by
    cases lo <;> simp only [Option.getD, lowPos, toIndex, resolve] <;> (repeat' split) <;> omega
  have e5 : toIndex xs.length (hi.getD (if s > 0 then (xs.length : Int) else -(xs.length : Int) - 1))
      = highPos xs.length s hi := by
    cases hi <;> simp only [Option.getD, highPos, toIndex, resolve] <;> (repeat' split) <;> omega
  have hc : sliceCore xs.length xs (optVal lo) (optVal hi) (optVal st)
      = if s > 0 then (upRange (lowPos xs.length s lo) (highPos xs.length s hi) s.natAbs).foldlM (accept xs.length xs) []
        else (revRange (lowPos xs.length s lo) (highPos xs.length s hi) s.natAbs).foldlM (accept xs.length xs) [] := by
    unfold sliceCore
    simp only [e1, bind, Except.bind, hs0, if_false, e2, e3, e4, e5]
  rw [hc]
  have hn : 0 < s.natAbs := by omega
  by_cases hpos : 0 < s
  · refine ⟨toFins xs.length (upRange (lowPos xs.length s lo) (highPos xs.length s hi) s.natAbs), ⟨?_, ?_⟩, ?_⟩
    · refine toFins_pairwise (upRange_sorted _ _ _) ?_
      intro p q h; rw [if_pos hpos]; exact Fin.lt_def.2 (by omega)
    · intro p
      rw [toFins_mem, upRange_mem _ hn, if_pos hpos, Int.natAbs_dvd]
      tauto
    · rw [if_pos hpos, accept_foldlM, List.nil_append, toFins_map]
  · refine ⟨toFins xs.length (revRange (lowPos xs.length s lo) (highPos xs.length s hi) s.natAbs), ⟨?_, ?_⟩, ?_⟩
    · refine toFins_pairwise (revRange_sorted _ _ _) ?_
      intro p q h; rw [if_neg hpos]; exact Fin.lt_def.2 (by omega)
    · intro p
      rw [toFins_mem, revRange_mem _ hn, if_neg hpos, Int.natAbs_dvd]
      tauto
    · rw [if_neg hpos, accept_foldlM, List.nil_append, toFins_map]

/-- C15. Slicing a list or vector never fails for int or omitted bounds and a non-zero step, and returns the elements at
exactly the specified positions, in order. -/
theorem C15_slice (xs : List Val) (lo hi st : Option Int) (hst : st ≠ some 0) :
    ∃ ps : List (Fin xs.length), SlicePositions xs.length lo hi (st.getD 1) ps ∧
      getSlice (.list xs) (optVal lo) (optVal hi) (optVal st) = .ok (.list (ps.map xs.get)) ∧
      getSlice (.vector xs) (optVal lo) (optVal hi) (optVal st) = .ok (.vector (ps.map xs.get)) := by
  obtain ⟨ps, h1, h2⟩ := sliceCore_spec xs lo hi st hst
  exact ⟨ps, h1, by simp [getSlice, h2, bind, Except.bind], by simp [getSlice, h2, bind, Except.bind]⟩

/-- C15. The specified positions are unique, so `C15_slice` determines the result. -/
theorem C15_unique {n : Nat} {lo hi : Option Int} {step : Int} {ps qs : List (Fin n)}
    (hp : SlicePositions n lo hi step ps) (hq : SlicePositions n lo hi step qs) : ps = qs := by
  have hm : ∀ p, p ∈ ps ↔ p ∈ qs := fun p => (hp.mem p).trans (hq.mem p).symm
  have hd : ∀ {l : List (Fin n)}, l.Pairwise (fun p q => if 0 < step then p < q else q < p) → l.Nodup := by
    intro l h; refine h.imp ?_
    intro a b hab; split at hab <;> exact fun e => by subst e; exact absurd hab (lt_irrefl _)
  have hperm : ps.Perm qs := (List.perm_ext_iff_of_nodup (hd hp.ordered) (hd hq.ordered)).2 hm
  refine hperm.eq_of_pairwise ?_ hp.ordered hq.ordered
  intro a b _ _ h1 h2
  split at h1
  · rw [if_pos (by assumption)] at h2; exact absurd (lt_trans h1 h2) (lt_irrefl _)
  · rw [if_neg (by assumption)] at h2; exact absurd (lt_trans h1 h2) (lt_irrefl _)

/-- C15. A zero step raises an error; so does a bound or step that is neither an int nor nil. -/
theorem C15_errors (xs : List Val) (lo hi : Val) :
    getSlice (.list xs) lo hi (.int 0) = .error .stepZero ∧
    (∀ s, getSlice (.list xs) lo hi (.str s) = .error .argInt) ∧
    (∀ s, getSlice (.int 1) lo hi s = .error .argSliceable) := by
  simp [getSlice, sliceCore, unwrapOr, bind, Except.bind]

/-- What can be given as a bound of a slice: an int, a bool (false is 0, true is 1), nil for an omitted one. -/
def bound : Val → Option (Option Int)
  | .int i => some (some i)
  | .bool b => some (some (if b then 1 else 0))
  | .nil => some none
  | _ => none

/-- C15. Bounds that are bools are 0 and 1; anything but int, bool and nil is an error. -/
theorem C15_bounds (c a b s : Val) (hc : (∃ xs, c = .list xs) ∨ (∃ xs, c = .vector xs)) :
    (∀ lo hi st, bound a = some lo → bound b = some hi → bound s = some st → getSlice c a b s = getSlice c (optVal lo) (optVal hi) (optVal st)) ∧
    (bound a = none ∨ bound b = none ∨ bound s = none → ∃ e, getSlice c a b s = .error e) := by
  have key : ∀ v o d, bound v = some o → unwrapOr v d = unwrapOr (optVal o) d := by
    intro v o d h
    cases v <;> simp only [bound, Option.some.injEq, reduceCtorEq] at h <;> subst h <;> rfl
  have bad : ∀ v d, bound v = none → ∃ e, unwrapOr v d = .error e := by
    intro v d h
    cases v <;> simp only [bound, reduceCtorEq] at h <;> exact ⟨_, rfl⟩
  have core : ∀ xs : List Val, (∀ lo hi st, bound a = some lo → bound b = some hi → bound s = some st → sliceCore xs.length xs a b s = sliceCore xs.length xs (optVal lo) (optVal hi) (optVal st)) ∧
      (bound a = none ∨ bound b = none ∨ bound s = none → ∃ e, sliceCore xs.length xs a b s = .error e) := by
    intro xs
    refine ⟨fun lo hi st h1 h2 h3 => ?_, fun h => ?_⟩
    · simp only [sliceCore, key _ _ _ h1, key _ _ _ h2, key _ _ _ h3]
    · have h' : ∀ (o : Res Int) (f : Int → Res (List Val)), (∀ i, ∃ e, f i = .error e) → ∃ e, (o >>= f) = .error e := by
        intro o f hf
        cases o with
        | error e => exact ⟨e, rfl⟩
        | ok i => exact hf i
      have hb : ∀ (o : Res Int) (f : Int → Res (List Val)), (∃ e, o = .error e) → ∃ e, (o >>= f) = .error e := by
        rintro _ f ⟨e, rfl⟩; exact ⟨e, rfl⟩
      unfold sliceCore
      rcases h with h | h | h
      · refine h' _ _ fun i => ?_
        split
        · exact ⟨_, rfl⟩
        · exact hb _ _ (bad a _ h)
      · refine h' _ _ fun i => ?_
        split
        · exact ⟨_, rfl⟩
        · exact h' _ _ fun j => hb _ _ (bad b _ h)
      · exact hb _ _ (bad s _ h)
  rcases hc with ⟨xs, rfl⟩ | ⟨xs, rfl⟩
  · refine ⟨fun lo hi st h1 h2 h3 => by simp only [getSlice, (core xs).1 lo hi st h1 h2 h3], fun h => ?_⟩
    obtain ⟨e, he⟩ := (core xs).2 h
    exact ⟨e, by simp only [getSlice, he]; rfl⟩
  · refine ⟨fun lo hi st h1 h2 h3 => by simp only [getSlice, (core xs).1 lo hi st h1 h2 h3], fun h => ?_⟩
    obtain ⟨e, he⟩ := (core xs).2 h
    exact ⟨e, by simp only [getSlice, he]; rfl⟩

example : bound (.bool true) = some (some 1) ∧ bound (.str []) = none := ⟨rfl, rfl⟩

/-- C15. A slice as a value: `[lo:hi:step]` is one exactly for such bounds, and applying it to a collection slices the collection. -/
theorem C15_slice_value (a b s : Val) :
    ((∃ v, mkSlice a b s = .ok v) ↔ bound a ≠ none ∧ bound b ≠ none ∧ bound s ≠ none) ∧ ∀ v, mkSlice a b s = .ok v → ∀ c, applySlice v c = getSlice c a b s := by
  have hc : ∀ v, checkBound v = if bound v ≠ none then .ok v else .error .argInt := by intro v; cases v <;> rfl
  unfold mkSlice
  rw [hc a, hc b, hc s]
  by_cases h1 : bound a = none <;> by_cases h2 : bound b = none <;> by_cases h3 : bound s = none <;> simp [h1, h2, h3, bind, Except.bind, applySlice]

theorem finRange_positions (n : Nat) : SlicePositions n none none 1 (List.finRange n) where
  ordered := by
    have : (List.finRange n).Pairwise (· < ·) := List.pairwise_lt_finRange n
    simpa using this
  mem p := by simp [lowPos, highPos]

/-- C15. `xs[:]` is a copy. -/
theorem C15_copy (xs : List Val) : getSlice (.list xs) .nil .nil .nil = .ok (.list xs) := by
  obtain ⟨ps, h1, h2, _⟩ := C15_slice xs none none none (by simp)
  have := C15_unique h1 (finRange_positions _)
  simp only [optVal] at h2
  rw [h2, this]; simp

/-- C15. `xs[::-1]` is the reverse. -/
theorem C15_reverse (xs : List Val) : getSlice (.list xs) .nil .nil (.int (-1)) = .ok (.list xs.reverse) := by
  obtain ⟨ps, h1, h2, _⟩ := C15_slice xs none none (some (-1)) (by simp)
  have h3 : SlicePositions xs.length none none (-1) (List.finRange xs.length).reverse := {
    ordered := by
      have : (List.finRange xs.length).Pairwise (· < ·) := List.pairwise_lt_finRange _
      simpa [List.pairwise_reverse] using this
    mem p := by
      simp only [List.mem_reverse, List.mem_finRange, lowPos, highPos, true_iff]
      refine ⟨Int.neg_dvd.2 (Int.one_dvd _), ?_⟩
      have := p.2
      simp; omega }
  have := C15_unique h1 h3
  simp only [optVal] at h2
  rw [h2, this, List.map_reverse]; simp

/-- C15. `xs[:k] + xs[k:]` is `xs` for `0 ≤ k ≤ len`. -/
theorem C15_split (xs : List Val) (k : Nat) (hk : k ≤ xs.length) :
    ∃ l r, getSlice (.list xs) .nil (.int k) .nil = .ok (.list l) ∧
      getSlice (.list xs) (.int k) .nil .nil = .ok (.list r) ∧ l ++ r = xs ∧ l.length = k := by
  obtain ⟨ps, h1, h2, _⟩ := C15_slice xs none (some k) none (by simp)
  obtain ⟨qs, h3, h4, _⟩ := C15_slice xs (some k) none none (by simp)
  simp only [Option.getD, optVal] at *
  have hps : ∀ p ∈ ps, (p : Int) < k := fun p hp => by
    have := (h1.mem p).1 hp; simp [highPos, resolve] at this; omega
  have hqs : ∀ p ∈ qs, (k : Int) ≤ p := fun p hp => by
    have := (h3.mem p).1 hp; simp [lowPos, resolve] at this; omega
  have hall : SlicePositions xs.length none none 1 (ps ++ qs) := {
    ordered := by
      refine List.pairwise_append.2 ⟨h1.ordered, h3.ordered, fun a ha b hb => ?_⟩
      have := hps a ha; have := hqs b hb
      rw [if_pos (by omega)]; exact Fin.lt_def.2 (by omega)
    mem p := by
      rw [List.mem_append, h1.mem p, h3.mem p]
      have := p.2
      simp [lowPos, highPos, resolve]; omega }
  have he := C15_unique hall (finRange_positions _)
  refine ⟨_, _, h2, h4, ?_, ?_⟩
  · rw [← List.map_append, he]; simp
  · rw [List.length_map]
    have htake : SlicePositions xs.length none (some k) 1 ((List.finRange xs.length).take k) := {
      ordered := by
        have : (List.finRange xs.length).Pairwise (· < ·) := List.pairwise_lt_finRange _
        simpa using this.sublist (List.take_sublist _ _)
      mem p := by
        have hp := p.2
        simp only [lowPos, highPos, resolve, List.mem_iff_getElem?]
        constructor
        · rintro ⟨i, hi⟩
          rw [List.getElem?_take] at hi
          split at hi
          · obtain ⟨hlt, hv⟩ := List.getElem?_eq_some_iff.1 hi
            simp at hv; subst hv; simp; omega
          · cases hi
        · intro h
          simp at h
          exact ⟨p, by rw [List.getElem?_take, if_pos (by omega)]; simp⟩ }
    rw [C15_unique h1 htake]; simp; omega

example : SlicePositions 5 (some (-4)) none 2 [1, 3] where
  ordered := by simp
  mem := by decide

/-! ## C16 -/

/-- The position an index addresses: from the front, or from the back when negative. -/
def position (len : Nat) (i : Int) : Option Nat :=
  if 0 ≤ i ∧ i < len then some i.toNat
  else if i < 0 ∧ -(len : Int) ≤ i then some (len - i.natAbs)
  else none

theorem checkIndex_spec (len : Nat) (hl : len < 2 ^ 63) (i : Int) (hi : -2 ^ 62 ≤ i ∧ i < 2 ^ 62) :
    checkIndex len (.int i) = match position len i with | some p => .ok p | none => .error .indexOutOfBounds := by
  simp only [checkIndex, asInt, bind, Except.bind, asUsize, toIndex, position]
  by_cases h0 : 0 ≤ i
  · simp only [ge_iff_le, h0, if_true, true_and]
    rw [Int.emod_eq_of_lt h0 (by omega)]
    by_cases h : i < len
    · rw [if_pos (by omega), if_pos h]
    · rw [if_neg (by omega), if_neg h, if_neg (by omega)]
  · simp only [ge_iff_le, h0, if_false, false_and]
    by_cases h : -(len : Int) ≤ i
    · rw [Int.emod_eq_of_lt (by omega) (by omega), if_pos (by omega), if_pos (by omega)]
      simp only [Except.ok.injEq]; omega
    · have : ((len : Int) + i) % 2 ^ 64 = (len : Int) + i + 2 ^ 64 := by
        rw [← Int.add_emod_right, Int.emod_eq_of_lt (by omega) (by omega)]
      rw [this, if_neg (by omega), if_neg (by omega)]

/-- C16. Reading `xs[i]` (list or vector) gives the element at the addressed position, or an index error when there is
none; nothing else can happen. -/
theorem C16_get (xs : List Val) (hl : xs.length < 2 ^ 63) (i : Int) (hi : -2 ^ 62 ≤ i ∧ i < 2 ^ 62) :
    (∀ v, getIndex (.list xs) (.int i) = .ok v ↔ ∃ p, position xs.length i = some p ∧ xs[p]? = some v) ∧
    (getIndex (.list xs) (.int i) = .error .indexOutOfBounds ↔ ¬ (-(xs.length : Int) ≤ i ∧ i < xs.length)) ∧
    ((∃ v, getIndex (.list xs) (.int i) = .ok v) ∨ getIndex (.list xs) (.int i) = .error .indexOutOfBounds) ∧
    getIndex (.vector xs) (.int i) = getIndex (.list xs) (.int i) := by
  have hg : getIndex (.list xs) (.int i) = match position xs.length i with
      | some p => (match xs[p]? with | some v => .ok v | none => .error .panic)
      | none => .error .indexOutOfBounds := by
    simp only [getIndex, checkIndex_spec _ hl _ hi, bind, Except.bind]
    cases position xs.length i <;> rfl
  have hp : ∀ p, position xs.length i = some p → p < xs.length ∧ -(xs.length : Int) ≤ i ∧ i < xs.length := by
    intro p h; unfold position at h
    split at h
    · cases h; omega
    · split at h
      · cases h; omega
      · cases h
  have hn : position xs.length i = none → ¬ (-(xs.length : Int) ≤ i ∧ i < xs.length) := by
    intro h; unfold position at h
    split at h
    · cases h
    · split at h
      · cases h
      · omega
  rw [hg]
  refine ⟨?_, ?_, ?_, ?_⟩
  · intro v
    cases h : position xs.length i with
    | none => simp
    | some p =>
      have := (hp p h).1
      simp [List.getElem?_eq_getElem this]
  · cases h : position xs.length i with
    | none => simpa using hn h
    | some p =>
      have h' := hp p h
      simp [List.getElem?_eq_getElem h'.1, h'.2]
  · cases h : position xs.length i with
    | none => simp
    | some p =>
      have := (hp p h).1
      exact .inl ⟨xs[p], by simp [List.getElem?_eq_getElem this]⟩
  · rw [← hg]; rfl

/-- C16. After `xs[i] = v`, the length is unchanged, reading any `j` gives `v` if it addresses the same position and what was
there before otherwise; the assignment fails exactly with an index error when `i` addresses no position. -/
theorem C16_set (xs : List Val) (hl : xs.length < 2 ^ 63) (i : Int) (hi : -2 ^ 62 ≤ i ∧ i < 2 ^ 62) (v : Val) :
    (position xs.length i = none → setIndex (.list xs) (.int i) v = .error .indexOutOfBounds) ∧
    (∀ p, position xs.length i = some p →
      ∃ ys, setIndex (.list xs) (.int i) v = .ok (.list ys) ∧ setIndex (.vector xs) (.int i) v = .ok (.vector ys) ∧
        ys.length = xs.length ∧
        ∀ j, -2 ^ 62 ≤ j → j < 2 ^ 62 → getIndex (.list ys) (.int j) =
          if position xs.length j = some p then .ok v else getIndex (.list xs) (.int j)) := by
  have hc := checkIndex_spec xs.length hl i hi
  refine ⟨fun h => ?_, fun p h => ?_⟩
  · simp only [setIndex, hc, h, bind, Except.bind]
  · refine ⟨xs.set p v, ?_, ?_, by simp, fun j h1 h2 => ?_⟩
    · simp only [setIndex, hc, h, bind, Except.bind]
    · simp only [setIndex, hc, h, bind, Except.bind]
    · simp only [getIndex, List.length_set, checkIndex_spec xs.length hl j ⟨h1, h2⟩, bind, Except.bind]
      cases hj : position xs.length j with
      | none => simp
      | some q =>
        have hq : q < xs.length := by
          unfold position at hj
          split at hj
          · cases hj; omega
          · split at hj
            · cases hj; omega
            · cases hj
        simp only [Option.some.injEq]
        by_cases e : q = p
        · subst e; simp [hq]
        · rw [if_neg e, List.getElem?_set_ne (fun h => e h.symm)]

/-- C16. Other index types and targets raise the respective type errors. -/
theorem C16_errors (xs : List Val) (s : List Char) (v : Val) :
    getIndex (.list xs) (.str s) = .error .argInt ∧ getIndex (.int 3) v = .error .argIndexable ∧
    getIndex (.list xs) (.bool true) = getIndex (.list xs) (.int 1) := by
  simp [getIndex, checkIndex, asInt, bind, Except.bind]

example : position 3 (-1) = some 2 ∧ position 3 0 = some 0 ∧ position 3 3 = none ∧ position 3 (-4) = none := by decide

/-! ## C17 -/

/-- The characters of a string as the elements of a list of one-character strings. -/
def chars (s : List Char) : List Val := s.map fun c => .str [c]

/-- Forget the list: the string spelled by a list of characters. -/
def spell (s : List Char) : Val := .str s

theorem byteLen_ascii {s : List Char} (h : ∀ c ∈ s, c.utf8Size = 1) : byteLen s = s.length := by
  induction s with
  | nil => rfl
  | cons c s ih =>
    have := ih fun d hd => h d (by simp [hd])
    simp only [byteLen, List.map_cons, List.sum_cons, List.length_cons] at *
    rw [this, h c (by simp)]; omega

/-- C17 (partial: strings of ASCII characters). Indexing a string is indexing its list of characters.
Missing: strings with multi-byte characters, where the process can abort (`C17_violation`). -/
theorem C17_index_partial (s : List Char) (h : ∀ c ∈ s, c.utf8Size = 1) (i : Val) :
    getIndex (.str s) i = getIndex (.list (chars s)) i := by
  simp only [getIndex, byteLen_ascii h, chars, List.length_map, List.getElem?_map, bind, Except.bind]
  cases checkIndex s.length i with
  | error e => rfl
  | ok p => simp only; cases s[p]? <;> rfl

/-- C17 (partial: strings of ASCII characters). Slicing a string selects the characters at exactly the positions that
slicing a list of that length selects, and never fails. -/
theorem C17_slice_partial (s : List Char) (h : ∀ c ∈ s, c.utf8Size = 1) (lo hi st : Option Int) (hst : st ≠ some 0) :
    ∃ ps : List (Fin s.length), SlicePositions s.length lo hi (st.getD 1) ps ∧
      getSlice (.str s) (optVal lo) (optVal hi) (optVal st) = .ok (.str (ps.map s.get)) := by
  obtain ⟨ps, h1, h2⟩ := sliceCore_spec s lo hi st hst
  exact ⟨ps, h1, by simp [getSlice, byteLen_ascii h, h2, bind, Except.bind]⟩

example : ∀ c ∈ "Hello World".toList, c.utf8Size = 1 := by decide +kernel

/-- C17 violated: indexing or slicing a string with a two-byte character near its end aborts the process (`unwrap` of
`None`), where the list of its characters gives an element or an index error. -/
theorem C17_violation :
    let s := ['a', 'é']
    getIndex (.str s) (.int (-1)) = .error .panic ∧ getIndex (.list (chars s)) (.int (-1)) = .ok (.str ['é']) ∧
    getIndex (.str s) (.int 2) = .error .panic ∧ getIndex (.list (chars s)) (.int 2) = .error .indexOutOfBounds ∧
    getSlice (.str s) .nil .nil .nil = .error .panic := by
  refine ⟨rfl, rfl, rfl, rfl, ?_⟩
  have : byteLen ['a', 'é'] = 3 := by decide
  simp only [getSlice, this, sliceCore, unwrapOr, bind, Except.bind, toIndex]
  simp [upRange, accept, bind, Except.bind]

end Cordy
