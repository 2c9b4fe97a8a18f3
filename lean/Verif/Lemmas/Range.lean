import Verif.Model.Range
import Mathlib.Tactic.Linarith
import Mathlib.Tactic.Ring
/-! Helper lemmas for `Props/Range.lean`. -/
namespace Cordy
namespace Range

theorem drain_pos (r : Range) (hs : 0 < r.step) (i : Nat) : ∀ cur, cur ≤ r.stop →
    (r.drain cur)[i]? = if cur + i * r.step < r.stop then some (cur + i * r.step) else none := by
  induction i with
  | zero =>
    intro cur hc
    rw [drain]
    split
    · rw [if_neg (by simp; omega)]; rfl
    · have : cur < r.stop := by omega
      simp [this]
  | succ i ih =>
    intro cur hc
    have hi : (0:Int) ≤ i * r.step := Int.mul_nonneg (by omega) (by omega)
    have e : cur + (i + 1 : Nat) * r.step = cur + r.step + i * r.step := by push_cast; ring
    rw [drain]
    split
    · rw [if_neg (by rw [e]; omega)]; rfl
    · rw [List.getElem?_cons_succ, e]
      split
      · rw [ih _ (by omega), if_neg (by omega), if_neg (by omega)]
      · rw [ih _ (by omega)]

theorem drain_neg (r : Range) (hs : r.step < 0) (i : Nat) : ∀ cur, r.stop ≤ cur →
    (r.drain cur)[i]? = if r.stop < cur + i * r.step then some (cur + i * r.step) else none := by
  induction i with
  | zero =>
    intro cur hc
    rw [drain]
    split
    · rw [if_neg (by simp; omega)]; rfl
    · have : r.stop < cur := by omega
      rw [if_neg (by omega)]; simp [this]
  | succ i ih =>
    intro cur hc
    have hi : i * r.step ≤ 0 := Int.mul_nonpos_of_nonneg_of_nonpos (by omega) (by omega)
    have e : cur + (i + 1 : Nat) * r.step = cur + r.step + i * r.step := by push_cast; ring
    rw [drain]
    split
    · rw [if_neg (by rw [e]; omega)]; rfl
    · rw [if_neg (by omega), List.getElem?_cons_succ, e]
      split
      · rw [ih _ (by omega), if_neg (by omega), if_neg (by omega)]
      · rw [ih _ (by omega)]

theorem drain_nil (r : Range) (h : r.step = 0) (cur : Int) : r.drain cur = [] := by
  rw [drain, dif_pos (.inr h)]

/-- Iteration is the repeated use of `next`. -/
theorem drain_next (r : Range) (cur : Int) :
    r.drain cur = match r.next cur with | none => [] | some (v, c) => v :: r.drain c := by
  rw [drain, next]
  split
  · rfl
  · split <;> rfl

end Range

theorem upRange_mem (step : Nat) (hs : 0 < step) (start stop p : Int) :
    p ∈ upRange start stop step ↔ start ≤ p ∧ p < stop ∧ (step : Int) ∣ p - start := by
  fun_induction upRange start stop step with
  | case1 start h ih =>
    rw [List.mem_cons, ih]
    constructor
    · rintro (rfl | ⟨h1, h2, h3⟩)
      · simp; omega
      · refine ⟨by omega, h2, ?_⟩
        have : p - start = (p - (start + step)) + step := by ring
        rw [this]; exact Int.dvd_add h3 ⟨1, by ring⟩
    · rintro ⟨h1, h2, k, hk⟩
      rcases eq_or_ne p start with e | e
      · exact .inl e
      · have hkp : 0 < k := by
          by_contra hc
          have : (step : Int) * k ≤ 0 := Int.mul_nonpos_of_nonneg_of_nonpos (by omega) (by omega)
          omega
        have : (step : Int) * 1 ≤ step * k := Int.mul_le_mul_of_nonneg_left (by omega) (by omega)
        refine .inr ⟨by omega, h2, ?_⟩
        exact ⟨k - 1, by rw [Int.mul_sub]; omega⟩
  | case2 start h => simp; intro h1 h2; omega

theorem upRange_sorted (step : Nat) (start stop : Int) : (upRange start stop step).Pairwise (· < ·) := by
  fun_induction upRange start stop step with
  | case1 start h ih =>
    refine List.pairwise_cons.2 ⟨fun p hp => ?_, ih⟩
    have := (upRange_mem step h.2 _ _ _).1 hp; omega
  | case2 => exact .nil

theorem revRange_eq (step : Nat) (start stop : Int) :
    revRange start stop step = (upRange (-start) (-stop) step).map (fun x => -x) := by
  fun_induction revRange start stop step with
  | case1 start h ih =>
    rw [upRange, dif_pos (by omega), ih, List.map_cons]
    congr 2
    · omega
    · congr 1; omega
  | case2 start h => rw [upRange, dif_neg (by omega)]; rfl

theorem revRange_mem (step : Nat) (hs : 0 < step) (start stop p : Int) :
    p ∈ revRange start stop step ↔ p ≤ start ∧ stop < p ∧ (step : Int) ∣ p - start := by
  rw [revRange_eq, List.mem_map]
  constructor
  · rintro ⟨q, hq, rfl⟩
    obtain ⟨h1, h2, h3⟩ := (upRange_mem step hs _ _ _).1 hq
    refine ⟨by omega, by omega, ?_⟩
    have : -q - start = -(q - -start) := by ring
    rw [this]; exact (Int.dvd_neg).2 h3
  · rintro ⟨h1, h2, h3⟩
    refine ⟨-p, (upRange_mem step hs _ _ _).2 ⟨by omega, by omega, ?_⟩, by omega⟩
    have : -p - -start = -(p - start) := by ring
    rw [this]; exact (Int.dvd_neg).2 h3

theorem revRange_sorted (step : Nat) (start stop : Int) : (revRange start stop step).Pairwise (· > ·) := by
  rw [revRange_eq, List.pairwise_map]
  exact (upRange_sorted step _ _).imp (by intro a b h; omega)

/-- `accept` over a list of positions collects the elements at the existing positions. -/
theorem accept_foldlM {α : Type} (xs : List α) (ps : List Int) (out : List α) :
    ps.foldlM (accept xs.length xs) out
      = .ok (out ++ (ps.filter (fun p : Int => decide (0 ≤ p ∧ p < xs.length))).filterMap (fun p : Int => xs[p.toNat]?)) := by
  induction ps generalizing out with
  | nil => simp [List.foldlM]; rfl
  | cons p ps ih =>
    rw [List.foldlM_cons]
    by_cases h : 0 ≤ p ∧ p < xs.length
    · have hlt : p.toNat < xs.length := by omega
      have e : accept xs.length xs out p = .ok (out ++ [xs[p.toNat]]) := by
        simp only [accept]; rw [if_pos (by omega), List.getElem?_eq_getElem hlt]
      rw [e]
      show (ps.foldlM (accept xs.length xs) (out ++ [xs[p.toNat]])) = _
      rw [ih, List.filter_cons_of_pos (by simpa using h)]
      simp [List.filterMap_cons, hlt]
    · have e : accept xs.length xs out p = .ok out := by
        simp only [accept]; rw [if_neg (by omega)]
      rw [e]
      show (ps.foldlM (accept xs.length xs) out) = _
      rw [ih, List.filter_cons_of_neg (by simpa using h)]

end Cordy
