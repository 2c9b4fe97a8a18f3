import Verif.Model.Strings
import Verif.Lemmas.Operator
import Mathlib.Tactic.Linarith
import Mathlib.Tactic.Ring
import Mathlib.Tactic.IntervalCases
/-! Lemmas about numerals, the width scanner, literal matches and integer square roots. -/
namespace Cordy.Str
open Cordy.Repr Cordy.Arith Cordy.Op

/-! ## Numerals -/

/-- The number a list of digits denotes, most significant first, after `acc`. -/
def numFrom (b : Nat) (acc : Nat) (ds : List Nat) : Nat := ds.foldl (fun a d => a * b + d) acc

theorem digitsAux_append (b n : Nat) : ∀ acc, digitsAux b n acc = digitsAux b n [] ++ acc := by
  induction n using Nat.strongRecOn with
  | ind n ih =>
    intro acc
    rw [digitsAux.eq_def, digitsAux.eq_def b n []]
    split
    · simp
    · rename_i h
      have hlt : n / b < n := Nat.div_lt_self (by omega) (by omega)
      rw [ih _ hlt (n % b :: acc), ih _ hlt [n % b]]; simp

theorem digitsAux_spec (b : Nat) (hb : 2 ≤ b) (n : Nat) :
    (∀ d ∈ digitsAux b n [], d < b) ∧ numFrom b 0 (digitsAux b n []) = n ∧ digitsAux b n [] ≠ [] ∧
      ((digitsAux b n []).head? = some 0 → n = 0) ∧ (n = 0 → digitsAux b n [] = [0]) := by
  induction n using Nat.strongRecOn with
  | ind n ih =>
    rw [digitsAux.eq_def]
    split
    · rename_i h
      have : n < b := by omega
      simp [numFrom, this]
    · rename_i h
      have hlt : n / b < n := Nat.div_lt_self (by omega) (by omega)
      obtain ⟨h1, h2, h3, h4, _⟩ := ih _ hlt
      rw [digitsAux_append]
      have hne : n / b ≠ 0 := by
        have := Nat.div_pos (a := n) (b := b) (by omega) (by omega); omega
      refine ⟨?_, ?_, by simp, ?_, by omega⟩
      · intro d hd
        rcases List.mem_append.1 hd with hd | hd
        · exact h1 d hd
        · simp at hd; subst hd; exact Nat.mod_lt _ (by omega)
      · simp only [numFrom, List.foldl_append, List.foldl_cons, List.foldl_nil]
        simp only [numFrom] at h2
        rw [h2]; rw [Nat.mul_comm]; exact Nat.div_add_mod n b
      · intro hh
        exfalso
        apply hne; apply h4
        rcases hx : digitsAux b (n / b) [] with _ | ⟨x, xs⟩
        · exact absurd hx h3
        · rw [hx] at hh; simpa using hh

theorem toDigit_digitChar (b d : Nat) (hd : d < b) (hb : b ≤ 16) : toDigit b (digitChar d) = some d := by
  have : d < 16 := by omega
  interval_cases d <;> simp [toDigit, digitChar] <;> omega

theorem numFrom_ge (b : Nat) (hb : 1 ≤ b) : ∀ (ds : List Nat) (acc : Nat), acc ≤ numFrom b acc ds
  | [], acc => by simp [numFrom]
  | d :: ds, acc => by
    have := numFrom_ge b hb ds (acc * b + d)
    simp only [numFrom, List.foldl_cons] at this ⊢
    have : acc ≤ acc * b := Nat.le_mul_of_pos_right _ hb
    omega

theorem parseLoop_step {b : Nat} {neg : Bool} {acc m a : Int} {c : Char} {cs : List Char} {d : Nat}
    (h1 : checked (acc * b) = some m) (h0 : toDigit b c = some d) (h2 : checked (if neg then m - d else m + d) = some a) :
    parseLoop b neg acc (c :: cs) = parseLoop b neg a cs := by
  rw [parseLoop, h1, h0]; simp only []; rw [h2]

theorem parseLoop_pos (b : Nat) (hb : 2 ≤ b) (hb' : b ≤ 16) (ds : List Nat) : ∀ (acc : Nat), (∀ d ∈ ds, d < b) →
    (numFrom b acc ds : Int) < 2 ^ 63 → parseLoop b false (acc : Int) (ds.map digitChar) = some (numFrom b acc ds : Int) := by
  induction ds with
  | nil => intro acc _ _; simp [parseLoop, numFrom]
  | cons d ds ih =>
    intro acc h hlt
    have hge := numFrom_ge b (by omega) ds (acc * b + d)
    have he : numFrom b acc (d :: ds) = numFrom b (acc * b + d) ds := rfl
    rw [he] at hlt ⊢
    have h3 : ((acc * b + d : Nat) : Int) < 2 ^ 63 := by omega
    have h4 : (0 : Int) ≤ ((acc * b : Nat) : Int) := by positivity
    push_cast at h3 h4
    have h1 : checked ((acc : Int) * b) = some ((acc : Int) * b) := by
      rw [checked, if_pos]; omega
    have h2 : checked ((acc : Int) * b + d) = some (((acc * b + d : Nat)) : Int) := by
      rw [checked, if_pos]
      · push_cast; rfl
      · omega
    have h0 : toDigit b (digitChar d) = some d := toDigit_digitChar _ _ (h d (by simp)) hb'
    rw [List.map_cons, parseLoop_step (neg := false) h1 h0 (by rw [if_neg Bool.false_ne_true]; exact h2)]
    exact ih (acc * b + d) (fun d hd => h d (by simp [hd])) hlt

theorem parseLoop_neg (b : Nat) (hb : 2 ≤ b) (hb' : b ≤ 16) : ∀ (ds : List Nat) (acc : Nat), (∀ d ∈ ds, d < b) →
    numFrom b acc ds ≤ 2 ^ 63 → parseLoop b true (-(acc : Int)) (ds.map digitChar) = some (-(numFrom b acc ds : Int))
  | [], acc, _, _ => by simp [parseLoop, numFrom]
  | d :: ds, acc, h, hlt => by
    have hge := numFrom_ge b (by omega) ds (acc * b + d)
    simp only [numFrom, List.foldl_cons] at hge hlt ⊢
    have h1 : checked (-(acc : Int) * b) = some (-(acc : Int) * b) := by
      rw [checked, if_pos]
      have : ((acc * b : Nat) : Int) ≤ 2 ^ 63 := by norm_cast; omega
      have h0 : (0 : Int) ≤ ((acc * b : Nat) : Int) := by positivity
      push_cast at this h0
      rw [neg_mul]; omega
    have h2 : checked (-(acc : Int) * b - d) = some (-((acc * b + d : Nat) : Int)) := by
      rw [checked, if_pos]; · push_cast; congr 1; ring
      have : ((acc * b + d : Nat) : Int) ≤ 2 ^ 63 := by norm_cast; omega
      have h0 : (0 : Int) ≤ ((acc * b + d : Nat) : Int) := by positivity
      push_cast at this h0
      rw [neg_mul]; omega
    have h0 : toDigit b (digitChar d) = some d := toDigit_digitChar _ _ (h d (by simp)) hb'
    simp only [List.map_cons, parseLoop, h1, h0, h2, if_true]
    exact parseLoop_neg b hb hb' ds (acc * b + d) (fun d hd => h d (by simp [hd])) (by simpa [numFrom] using hlt)

theorem digitChar_ne_sign (d : Nat) (h : d < 16) : digitChar d ≠ '+' ∧ digitChar d ≠ '-' := by
  interval_cases d <;> decide

theorem natText_cons (b n : Nat) (hb : 2 ≤ b) (hb' : b ≤ 16) :
    ∃ c cs, natText b n = c :: cs ∧ c ≠ '+' ∧ c ≠ '-' := by
  obtain ⟨h1, _, h3, _⟩ := digitsAux_spec b hb n
  rcases hx : digitsAux b n [] with _ | ⟨x, xs⟩
  · exact absurd hx h3
  · refine ⟨digitChar x, xs.map digitChar, by simp [natText, hx], ?_⟩
    exact digitChar_ne_sign x (by have := h1 x (by simp [hx]); omega)

theorem parseI64_natText (b n : Nat) (hb : 2 ≤ b) (hb' : b ≤ 16) (hn : n < 2 ^ 63) :
    parseI64 b (natText b n) = some (n : Int) := by
  obtain ⟨c, cs, hc, h1, h2⟩ := natText_cons b n hb hb'
  have : parseI64 b (natText b n) = parseLoop b false 0 (natText b n) := by
    rw [hc]; unfold parseI64; split <;> simp_all
  rw [this]
  obtain ⟨h1, h2, _⟩ := digitsAux_spec b hb n
  have := parseLoop_pos b hb hb' (digitsAux b n []) 0 h1 (by rw [h2]; omega)
  rw [h2] at this; exact this

theorem parseI64_neg_natText (b n : Nat) (hb : 2 ≤ b) (hb' : b ≤ 16) (hn : n ≤ 2 ^ 63) :
    parseI64 b ('-' :: natText b n) = some (-(n : Int)) := by
  obtain ⟨c, cs, hc, h1, h2⟩ := natText_cons b n hb hb'
  have : parseI64 b ('-' :: natText b n) = parseLoop b true 0 (natText b n) := by
    rw [hc]; unfold parseI64; split <;> simp_all
  rw [this]
  obtain ⟨h1, h2, _⟩ := digitsAux_spec b hb n
  have := parseLoop_neg b hb hb' (digitsAux b n []) 0 h1 (by rw [h2]; exact hn)
  rw [h2] at this; exact this

theorem boxInt_exact (i : Int) (h : -(2 ^ 62) ≤ i ∧ i < 2 ^ 62) : boxInt i = .int i := by
  unfold boxInt boxI
  rw [toInt_i64_exact _ (by omega)]
  congr 1
  rw [Int.bmod_def]; split <;> omega

/-! ## Square root -/

theorem newton_ge (n x r : Nat) (hx : 0 < x) (hr : r * r ≤ n) : r ≤ (n / x + x) / 2 := by
  by_contra h
  have hq := Nat.zero_le (n / x)
  have h1 : n / x + x < 2 * r := by
    generalize n / x = q at h hq ⊢; omega
  have h2 : n / x < 2 * r - x := by omega
  have h3 : n < (2 * r - x) * x := (Nat.div_lt_iff_lt_mul hx).1 h2
  have h4 : x < 2 * r := by omega
  have : (2 * r - x) * x ≤ r * r := by
    obtain ⟨y, hy⟩ : ∃ y, 2 * r = x + y := ⟨2 * r - x, by omega⟩
    rw [hy, Nat.add_sub_cancel_left]
    zify at hy ⊢
    have hr' : (r : Int) * r * 4 = (x + y) * (x + y) := by rw [← hy]; ring
    nlinarith [sq_nonneg ((x : Int) - y)]
  omega

theorem climb_spec (n : Nat) : ∀ x, 0 < x → 0 < climb n x ∧ (n / climb n x + climb n x) / 2 ≤ climb n x := by
  intro x
  induction hm : n - x using Nat.strongRecOn generalizing x with
  | ind m ih =>
    intro hx
    rw [climb]
    split
    · rename_i h
      refine ih (n - (n / x + x) / 2) ?_ _ rfl (by omega)
      have h1 : n / x ≤ n := Nat.div_le_self _ _
      omega
    · omega

theorem descend_spec (n r : Nat) (hr : r * r ≤ n) (hr' : n < (r + 1) * (r + 1)) (hr0 : 0 < r) :
    ∀ x, r ≤ x → descend n x = r := by
  intro x
  induction x using Nat.strongRecOn with
  | ind x ih =>
    intro hx
    rw [descend]
    split
    · rename_i h
      exact ih _ h (newton_ge n x r (by omega) hr)
    · rename_i h
      have h1 : x ≤ n / x := by omega
      have h2 : x * x ≤ n := (Nat.le_div_iff_mul_le (by omega)).1 h1
      have : x < r + 1 := by
        by_contra hc
        have : (r + 1) * (r + 1) ≤ x * x := Nat.mul_le_mul (by omega) (by omega)
        omega
      omega

end Cordy.Str
