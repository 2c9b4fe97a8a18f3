import Verif.Lemmas.Strings
import Mathlib.Algebra.Order.Group.Int
import Mathlib.Data.Int.GCD
/-!
# C51 text conversions of numbers, C53 integer mathematics, C52 join and split
-/
namespace Cordy.Str
open Cordy.Repr Cordy.Arith Cordy.Op

/-! ## C51 Specification -/

/-- The digits `0` to `f`. -/
def digitSymbols : List Char :=
  ['0', '1', '2', '3', '4', '5', '6', '7', '8', '9', 'a', 'b', 'c', 'd', 'e', 'f']

/-- `s` is the usual base `b` numeral of `n`: digits, most significant first, without leading zeros. -/
def IsNumeral (b n : Nat) (s : List Char) : Prop :=
  ∃ ds : List Nat, s = ds.map (fun d => digitSymbols.getD d '?') ∧ (∀ d ∈ ds, d < b) ∧
    ds.foldl (fun acc d => acc * b + d) 0 = n ∧ ds ≠ [] ∧ (ds.head? = some 0 → ds = [0])

/-- The ints of the language. -/
def Small (i : Int) : Prop := -(2 ^ 62) ≤ i ∧ i < 2 ^ 62

theorem digitChar_symbol (d : Nat) (h : d < 16) : digitChar d = digitSymbols.getD d '?' := by
  interval_cases d <;> decide

theorem natText_isNumeral (b n : Nat) (hb : 2 ≤ b) (hb' : b ≤ 16) : IsNumeral b n (natText b n) := by
  obtain ⟨h1, h2, h3, h4, h5⟩ := digitsAux_spec b hb n
  refine ⟨digitsAux b n [], ?_, h1, h2, h3, fun h => h5 (h4 h)⟩
  rw [natText]
  exact List.map_congr_left (fun d hd => digitChar_symbol d (by have := h1 d hd; omega))

/-- **C51** `str(n)` is the decimal numeral, with a minus sign in front for negative ints. -/
theorem C51_str_numeral (i : Int) :
    (0 ≤ i → IsNumeral 10 i.natAbs (decText i)) ∧ (i < 0 → ∃ s, decText i = '-' :: s ∧ IsNumeral 10 i.natAbs s) := by
  constructor
  · intro h
    have : decText i = natText 10 i.natAbs := by rw [decText, if_neg (by omega)]
    rw [this]; exact natText_isNumeral _ _ (by omega) (by omega)
  · intro h
    refine ⟨natText 10 i.natAbs, by rw [decText, if_pos h], natText_isNumeral _ _ (by omega) (by omega)⟩

/-- **C51** `int(str(n)) == n` for every int, whatever default is given. -/
theorem C51_int_str (i : Int) (h : Small i) (d : Option Val) : toInt (.str (decText i)) d = .ok (.int i) := by
  have hp : parseI64 10 (decText i) = some i := by
    unfold decText
    split
    · rw [parseI64_neg_natText 10 _ (by omega) (by omega) (by have := h.1; omega)]; congr 1; omega
    · rw [parseI64_natText 10 _ (by omega) (by omega) (by have := h.2; omega)]; congr 1; omega
  simp only [toInt, hp, boxInt_exact _ h]

example : toInt (.str (decText (-(2 ^ 62)))) none = .ok (.int (-(2 ^ 62))) := C51_int_str _ ⟨by decide, by decide⟩ _

/-- **C51** `hex(n)` and `bin(n)` are the base 16 and base 2 numerals of every non-negative int. -/
theorem C51_radix_numeral (i : Int) (h : Small i) (h0 : 0 ≤ i) :
    (∃ s, radix 16 (.int i) = .ok (.str s) ∧ IsNumeral 16 i.natAbs s) ∧
    (∃ s, radix 2 (.int i) = .ok (.str s) ∧ IsNumeral 2 i.natAbs s) := by
  have hn : (i % 2 ^ 64).toNat = i.natAbs := by have := h.2; omega
  refine ⟨⟨_, rfl, ?_⟩, ⟨_, rfl, ?_⟩⟩ <;> rw [radixText, hn] <;> exact natText_isNumeral _ _ (by omega) (by omega)

/-- **C51** `hex(hex(n)) == n` and `bin(bin(n)) == n` for every non-negative int. -/
theorem C51_radix_roundtrip (b : Nat) (hb : b = 16 ∨ b = 2) (i : Int) (h : Small i) (h0 : 0 ≤ i) :
    (radix b (.int i)).bind (radix b) = .ok (.int i) := by
  have hn : (i % 2 ^ 64).toNat = i.natAbs := by have := h.2; omega
  show radix b (.str (radixText b i)) = _
  rw [radix, radixText, hn, parseI64_natText b _ (by omega) (by omega) (by have := h.2; omega)]
  simp only []
  rw [show ((i.natAbs : Nat) : Int) = i by omega, boxInt_exact _ h]

example : (radix 16 (.int 255)).bind (radix 16) = .ok (.int 255) := C51_radix_roundtrip 16 (.inl rfl) _ ⟨by decide, by decide⟩ (by decide)

/-- **C51 (negative numbers)** `hex` of a negative int is a 16-digit numeral which `hex` itself cannot read back. -/
theorem C51_violation_negative_hex : radix 16 (.int (-1)) = .ok (.str (List.replicate 16 'f')) ∧
    radix 16 (.str (List.replicate 16 'f')) = .error .badInt := by
  constructor
  · simp [radix, radixText, natText, digitsAux, digitChar]
  · rfl

/-- **C51 (overflow)** `int` of a numeral between 2^62 and 2^63 silently wraps instead of raising an error. -/
theorem C51_violation_int_wraps : toInt (.str "4611686018427387904".toList) none = .ok (.int (-(2 ^ 62))) := by
  rfl

/-- **C51** `chr` and `ord` are inverse on the ASCII codes 1 to 127.  Missing: the code 0, for which `chr` is an error. -/
theorem C51_chr_ord_partial (n : Nat) (h1 : 1 ≤ n) (h2 : n ≤ 127) :
    ∃ c, chr (.int n) = .ok (.str [c]) ∧ c.toNat = n ∧ ord (.str [c]) = .ok (.int n) := by
  have key : ∀ n : Fin 128, 1 ≤ n.val → ∃ c : Char, charFromU32 n.val = some c ∧ c.toNat = n.val ∧ byteLen [c] = 1 := by
    intro n hn
    have hv : n.val.isValidChar := Or.inl (by have := n.isLt; omega)
    refine ⟨Char.ofNatAux n.val hv, by rw [charFromU32, dif_pos hv], ?_, ?_⟩
    · revert n; decide
    · revert n; decide
  obtain ⟨c, hc, hn, hb⟩ := key ⟨n, by omega⟩ h1
  refine ⟨c, ?_, hn, ?_⟩
  · have : ((n : Int) % 2 ^ 32).toNat = n := by omega
    have h0 : ¬ ((n : Int) ≤ 0) := by omega
    simp only [chr, Cordy.asInt, if_neg h0, this]; simp only [] at hc; rw [hc]
  · simp only [ord, hb, if_true, hn]

/-- **C51** `ord` then `chr` gives the string back, for every one-byte string other than the NUL character. -/
theorem C51_ord_chr (c : Char) (h1 : c.toNat ≠ 0) (h2 : c.toNat ≤ 127) :
    (ord (.str [c])).bind chr = .ok (.str [c]) := by
  obtain ⟨d, hd, hn, ho⟩ := C51_chr_ord_partial c.toNat (by omega) h2
  have : c = d := Char.toNat_inj.1 hn.symm
  subst this
  rw [ho]; exact hd

/-- **C51 (truncation)** `chr` truncates its argument to 32 bits before checking it. -/
theorem C51_violation_chr_truncates : chr (.int (2 ^ 32 + 65)) = .ok (.str ['A']) := by rfl

/-! ## C53 -/

/-- **C53** `sqrt(n)` is the greatest `r` with `r * r <= n`, for every non-negative int and whatever (positive) estimate the
floating point square root gives as the starting point. -/
theorem C53_sqrt (guess : Nat) (hg : 0 < guess) (i : Int) (h : Small i) (h0 : 0 ≤ i) :
    ∃ r : Int, sqrt guess (.int i) = .ok (.int r) ∧ 0 ≤ r ∧ r * r ≤ i ∧ i < (r + 1) * (r + 1) := by
  obtain ⟨n, rfl⟩ : ∃ n : Nat, i = n := ⟨i.toNat, by omega⟩
  have key : ∃ r : Nat, natSqrt guess n = r ∧ r * r ≤ n ∧ n < (r + 1) * (r + 1) := by
    unfold natSqrt
    split
    · split
      · exact ⟨1, rfl, by omega, by omega⟩
      · exact ⟨0, rfl, by omega, by omega⟩
    · have h1 : Nat.sqrt n * Nat.sqrt n ≤ n := Nat.sqrt_le n
      have h2 : n < (Nat.sqrt n + 1) * (Nat.sqrt n + 1) := Nat.lt_succ_sqrt n
      have h3 : 0 < Nat.sqrt n := Nat.sqrt_pos.2 (by omega)
      refine ⟨Nat.sqrt n, ?_, h1, h2⟩
      obtain ⟨hc, hc'⟩ := climb_spec n guess hg
      exact descend_spec n _ h1 h2 h3 _ (le_trans (newton_ge n _ _ hc h1) hc')
  obtain ⟨r, hr, h1, h2⟩ := key
  have hle : r ≤ n := by rcases Nat.eq_zero_or_pos r with h | h; · omega
                         · exact le_trans (Nat.le_mul_of_pos_left _ h) h1
  refine ⟨r, ?_, by omega, by exact_mod_cast h1, by exact_mod_cast h2⟩
  rw [sqrt, if_neg (by omega), show ((n : Int)).toNat = n by omega, hr, boxInt_exact]
  have := h.2; omega

/-- **C53** the square root of a negative int is an error. -/
theorem C53_sqrt_negative (guess : Nat) (i : Int) (h : i < 0) : sqrt guess (.int i) = .error .mustBeNonNegative := by
  rw [sqrt, if_pos h]

/-- The argument list holds these ints. -/
def ints (is : List Int) : List Val := is.map .int

theorem foldlM_ints (f : Int → Int → Int) (is : List Int) (a : Int) :
    (ints is).foldlM (fun acc v => do let i ← Cordy.asInt v; (.ok (f acc i) : Res Int)) a = .ok (is.foldl f a) := by
  induction is generalizing a with
  | nil => rfl
  | cons x xs ih => exact ih (f a x)

theorem foldl_gcd (is : List Int) (a : Int) (d : Int) :
    d ∣ is.foldl (fun acc i => ((Int.gcd acc i : Nat) : Int)) a ↔ d ∣ a ∧ ∀ i ∈ is, d ∣ i := by
  induction is generalizing a with
  | nil => simp
  | cons x xs ih =>
    rw [List.foldl_cons, ih, Int.dvd_coe_gcd_iff]; simp [and_assoc]

theorem foldl_gcd_nonneg (is : List Int) (a : Int) (h : is ≠ [] ∨ 0 ≤ a) :
    0 ≤ is.foldl (fun acc i => ((Int.gcd acc i : Nat) : Int)) a := by
  induction is generalizing a with
  | nil => simpa using h
  | cons x xs ih => exact ih _ (.inr (by positivity))

/-- **C53** `gcd` of two or more ints is their non-negative greatest common divisor: its divisors are exactly the common divisors.
Missing: the case that all of them are 0 or the least int and one is the least int (`C53_violation_gcd`). -/
theorem C53_gcd_partial (i j : Int) (is : List Int) (hi : ∀ k ∈ i :: j :: is, Small k) (hex : (∀ k ∈ i :: j :: is, k = 0) ∨ ∃ k ∈ i :: j :: is, k ≠ 0 ∧ k ≠ -(2 ^ 62)) :
    ∃ g : Int, gcd (ints (i :: j :: is)) = .ok (.int g) ∧ 0 ≤ g ∧ ∀ d, d ∣ g ↔ ∀ k ∈ i :: j :: is, d ∣ k := by
  let g := (j :: is).foldl (fun acc i => ((Int.gcd acc i : Nat) : Int)) i
  have hd : ∀ d, d ∣ g ↔ ∀ k ∈ i :: j :: is, d ∣ k := by
    intro d; rw [foldl_gcd]; simp
  have h0 : 0 ≤ g := foldl_gcd_nonneg _ _ (.inl (by simp))
  refine ⟨g, ?_, h0, hd⟩
  have hr : gcd (ints (i :: j :: is)) = .ok (boxInt g) := by
    show (do let r ← (ints (j :: is)).foldlM _ i; (.ok (boxInt r) : Res Val)) = _
    rw [foldlM_ints (fun acc i => ((Int.gcd acc i : Nat) : Int))]; rfl
  rw [hr, boxInt_exact]
  refine ⟨by omega, ?_⟩
  rcases hex with hz | ⟨k, hk, h1, h2⟩
  · have : (0 : Int) ∣ g := (hd 0).2 (fun k hk => by rw [hz k hk])
    have := Int.zero_dvd.1 this
    omega
  have hg := (hd g).1 (dvd_refl _) k hk
  have hle := Int.le_of_dvd (a := g) (b := |k|) (by positivity) ((dvd_abs _ _).2 hg)
  have := hi k hk
  have hb := this.1; have hb' := this.2
  rcases abs_cases k with ⟨h, _⟩ | ⟨h, _⟩ <;> omega

example : gcd (ints [12, -18, 30]) = .ok (.int 6) := by rfl

/-- **C53 (violations)** a single argument is returned with its sign, and the greatest common divisor 2^62 of the least int with
itself does not fit and comes out negative. -/
theorem C53_violation_gcd : gcd (ints [-4]) = .ok (.int (-4)) ∧
    gcd (ints [-(2 ^ 62), -(2 ^ 62)]) = .ok (.int (-(2 ^ 62))) := ⟨by rfl, by rfl⟩

theorem lcm64_exact (a b : Int) (h : (Int.lcm a b : Int) < 2 ^ 63) : lcm64 a b = (Int.lcm a b : Int) := by
  unfold lcm64
  split
  · rename_i h; rw [h.1, h.2]; rfl
  · rename_i hne
    have hdvd : ((Int.gcd a b : Nat) : Int) ∣ b := Int.gcd_dvd_right ..
    obtain ⟨q, hq⟩ := hdvd
    have hg0 : (Int.gcd a b : Int) ≠ 0 := by
      intro h0
      have := Int.gcd_eq_zero_iff.1 (by exact_mod_cast h0); exact hne this
    have hdiv : b / ((Int.gcd a b : Nat) : Int) = q := by
      generalize ((Int.gcd a b : Nat) : Int) = g at hq hg0
      rw [hq]; exact Int.mul_ediv_cancel_left _ hg0
    have hl : ((Int.lcm a b : Nat) : Int) = |a * q| := by
      have h1 : ((Int.gcd a b : Nat) : Int) * ((Int.lcm a b : Nat) : Int) = |a * b| := by
        have := Int.gcd_mul_lcm a b
        rw [← Int.natCast_mul, this, Int.natCast_mul, Int.natCast_natAbs, Int.natCast_natAbs, abs_mul]
      have h2 : |a * b| = ((Int.gcd a b : Nat) : Int) * |a * q| := by
        have hg1 : (0 : Int) ≤ ((Int.gcd a b : Nat) : Int) := by positivity
        generalize ((Int.gcd a b : Nat) : Int) = g at hq hg1
        rw [hq, show a * (g * q) = g * (a * q) by ring, abs_mul, abs_of_nonneg hg1]
      exact mul_left_cancel₀ hg0 (h1.trans h2)
    simp only [hdiv]
    rw [i64_mul, hl]
    rw [hl] at h
    have hb := abs_lt.1 h
    rw [toInt_i64_exact _ (by omega)]
    split
    · rename_i hneg
      rw [i64_neg, toInt_i64_exact _ (by omega), abs_of_neg hneg]
    · rw [toInt_i64_exact _ (by omega), abs_of_nonneg (by omega)]

theorem lcm64_zero_left (b : Int) : lcm64 0 b = 0 := by
  by_cases h : b = 0
  · subst h; rfl
  · unfold lcm64; rw [if_neg (by simp [h])]
    have : (i64 0 : I64) = 0#64 := rfl
    simp [this]

theorem lcm64_zero_right (a : Int) : lcm64 a 0 = 0 := by
  by_cases h : a = 0
  · subst h; rfl
  · unfold lcm64; rw [if_neg (by simp [h])]
    simp [i64]

theorem foldl_lcm64_zero (is : List Int) : is.foldl lcm64 0 = 0 := by
  induction is with
  | nil => rfl
  | cons x xs ih => rw [List.foldl_cons, lcm64_zero_left, ih]

theorem foldl_lcm64_mem (is : List Int) (a : Int) (h : (0 : Int) ∈ is) : is.foldl lcm64 a = 0 := by
  induction is generalizing a with
  | nil => simp at h
  | cons x xs ih =>
    rw [List.foldl_cons]
    rcases List.mem_cons.1 h with h | h
    · rw [← h, lcm64_zero_right, foldl_lcm64_zero]
    · exact ih _ h

theorem foldl_lcm_dvd (is : List Int) (a : Int) (m : Int) :
    is.foldl (fun acc i => ((Int.lcm acc i : Nat) : Int)) a ∣ m ↔ a ∣ m ∧ ∀ i ∈ is, i ∣ m := by
  induction is generalizing a with
  | nil => simp
  | cons x xs ih =>
    rw [List.foldl_cons, ih, Int.coe_lcm_dvd_iff]; simp [and_assoc]

theorem foldl_lcm64_exact (is : List Int) (a : Int) (m : Int) (hm : 0 < m) (hb : m < 2 ^ 63) (ha : a ∣ m)
    (hi : ∀ i ∈ is, i ∣ m) : is.foldl lcm64 a = is.foldl (fun acc i => ((Int.lcm acc i : Nat) : Int)) a := by
  induction is generalizing a with
  | nil => rfl
  | cons x xs ih =>
    rw [List.foldl_cons, List.foldl_cons]
    have hd : ((Int.lcm a x : Nat) : Int) ∣ m := Int.coe_lcm_dvd ha (hi x (by simp))
    have : ((Int.lcm a x : Nat) : Int) ≤ m := Int.le_of_dvd hm hd
    rw [lcm64_exact a x (by omega)]
    exact ih _ hd (fun i h => hi i (by simp [h]))

/-- **C53** `lcm` of two or more ints is their least common multiple, whenever that fits an int (intermediate overflow with a later
zero included): the non-negative number whose multiples are exactly the common multiples.
Missing: least common multiples that do not fit an int, for which there is no right answer. -/
theorem C53_lcm_partial (i j : Int) (is : List Int) (m : Int) (h0 : 0 ≤ m) (hfit : m < 2 ^ 62)
    (hm : ∀ n, m ∣ n ↔ ∀ k ∈ i :: j :: is, k ∣ n) : lcm (ints (i :: j :: is)) = .ok (.int m) := by
  have hr : lcm (ints (i :: j :: is)) = .ok (boxInt ((j :: is).foldl lcm64 i)) := by
    show (do let r ← (ints (j :: is)).foldlM _ i; (.ok (boxInt r) : Res Val)) = _
    rw [foldlM_ints lcm64]; rfl
  have hv : (j :: is).foldl lcm64 i = m := by
    rcases eq_or_lt_of_le h0 with hz | hpos
    · subst hz
      have hz : (0 : Int) ∈ i :: j :: is := by
        by_contra hne
        have := (hm ((i :: j :: is).prod)).2 (fun k hk => List.dvd_prod hk)
        rw [zero_dvd_iff, List.prod_eq_zero_iff] at this
        exact hne this
      rcases List.mem_cons.1 hz with h | h
      · rw [← h]; exact foldl_lcm64_zero _
      · exact foldl_lcm64_mem _ _ h
    · have hd := (hm m).1 (dvd_refl _)
      rw [foldl_lcm64_exact (j :: is) i m hpos (by omega) (hd i (by simp)) (fun k hk => hd k (by simp [hk]))]
      apply Int.dvd_antisymm
      · rw [List.foldl_cons]; exact le_of_lt (by
          have := foldl_lcm_dvd (j :: is) i m
          have h1 := this.2 ⟨hd i (by simp), fun k hk => hd k (by simp [hk])⟩
          have hn : 0 ≤ (j :: is).foldl (fun acc i => ((Int.lcm acc i : Nat) : Int)) i := by
            clear * -
            rw [List.foldl_cons]
            generalize hx : ((Int.lcm i j : Nat) : Int) = x
            have : 0 ≤ x := by rw [← hx]; positivity
            clear hx
            induction is generalizing x with
            | nil => simpa
            | cons y ys ih => exact ih _ (by positivity)
          rcases eq_or_lt_of_le hn with h | h
          · rw [← h, zero_dvd_iff] at h1; omega
          · exact h)
      · exact h0
      · exact (foldl_lcm_dvd _ _ _).2 ⟨hd i (by simp), fun k hk => hd k (by simp [hk])⟩
      · exact (hm _).2 (fun k hk => by
          have := (foldl_lcm_dvd (j :: is) i _).1 (dvd_refl _)
          rcases List.mem_cons.1 hk with rfl | hk
          · exact this.1
          · exact this.2 k hk)
  rw [hr, hv, boxInt_exact _ ⟨by omega, hfit⟩]

example : lcm (ints [4, -6, 10]) = .ok (.int 60) := by rfl
example : ∀ n : Int, (12 : Int) ∣ n ↔ ∀ k ∈ ([4, -6] : List Int), k ∣ n := by
  intro n; simp; omega

/-- **C53** `abs` is the magnitude of every int but the least.  Missing: the least int (`C53_violation_abs`). -/
theorem C53_abs_partial (i : Int) (h : Small i) (h' : i ≠ -(2 ^ 62)) : abs (i64 i) = .int |i| := by
  have hb := h.1; have hb' := h.2
  have : abs (i64 i) = boxInt |i| := by
    unfold abs boxInt
    rw [toInt_i64_exact _ (by omega)]
    split
    · rename_i hn; rw [i64_neg, abs_of_neg hn]
    · rw [abs_of_nonneg (by omega)]
  rw [this, boxInt_exact]
  rcases abs_cases i with ⟨h, _⟩ | ⟨h, _⟩ <;> omega

/-- **C53 (violation)** the magnitude of the least int does not fit: `abs` returns the (negative) least int itself. -/
theorem C53_violation_abs : abs (i64 (-(2 ^ 62))) = .int (-(2 ^ 62)) := by rfl

/-- Two's complement bit `k` of an integer. -/
def bitOf (i : Int) (k : Nat) : Bool := decide (i / 2 ^ k % 2 = 1)

theorem getLsbD_i64 (i : Int) (h : Small i) (k : Nat) (hk : k < 64) : (i64 i).getLsbD k = bitOf i k := by
  have hb := h.1; have hb' := h.2
  unfold i64 bitOf
  have h1 : (BitVec.ofInt 64 i).getLsbD k = (i % 2 ^ 64).toNat.testBit k := by
    rw [BitVec.getLsbD, BitVec.toNat_ofInt]; norm_cast
  rw [h1, Nat.testBit_eq_decide_div_mod_eq]
  congr 1
  apply propext
  have h2 : (((i % 2 ^ 64).toNat / 2 ^ k % 2 : Nat) : Int) = (i % 2 ^ 64) / 2 ^ k % 2 := by
    rw [Int.natCast_emod, Int.natCast_ediv, Int.toNat_of_nonneg (by omega)]; push_cast; rfl
  have h3 : (i % 2 ^ 64) / 2 ^ k % 2 = i / 2 ^ k % 2 := by
    have he : (2 : Int) ^ 64 = 2 ^ k * (2 * 2 ^ (63 - k)) := by
      rw [← pow_succ', ← pow_add]; congr 1; omega
    rw [Int.emod_def i (2 ^ 64), he, mul_assoc, sub_eq_add_neg, ← mul_neg, Int.add_mul_ediv_left _ _ (by positivity)]
    rw [mul_assoc, ← mul_neg, Int.add_mul_emod_self_left]
  rw [← h3, ← h2]; norm_cast

/-- **C53** `count_ones` and `count_zeros` count the one and zero bits of the 64-bit two's complement representation. -/
theorem C53_count_bits (i : Int) (h : Small i) :
    countOnes (.int i) = .ok (.int ((List.range 64).countP (fun k => bitOf i k))) ∧
    countZeros (.int i) = .ok (.int ((List.range 64).countP (fun k => !bitOf i k))) := by
  constructor
  · simp only [countOnes, Cordy.asInt]
    rw [List.countP_congr (fun k hk => by rw [getLsbD_i64 i h k (List.mem_range.1 hk)])]
  · simp only [countZeros, Cordy.asInt]
    rw [List.countP_congr (fun k hk => by rw [getLsbD_i64 i h k (List.mem_range.1 hk)])]

/-- C53: against the 63 bits of the documentation, `count_ones` is one more for negative numbers, `count_zeros` for others. -/
theorem C53_count_bits_partial (i : Int) (h : Small i) :
    countOnes (.int i) = .ok (.int ((List.range 63).countP (fun k => bitOf i k) + (if i < 0 then 1 else 0 : Nat))) ∧
    countZeros (.int i) = .ok (.int ((List.range 63).countP (fun k => !bitOf i k) + (if i < 0 then 0 else 1 : Nat))) := by
  obtain ⟨h1, h2⟩ := C53_count_bits i h
  have hb := h.1; have hb' := h.2
  have h63 : bitOf i 63 = decide (i < 0) := by
    unfold bitOf
    by_cases hi : i < 0
    · simp only [hi]; have : i / 2 ^ 63 = -1 := by omega
      rw [this]; decide
    · simp only [hi]; have : i / 2 ^ 63 = 0 := by omega
      rw [this]; decide
  have hr : List.range 64 = List.range 63 ++ [63] := List.range_succ
  rw [h1, h2, hr, List.countP_append, List.countP_append]
  by_cases hi : i < 0 <;> simp [h63, hi]

/-- C53 violated: `count_ones(-1)` should be 63, `count_zeros(0)` too. -/
theorem C53_violation_bits : countOnes (.int (-1)) = .ok (.int 64) ∧ countZeros (.int 0) = .ok (.int 64) := by
  refine ⟨?_, ?_⟩
  · rw [(C53_count_bits_partial (-1) (by unfold Small; omega)).1]; rfl
  · rw [(C53_count_bits_partial 0 (by unfold Small; omega)).2]; rfl

/-- **C53** the two counts always add up to 64. -/
theorem C53_count_sum (i : Int) (h : Small i) : ∃ a b : Int, countOnes (.int i) = .ok (.int a) ∧
    countZeros (.int i) = .ok (.int b) ∧ a + b = 64 := by
  obtain ⟨h1, h2⟩ := C53_count_bits i h
  refine ⟨_, _, h1, h2, ?_⟩
  have := List.length_eq_countP_add_countP (fun k => bitOf i k) (l := List.range 64)
  simp only [List.length_range, Bool.not_eq_true, Bool.decide_eq_false] at this
  omega

example : countOnes (.int (-1)) = .ok (.int 64) := by rfl
example : ∃ r : Int, sqrt 31622 (.int (10 ^ 9)) = .ok (.int r) ∧ 0 ≤ r ∧ r * r ≤ 10 ^ 9 ∧ 10 ^ 9 < (r + 1) * (r + 1) :=
  C53_sqrt _ (by decide) _ ⟨by decide, by decide⟩ (by decide)
end Cordy.Str
