import Verif.Model.Arith
import Verif.Lemmas.Arith
import Verif.Props.Repr
import Mathlib.Tactic.Linarith
/-!
# Properties C04-C07: integer operators

`ival w` is the mathematical integer a word stands for (bools are 0 and 1), `Reduces i r` (Props/Repr)
says `r` is the representative of `i` modulo `2^63` in the int range, and `bit i k` is bit `k` of the
infinite two's complement expansion of `i`, by definition `⌊i / 2^k⌋ mod 2`.
-/
namespace Cordy.Arith
open Cordy.Repr

/-- Reduction of an in-range integer is that integer: the theorems below give exact results whenever
the exact result fits. -/
theorem Reduces.exact {i r : Int} (h : Reduces i r) (hi : InIntRange i) : r = i :=
  C01_reduces_unique i r i h ⟨hi, by simp⟩

theorem reduces_box (i : Int) (v : I64) (h : (2^63 : Int) ∣ i - v.toInt) : Reduces i (ival (fromI64 v)) := by
  have hr := ival_range (fromI64 v)
  refine ⟨hr, ?_⟩
  rw [ival_box] at hr ⊢
  have := bmod63_dvd v.toInt
  omega

/-! ## C04 -/

/-- C04: addition. -/
theorem C04_add (l r : Word) : Reduces (ival l + ival r) (ival (add l r)) :=
  reduces_box _ _ (toInt_add_dvd _ _)

/-- C04: subtraction. -/
theorem C04_sub (l r : Word) : Reduces (ival l - ival r) (ival (sub l r)) :=
  reduces_box _ _ (toInt_sub_dvd _ _)

/-- C04: multiplication. -/
theorem C04_mul (l r : Word) : Reduces (ival l * ival r) (ival (mul l r)) :=
  reduces_box _ _ (toInt_mul_dvd _ _)

/-- C04: negation. -/
theorem C04_neg (l : Word) : Reduces (- ival l) (ival (neg l)) :=
  reduces_box _ _ (toInt_neg_dvd _)

/-- C04: complement of an int is `-i - 1`; of a bool it is the logical negation. -/
theorem C04_not (l : Word) : (isPreciseInt l = true → ival (bnot l) = - ival l - 1) ∧
    (∀ b, bnot (fromBool b) = fromBool (!b)) := by
  constructor
  · intro h
    have hb : isBool l = false := by
      have := (isPreciseInt_iff l).mp h
      rw [Bool.eq_false_iff, Ne, isBool_iff]; omega
    have hr := ival_range l
    have e : (~~~ (asInt l)).toInt = - ival l - 1 := by
      rw [BitVec.toInt_not]; unfold ival at *
      have := toInt_range (asInt l)
      rw [BitVec.toInt_eq_toNat_bmod] at *
      have := (asInt l).isLt
      simp only [Int.bmod] at *
      split <;> split <;> simp at * <;> omega
    rw [bnot, if_neg (by simp [hb]), ival_box_exact _ (by omega), e]
  · intro b; cases b <;> decide

/-- C04: the results of the arithmetic operators are ints (never bools). -/
theorem C04_results_are_ints (l r : Word) :
    isPreciseInt (add l r) = true ∧ isPreciseInt (sub l r) = true ∧ isPreciseInt (mul l r) = true ∧
    isPreciseInt (neg l) = true := by
  simp only [isPreciseInt_iff, add, sub, mul, neg, toNat_fromI64]
  omega

private theorem band_fits (l r : Word) : ival (fromI64 (asInt l &&& asInt r)) = (asInt l &&& asInt r).toInt := by
  apply ival_box_exact
  rw [fits_iff, BitVec.getLsbD_and, BitVec.msb_and, asInt_fits, asInt_fits]
private theorem bor_fits (l r : Word) : ival (fromI64 (asInt l ||| asInt r)) = (asInt l ||| asInt r).toInt := by
  apply ival_box_exact
  rw [fits_iff, BitVec.getLsbD_or, BitVec.msb_or, asInt_fits, asInt_fits]
private theorem bxor_fits (l r : Word) : ival (fromI64 (asInt l ^^^ asInt r)) = (asInt l ^^^ asInt r).toInt := by
  apply ival_box_exact
  rw [fits_iff, BitVec.getLsbD_xor, BitVec.msb_xor, asInt_fits, asInt_fits]

private theorem bool_cases (l : Word) (h : isInt l = true) (hb : isBool l = true) :
    ival l = if asBool l then 1 else 0 := by
  have hp : isPreciseInt l = false := by
    have := (isBool_iff l).mp hb
    rw [Bool.eq_false_iff, Ne, isPreciseInt_iff]; omega
  simp only [ival, asInt, hp, asBool]
  by_cases ht : Repr.isTrue l = true <;> simp [ht]

private theorem bit_bool (b : Bool) (k : Nat) : bit (if b then 1 else 0) k = (b && k == 0) := by
  cases b
  · simp [bit]
  · cases k with
    | zero => simp [bit]
    | succ k =>
      have : (1 : Int) / 2 ^ (k+1) = 0 := by
        apply Int.ediv_eq_zero_of_lt (by omega)
        have := Int.pow_lt_pow_of_lt (a := 2) (by omega) (show 0 < k+1 by omega)
        simpa using this
      simp [bit, this]

/-- C04: `&`, `|`, `^` act bit by bit on the (infinite) two's complement expansions, exactly. -/
theorem C04_bitwise (l r : Word) (hl : isInt l = true) (hr : isInt r = true) (k : Nat) :
    bit (ival (band l r)) k = (bit (ival l) k && bit (ival r) k) ∧
    bit (ival (bor l r)) k = (bit (ival l) k || bit (ival r) k) ∧
    bit (ival (bxor l r)) k = (bit (ival l) k != bit (ival r) k) := by
  by_cases hb : (isBool l && isBool r) = true
  · have h1 := Bool.and_eq_true_iff.mp hb
    have e1 := bool_cases l hl h1.1
    have e2 := bool_cases r hr h1.2
    simp only [band, bor, bxor, hb, if_true, ival_fromBool, e1, e2, bit_bool]
    cases asBool l <;> cases asBool r <;> simp
  · simp only [band, bor, bxor, hb]
    unfold ival
    simp only [Bool.false_eq_true, if_false]
    have f1 := band_fits l r
    have f2 := bor_fits l r
    have f3 := bxor_fits l r
    unfold ival at f1 f2 f3
    rw [f1, f2, f3]
    simp only [bit_toInt]
    by_cases hk : k < 64
    · simp [hk, BitVec.getLsbD_and, BitVec.getLsbD_or, BitVec.getLsbD_xor]
    · simp [hk, BitVec.msb_and, BitVec.msb_or, BitVec.msb_xor]

/-- `fromI64` identifies exactly the integers congruent modulo `2^63`. -/
theorem fromI64_congr (u v : I64) (h : (2^63 : Int) ∣ u.toInt - v.toInt) : fromI64 u = fromI64 v := by
  apply BitVec.eq_of_toNat_eq
  rw [toNat_fromI64, toNat_fromI64]
  have := u.isLt
  have := v.isLt
  rw [BitVec.toInt_eq_toNat_bmod, BitVec.toInt_eq_toNat_bmod] at h
  simp only [Int.bmod] at h
  split at h <;> split at h <;> omega

/-- C04: the commutative ring laws hold for all ints, overflow or not. -/
theorem C04_ring_laws (a b c : Word) :
    add a b = add b a ∧ mul a b = mul b a ∧
    add (add a b) c = add a (add b c) ∧ mul (mul a b) c = mul a (mul b c) ∧
    mul a (add b c) = add (mul a b) (mul a c) ∧ sub a b = add a (neg b) := by
  have pa := fun v : I64 => (show (2^63 : Int) ∣ v.toInt - (asInt (fromI64 v)).toInt by
    have := bmod63_dvd v.toInt; rw [← ival_box] at this; exact this)
  refine ⟨by simp only [add]; rw [BitVec.add_comm], by simp only [mul]; rw [BitVec.mul_comm], ?_, ?_, ?_, ?_⟩
  · simp only [add]; apply fromI64_congr
    have h1 := pa (asInt a + asInt b)
    have h2 := pa (asInt b + asInt c)
    have h3 := toInt_add_dvd (asInt (fromI64 (asInt a + asInt b))) (asInt c)
    have h4 := toInt_add_dvd (asInt a) (asInt (fromI64 (asInt b + asInt c)))
    have h5 := toInt_add_dvd (asInt a) (asInt b)
    have h6 := toInt_add_dvd (asInt b) (asInt c)
    omega
  · simp only [mul]; apply fromI64_congr
    have h3 := toInt_mul_dvd (asInt (fromI64 (asInt a * asInt b))) (asInt c)
    have h4 := toInt_mul_dvd (asInt a) (asInt (fromI64 (asInt b * asInt c)))
    obtain ⟨x1, h1⟩ := pa (asInt a * asInt b)
    obtain ⟨x2, h2⟩ := pa (asInt b * asInt c)
    obtain ⟨x5, h5⟩ := toInt_mul_dvd (asInt a) (asInt b)
    obtain ⟨x6, h6⟩ := toInt_mul_dvd (asInt b) (asInt c)
    have e1 : (asInt (fromI64 (asInt a * asInt b))).toInt =
        (asInt a).toInt * (asInt b).toInt - 2^63 * (x1 + x5) := by
      rw [Int.mul_add]; omega
    have e2 : (asInt (fromI64 (asInt b * asInt c))).toInt =
        (asInt b).toInt * (asInt c).toInt - 2^63 * (x2 + x6) := by
      rw [Int.mul_add]; omega
    rw [e1] at h3; rw [e2] at h4
    obtain ⟨x3, h3⟩ := h3
    obtain ⟨x4, h4⟩ := h4
    refine ⟨- x3 + x4 - (x1 + x5) * (asInt c).toInt + (asInt a).toInt * (x2 + x6), ?_⟩
    have e3 : (asInt (fromI64 (asInt a * asInt b)) * asInt c).toInt =
      ((asInt a).toInt * (asInt b).toInt - 2^63 * (x1 + x5)) * (asInt c).toInt - 2^63 * x3 := by omega
    have e4 : (asInt a * asInt (fromI64 (asInt b * asInt c))).toInt =
      (asInt a).toInt * ((asInt b).toInt * (asInt c).toInt - 2^63 * (x2 + x6)) - 2^63 * x4 := by omega
    rw [e3, e4]; ring
  · simp only [mul, add]; apply fromI64_congr
    obtain ⟨x1, h1⟩ := pa (asInt b + asInt c)
    obtain ⟨x2, h2⟩ := pa (asInt a * asInt b)
    obtain ⟨x3, h3⟩ := pa (asInt a * asInt c)
    obtain ⟨x4, h4⟩ := toInt_add_dvd (asInt b) (asInt c)
    obtain ⟨x5, h5⟩ := toInt_mul_dvd (asInt a) (asInt b)
    obtain ⟨x6, h6⟩ := toInt_mul_dvd (asInt a) (asInt c)
    have e1 : (asInt (fromI64 (asInt b + asInt c))).toInt =
        (asInt b).toInt + (asInt c).toInt - 2^63 * (x1 + x4) := by rw [Int.mul_add]; omega
    have h7 := toInt_mul_dvd (asInt a) (asInt (fromI64 (asInt b + asInt c)))
    rw [e1] at h7
    obtain ⟨x7, h7⟩ := h7
    obtain ⟨x8, h8⟩ := toInt_add_dvd (asInt (fromI64 (asInt a * asInt b))) (asInt (fromI64 (asInt a * asInt c)))
    refine ⟨-(asInt a).toInt * (x1 + x4) - x7 + x8 + x2 + x3 + x5 + x6, ?_⟩
    have e7 : (asInt a * asInt (fromI64 (asInt b + asInt c))).toInt =
       (asInt a).toInt * ((asInt b).toInt + (asInt c).toInt - 2^63 * (x1 + x4)) - 2^63 * x7 := by omega
    have e8 : (asInt (fromI64 (asInt a * asInt b)) + asInt (fromI64 (asInt a * asInt c))).toInt =
      (asInt a).toInt * (asInt b).toInt + (asInt a).toInt * (asInt c).toInt - 2^63 * (x2 + x5 + x3 + x6 + x8) := by
      rw [show (2:Int)^63 * (x2 + x5 + x3 + x6 + x8) = 2^63*x2 + 2^63*x5 + 2^63*x3+2^63*x6+2^63*x8 by ring]; omega
    rw [e7, e8]; ring
  · simp only [sub, add, neg]; apply fromI64_congr
    have h1 := pa (- asInt b)
    have h2 := toInt_sub_dvd (asInt a) (asInt b)
    have h3 := toInt_add_dvd (asInt a) (asInt (fromI64 (- asInt b)))
    have h4 := toInt_neg_dvd (asInt b)
    omega

-- non-trivial instances: overflow wraps, the result is the reduction of the exact one
example : ival (add (fromI64 MAX_INT) (fromBool true)) = -(2^62) := by decide
example : InIntRange (ival (fromI64 (-7)) * ival (fromI64 6)) ∧ ival (mul (fromI64 (-7)) (fromI64 6)) = -42 := by
  constructor <;> decide
example : isInt (fromBool true) = true ∧ isInt (fromI64 5) = true ∧ ival (band (fromBool true) (fromI64 5)) = 1 := by decide

/-! ## C05 -/

/-- C05: division by zero is an error, for both operators, and only then. -/
theorem C05_zero (l r : Word) :
    (div l r = .error .divideByZero ↔ ival r = 0) ∧ (mod l r = .error .moduloByZero ↔ ival r = 0) ∧
    ((∃ w, div l r = .ok w) ↔ ival r ≠ 0) ∧ ((∃ w, mod l r = .ok w) ↔ ival r ≠ 0) := by
  have hz := asInt_eq_zero_iff r
  by_cases h : asInt r = 0
  · simp only [div, mod, if_pos h, hz.mp h]; simp
  · have h' : ival r ≠ 0 := fun e => h (hz.mpr e)
    simp only [div, mod, if_neg h]; simp [h']

/-- C05: the quotient is the floor of the exact quotient (modulo `2^63`): the integer `q` with
`q * b ≤ a < (q+1) * b` for positive `b`, mirrored for negative `b`. -/
theorem C05_div_floor (l r w : Word) (h : div l r = .ok w) :
    ∃ q : Int, Reduces q (ival w) ∧
      (0 < ival r → q * ival r ≤ ival l ∧ ival l < (q + 1) * ival r) ∧
      (ival r < 0 → ival l ≤ q * ival r ∧ (q + 1) * ival r < ival l) := by
  have h0 : ival r ≠ 0 := (C05_zero l r).2.2.1.mp ⟨w, h⟩
  have hw : w = fromI64 (divFloor (asInt l) (asInt r)) := by
    simp only [div] at h; split at h <;> simp_all
  have e := toInt_divFloor (asInt l) (asInt r) (ival_range l) h0
  refine ⟨Int.fdiv (ival l) (ival r), ?_, ?_, ?_⟩
  · rw [hw]; apply reduces_box; rw [e]; simp [ival]
  · intro hp
    have h1 := Int.mul_fdiv_add_fmod (ival l) (ival r)
    have h2 := Int.fmod_nonneg_of_pos (ival l) hp
    have h3 := Int.fmod_lt_of_pos (ival l) hp
    rw [Int.add_mul, Int.mul_comm]; omega
  · intro hn
    have h1 := Int.mul_fdiv_add_fmod (ival l) (ival r)
    have e : (ival l).fmod (ival r) = -((-(ival l)).fmod (-(ival r))) := by rw [Int.neg_fmod_neg]; omega
    have h2 := Int.fmod_nonneg_of_pos (-(ival l)) (b := -(ival r)) (by omega)
    have h3 := Int.fmod_lt_of_pos (-(ival l)) (b := -(ival r)) (by omega)
    rw [Int.add_mul, Int.mul_comm]; omega

/-- C05: `a = (a / b) * b + a % b` (in wrapping arithmetic, and exactly but for the one overflowing quotient),
and the remainder has the divisor's sign and smaller magnitude. -/
theorem C05_mod (l r q m : Word) (hq : div l r = .ok q) (hm : mod l r = .ok m) :
    Reduces (ival q * ival r + ival m) (ival l) ∧
    (0 < ival r → 0 ≤ ival m ∧ ival m < ival r) ∧ (ival r < 0 → ival r < ival m ∧ ival m ≤ 0) := by
  have h0 : ival r ≠ 0 := (C05_zero l r).2.2.1.mp ⟨q, hq⟩
  have hw : m = fromI64 (modFloor (asInt l) (asInt r)) := by
    simp only [mod] at hm; split at hm <;> simp_all
  have hw2 : q = fromI64 (divFloor (asInt l) (asInt r)) := by
    simp only [div] at hq; split at hq <;> simp_all
  have e := toInt_modFloor (asInt l) (asInt r) h0
  have e2 := toInt_divFloor (asInt l) (asInt r) (ival_range l) h0
  have h1 := Int.mul_fdiv_add_fmod (ival l) (ival r)
  have hr := ival_range r
  have hl := ival_range l
  have hp : 0 < ival r → 0 ≤ (ival l).fmod (ival r) ∧ (ival l).fmod (ival r) < ival r := fun hp =>
    ⟨Int.fmod_nonneg_of_pos (ival l) hp, Int.fmod_lt_of_pos (ival l) hp⟩
  have hn : ival r < 0 → ival r < (ival l).fmod (ival r) ∧ (ival l).fmod (ival r) ≤ 0 := fun hn => by
    have e : (ival l).fmod (ival r) = -((-(ival l)).fmod (-(ival r))) := by rw [Int.neg_fmod_neg]; omega
    have h2 := Int.fmod_nonneg_of_pos (-(ival l)) (b := -(ival r)) (by omega)
    have h3 := Int.fmod_lt_of_pos (-(ival l)) (b := -(ival r)) (by omega)
    omega
  have em : ival m = (ival l).fmod (ival r) := by
    have e' : (modFloor (asInt l) (asInt r)).toInt = (ival l).fmod (ival r) := e
    rw [hw, ival_box_exact _ (by rw [e']; omega), e']
  rw [em]
  refine ⟨⟨hl, ?_⟩, hp, hn⟩
  have hqr : Reduces ((ival l).fdiv (ival r)) (ival q) := by
    rw [hw2]; apply reduces_box; rw [e2]; simp [ival]
  obtain ⟨_, ⟨k, hk⟩⟩ := hqr
  refine ⟨-(k * ival r), ?_⟩
  have : ival q = (ival l).fdiv (ival r) - 2^63 * k := by omega
  rw [this, Int.sub_mul, Int.mul_comm ((ival l).fdiv (ival r))]
  have e3 : (2:Int)^63 * k * ival r = 2^63 * (k * ival r) := Int.mul_assoc _ _ _
  rw [e3, Int.mul_neg]; omega

example : div (fromI64 (-7)) (fromI64 2) = .ok (fromI64 (-4)) ∧ mod (fromI64 (-7)) (fromI64 2) = .ok (fromI64 1) ∧
    mod (fromI64 7) (fromI64 (-2)) = .ok (fromI64 (-1)) := by decide

/-! ## C06 -/

/-- C06 (partial): for exponents below `2^32`, `a ** n` is the `n`-fold product modulo `2^63`; a negative
exponent is an error.  Missing: exponents `≥ 2^32`, where the cast `as u32` changes the exponent, see
`C06_violation`. -/
theorem C06_pow_partial (l r : Word) :
    (ival r < 0 → ∃ e, pow l r = .error e) ∧
    (0 ≤ ival r → ival r < 2 ^ 32 → ∃ w, pow l r = .ok w ∧ Reduces ((ival l) ^ (ival r).toNat) (ival w)) := by
  constructor
  · intro h
    exact ⟨_, by rw [pow, if_neg (by show ¬ 0 ≤ ival r; omega)]⟩
  · intro h0 h1
    refine ⟨_, by rw [pow, if_pos (show 0 ≤ BitVec.toInt (asInt r) from h0)], ?_⟩
    have he : asU32 (asInt r) = (ival r).toNat := by
      have := toNat_toInt (asInt r) h0
      unfold asU32
      have : ((asInt r).toNat : Int) = ival r := this
      omega
    rw [he, i64Pow_eq]
    apply reduces_box
    exact toInt_pow_dvd _ _

private theorem pow_pred_two (n : Nat) (h : 0 < n) : (2:Int)^(n-1) * 2 = 2^n := by
  rw [← Int.pow_succ]; congr 1; omega

/-- C06 is false of the code for large exponents: `2 ** (2^32)` evaluates to 1, while the 2^32-fold
product of 2 is 0 modulo `2^63`. -/
theorem C06_violation :
    pow (fromI64 2) (fromI64 (2 ^ 32)) = .ok (fromI64 1) ∧
    ∀ n : Nat, (n : Int) = ival (fromI64 (2 ^ 32)) → ¬ Reduces ((ival (fromI64 2)) ^ n) (ival (fromI64 1)) := by
  have h0 : asInt (fromI64 (2^32)) = 2^32 := by decide
  constructor
  · have h1 : asInt (fromI64 2) = 2 := by decide
    rw [pow, h0, h1, if_pos (by decide)]
    have : asU32 (2 ^ 32) = 0 := by decide
    rw [this]; rfl
  · rintro n hn ⟨_, hd⟩
    have h1 : ival (fromI64 1) = 1 := by decide
    have h5 : ival (fromI64 2) = 2 := by decide
    have h6 : ival (fromI64 (2 ^ 32)) = 4294967296 := by decide
    rw [h1, h5] at hd
    have h2 : (2 : Int) ∣ 2 ^ n := Dvd.intro_left _ (pow_pred_two n (by omega))
    have h3 : (2 : Int) ∣ 2 ^ n - 1 := Int.dvd_trans (by decide) hd
    omega

example : 0 ≤ ival (fromI64 13) ∧ ival (fromI64 13) < 2 ^ 32 ∧ pow (fromI64 3) (fromI64 13) = .ok (fromI64 1594323) := by
  refine ⟨by decide, by decide, ?_⟩
  rw [pow, i64Pow_eq]; decide

/-! ## C07 -/

private theorem neg_asInt (r : Word) : (- asInt r).toInt = - ival r := by
  have := ival_range r
  rw [BitVec.toInt_neg]
  apply Int.bmod_eq_of_le <;> (simp; unfold ival at *; omega)

private theorem ofNat_dvd (n : Nat) (i : Int) (h : (n : Int) = i) : (2^63 : Int) ∣ i - (BitVec.ofNat 64 n).toInt := by
  rw [BitVec.toInt_eq_toNat_bmod, BitVec.toNat_ofNat, ← h]
  have := bmod_dvd ((n % 2^64 : Nat) : Int) (2^64)
  generalize Int.bmod ((n % 2^64 : Nat) : Int) (2^64) = z at *
  simp at this
  omega

private theorem shl_core (a r : I64) (ha : -(2^62) ≤ a.toInt ∧ a.toInt < 2^62) (h : -64 < r.toInt ∧ r.toInt < 64) :
    (0 ≤ r.toInt → Reduces (a.toInt * 2 ^ r.toInt.toNat) (ival (fromI64 (i64LeftShift a r)))) ∧
    (r.toInt ≤ 0 → ival (fromI64 (i64LeftShift a r)) = a.toInt / 2 ^ (-r.toInt).toNat) := by
  constructor
  · intro h0
    apply reduces_box
    have hn := toNat_toInt r h0
    have hk : r.toNat % 64 = r.toInt.toNat := by omega
    rw [i64LeftShift, if_pos h0, hk]
    generalize r.toInt.toNat = k
    have e : (a <<< k) = a * (BitVec.ofNat 64 (2 ^ k)) := by
      rw [BitVec.shiftLeft_eq_mul_twoPow]; congr 1
      apply BitVec.eq_of_toNat_eq; simp [BitVec.toNat_twoPow]
    rw [e]
    have h1 := toInt_mul_dvd a (BitVec.ofNat 64 (2^k))
    have h2 : (2^63 : Int) ∣ (2:Int)^k - (BitVec.ofNat 64 (2^k)).toInt := by
      exact ofNat_dvd (2^k) (2^k) (by push_cast; rfl)
    obtain ⟨x, hx⟩ := h1
    obtain ⟨y, hy⟩ := h2
    refine ⟨a.toInt * y + x, ?_⟩
    have e1 : (2:Int)^k = (BitVec.ofNat 64 (2^k)).toInt + 2^63 * y := by omega
    rw [e1]
    have e2 : (a * BitVec.ofNat 64 (2^k)).toInt = a.toInt * (BitVec.ofNat 64 (2^k)).toInt - 2^63 * x := by omega
    rw [e2]; ring
  · intro h0
    by_cases hz : r.toInt = 0
    · have hr : r = 0 := BitVec.toInt_inj.mp (by rw [hz]; rfl)
      subst hr
      have : i64LeftShift a 0 = a := by simp [i64LeftShift]
      rw [this, ival_box_exact _ ha]; simp
    · have hneg : ¬ 0 ≤ r.toInt := by omega
      have hm : (-r).toInt = - r.toInt := by
        have := toInt_range r
        rw [BitVec.toInt_neg]; apply Int.bmod_eq_of_le <;> (simp; omega)
      have hn := toNat_toInt (-r) (by omega)
      have hk : (-r).toNat % 64 = (-r.toInt).toNat := by omega
      have e : (i64LeftShift a r).toInt = a.toInt / 2 ^ (-r.toInt).toNat := by
        rw [i64LeftShift, if_neg hneg, hk, BitVec.toInt_sshiftRight, Int.shiftRight_eq_div_pow]; norm_cast
      rw [ival_box_exact, e]
      rw [e]
      have hp : (0:Int) < 2 ^ (-r.toInt).toNat := Int.pow_pos (by omega)
      constructor
      · apply (Int.le_ediv_iff_mul_le hp).mpr
        have : (1:Int) ≤ 2 ^ (-r.toInt).toNat := hp
        nlinarith
      · apply (Int.ediv_lt_iff_lt_mul hp).mpr
        have : (1:Int) ≤ 2 ^ (-r.toInt).toNat := hp
        nlinarith

/-- C07 (partial): for shift amounts of magnitude below 64, `a << n` multiplies by `2^n` (modulo `2^63`)
and `a >> n` is the floor of the quotient by `2^n`, a negative amount shifts the other way.
Missing: amounts of magnitude `≥ 64`, see `C07_violation`. -/
theorem C07_shift_partial (l r : Word) (h : -64 < ival r ∧ ival r < 64) :
    (0 ≤ ival r → Reduces (ival l * 2 ^ (ival r).toNat) (ival (shl l r)) ∧
                  ival (shr l r) = ival l / 2 ^ (ival r).toNat) ∧
    (ival r ≤ 0 → ival (shl l r) = ival l / 2 ^ (-ival r).toNat ∧
                  Reduces (ival l * 2 ^ (-ival r).toNat) (ival (shr l r))) := by
  have hl := ival_range l
  have hn := neg_asInt r
  have c1 := shl_core (asInt l) (asInt r) hl h
  have c2 := shl_core (asInt l) (- asInt r) hl (by rw [hn]; omega)
  rw [hn] at c2
  constructor
  · intro h0
    refine ⟨c1.1 h0, ?_⟩
    have := c2.2 (by omega)
    rw [Int.neg_neg] at this
    exact this
  · intro h0
    exact ⟨c1.2 h0, c2.1 (by omega)⟩

/-- C07 is false of the (release) code for large amounts: `1 << 64` is 1 and `4 >> 64` is 4. -/
theorem C07_violation :
    ival (shl (fromI64 1) (fromI64 64)) = 1 ∧ ¬ Reduces (1 * 2 ^ 64) 1 ∧
    ival (shr (fromI64 4) (fromI64 64)) = 4 ∧ (4 : Int) / 2 ^ 64 ≠ 4 := by
  refine ⟨by decide, ?_, by decide, by decide⟩
  rintro ⟨_, h⟩
  revert h; decide

example : ival (shl (fromI64 (-5)) (fromI64 3)) = -40 ∧ ival (shr (fromI64 (-5)) (fromI64 1)) = -3 ∧
    ival (shl (fromI64 (-5)) (fromI64 (-1))) = -3 := by decide

end Cordy.Arith
