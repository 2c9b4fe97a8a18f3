import Verif.Model.Arith
import Verif.Lemmas.Repr
import Mathlib.Tactic.Ring
/-! Helper lemmas for integer arithmetic. -/
namespace Cordy.Arith
open Cordy.Repr

/-- The integer a word stands for. -/
def ival (w : Word) : Int := (asInt w).toInt

theorem toInt_range (v : I64) : -(2^63) ≤ v.toInt ∧ v.toInt < 2^63 := by
  have := BitVec.toInt_lt (x := v)
  have := BitVec.le_toInt (x := v)
  simp at *; omega

theorem asInt_fromI64 (v : I64) : asInt (fromI64 v) = asPreciseInt (fromI64 v) := by
  have h1 : isPreciseInt (fromI64 v) = true := by
    rw [isPreciseInt_iff, toNat_fromI64]; omega
  simp [asInt, h1]

theorem ival_box (v : I64) : ival (fromI64 v) = Int.bmod v.toInt (2 ^ 63) := by
  rw [ival, asInt_fromI64, toInt_asPreciseInt_fromI64]

theorem ival_range (w : Word) : -(2^62) ≤ ival w ∧ ival w < 2^62 := by
  unfold ival asInt
  split
  · have := toInt_range w
    rw [asPreciseInt, BitVec.toInt_sshiftRight, Int.shiftRight_eq_div_pow]; omega
  · split <;> decide

theorem ival_fromBool (b : Bool) : ival (fromBool b) = if b then 1 else 0 := by cases b <;> decide

theorem bmod_dvd (i : Int) (m : Nat) : (m : Int) ∣ i - Int.bmod i m := by
  have h := Int.emod_emod_of_dvd i (Int.dvd_refl (m:Int))
  have : Int.bmod i m % m = i % m := Int.bmod_emod
  exact Int.dvd_of_emod_eq_zero (by rw [Int.sub_emod, this]; simp)

theorem bmod63_dvd (i : Int) : (2^63 : Int) ∣ i - Int.bmod i (2^63) := by
  have := bmod_dvd i (2^63)
  simpa using this

/-- `toInt` of a wrapped operation is congruent to the exact result. -/
theorem toInt_add_dvd (a b : I64) : (2^63 : Int) ∣ (a.toInt + b.toInt) - (a + b).toInt := by
  rw [BitVec.toInt_add]
  have := bmod_dvd (a.toInt + b.toInt) (2^64)
  simp at this ⊢; omega

theorem toInt_sub_dvd (a b : I64) : (2^63 : Int) ∣ (a.toInt - b.toInt) - (a - b).toInt := by
  rw [BitVec.toInt_sub]
  have := bmod_dvd (a.toInt - b.toInt) (2^64)
  simp at this ⊢; omega

theorem toInt_mul_dvd (a b : I64) : (2^63 : Int) ∣ (a.toInt * b.toInt) - (a * b).toInt := by
  rw [BitVec.toInt_mul]
  have := bmod_dvd (a.toInt * b.toInt) (2^64)
  simp at this ⊢; omega

theorem toInt_neg_dvd (a : I64) : (2^63 : Int) ∣ (- a.toInt) - (- a).toInt := by
  rw [BitVec.toInt_neg]
  have := bmod_dvd (-a.toInt) (2^64)
  simp at this ⊢; omega

/-- Truncated division as floor division. -/
theorem fdiv_of_tdiv (a b : Int) (hb : b ≠ 0) :
    Int.fdiv a b = (if (0 < a.tmod b ∧ b < 0) ∨ (a.tmod b < 0 ∧ 0 < b) then a.tdiv b - 1 else a.tdiv b) ∧
    Int.fmod a b = (if (0 < a.tmod b ∧ b < 0) ∨ (a.tmod b < 0 ∧ 0 < b) then a.tmod b + b else a.tmod b) := by
  have h1 := Int.mul_tdiv_add_tmod a b
  have h2 : (a.tmod b).natAbs < b.natAbs := by
    rw [Int.natAbs_tmod]; exact Nat.mod_lt _ (by omega)
  have h3 := Int.mul_fdiv_add_fmod a b
  have h4 : (0 < b → 0 ≤ a.fmod b ∧ a.fmod b < b) := fun h => ⟨Int.fmod_nonneg_of_pos a h, Int.fmod_lt_of_pos a h⟩
  have h5 : (b < 0 → a.fmod b ≤ 0 ∧ b < a.fmod b) := fun h => by
    have e : a.fmod b = -((-a).fmod (-b)) := by rw [Int.neg_fmod_neg]; omega
    have := Int.fmod_nonneg_of_pos (-a) (b := -b) (by omega)
    have := Int.fmod_lt_of_pos (-a) (b := -b) (by omega)
    omega
  generalize a.tmod b = r at *
  generalize a.tdiv b = q at *
  generalize a.fmod b = r' at *
  generalize a.fdiv b = q' at *
  have key : b * (q - q') = r' - r := by rw [Int.mul_sub]; omega
  have small : ∀ c : Int, (r' - r = b * c) → ((c = q - q')) := by
    intro c hc
    rw [← key] at hc
    exact (Int.eq_of_mul_eq_mul_left hb hc).symm
  -- the difference of the remainders is 0 or ±b
  have hcases : q - q' = 0 ∨ q - q' = 1 ∨ q - q' = -1 := by
    have hlt : (b * (q - q')).natAbs < 2 * b.natAbs := by
      rw [key]
      rcases Int.lt_or_gt_of_ne hb with h | h
      · have := h5 h; omega
      · have := h4 h; omega
    rw [Int.natAbs_mul] at hlt
    have hb' : 0 < b.natAbs := by omega
    have : (q - q').natAbs < 2 := by
      rw [Nat.mul_comm 2] at hlt
      exact Nat.lt_of_mul_lt_mul_left hlt
    omega
  rcases hcases with h | h | h
  · rw [h] at key
    have hr : r' = r := by simpa [Int.sub_eq_zero] using key.symm
    have hq : q' = q := by omega
    rcases Int.lt_or_gt_of_ne hb with h' | h'
    · have := h5 h'; constructor <;> (rw [if_neg (by omega)]; omega)
    · have := h4 h'; constructor <;> (rw [if_neg (by omega)]; omega)
  · rw [h] at key
    have hr : r' = r + b := by omega
    have hq : q' = q - 1 := by omega
    rcases Int.lt_or_gt_of_ne hb with h' | h'
    · have := h5 h'; constructor <;> (rw [if_pos (by omega)]; omega)
    · have := h4 h'; constructor <;> (rw [if_pos (by omega)]; omega)
  · rw [h] at key
    have hr : r' = r - b := by omega
    rcases Int.lt_or_gt_of_ne hb with h' | h'
    · have := h5 h'; omega
    · have := h4 h'; omega

/-- Operands within 63 bits: `sdiv` and `srem` are exact. -/
theorem toInt_sdiv_exact (a b : I64) (ha : -(2^62) ≤ a.toInt) : (a.sdiv b).toInt = a.toInt.tdiv b.toInt := by
  have : a ≠ BitVec.intMin 64 ∨ b ≠ -1#64 := by
    left; rintro rfl; revert ha; decide
  rw [BitVec.toInt_sdiv_of_ne_or_ne a b this]

theorem toInt_divFloor (a b : I64) (ha : -(2^62) ≤ a.toInt ∧ a.toInt < 2^62) (hb : b.toInt ≠ 0) :
    (divFloor a b).toInt = Int.fdiv a.toInt b.toInt := by
  have h := (fdiv_of_tdiv a.toInt b.toInt hb).1
  have e1 := toInt_sdiv_exact a b ha.1
  have e2 := BitVec.toInt_srem a b
  have hq : (a.toInt.tdiv b.toInt).natAbs ≤ a.toInt.natAbs := Int.natAbs_tdiv_le_natAbs _ _
  simp only [divFloor, e2, h]
  split
  · rw [BitVec.toInt_sub, e1]
    have : (1 : I64).toInt = 1 := rfl
    rw [this]
    apply Int.bmod_eq_of_le <;> simp <;> omega
  · exact e1

theorem toInt_modFloor (a b : I64) (hb : b.toInt ≠ 0) :
    (modFloor a b).toInt = Int.fmod a.toInt b.toInt := by
  have h := (fdiv_of_tdiv a.toInt b.toInt hb).2
  have e2 := BitVec.toInt_srem a b
  have hq : (a.toInt.tmod b.toInt).natAbs < b.toInt.natAbs := by
    rw [Int.natAbs_tmod]; exact Nat.mod_lt _ (by omega)
  have := toInt_range b
  simp only [modFloor, e2, h]
  split
  · rw [BitVec.toInt_add, e2]
    apply Int.bmod_eq_of_le <;> simp <;> omega
  · exact e2

theorem asInt_eq_zero_iff (w : Word) : asInt w = 0 ↔ ival w = 0 := by
  unfold ival
  constructor
  · intro h; rw [h]; rfl
  · intro h; exact BitVec.toInt_inj.mp (by rw [h]; rfl)

/-! ### Power -/

theorem sq_pow (b : I64) (n : Nat) : (b * b) ^ n = b ^ (2 * n) := by
  induction n with
  | zero => simp
  | succ n ih =>
    rw [BitVec.pow_succ, ih, Nat.mul_succ, BitVec.pow_succ, BitVec.pow_succ, BitVec.mul_assoc]

theorem powLoop_eq (base acc : I64) (e : Nat) (he : 1 ≤ e) : powLoop base acc e = acc * base ^ e := by
  induction e using Nat.strongRecOn generalizing base acc with
  | _ e ih =>
    unfold powLoop
    split
    · have : e = 1 := by omega
      subst this; simp
    · rename_i h
      rw [ih (e / 2) (by omega) _ _ (by omega), sq_pow]
      split
      · have h2 : e = 2 * (e / 2) + 1 := by omega
        conv => rhs; rw [h2, BitVec.pow_succ]
        rw [BitVec.mul_assoc, BitVec.mul_comm base]
      · have h2 : e = 2 * (e / 2) := by omega
        conv => rhs; rw [h2]

theorem i64Pow_eq (a : I64) (e : Nat) : i64Pow a e = a ^ e := by
  unfold i64Pow
  split
  · next h => subst h; simp
  · next h => rw [powLoop_eq _ _ _ (by omega)]; exact BitVec.one_mul _

theorem toInt_pow_dvd (a : I64) (e : Nat) : (2^63 : Int) ∣ a.toInt ^ e - (a ^ e).toInt := by
  induction e with
  | zero => simp
  | succ e ih =>
    rw [BitVec.pow_succ, Int.pow_succ (BitVec.toInt a) e]
    have h1 := toInt_mul_dvd (a ^ e) a
    obtain ⟨k, hk⟩ := ih
    obtain ⟨l, hl⟩ := h1
    refine ⟨k * a.toInt + l, ?_⟩
    have : a.toInt ^ e = 2^63 * k + (a^e).toInt := by omega
    rw [this]
    rw [Int.add_mul]
    have : (a ^ e * a).toInt = (a^e).toInt * a.toInt - 2^63 * l := by omega
    rw [this]; ring

/-! ### Bits of signed integers -/

/-- Bit `k` of the infinite two's complement expansion. -/
def bit (i : Int) (k : Nat) : Bool := (i / 2 ^ k) % 2 = 1

theorem toInt_emod_two (v : I64) : v.toInt % 2 = if v.getLsbD 0 then 1 else 0 := by
  have h : v.toInt % 2 = (v.toNat : Int) % 2 := by
    rw [BitVec.toInt_eq_toNat_bmod]
    simp only [Int.bmod]; split <;> omega
  rw [h]
  have : v.getLsbD 0 = decide (v.toNat % 2 = 1) := by simp [BitVec.getLsbD, Nat.testBit_zero]
  rw [this]
  by_cases h2 : v.toNat % 2 = 1
  · simp [h2]; omega
  · simp [h2]; omega

theorem bit_toInt (v : I64) (k : Nat) : bit v.toInt k = if k < 64 then v.getLsbD k else v.msb := by
  have h : v.toInt / 2 ^ k = (v.sshiftRight k).toInt := by
    rw [BitVec.toInt_sshiftRight, Int.shiftRight_eq_div_pow]; norm_cast
  rw [bit, h, toInt_emod_two]
  have : ((v.sshiftRight k).getLsbD 0) = if k < 64 then v.getLsbD k else v.msb := by
    rw [BitVec.getLsbD_sshiftRight]
    simp
  rw [this]
  cases (if k < 64 then v.getLsbD k else v.msb) <;> simp

/-- Boxing keeps integers that fit in 63 bits. -/
theorem ival_box_exact (v : I64) (h : -(2^62) ≤ v.toInt ∧ v.toInt < 2^62) : ival (fromI64 v) = v.toInt := by
  rw [ival_box]; apply Int.bmod_eq_of_le <;> simp <;> omega

/-- A 64-bit integer fits in 63 bits iff its two top bits agree. -/
theorem fits_iff (v : I64) : (-(2^62) ≤ v.toInt ∧ v.toInt < 2^62) ↔ v.getLsbD 62 = v.msb := by
  have hb : v.msb = v.getLsbD 63 := by simp [BitVec.msb_eq_getLsbD_last]
  have h62 := bit_toInt v 62
  have h63 := bit_toInt v 63
  simp only [show (62 < 64) = True by simp, show (63 < 64) = True by simp, if_true] at h62 h63
  rw [hb, ← h62, ← h63]
  have := toInt_range v
  simp only [bit]
  rw [decide_eq_decide]
  omega

theorem asInt_fits (w : Word) : (asInt w).getLsbD 62 = (asInt w).msb := (fits_iff _).mp (ival_range w)

theorem toNat_toInt (v : I64) (h : 0 ≤ v.toInt) : (v.toNat : Int) = v.toInt := by
  have hv := v.isLt
  rw [BitVec.toInt_eq_toNat_bmod] at h ⊢
  simp only [Int.bmod] at h ⊢
  split at h <;> simp_all <;> omega

end Cordy.Arith
