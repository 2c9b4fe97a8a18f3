import Verif.Model.Operator
import Verif.Lemmas.Arith
import Mathlib.NumberTheory.Zsqrtd.Basic
import Mathlib.Tactic.Ring
import Mathlib.Tactic.Linarith
/-! # Lemmas about the operators: the machine arithmetic is a ring homomorphism image -/
namespace Cordy.Op
open Cordy.Repr Cordy.Arith

theorem i64_add (a b : Int) : i64 a + i64 b = i64 (a + b) := (BitVec.ofInt_add a b).symm
theorem i64_mul (a b : Int) : i64 a * i64 b = i64 (a * b) := (BitVec.ofInt_mul a b).symm
theorem i64_neg (a : Int) : - i64 a = i64 (-a) := (BitVec.ofInt_neg).symm
theorem i64_sub (a b : Int) : i64 a - i64 b = i64 (a - b) := by
  rw [BitVec.sub_eq_add_neg, i64_neg, i64_add, Int.sub_eq_add_neg]
theorem i64_one : (1 : I64) = i64 1 := rfl
theorem i64_zero : (0 : I64) = i64 0 := rfl

theorem toInt_i64 (a : Int) : (i64 a).toInt = Int.bmod a (2 ^ 64) := BitVec.toInt_ofInt a

theorem toInt_i64_exact (a : Int) (h : -(2 ^ 63) ≤ a ∧ a < 2 ^ 63) : (i64 a).toInt = a := by
  rw [toInt_i64, Int.bmod_eq_of_le] <;> omega

theorem i64_eq_zero_iff (a : Int) : i64 a = 0 ↔ (2 ^ 64 : Int) ∣ a := by
  rw [← BitVec.toInt_inj, toInt_i64]
  simp only [Int.bmod]
  constructor
  · intro h; split at h <;> simp at h <;> omega
  · intro h; simp; omega

/-- A Gaussian integer as a pair of machine words. -/
def emb (z : ℤ√(-1)) : I64 × I64 := (i64 z.re, i64 z.im)

theorem cadd_emb (a b : ℤ√(-1)) : cadd (emb a) (emb b) = emb (a + b) := by
  simp only [cadd, emb, i64_add, Zsqrtd.re_add, Zsqrtd.im_add]
theorem csub_emb (a b : ℤ√(-1)) : csub (emb a) (emb b) = emb (a - b) := by
  simp only [csub, emb, i64_sub, Zsqrtd.re_sub, Zsqrtd.im_sub]
theorem cmul_emb (a b : ℤ√(-1)) : cmul (emb a) (emb b) = emb (a * b) := by
  simp only [cmul, emb, i64_mul, i64_sub, i64_add, Zsqrtd.re_mul, Zsqrtd.im_mul]
  congr 2
  ring
theorem cneg_emb (a : ℤ√(-1)) : cneg (emb a) = emb (-a) := by
  simp only [cneg, emb, i64_neg, Zsqrtd.re_neg, Zsqrtd.im_neg]
theorem cconj_emb (a : ℤ√(-1)) : cconj (emb a) = emb (star a) := by
  simp only [cconj, emb, i64_neg, Zsqrtd.re_star, Zsqrtd.im_star]
theorem cnorm_emb (a : ℤ√(-1)) : cnorm (emb a) = i64 (a.re * a.re + a.im * a.im) := by
  simp only [cnorm, emb, i64_mul, i64_add]

theorem cpowEven_emb (z : ℤ√(-1)) (e : Nat) (he : 0 < e) :
    ∃ w e', cpowEven (emb z) e = (emb w, e') ∧ e' % 2 = 1 ∧ w ^ e' = z ^ e := by
  induction e using Nat.strongRecOn generalizing z with
  | ind e ih =>
    rw [cpowEven]
    split
    · rename_i h
      rw [cmul_emb]
      obtain ⟨w, e', h1, h2, h3⟩ := ih (e / 2) (by omega) (z * z) (by omega)
      refine ⟨w, e', h1, h2, ?_⟩
      rw [h3, ← pow_two, ← pow_mul]
      congr 1
      omega
    · exact ⟨z, e, rfl, by omega, rfl⟩

theorem cpowOdd_emb (e : Nat) : ∀ (b a : ℤ√(-1)), cpowOdd (emb b) (emb a) e = emb (a * b ^ (2 * (e / 2))) := by
  induction e using Nat.strongRecOn with
  | ind e ih =>
    intro b a
    rw [cpowOdd]
    split
    · rename_i h
      rw [cmul_emb]
      have hk : (if e / 2 % 2 = 1 then cmul (emb a) (emb (b * b)) else emb a) =
          emb (a * b ^ (2 * (e / 2 % 2))) := by
        have h2 : e / 2 % 2 = 0 ∨ e / 2 % 2 = 1 := by omega
        rcases h2 with h2 | h2 <;> rw [h2]
        · simp
        · rw [if_pos rfl, cmul_emb, mul_one, pow_two]
      rw [hk, ih (e / 2) (by omega)]
      congr 1
      rw [← pow_two, ← pow_mul, mul_assoc, ← pow_add]
      congr 2
      omega
    · have : e / 2 = 0 := by omega
      simp [this]

theorem cpow_emb (z : ℤ√(-1)) (e : Nat) : cpow (emb z) e = emb (z ^ e) := by
  rw [cpow]
  split
  · rename_i h; subst h; rfl
  · rename_i h
    obtain ⟨w, e', h1, h2, h3⟩ := cpowEven_emb z e (by omega)
    simp only [h1]
    split
    · rename_i h4; rw [h4, pow_one] at h3; rw [h3]
    · rw [cpowOdd_emb]
      congr 1
      rw [← h3]
      have : 2 * (e' / 2) = e' - 1 := by omega
      rw [this, mul_comm, ← pow_succ]
      congr 1
      omega

theorem i64_pow (a : Int) (e : Nat) : (i64 a) ^ e = i64 (a ^ e) := by
  induction e with
  | zero => simp [i64]
  | succ n ih => rw [BitVec.pow_succ, ih, i64_mul, pow_succ]

theorem toInt_divFloor_pos (a b : I64) (hb : 0 < b.toInt) : (divFloor a b).toInt = Int.fdiv a.toInt b.toInt := by
  have e1 : (a.sdiv b).toInt = a.toInt.tdiv b.toInt := by
    apply BitVec.toInt_sdiv_of_ne_or_ne
    right; rintro rfl; revert hb; decide
  have h := (fdiv_of_tdiv a.toInt b.toInt (by omega)).1
  have e2 := BitVec.toInt_srem a b
  have hq : (a.toInt.tdiv b.toInt).natAbs ≤ a.toInt.natAbs := Int.natAbs_tdiv_le_natAbs _ _
  have hrng := toInt_range a
  have hlo : -(2^63) ≤ a.toInt.fdiv b.toInt := by
    have e1 := Int.mul_fdiv_add_fmod a.toInt b.toInt
    have e3 := Int.fmod_lt_of_pos a.toInt hb
    by_contra hc
    have : b.toInt * a.toInt.fdiv b.toInt ≤ b.toInt * (-(2^63) - 1) := Int.mul_le_mul_of_nonneg_left (by omega) (by omega)
    nlinarith
  simp only [divFloor, e2, h]
  split
  · rename_i hc
    rw [if_pos hc] at h
    rw [BitVec.toInt_sub, e1]
    have : (1 : I64).toInt = 1 := rfl
    rw [this]
    apply Int.bmod_eq_of_le <;> simp <;> omega
  · exact e1

end Cordy.Op
