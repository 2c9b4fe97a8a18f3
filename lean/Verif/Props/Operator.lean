import Verif.Lemmas.Operator
import Verif.Props.Arith
import Verif.Props.Range
/-!
# Properties C08 (complex arithmetic), C55 (vector arithmetic), C61 (rational arithmetic)

Specification side: `gauss v` is the Gaussian integer a number value stands for (Mathlib's `ℤ√(-1)` with its ring
operations), and `Represents z v` says `v` is *the* value that stands for `z` when `z` fits the machine representation,
and for its residue otherwise: an int when the imaginary part vanishes, a complex value otherwise.
-/
namespace Cordy.Op
open Cordy.Repr Cordy.Arith

/-- The Gaussian integer a `bool`, `int` or `complex` value stands for. -/
def gauss : Val → Option (ℤ√(-1))
  | .bool b => some ⟨if b then 1 else 0, 0⟩
  | .int i => some ⟨i, 0⟩
  | .complex re im => some ⟨re, im⟩
  | _ => none

/-- An `i64`. -/
def InI64 (i : Int) : Prop := -(2 ^ 63) ≤ i ∧ i < 2 ^ 63

/-- The values the machine can hold: ints of 63 bits, complex parts of 64 bits with non-zero imaginary part. -/
def Machine : Val → Prop
  | .int i => InIntRange i
  | .complex a b => InI64 a ∧ InI64 b ∧ b ≠ 0
  | _ => True

/-- `v` is the value of the result `z`, reduced to the machine's range. -/
inductive Represents (z : ℤ√(-1)) : Val → Prop
  | int (i : Int) : InIntRange i → (2 ^ 64 : Int) ∣ z.im → (2 ^ 63 : Int) ∣ z.re - i → Represents z (.int i)
  | complex (a b : Int) : InI64 a → InI64 b → b ≠ 0 → (2 ^ 64 : Int) ∣ z.re - a → (2 ^ 64 : Int) ∣ z.im - b →
      Represents z (.complex a b)

/-- Results that fit are exact: an int for a real result, else the complex number itself. -/
theorem C08_exact (z : ℤ√(-1)) (v : Val) (h : Represents z v) (hr : InI64 z.re) (hi : InI64 z.im) :
    (z.im = 0 → InIntRange z.re → v = .int z.re) ∧ (z.im ≠ 0 → v = .complex z.re z.im) := by
  unfold InI64 InIntRange at *
  cases h with
  | int i h1 h2 h3 =>
    unfold InIntRange at *
    refine ⟨fun _ h => ?_, fun h => ?_⟩
    · congr 1; omega
    · exfalso; omega
  | complex a b h1 h2 h3 h4 h5 =>
    unfold InI64 at *
    refine ⟨fun _ h => ?_, fun h => ?_⟩
    · exfalso; omega
    · congr 1 <;> omega

/-- The result is determined. -/
theorem C08_unique (z : ℤ√(-1)) (v w : Val) (hv : Represents z v) (hw : Represents z w) : v = w := by
  cases hv <;> cases hw <;> simp only [InIntRange, InI64] at * <;> (try congr 1) <;> omega

theorem rep_boxI (i : Int) : Represents ⟨i, 0⟩ (boxI (i64 i)) := by
  unfold boxI
  rw [toInt_i64]
  have h : InIntRange ((i.bmod (2 ^ 64)).bmod (2 ^ 63)) := by
    unfold InIntRange
    have h1 := Int.le_bmod (x := i.bmod (2 ^ 64)) (m := 2 ^ 63) (by decide)
    have h2 := Int.bmod_lt (x := i.bmod (2 ^ 64)) (m := 2 ^ 63) (by decide)
    omega
  refine .int _ h (Int.dvd_zero _) ?_
  have h1 := bmod_dvd i (2 ^ 64)
  have h2 := bmod_dvd (i.bmod (2 ^ 64)) (2 ^ 63)
  simp only at *
  omega

theorem rep_boxC (z : ℤ√(-1)) : Represents z (boxC (emb z)) := by
  unfold boxC
  split
  · rename_i h
    have h := (i64_eq_zero_iff _).1 h
    have := rep_boxI z.re
    unfold boxI at *
    cases this with
    | int _ h1 _ h3 => exact .int _ h1 h h3
  · rename_i h
    have h : ¬ i64 z.im = 0 := h
    rw [i64_eq_zero_iff] at h
    have b1 := toInt_range (i64 z.re)
    have b2 := toInt_range (i64 z.im)
    have h1 := bmod_dvd z.re (2 ^ 64)
    have h2 := bmod_dvd z.im (2 ^ 64)
    simp only [emb]
    refine .complex _ _ b1 b2 ?_ ?_ ?_ <;> rw [toInt_i64] <;> omega

theorem gauss_intOf {v : Val} {a : ℤ√(-1)} (h : gauss v = some a) :
    (intOf v = some (i64 a.re) ∧ a.im = 0) ∨ (intOf v = none ∧ ∃ re im, v = .complex re im ∧ a = ⟨re, im⟩) := by
  cases v <;> simp [gauss] at h <;> subst h <;> simp [intOf]
  rename_i b; cases b <;> rfl

theorem machine_real {v : Val} {a : ℤ√(-1)} (m : Machine v) (h : gauss v = some a) (hi : a.im = 0) :
    InIntRange a.re := by
  cases v <;> simp [gauss] at h <;> subst h <;> simp only [Machine] at m
  · rename_i b; cases b <;> decide
  · exact m
  · exact absurd hi m.2.2

theorem gauss_cplxOf {v : Val} {a : ℤ√(-1)} (h : gauss v = some a) : cplxOf v = some (emb a) := by
  cases v <;> simp [gauss] at h <;> subst h <;> simp [cplxOf, emb]
  · rename_i b; cases b <;> exact ⟨rfl, rfl⟩
  · rfl

theorem gauss_real {a : ℤ√(-1)} (h : a.im = 0) : a = ⟨a.re, 0⟩ := by
  ext <;> simp [h]

theorem numArm_gauss {fi fc fq} {l r : Val} {a b : ℤ√(-1)} (hl : gauss l = some a) (hr : gauss r = some b) :
    (a.im = 0 ∧ b.im = 0 ∧ numArm fi fc fq l r = some (fi (i64 a.re) (i64 b.re))) ∨
    numArm fi fc fq l r = some (fc (emb a) (emb b)) := by
  have cl := gauss_cplxOf hl
  have cr := gauss_cplxOf hr
  rcases gauss_intOf hl with ⟨h1, h2⟩ | ⟨h1, _⟩ <;> rcases gauss_intOf hr with ⟨h3, h4⟩ | ⟨h3, _⟩
  · exact .inl ⟨h2, h4, by simp [numArm, h1, h3]⟩
  all_goals exact .inr (by simp [numArm, h1, h3, cl, cr])

theorem fdiv_mul_self (a b : Int) (hb : b ≠ 0) : Int.fdiv (a * b) (b * b) = Int.fdiv a b := by
  have h1 := Int.mul_fdiv_add_fmod a b
  have hpos : 0 < b * b := by nlinarith [mul_self_pos.2 hb]
  rw [Int.fdiv_eq_ediv_of_nonneg _ hpos.le]
  have hlow : 0 ≤ b * Int.fmod a b ∧ b * Int.fmod a b < b * b := by
    rcases Int.lt_or_gt_of_ne hb with h | h
    · have e : a.fmod b = -((-a).fmod (-b)) := by rw [Int.neg_fmod_neg]; omega
      have h2 := Int.fmod_nonneg_of_pos (-a) (b := -b) (by omega)
      have h3 := Int.fmod_lt_of_pos (-a) (b := -b) (by omega)
      constructor <;> nlinarith
    · have h2 := Int.fmod_nonneg_of_pos a h
      have h3 := Int.fmod_lt_of_pos a h
      constructor <;> nlinarith
  have : a * b = Int.fdiv a b * (b * b) + b * Int.fmod a b := by
    conv_lhs => rw [← h1]
    ring
  rw [this, Int.add_comm, Int.add_mul_ediv_right _ _ (by omega), Int.ediv_eq_zero_of_lt hlow.1 hlow.2]
  omega

private theorem ofArm (E : Env) (op : BinaryOp) (f) (hf : arm E op = some f) (l r : Val) (x : Res Val)
    (hx : f l r = some x) : binary E op l r = x := by
  rw [binary, hf]; show lift f l r = x; rw [lift.eq_def]; simp only [hx]

/-- C08: addition of ints, bools and complex numbers in any combination. -/
theorem C08_add (E : Env) (l r : Val) (a b : ℤ√(-1)) (hl : gauss l = some a) (hr : gauss r = some b) :
    ∃ v, binary E .add l r = .ok v ∧ Represents (a + b) v := by
  rcases numArm_gauss (fi := fun a b => .ok (boxI (a + b))) (fc := fun a b => .ok (boxC (cadd a b)))
    (fq := fun a b => .ok (boxQ (a + b))) hl hr with ⟨ha, hb, h⟩ | h
  · refine ⟨_, ofArm E .add _ rfl l r _ (by simp only [addArm, h]; rfl), ?_⟩
    rw [i64_add]
    have := rep_boxI (a.re + b.re)
    rwa [show (a + b) = ⟨a.re + b.re, 0⟩ by ext <;> simp [ha, hb]]
  · refine ⟨_, ofArm E .add _ rfl l r _ (by simp only [addArm, h]; rfl), ?_⟩
    rw [cadd_emb]; exact rep_boxC _

/-- C08: subtraction. -/
theorem C08_sub (E : Env) (l r : Val) (a b : ℤ√(-1)) (hl : gauss l = some a) (hr : gauss r = some b) :
    ∃ v, binary E .sub l r = .ok v ∧ Represents (a - b) v := by
  rcases numArm_gauss (fi := fun a b => .ok (boxI (a - b))) (fc := fun a b => .ok (boxC (csub a b)))
    (fq := fun a b => .ok (boxQ (a - b))) hl hr with ⟨ha, hb, h⟩ | h
  · refine ⟨_, ofArm E .sub _ rfl l r _ (by simp only [subArm, h]; rfl), ?_⟩
    rw [i64_sub]
    have := rep_boxI (a.re - b.re)
    rwa [show (a - b) = ⟨a.re - b.re, 0⟩ by ext <;> simp [ha, hb]]
  · refine ⟨_, ofArm E .sub _ rfl l r _ (by simp only [subArm, h]; rfl), ?_⟩
    rw [csub_emb]; exact rep_boxC _

/-- C08: multiplication. -/
theorem C08_mul (E : Env) (l r : Val) (a b : ℤ√(-1)) (hl : gauss l = some a) (hr : gauss r = some b) :
    ∃ v, binary E .mul l r = .ok v ∧ Represents (a * b) v := by
  rcases numArm_gauss (fi := fun a b => .ok (boxI (a * b))) (fc := fun a b => .ok (boxC (cmul a b)))
    (fq := fun a b => .ok (boxQ (a * b))) hl hr with ⟨ha, hb, h⟩ | h
  · refine ⟨_, ofArm E .mul _ rfl l r _ (by simp only [mulArm, h]; rfl), ?_⟩
    rw [i64_mul]
    have := rep_boxI (a.re * b.re)
    rwa [show (a * b) = ⟨a.re * b.re, 0⟩ by ext <;> simp [ha, hb]]
  · refine ⟨_, ofArm E .mul _ rfl l r _ (by simp only [mulArm, h]; rfl), ?_⟩
    rw [cmul_emb]; exact rep_boxC _

/-- C08: negation, and for complex numbers `!` is the conjugate. -/
theorem C08_neg (v : Val) (a : ℤ√(-1)) (h : gauss v = some a) :
    (∃ w, unary .neg v = .ok w ∧ Represents (-a) w) ∧
    (∀ re im, v = .complex re im → ∃ w, unary .not v = .ok w ∧ Represents (star a) w) := by
  constructor
  · cases v <;> simp [gauss] at h
    · rename_i b
      refine ⟨_, by simp only [unary, neg]; rfl, ?_⟩
      have := rep_boxI (-(if b then 1 else 0))
      rw [← h, show -(⟨if b then 1 else 0, 0⟩ : ℤ√(-1)) = ⟨-(if b then 1 else 0), 0⟩ by ext <;> simp]
      rw [← i64_neg] at this
      cases b <;> exact this
    · rename_i i
      refine ⟨_, by simp only [unary, neg]; rfl, ?_⟩
      have := rep_boxI (-i)
      rw [← h, show -(⟨i, 0⟩ : ℤ√(-1)) = ⟨-i, 0⟩ by ext <;> simp, i64_neg]
      exact this
    · rename_i re im
      refine ⟨_, by simp only [unary, neg]; rfl, ?_⟩
      rw [show (i64 re, i64 im) = emb ⟨re, im⟩ from rfl, h, cneg_emb]
      exact rep_boxC _
  · rintro re im rfl
    simp [gauss] at h
    refine ⟨_, by simp only [unary, bnot]; rfl, ?_⟩
    rw [show (i64 re, i64 im) = emb ⟨re, im⟩ from rfl, h, cconj_emb]
    exact rep_boxC _

/-- C08: a natural power of a number, for exponents below `2^32` (see `C06_violation` for larger ones). -/
theorem C08_pow_partial (E : Env) (l : Val) (a : ℤ√(-1)) (n : Nat) (hl : gauss l = some a) (hn : n < 2 ^ 32) :
    ∃ v, binary E .pow l (.int n) = .ok v ∧ Represents (a ^ n) v := by
  have hn' : ((i64 n).toInt : Int) = n := toInt_i64_exact _ (by omega)
  have hu : asU32 (i64 n) = n := by
    have := toNat_toInt (i64 n) (by omega)
    unfold asU32; omega
  have h0 : (0 : Int) ≤ (i64 n).toInt := by omega
  have key : ∀ x : Int, (x : ℤ√(-1)) ^ n = ⟨x ^ n, 0⟩ := by
    intro x
    rw [← Int.cast_pow]; ext
    · exact Zsqrtd.re_intCast _
    · exact Zsqrtd.im_intCast _
  have cast : ∀ x : Int, (⟨x, 0⟩ : ℤ√(-1)) = (x : ℤ√(-1)) := by intro x; ext <;> simp
  cases l <;> simp [gauss] at hl
  · rename_i b
    refine ⟨_, ofArm E .pow _ rfl _ _ _ (by simp only [powArm, intOf, if_pos h0]; rfl), ?_⟩
    rw [← hl, cast, key, hu, i64Pow_eq]
    have := rep_boxI ((if b then 1 else 0) ^ n)
    rw [← i64_pow] at this
    cases b <;> exact this
  · rename_i i
    refine ⟨_, ofArm E .pow _ rfl _ _ _ (by simp only [powArm, intOf, if_pos h0]; rfl), ?_⟩
    rw [← hl, cast, key, hu, i64Pow_eq, i64_pow]
    exact rep_boxI (i ^ n)
  · rename_i re im
    refine ⟨_, ofArm E .pow _ rfl _ _ _ (by simp only [powArm, intOf, if_pos h0]; rfl), ?_⟩
    rw [hu, show (i64 re, i64 im) = emb ⟨re, im⟩ from rfl, hl, cpow_emb]
    exact rep_boxC _

/-- C08: division.  The exact quotient of `a` by `b` is `a * conj b / (|b|²)`; the result has the floors of its parts.
Missing: divisors and dividends for which `|b|²` or `a * conj b` exceeds 63 bits (`C08_violation_div`). -/
theorem C08_div_partial (E : Env) (l r : Val) (a b : ℤ√(-1)) (hl : gauss l = some a) (hr : gauss r = some b)
    (hn : b.re * b.re + b.im * b.im < 2 ^ 63) (h1 : InI64 (a * star b).re) (h2 : InI64 (a * star b).im)
    (ml : Machine l) (mr : Machine r) :
    (binary E .div l r = .error .divZero ↔ b = 0) ∧
    (b ≠ 0 → ∃ v, binary E .div l r = .ok v ∧
      Represents ⟨(a * star b).re / (b.re * b.re + b.im * b.im), (a * star b).im / (b.re * b.re + b.im * b.im)⟩ v) := by
  have hz : b = 0 ↔ b.re = 0 ∧ b.im = 0 := by rw [Zsqrtd.ext_iff]; rfl
  have hz0 : (∀ v, binary E .div l r = .ok v → b ≠ 0) → (b = 0 → binary E .div l r = .error .divZero) → 
      (b ≠ 0 → ∃ v, binary E .div l r = .ok v ∧
      Represents ⟨(a * star b).re / (b.re * b.re + b.im * b.im), (a * star b).im / (b.re * b.re + b.im * b.im)⟩ v) →
      (binary E .div l r = .error .divZero ↔ b = 0) ∧ (b ≠ 0 → ∃ v, binary E .div l r = .ok v ∧
      Represents ⟨(a * star b).re / (b.re * b.re + b.im * b.im), (a * star b).im / (b.re * b.re + b.im * b.im)⟩ v) := by
    intro _ g h
    refine ⟨⟨fun e => ?_, g⟩, h⟩
    by_contra hb
    obtain ⟨v, hv, _⟩ := h hb
    rw [hv] at e; cases e
  rcases numArm_gauss (fi := fun a b => if b = 0 then .error .divZero else .ok (boxI (divFloor a b)))
    (fc := fun a b => if cnorm b = 0 then .error .divZero else .ok (boxC (cdivFloor a b)))
    (fq := fun a b => if b = 0 then .error .divZero else .ok (boxQ (a / b))) hl hr with ⟨hai, hbi, h⟩ | h
  · have hbin := ofArm E .div _ rfl l r _ h
    have ha := machine_real ml hl hai
    have hb := machine_real mr hr hbi
    unfold InIntRange at ha hb
    have hb0 : i64 b.re = 0 ↔ b.re = 0 := by
      rw [i64_eq_zero_iff]; constructor <;> intro h <;> omega
    have hb0' : b = 0 ↔ i64 b.re = 0 := by rw [hz, hb0]; simp [hbi]
    apply hz0
    · intro v hv hb'
      rw [hbin, if_pos (hb0'.1 hb')] at hv; cases hv
    · intro hb'; rw [hbin, if_pos (hb0'.1 hb')]
    · intro hb'
      have hbn : ¬ i64 b.re = 0 := fun h => hb' (hb0'.2 h)
      refine ⟨_, by rw [hbin, if_neg hbn], ?_⟩
      have hbne : b.re ≠ 0 := fun h => hbn (hb0.2 h)
      have hta : (i64 a.re).toInt = a.re := toInt_i64_exact _ (by omega)
      have htb : (i64 b.re).toInt = b.re := toInt_i64_exact _ (by omega)
      have e := toInt_divFloor (i64 a.re) (i64 b.re)
        (by rw [hta]; exact ha) (by rw [htb]; exact hbne)
      rw [hta, htb] at e
      have e' : divFloor (i64 a.re) (i64 b.re) = i64 (Int.fdiv a.re b.re) := by
        rw [← e]; exact (BitVec.ofInt_toInt).symm
      rw [e']
      have := rep_boxI (Int.fdiv a.re b.re)
      have hq : (a * star b).re / (b.re * b.re + b.im * b.im) = Int.fdiv a.re b.re := by
        simp only [Zsqrtd.re_mul, Zsqrtd.re_star, Zsqrtd.im_star, hbi, hai]
        rw [show a.re * b.re + -1 * 0 * -0 = a.re * b.re by ring, show b.re * b.re + 0 * 0 = b.re * b.re by ring]
        rw [← Int.fdiv_eq_ediv_of_nonneg _ (by nlinarith)]
        exact fdiv_mul_self a.re b.re hbne
      rw [hq]
      have hi : (a * star b).im / (b.re * b.re + b.im * b.im) = 0 := by
        simp [hbi, hai]
      rw [hi]; exact this
  · have hbin := ofArm E .div _ rfl l r _ h
    rw [cnorm_emb] at hbin
    have hnn : 0 ≤ b.re * b.re + b.im * b.im := by nlinarith [mul_self_nonneg b.re, mul_self_nonneg b.im]
    have hn0 : i64 (b.re * b.re + b.im * b.im) = 0 ↔ b.re * b.re + b.im * b.im = 0 := by
      rw [i64_eq_zero_iff]; constructor <;> intro h <;> omega
    have hb0' : b = 0 ↔ i64 (b.re * b.re + b.im * b.im) = 0 := by
      rw [hz, hn0]
      constructor
      · rintro ⟨h, h'⟩; rw [h, h']; rfl
      · intro h
        constructor <;> nlinarith [mul_self_nonneg b.re, mul_self_nonneg b.im]
    apply hz0
    · intro v hv hb'
      rw [hbin, if_pos (hb0'.1 hb')] at hv; cases hv
    · intro hb'; rw [hbin, if_pos (hb0'.1 hb')]
    · intro hb'
      have hbn : ¬ i64 (b.re * b.re + b.im * b.im) = 0 := fun h => hb' (hb0'.2 h)
      refine ⟨_, by rw [hbin, if_neg hbn], ?_⟩
      have hpos : 0 < b.re * b.re + b.im * b.im := by
        have h' : b.re * b.re + b.im * b.im ≠ 0 := fun h => hbn (hn0.2 h)
        omega
      have hnt : (i64 (b.re * b.re + b.im * b.im)).toInt = b.re * b.re + b.im * b.im := toInt_i64_exact _ (by omega)
      have step : ∀ x : Int, InI64 x → divFloor (i64 x) (i64 (b.re * b.re + b.im * b.im)) =
          i64 (x / (b.re * b.re + b.im * b.im)) := by
        intro x hx
        have e := toInt_divFloor_pos (i64 x) (i64 (b.re * b.re + b.im * b.im)) (by rw [hnt]; exact hpos)
        rw [hnt, toInt_i64_exact _ hx, Int.fdiv_eq_ediv_of_nonneg _ hnn] at e
        rw [← e]; exact (BitVec.ofInt_toInt).symm
      have hre : (a * star b).re = a.re * b.re + a.im * b.im := by simp
      have him : (a * star b).im = a.im * b.re - a.re * b.im := by simp; ring
      have : cdivFloor (emb a) (emb b) = emb ⟨(a * star b).re / (b.re * b.re + b.im * b.im), (a * star b).im / (b.re * b.re + b.im * b.im)⟩ := by
        simp only [cdivFloor, cnorm_emb]
        simp only [emb, i64_mul, i64_add, i64_sub]
        rw [← hre, ← him, step _ h1, step _ h2]
      rw [this]
      exact rep_boxC _

/-- C08 violation: a divisor that is not zero is reported as zero when the square of its magnitude wraps to 0:
`1 / (2^32 i)` raises a divide-by-zero error, although the quotient is `-i / 2^32`, with floors `0` and `-1`. -/
theorem C08_violation_div (E : Env) :
    binary E .div (.int 1) (.complex 0 (2 ^ 32)) = .error .divZero ∧ Machine (.complex 0 (2 ^ 32)) := by
  refine ⟨?_, ⟨by decide, by decide⟩, ⟨by decide, by decide⟩, by decide⟩
  rw [binary]; show lift divArm _ _ = _
  rw [lift.eq_def]; rfl

/-- C08: remainder of a complex number by an int is taken part by part, floored, the sign following the divisor. -/
theorem C08_mod (E : Env) (re im b : Int) (hr : InI64 re) (hi : InI64 im) (hb : InIntRange b) :
    (b = 0 → binary E .mod (.complex re im) (.int b) = .error .modZero) ∧
    (b ≠ 0 → b ≠ -1 → ∃ v, binary E .mod (.complex re im) (.int b) = .ok v ∧ Represents ⟨re.fmod b, im.fmod b⟩ v) := by
  unfold InIntRange at hb
  have tb : (i64 b).toInt = b := toInt_i64_exact _ (by omega)
  have hb0 : i64 b = 0 ↔ b = 0 := by rw [i64_eq_zero_iff]; omega
  constructor
  · intro h
    refine ofArm E .mod _ rfl _ _ _ ?_
    simp only [modArm, intOf]; rw [if_pos (hb0.2 h)]
  · intro h h1
    have np : ∀ x : I64, remPanics x (i64 b) = false := by
      intro x
      simp only [remPanics, Bool.and_eq_false_iff, beq_eq_false_iff_ne]
      right; intro e
      have : (i64 b).toInt = -1 := by rw [e]; decide
      omega
    refine ⟨_, ofArm E .mod _ rfl _ _ _ (by
      simp only [modArm, intOf]; rw [if_neg (fun h' => h (hb0.1 h'))]
      simp only [np, Bool.or_self]; rfl), ?_⟩
    have st : ∀ x, InI64 x → modFloor (i64 x) (i64 b) = i64 (x.fmod b) := by
      intro x hx
      have e := toInt_modFloor (i64 x) (i64 b) (by omega)
      rw [toInt_i64_exact x hx, tb] at e
      rw [← e]; exact (BitVec.ofInt_toInt).symm
    rw [st re hr, st im hi]
    exact rep_boxC ⟨_, _⟩

/-- C08 violation: the machine remainder aborts the process for the smallest real part and divisor -1. -/
theorem C08_violation_mod (E : Env) :
    binary E .mod (.complex (-(2 ^ 63)) 1) (.int (-1)) = .error .panic ∧ Machine (.complex (-(2 ^ 63)) 1) := by
  refine ⟨?_, ⟨by decide, by decide⟩, ⟨by decide, by decide⟩, by decide⟩
  rw [binary]; show lift (modArm E) _ _ = _
  rw [lift.eq_def]; rfl

/-- Non-vacuity: `(1 + 2i) * (3 - 4i) = 11 + 2i`, `(1 + 2i) * (1 - 2i) = 5`, `(7 + 3i) / 2i = 1 - 4i`. -/
example (E : Env) : binary E .mul (.complex 1 2) (.complex 3 (-4)) = .ok (.complex 11 2) ∧
    binary E .mul (.complex 1 2) (.complex 1 (-2)) = .ok (.int 5) ∧
    binary E .div (.complex 7 3) (.complex 0 2) = .ok (.complex 1 (-4)) := by
  refine ⟨?_, ?_, ?_⟩
  · rw [binary]; show lift mulArm _ _ = _; rw [lift.eq_def]; rfl
  · rw [binary]; show lift mulArm _ _ = _; rw [lift.eq_def]; rfl
  · rw [binary]; show lift divArm _ _ = _; rw [lift.eq_def]; rfl

/-! ## The value level and the word level agree on ints -/

/-- An int word and the value that stands for it compute alike: the int arms used above are the word operations of
C04-C07. -/
theorem C04_value_level (E : Env) (l r : Word) (hl : isPreciseInt l = true) (hr : isPreciseInt r = true) :
    binary E .add (.int (ival l)) (.int (ival r)) = .ok (.int (ival (Arith.add l r))) ∧
    binary E .sub (.int (ival l)) (.int (ival r)) = .ok (.int (ival (Arith.sub l r))) ∧
    binary E .mul (.int (ival l)) (.int (ival r)) = .ok (.int (ival (Arith.mul l r))) ∧
    binary E .shl (.int (ival l)) (.int (ival r)) = .ok (.int (ival (Arith.shl l r))) ∧
    binary E .shr (.int (ival l)) (.int (ival r)) = .ok (.int (ival (Arith.shr l r))) ∧
    binary E .and (.int (ival l)) (.int (ival r)) = .ok (.int (ival (Arith.band l r))) ∧
    binary E .or (.int (ival l)) (.int (ival r)) = .ok (.int (ival (Arith.bor l r))) ∧
    binary E .xor (.int (ival l)) (.int (ival r)) = .ok (.int (ival (Arith.bxor l r))) := by
  have e : ∀ w : Word, i64 (ival w) = Repr.asInt w := fun w => BitVec.ofInt_toInt
  have nb : ∀ w : Word, isPreciseInt w = true → isBool w = false := by
    intro w h
    have := (isPreciseInt_iff w).mp h
    rw [Bool.eq_false_iff, Ne, isBool_iff]; omega
  have hbl := nb l hl
  refine ⟨?_, ?_, ?_, ?_, ?_, ?_, ?_, ?_⟩
  · exact ofArm E .add _ rfl _ _ _ (by simp only [addArm, numArm, intOf, e, boxI, Arith.add, ival_box])
  · exact ofArm E .sub _ rfl _ _ _ (by simp only [subArm, numArm, intOf, e, boxI, Arith.sub, ival_box])
  · exact ofArm E .mul _ rfl _ _ _ (by simp only [mulArm, numArm, intOf, e, boxI, Arith.mul, ival_box])
  · exact ofArm E .shl _ rfl _ _ _ (by simp only [shlArm, intOf, e, boxI, Arith.shl, ival_box])
  · exact ofArm E .shr _ rfl _ _ _ (by simp only [shrArm, intOf, e, boxI, Arith.shr, ival_box])
  · exact ofArm E .and _ rfl _ _ _ (by simp [bitArm, intOf, e, boxI, Arith.band, ival_box, hbl])
  · exact ofArm E .or _ rfl _ _ _ (by simp [bitArm, intOf, e, boxI, Arith.bor, ival_box, hbl])
  · exact ofArm E .xor _ rfl _ _ _ (by simp [bitArm, intOf, e, boxI, Arith.bxor, ival_box, hbl])

/-! ## C61: rational arithmetic -/

/-- The rational number an int, bool or rational value stands for. -/
def ratVal : Val → Option Rat
  | .bool b => some (if b then 1 else 0)
  | .int i => some i
  | .rational n d => some ((n : Rat) / d)
  | _ => none

/-- C61: when at least one operand is rational, `+ - * /` are exact in ℚ, the result is a rational in lowest terms, and
division fails exactly for a zero divisor. -/
theorem C61_rational (E : Env) (l r : Val) (a b : Rat) (hl : ratVal l = some a) (hr : ratVal r = some b)
    (h : (∃ n d, l = .rational n d) ∨ (∃ n d, r = .rational n d)) :
    binary E .add l r = .ok (.rational (a + b).num (a + b).den) ∧
    binary E .sub l r = .ok (.rational (a - b).num (a - b).den) ∧
    binary E .mul l r = .ok (.rational (a * b).num (a * b).den) ∧
    (b ≠ 0 → binary E .div l r = .ok (.rational (a / b).num (a / b).den)) ∧
    (b = 0 → binary E .div l r = .error .divZero) := by
  have hq : ∀ v q, ratVal v = some q → ratOf v = some q := by
    intro v q hv
    cases v <;> simp [ratVal] at hv <;> simp [ratOf, hv]
    rw [Rat.mkRat_eq_div, ← hv]
  have hnum : ∀ fi fc fq, numArm fi fc fq l r = some (fq a b) := by
    intro fi fc fq
    have h1 := hq l a hl
    have h2 := hq r b hr
    rcases h with ⟨n, d, rfl⟩ | ⟨n, d, rfl⟩
    · simp [numArm, intOf, cplxOf, h1, h2]
    · cases hi : intOf l <;> cases hc : cplxOf l <;> simp [numArm, intOf, cplxOf, h1, h2, hi, hc]
  refine ⟨?_, ?_, ?_, ?_, ?_⟩
  · exact ofArm E .add _ rfl _ _ _ (by simp only [addArm, hnum, boxQ])
  · exact ofArm E .sub _ rfl _ _ _ (by simp only [subArm, hnum, boxQ])
  · exact ofArm E .mul _ rfl _ _ _ (by simp only [mulArm, hnum, boxQ])
  · intro hb; exact ofArm E .div _ rfl _ _ _ (by simp only [divArm, hnum, boxQ, if_neg hb])
  · intro hb; exact ofArm E .div _ rfl _ _ _ (by simp only [divArm, hnum, if_pos hb])

/-- C61: a rational to the power of an int or bool is exact, if the exponent is in the range of 32 bits; otherwise there is an error. -/
theorem C61_pow (E : Env) (n : Int) (d : Nat) (r : Val) (k : Int) (hr : r = .int k ∨ ∃ b, r = .bool b ∧ k = if b then 1 else 0) (hk : InIntRange k) (q : Rat) (hq : q = n / d) (h0 : q ≠ 0 ∨ 0 ≤ k) :
    binary E .pow (.rational n d) r = if -(2 ^ 31) ≤ k ∧ k < 2 ^ 31 then .ok (.rational (q ^ k).num (q ^ k).den) else .error .tooLarge := by
  have hi : ∃ w, intOf r = some w ∧ w.toInt = k := by
    rcases hr with rfl | ⟨b, rfl, rfl⟩
    · refine ⟨_, rfl, toInt_i64_exact _ ?_⟩
      unfold InIntRange at hk; omega
    · cases b <;> exact ⟨_, rfl, rfl⟩
  obtain ⟨w, hw, rfl⟩ := hi
  refine ofArm E .pow _ rfl _ _ _ ?_
  have hm : mkRat n d = q := by rw [Rat.mkRat_eq_div, hq]
  simp only [powArm, hw, hm]
  have : ¬ (q = 0 ∧ w.toInt < 0) := by rintro ⟨h1, h2⟩; rcases h0 with h | h; exact h h1; omega
  simp only [this, if_false, boxQ]

/-- C61 violated: `0 / 1` as a rational to a negative power stops the interpreter. -/
theorem C61_violation_pow (E : Env) : binary E .pow (.rational 0 1) (.int (-1)) = .error .panic := by
  refine ofArm E .pow _ rfl _ _ _ ?_
  have : (i64 (-1)).toInt = -1 := by decide
  simp [powArm, intOf, this]

example : ratVal (.rational 1 2) = some (1 / 2) ∧ ratVal (.int 3) = some 3 := by
  constructor <;> simp [ratVal]

/-! ## C55: vectors -/

/-- `out` is the vector of the results `f 0, …, f (n-1)`, or the first error among them. -/
def Elementwise (n : Nat) (f : Nat → Res Val) (out : Res Val) : Prop :=
  (∃ vs, out = .ok (.vector vs) ∧ vs.length = n ∧ ∀ i < n, ∃ v, vs[i]? = some v ∧ f i = .ok v) ∨
  (∃ i e, i < n ∧ f i = .error e ∧ (∀ j < i, ∃ v, f j = .ok v) ∧ out = .error e)

/-- The operators defined elementwise on vectors. -/
def Distributes (op : BinaryOp) : Prop :=
  op ∈ [.mul, .div, .pow, .mod, .add, .sub, .shl, .shr, .and, .or, .xor]

theorem distributes_arm (E : Env) {op : BinaryOp} (h : Distributes op) : ∃ f, arm E op = some f := by
  unfold Distributes at h
  cases op <;> simp at h <;> exact ⟨_, rfl⟩

/-- `mapM`-style loops produce elementwise results. -/
theorem elementwise_of (n : Nat) (f : Nat → Res Val) (out : Res (List Val)) 
    (h : (∃ vs, out = .ok vs ∧ vs.length = n ∧ ∀ i < n, ∃ v, vs[i]? = some v ∧ f i = .ok v) ∨
      (∃ i e, i < n ∧ f i = .error e ∧ (∀ j < i, ∃ v, f j = .ok v) ∧ out = .error e)) :
    Elementwise n f (out.map .vector) := by
  rcases h with ⟨vs, rfl, h⟩ | ⟨i, e, h1, h2, h3, rfl⟩
  · exact .inl ⟨vs, rfl, h⟩
  · exact .inr ⟨i, e, h1, h2, h3, rfl⟩

/-- One step of such a loop. -/
theorem loop_step {f : Nat → Res Val} {n : Nat} {x : Res Val} {rest : Res (List Val)} (hx : f 0 = x)
    (h : (∃ vs, rest = .ok vs ∧ vs.length = n ∧ ∀ i < n, ∃ v, vs[i]? = some v ∧ f (i + 1) = .ok v) ∨
      (∃ i e, i < n ∧ f (i + 1) = .error e ∧ (∀ j < i, ∃ v, f (j + 1) = .ok v) ∧ rest = .error e)) :
    let out := consRes x rest
    (∃ vs, out = .ok vs ∧ vs.length = n + 1 ∧ ∀ i < n + 1, ∃ v, vs[i]? = some v ∧ f i = .ok v) ∨
      (∃ i e, i < n + 1 ∧ f i = .error e ∧ (∀ j < i, ∃ v, f j = .ok v) ∧ out = .error e) := by
  cases x with
  | error e => exact .inr ⟨0, e, by omega, hx, by intro j hj; omega, rfl⟩
  | ok v =>
    rcases h with ⟨vs, rfl, hl, h⟩ | ⟨i, e, h1, h2, h3, rfl⟩
    · refine .inl ⟨v :: vs, rfl, by simp [hl], ?_⟩
      intro i hi
      cases i with
      | zero => exact ⟨v, rfl, hx⟩
      | succ i => simpa using h i (by omega)
    · refine .inr ⟨i + 1, e, by omega, h2, ?_, rfl⟩
      intro j hj
      cases j with
      | zero => exact ⟨v, hx⟩
      | succ j => exact h3 j (by omega)

theorem liftZ_spec (f) (us vs : List Val) :
    (∃ ws, liftZ f us vs = .ok ws ∧ ws.length = min us.length vs.length ∧ ∀ i < min us.length vs.length,
      ∃ v, ws[i]? = some v ∧ lift f (us.getD i .nil) (vs.getD i .nil) = .ok v) ∨
    (∃ i e, i < min us.length vs.length ∧ lift f (us.getD i .nil) (vs.getD i .nil) = .error e ∧
      (∀ j < i, ∃ v, lift f (us.getD j .nil) (vs.getD j .nil) = .ok v) ∧ liftZ f us vs = .error e) := by
  induction us generalizing vs with
  | nil => left; exact ⟨[], by rw [liftZ.eq_def], by simp, by simp⟩
  | cons u us ih =>
    cases vs with
    | nil => left; exact ⟨[], by rw [liftZ.eq_def], by simp, by simp⟩
    | cons v vs =>
      rw [liftZ.eq_def]
      have := loop_step (f := fun i => lift f ((u :: us).getD i .nil) ((v :: vs).getD i .nil))
        (x := lift f u v) rfl (ih vs)
      simpa only [List.length_cons, Nat.succ_min_succ] using this

theorem liftR_spec (f) (us : List Val) (r : Val) :
    (∃ ws, liftR f us r = .ok ws ∧ ws.length = us.length ∧ ∀ i < us.length,
      ∃ v, ws[i]? = some v ∧ lift f (us.getD i .nil) r = .ok v) ∨
    (∃ i e, i < us.length ∧ lift f (us.getD i .nil) r = .error e ∧
      (∀ j < i, ∃ v, lift f (us.getD j .nil) r = .ok v) ∧ liftR f us r = .error e) := by
  induction us with
  | nil => left; exact ⟨[], by rw [liftR.eq_def], by simp, by simp⟩
  | cons u us ih =>
    rw [liftR.eq_def]
    exact loop_step (f := fun i => lift f ((u :: us).getD i .nil) r) (x := lift f u r) rfl ih

theorem liftL_spec (f) (l : Val) (vs : List Val) :
    (∃ ws, liftL f l vs = .ok ws ∧ ws.length = vs.length ∧ ∀ i < vs.length,
      ∃ v, ws[i]? = some v ∧ lift f l (vs.getD i .nil) = .ok v) ∨
    (∃ i e, i < vs.length ∧ lift f l (vs.getD i .nil) = .error e ∧
      (∀ j < i, ∃ v, lift f l (vs.getD j .nil) = .ok v) ∧ liftL f l vs = .error e) := by
  induction vs with
  | nil => left; exact ⟨[], by rw [liftL.eq_def], by simp, by simp⟩
  | cons v vs ih =>
    rw [liftL.eq_def]
    exact loop_step (f := fun i => lift f l ((v :: vs).getD i .nil)) (x := lift f l v) rfl ih

/-- C55: two vectors.  For equal lengths every position is combined; for different lengths the longer one is cut. -/
theorem C55_vector_vector (E : Env) (op : BinaryOp) (hop : Distributes op) (us vs : List Val) :
    Elementwise (min us.length vs.length) (fun i => binary E op (us.getD i .nil) (vs.getD i .nil))
      (binary E op (.vector us) (.vector vs)) := by
  obtain ⟨f, hf⟩ := distributes_arm E hop
  have hn : f (.vector us) (.vector vs) = none := by
    unfold Distributes at hop
    cases op <;> simp at hop <;> cases hf <;> rfl
  have : binary E op (.vector us) (.vector vs) = (liftZ f us vs).map .vector := by
    rw [binary, hf]; show lift f _ _ = _; rw [lift.eq_def]; simp only [hn]
  rw [this]
  apply elementwise_of
  have := liftZ_spec f us vs
  have hb : ∀ a b, binary E op a b = lift f a b := by intro a b; rw [binary, hf]
  simpa only [hb] using this

/-- C55: vector and scalar.  (`str + vector` and `vector + str` are string concatenation.) -/
theorem C55_vector_scalar (E : Env) (op : BinaryOp) (hop : Distributes op) (us : List Val) (s : Val)
    (hs : ∀ xs, s ≠ .vector xs) (hadd : op = .add → ∀ t, s ≠ .str t) :
    Elementwise us.length (fun i => binary E op (us.getD i .nil) s) (binary E op (.vector us) s) := by
  obtain ⟨f, hf⟩ := distributes_arm E hop
  have hn : f (.vector us) s = none := by
    unfold Distributes at hop
    cases op <;> simp at hop <;> cases hf <;> cases s <;>
      first | rfl | exact absurd rfl (hs _) | exact absurd rfl (hadd rfl _)
  have : binary E op (.vector us) s = (liftR f us s).map .vector := by
    rw [binary, hf]; show lift f _ _ = _; rw [lift.eq_def]; simp only [hn]
  rw [this]
  apply elementwise_of
  have := liftR_spec f us s
  have hb : ∀ a b, binary E op a b = lift f a b := by intro a b; rw [binary, hf]
  simpa only [hb] using this

/-- C55: scalar and vector.  (`str + vector` is concatenation, `str % vector` is formatting.) -/
theorem C55_scalar_vector (E : Env) (op : BinaryOp) (hop : Distributes op) (us : List Val) (s : Val)
    (hs : ∀ xs, s ≠ .vector xs) (hstr : op = .add ∨ op = .mod → ∀ t, s ≠ .str t) :
    Elementwise us.length (fun i => binary E op s (us.getD i .nil)) (binary E op s (.vector us)) := by
  obtain ⟨f, hf⟩ := distributes_arm E hop
  have hn : f s (.vector us) = none := by
    unfold Distributes at hop
    cases op <;> simp at hop <;> cases hf <;> cases s <;>
      first | rfl | exact absurd rfl (hs _) | exact absurd rfl (hstr (by simp) _)
  have : binary E op s (.vector us) = (liftL f s us).map .vector := by
    rw [binary, hf]; show lift f _ _ = _; rw [lift.eq_def]; simp only [hn]
  rw [this]
  apply elementwise_of
  have := liftL_spec f s us
  have hb : ∀ a b, binary E op a b = lift f a b := by intro a b; rw [binary, hf]
  simpa only [hb] using this

/-- C55: unary `-` and `!`. -/
theorem C55_unary (us : List Val) :
    Elementwise us.length (fun i => unary .neg (us.getD i .nil)) (unary .neg (.vector us)) ∧
    Elementwise us.length (fun i => unary .not (us.getD i .nil)) (unary .not (.vector us)) := by
  constructor
  · apply elementwise_of (out := negL us)
    induction us with
    | nil => left; exact ⟨[], rfl, rfl, by simp⟩
    | cons u us ih =>
      exact loop_step (f := fun i => unary .neg ((u :: us).getD i .nil)) (x := neg u) rfl ih
  · apply elementwise_of (out := bnotL us)
    induction us with
    | nil => left; exact ⟨[], rfl, rfl, by simp⟩
    | cons u us ih =>
      exact loop_step (f := fun i => unary .not ((u :: us).getD i .nil)) (x := bnot u) rfl ih

/-- Non-vacuity: nested vectors, and the first error wins. -/
example (E : Env) : binary E .add (.vector [.int 1, .vector [.int 2, .int 3]]) (.int 10) =
      .ok (.vector [.int 11, .vector [.int 12, .int 13]]) ∧
    binary E .div (.vector [.int 1, .nil, .int 3]) (.vector [.int 1, .int 2, .int 0]) = .error .typeBinary := by
  constructor
  · rw [binary]; show lift (addArm E) _ _ = _
    simp [lift, liftR, addArm, numArm, intOf, cplxOf, ratOf, boxI, i64]
    rfl
  · rw [binary]; show lift divArm _ _ = _
    simp [lift, liftZ, divArm, numArm, intOf, cplxOf, ratOf, i64]
    rfl

/-! ## C62: sequences: `+` and `*` on lists and strings, `in` -/

/-- C62: `list + list` and `str + str` concatenate. -/
theorem C62_concat (E : Env) (xs ys : List Val) (s t : List Char) (hs : ∀ t, E.toStr (.str t) = t) :
    binary E .add (.list xs) (.list ys) = .ok (.list (xs ++ ys)) ∧
    binary E .add (.str s) (.str t) = .ok (.str (s ++ t)) :=
  ⟨ofArm E .add _ rfl _ _ _ rfl, by
    refine ofArm E .add _ rfl _ _ _ ?_
    simp [addArm, numArm, intOf, cplxOf, ratOf, hs]⟩

/-- C62: `list * n` and `n * list` (and strings) repeat: the result has length `n * len` and element `i` is element
`i mod len`; a negative count is an error. -/
theorem C62_repeat (E : Env) (xs : List Val) (s : List Char) (n : Int) :
    (n < 0 → ∀ v ∈ [Val.list xs, .str s], binary E .mul v (.int n) = .error .opMustNotBeNegative ∧
      binary E .mul (.int n) v = .error .opMustNotBeNegative) ∧
    (0 ≤ n → ∃ ys t, binary E .mul (.list xs) (.int n) = .ok (.list ys) ∧
      binary E .mul (.int n) (.list xs) = .ok (.list ys) ∧
      binary E .mul (.str s) (.int n) = .ok (.str t) ∧ binary E .mul (.int n) (.str s) = .ok (.str t) ∧
      (ys.length = n.toNat * xs.length ∧ ∀ i < ys.length, ys[i]? = xs[i % xs.length]?) ∧
      (t.length = n.toNat * s.length ∧ ∀ i < t.length, t[i]? = s[i % s.length]?)) := by
  have rep : ∀ {α : Type} (k : Nat) (xs : List α), (repeatList k xs).length = k * xs.length ∧
      ∀ i < k * xs.length, (repeatList k xs)[i]? = xs[i % xs.length]? := by
    intro α k xs
    induction k with
    | zero => simp [repeatList]
    | succ k ih =>
      have e : repeatList (k + 1) xs = xs ++ repeatList k xs := by
        simp [repeatList, List.replicate_succ]
      refine ⟨by rw [e, List.length_append, ih.1]; ring, ?_⟩
      intro i hi
      rw [e, List.getElem?_append]
      split
      · rename_i h; rw [Nat.mod_eq_of_lt h]
      · rename_i h
        rw [ih.2 _ (by rw [Nat.succ_mul] at hi; omega), Nat.mod_eq_sub_mod (by omega : xs.length ≤ i)]
  have e1 : binary E .mul (.list xs) (.int n) = repeatBy n (fun n => .list (repeatList n xs)) := ofArm E .mul _ rfl _ _ _ rfl
  have e2 : binary E .mul (.int n) (.list xs) = repeatBy n (fun n => .list (repeatList n xs)) := ofArm E .mul _ rfl _ _ _ rfl
  have e3 : binary E .mul (.str s) (.int n) = repeatBy n (fun n => .str (repeatList n s)) := ofArm E .mul _ rfl _ _ _ rfl
  have e4 : binary E .mul (.int n) (.str s) = repeatBy n (fun n => .str (repeatList n s)) := ofArm E .mul _ rfl _ _ _ rfl
  constructor
  · intro hn v hv
    simp only [List.mem_cons, List.not_mem_nil, or_false] at hv
    rcases hv with rfl | rfl
    · rw [e1, e2]; simp [repeatBy, hn]
    · rw [e3, e4]; simp [repeatBy, hn]
  · intro hn
    have hn' : ¬ n < 0 := by omega
    refine ⟨repeatList n.toNat xs, repeatList n.toNat s, ?_, ?_, ?_, ?_, ⟨(rep _ _).1, ?_⟩, (rep _ _).1, ?_⟩
    · rw [e1]; simp [repeatBy, hn']
    · rw [e2]; simp [repeatBy, hn']
    · rw [e3]; simp [repeatBy, hn']
    · rw [e4]; simp [repeatBy, hn']
    · intro i hi; rw [(rep _ _).1] at hi; exact (rep _ _).2 i hi
    · intro i hi; rw [(rep _ _).1] at hi; exact (rep _ _).2 i hi

example (E : Env) : ∃ ys t, binary E .mul (.list [.int 1, .int 2]) (.int 2) = .ok (.list ys) ∧ ys.length = 4 ∧
    binary E .mul (.str ['a']) (.int 2) = .ok (.str t) ∧ t.length = 2 := by
  obtain ⟨ys, t, h1, _, h2, _, h3, h4⟩ := (C62_repeat E [.int 1, .int 2] ['a'] 2).2 (by decide)
  exact ⟨ys, t, h1, h3.1, h2, h4.1⟩

/-- C62: `x in xs` holds exactly when some element of the list, vector or heap equals `x`; `s in t` exactly when `s` occurs
in `t` as consecutive characters; `not in` is the opposite. -/
theorem C62_in (E : Env) (x : Val) (xs : List Val) (s t : List Char) :
    (∀ c ∈ [Val.list xs, .vector xs, .heap xs],
      ∃ b, binary E .in_ x c = .ok (.bool b) ∧ binary E .notIn x c = .ok (.bool (!b)) ∧
        (b = true ↔ ∃ y ∈ xs, Val.eqv y x = true)) ∧
    (∃ b, binary E .in_ (.str s) (.str t) = .ok (.bool b) ∧ binary E .notIn (.str s) (.str t) = .ok (.bool (!b)) ∧
      (b = true ↔ ∃ pre post, t = pre ++ s ++ post)) := by
  constructor
  · intro c hc
    simp only [List.mem_cons, List.not_mem_nil, or_false] at hc
    refine ⟨xs.any (fun y => Val.eqv y x), ?_, ?_, by simp⟩ <;>
    rcases hc with rfl | rfl | rfl <;> cases x <;> rfl
  · refine ⟨decide (s <:+: t), by simp [binary, arm, plain, contains, Except.map], by simp [binary, arm, plain, contains, Except.map], ?_⟩
    rw [decide_eq_true_iff]
    constructor
    · intro ⟨p, q, h⟩; exact ⟨p, q, h.symm⟩
    · intro ⟨p, q, h⟩; exact ⟨p, q, h.symm⟩

/-- C62: `x in c` for a set or dict holds exactly when it finds an equal element or key (equal as for the keys of a dict); for a range, exactly for the values of the range; anything else is an error; `not in` is the opposite. -/
theorem C62_in_keys (E : Env) (x : Val) :
    (∀ xs, ∃ b, binary E .in_ x (.set xs) = .ok (.bool b) ∧ binary E .notIn x (.set xs) = .ok (.bool (!b)) ∧ (b = true ↔ ∃ y ∈ xs, (y == x) = true)) ∧
    (∀ es, ∃ b, binary E .in_ x (.dict es) = .ok (.bool b) ∧ binary E .notIn x (.dict es) = .ok (.bool (!b)) ∧ (b = true ↔ ∃ y ∈ es.keys, (y == x) = true)) ∧
    (∀ a b s r, Cordy.Range.mk? a b s = .ok r → ∀ i : Int, x = .int i ∨ (∃ t, x = .bool t ∧ i = if t then 1 else 0) →
      ∃ t, binary E .in_ x (.range r.start r.stop r.step) = .ok (.bool t) ∧ binary E .notIn x (.range r.start r.stop r.step) = .ok (.bool (!t)) ∧ (t = true ↔ i ∈ r.values)) ∧
    (∀ c, (∀ xs, c ≠ .list xs) → (∀ xs, c ≠ .vector xs) → (∀ xs, c ≠ .heap xs) → (∀ xs, c ≠ .set xs) → (∀ xs, c ≠ .dict xs) → (∀ s, c ≠ .str s) → (∀ a b s, c ≠ .range a b s) →
      binary E .in_ x c = .error .typeBinary ∧ binary E .notIn x c = .error .typeBinary) := by
  refine ⟨fun xs => ⟨xs.any (fun y => y == x), ?_, ?_, by simp⟩, fun es => ⟨es.keys.any (fun y => y == x), ?_, ?_, by simp⟩, fun a b s r h i hi => ⟨r.contains i, ?_, ?_, Cordy.Range.C13_contains a b s r h i⟩, fun c h1 h2 h3 h4 h5 h6 h7 => ⟨?_, ?_⟩⟩
  · cases x <;> rfl
  · cases x <;> rfl
  · cases x <;> rfl
  · cases x <;> rfl
  · rcases hi with rfl | ⟨t, rfl, rfl⟩ <;> rfl
  · rcases hi with rfl | ⟨t, rfl, rfl⟩ <;> rfl
  · cases c <;> first | (cases x <;> rfl) | simp_all
  · cases c <;> first | (cases x <;> rfl) | simp_all

end Cordy.Op
