import Verif.Model.Rational
import Verif.Lemmas.Strings
import Verif.Props.Format
import Mathlib.Data.Rat.Lemmas
import Mathlib.Data.Nat.Sqrt
/-!
# C83: functions on rational numbers

`rational`, `numer`, `denom`, and `abs` and `sqrt` on other numbers than ints.
-/
namespace Cordy.Rational
open Cordy.Repr Cordy.Arith Cordy.Op Cordy.Str

/-- The number that a value is. -/
def number : Val → Option ℚ
  | .bool b => some (if b then 1 else 0)
  | .int i => some i
  | .rational n d => some ((n : ℚ) / d)
  | _ => none

theorem ratOf_number (v : Val) : ratOf v = number v := by
  cases v <;> simp [ratOf, number, Rat.mkRat_eq_div]

/-- A value of type `rational` with the value `q`, in lowest terms. -/
def Is (v : Val) (q : ℚ) : Prop := ∃ n d, v = .rational n d ∧ 0 < d ∧ Nat.gcd n.natAbs d = 1 ∧ (n : ℚ) / d = q

theorem is_boxQ (q : ℚ) : Is (boxQ q) q := ⟨q.num, q.den, rfl, q.den_pos, q.reduced, q.num_div_den⟩

theorem Is.eq {v w : Val} {q : ℚ} (h : Is v q) (h' : Is w q) : v = w := by
  have key : ∀ {v}, Is v q → v = .rational q.num q.den := by
    rintro v ⟨n, d, rfl, hd, hg, rfl⟩
    have hc : n.natAbs.Coprime d := hg
    have h1 := Rat.num_div_eq_of_coprime (a := n) (b := d) (by exact_mod_cast hd) (by simpa using hc)
    have h2 := Rat.den_div_eq_of_coprime (a := n) (b := d) (by exact_mod_cast hd) (by simpa using hc)
    simp only [Int.cast_natCast] at h1 h2
    rw [h1, show ((n : ℚ) / d).den = d by exact_mod_cast h2]
  rw [key h, key h']

/-- C83: `rational(x)` is `x`, `rational(x, y)` is `x / y`, for ints, bools and rationals of any size; an error for `y` = 0. -/
theorem C83_rational (a : Val) (x : ℚ) (ha : number a = some x) :
    (∃ v, toRational a none = .ok v ∧ Is v x) ∧
    ∀ b y, number b = some y → if y = 0 then toRational a (some b) = .error .divideByZero else ∃ v, toRational a (some b) = .ok v ∧ Is v (x / y) := by
  have hs : ∀ o, toRational a o = match o with
      | some d => match number d with
        | some y => if y = 0 then .error .divideByZero else .ok (boxQ (x / y))
        | none => .error .cannotConvert
      | none => .ok (boxQ x) := by
    intro o
    have hr := ratOf_number a
    rw [ha] at hr
    cases a <;> simp [number] at ha <;> simp only [toRational, hr] <;> cases o <;> simp only [ratOf_number] <;>
      (rename_i d; cases number d <;> rfl)
  refine ⟨⟨boxQ x, hs none, is_boxQ x⟩, fun b y hb => ?_⟩
  rw [hs]
  simp only [hb]
  split
  · rfl
  · exact ⟨_, rfl, is_boxQ _⟩

/-- C83: other values are errors. -/
theorem C83_not_rational (a : Val) (ha : number a = none) (hs : ∀ s, a ≠ .str s) (o : Option Val) :
    toRational a o = .error .cannotConvert ∧ numer a = .error .argRational ∧ denom a = .error .argRational := by
  have hr := ratOf_number a
  rw [ha] at hr
  refine ⟨?_, by simp [numer, hr], by simp [denom, hr]⟩
  cases a <;> first | exact absurd rfl (hs _) | simp only [toRational, hr]

theorem C83_bad_denom (a b : Val) (x : ℚ) (ha : number a = some x) (hb : number b = none) : toRational a (some b) = .error .cannotConvert := by
  have hr := ratOf_number a
  rw [ha] at hr
  have hr' := ratOf_number b
  rw [hb] at hr'
  cases a <;> simp [number] at ha <;> simp only [toRational, hr, hr']

/-- C83: `numer` and `denom` are the numerator and denominator in lowest terms, as rationals; their quotient is the number. -/
theorem C83_numer_denom (a : Val) (x : ℚ) (ha : number a = some x) :
    ∃ v w, ∃ (n : Int) (d : Nat), numer a = .ok v ∧ denom a = .ok w ∧ Is v n ∧ Is w d ∧ 0 < d ∧ Nat.gcd n.natAbs d = 1 ∧ (n : ℚ) / d = x ∧ toRational v (some w) = toRational a none := by
  have hr := ratOf_number a
  rw [ha] at hr
  obtain ⟨⟨u, hu, hux⟩, -⟩ := C83_rational a x ha
  have h1 := is_boxQ ((x.num : ℚ))
  have h2 := is_boxQ ((x.den : ℚ))
  have hn : ∀ {v : Val} {q : ℚ}, Is v q → number v = some q := by
    rintro v q ⟨n, d, rfl, -, -, h⟩
    simp [number, h]
  refine ⟨boxQ x.num, boxQ x.den, x.num, x.den, by simp [numer, hr], by simp [denom, hr], h1, h2, x.den_pos, x.reduced, x.num_div_den, ?_⟩
  have h3 := (C83_rational _ _ (hn h1)).2 _ _ (hn h2)
  rw [if_neg (by exact_mod_cast x.den_nz)] at h3
  obtain ⟨v, hv, hvx⟩ := h3
  rw [x.num_div_den] at hvx
  rw [hv, hu, hvx.eq hux]

/-! ## Texts -/

/-- Whitespace in a text makes no difference. -/
theorem C83_whitespace (s : List Char) (o o' : Option Val) : toRational (.str s) o = toRational (.str (s.filter fun c => !blank c)) o' := by
  have key : ∀ (s : List Char) (p : Parse), readChars p s = readChars p (s.filter fun c => !blank c) := by
    intro s
    induction s with
    | nil => intro p; rfl
    | cons c s ih =>
      intro p
      by_cases hc : blank c = true
      · have hp : readChar p c = some p := by
          have h1 : c ≠ '/' ∧ c ≠ '+' ∧ c ≠ '-' ∧ c ≠ '_' := by
            refine ⟨?_, ?_, ?_, ?_⟩ <;> rintro rfl <;> revert hc <;> decide
          simp [readChar, h1, hc]
        simp [readChars, hp, hc, ih]
      · simp only [Bool.not_eq_true] at hc
        simp only [readChars, List.filter_cons, hc, Bool.not_false, if_true, ih]
  simp only [toRational, parseRational]
  rw [key s]

theorem digit_step (p : Parse) (d : Nat) (h : d < 10) : readChar p (digitChar d) = if p.slash then some { p with digits := true, den := p.den * 10 + d } else some { p with digits := true, num := p.num * 10 + d } := by
  have h0 : toDigit 10 (digitChar d) = some d := toDigit_digitChar _ _ h (by omega)
  have h1 : digitChar d ≠ '/' ∧ digitChar d ≠ '+' ∧ digitChar d ≠ '-' ∧ digitChar d ≠ '_' ∧ blank (digitChar d) = false := by
    interval_cases d <;> decide
  simp [readChar, h1, h0]

theorem digits_num (ds : List Nat) : ∀ (p : Parse), (∀ d ∈ ds, d < 10) → p.slash = false → ds ≠ [] →
    readChars p (ds.map digitChar) = some { p with digits := true, num := numFrom 10 p.num ds } := by
  induction ds with
  | nil => intro p _ _ h; exact absurd rfl h
  | cons d ds ih =>
    intro p h hp _
    simp only [List.map_cons, readChars, digit_step p d (h d (by simp)), hp, Bool.false_eq_true, if_false, Option.bind_some]
    cases ds with
    | nil => simp [readChars, numFrom, hp]
    | cons e ds => rw [ih _ (fun d hd => h d (by simp [hd])) (by simp [hp]) (by simp)]; simp [numFrom, hp]

theorem digits_den (ds : List Nat) : ∀ (p : Parse), (∀ d ∈ ds, d < 10) → p.slash = true → ds ≠ [] →
    readChars p (ds.map digitChar) = some { p with digits := true, den := numFrom 10 p.den ds } := by
  induction ds with
  | nil => intro p _ _ h; exact absurd rfl h
  | cons d ds ih =>
    intro p h hp _
    simp only [List.map_cons, readChars, digit_step p d (h d (by simp)), hp, if_true, Option.bind_some]
    cases ds with
    | nil => simp [readChars, numFrom, hp]
    | cons e ds => rw [ih _ (fun d hd => h d (by simp [hd])) (by simp [hp]) (by simp)]; simp [numFrom, hp]

theorem readChars_append (s t : List Char) : ∀ p : Parse, readChars p (s ++ t) = (readChars p s).bind fun p => readChars p t := by
  induction s with
  | nil => intro p; rfl
  | cons c s ih =>
    intro p
    simp only [List.cons_append, readChars, Option.bind_assoc]
    exact congrArg _ (funext fun p => ih p)

theorem num_read (n : Int) (t : List Char) : readChars ⟨false, false, false, false, 0, 0⟩ (decText n ++ t) = readChars ⟨decide (n < 0), decide (n < 0), true, false, n.natAbs, 0⟩ t := by
  obtain ⟨h1, h2, h3, _⟩ := digitsAux_spec 10 (by omega) n.natAbs
  rw [readChars_append]
  unfold decText natText
  by_cases hn : n < 0
  · have hm : readChar ⟨false, false, false, false, 0, 0⟩ '-' = some ⟨true, true, false, false, 0, 0⟩ := rfl
    simp only [hn, if_true, readChars, hm, Option.bind_some, digits_num _ ⟨true, true, false, false, 0, 0⟩ h1 rfl h3, h2, decide_true]
  · simp only [hn, if_false, digits_num _ ⟨false, false, false, false, 0, 0⟩ h1 rfl h3, h2, Option.bind_some, decide_false]

theorem den_read (p : Parse) (hp : p.slash = true) (h0 : p.den = 0) (d : Nat) : readChars p (natText 10 d) = some { p with digits := true, den := d } := by
  obtain ⟨h1, h2, h3, _⟩ := digitsAux_spec 10 (by omega) d
  rw [natText, digits_den _ _ h1 hp h3, h0, h2]

theorem signed (n : Int) : (if decide (n < 0) = true then -(n.natAbs : Int) else n.natAbs) = n := by
  by_cases h : n < 0
  · rw [decide_eq_true h, if_pos rfl]; omega
  · rw [decide_eq_false h, if_neg Bool.false_ne_true]; omega

/-- C83: the text of an integer, or of two with `/` between them, of any size: the number, or an error for a zero denominator; a second argument is ignored. -/
theorem C83_text (n : Int) (d : Nat) (o : Option Val) :
    (∃ v, toRational (.str (decText n)) o = .ok v ∧ Is v n) ∧
    (if d = 0 then toRational (.str (decText n ++ '/' :: natText 10 d)) o = .error .badParse else ∃ v, toRational (.str (decText n ++ '/' :: natText 10 d)) o = .ok v ∧ Is v (n / d)) := by
  constructor
  · have h := num_read n []
    rw [List.append_nil] at h
    have hq : parseRational (decText n) = some (n : ℚ) := by
      rw [parseRational, h]
      simp only [readChars, Option.bind_some, finish, Bool.not_true, Bool.false_eq_true, if_false, Option.some.injEq]
      have := congrArg (fun i : Int => (i : ℚ)) (signed n)
      by_cases hn : n < 0
      · simp only [hn, decide_true, if_true] at this ⊢; simpa using this
      · simp only [hn, decide_false, Bool.false_eq_true, if_false] at this ⊢; simpa using this
    exact ⟨boxQ n, by simp only [toRational, hq], is_boxQ _⟩
  · have hs : readChar ⟨decide (n < 0), decide (n < 0), true, false, n.natAbs, 0⟩ '/' = some ⟨decide (n < 0), decide (n < 0), false, true, n.natAbs, 0⟩ := rfl
    have hq : parseRational (decText n ++ '/' :: natText 10 d) = if d = 0 then none else some ((n : ℚ) / d) := by
      rw [parseRational, num_read]
      simp only [readChars, hs, Option.bind_some]
      rw [den_read _ rfl rfl]
      simp only [Option.bind_some, finish, Bool.not_true, Bool.false_eq_true, if_false, if_true]
      have := signed n
      rw [this, Rat.mkRat_eq_div]
    simp only [toRational, hq]
    by_cases hd : d = 0
    · simp [hd]
    · simp only [hd, if_false]
      exact ⟨_, rfl, is_boxQ _⟩

/-- C83: a rational number is read back from its text. -/
theorem C83_round_trip (q : ℚ) (o : Option Val) : toRational (.str (ratText q)) o = .ok (boxQ q) := by
  have hb : ∀ n : Nat, (natText 10 n).filter (fun c => !blank c) = natText 10 n := by
    intro n
    rw [List.filter_eq_self]
    intro c hc
    obtain ⟨h1, _⟩ := digitsAux_spec 10 (by omega) n
    simp only [natText, List.mem_map] at hc
    obtain ⟨d, hd, rfl⟩ := hc
    have := h1 d hd
    interval_cases d <;> decide
  have hi : ∀ n : Int, (decText n).filter (fun c => !blank c) = decText n := by
    intro n
    unfold decText
    split
    · rw [List.filter_cons, if_pos (by decide), hb]
    · exact hb _
  have hf : (ratText q).filter (fun c => !blank c) = decText q.num ++ '/' :: natText 10 q.den := by
    simp only [ratText, List.filter_append, hi]
    congr 1
    rw [List.filter_cons, if_neg (by decide), List.filter_cons, if_pos (by decide), List.filter_cons, if_neg (by decide), hb]
  have h := (C83_text q.num q.den o).2
  rw [if_neg q.den_nz] at h
  obtain ⟨v, hv, hvq⟩ := h
  rw [q.num_div_den] at hvq
  rw [C83_whitespace _ o o, hf, hv, hvq.eq (is_boxQ q)]

/-- **C83** the whitespace that makes no difference: tab, line feed, vertical tab, form feed, carriage return and space. -/
theorem C83_blank (c : Char) : blank c = true ↔ c.toNat ∈ [9, 10, 11, 12, 13, 32] := by
  simp only [blank, List.mem_cons, List.not_mem_nil, or_false, Bool.or_eq_true, Bool.and_eq_true, decide_eq_true_eq]
  omega

/-- A decimal digit. -/
def Digit (c : Char) : Prop := 48 ≤ c.toNat ∧ c.toNat ≤ 57

/-- The text of a natural number: digits, with `_` anywhere but at the beginning. -/
inductive Numeral : List Char → Nat → Prop
  | digit (c : Char) (h : Digit c) : Numeral [c] (c.toNat - 48)
  | more (t : List Char) (n : Nat) (c : Char) (ht : Numeral t n) (h : Digit c) : Numeral (t ++ [c]) (n * 10 + (c.toNat - 48))
  | sep (t : List Char) (n : Nat) (ht : Numeral t n) : Numeral (t ++ ['_']) n

/-- A sign, which may be missing: whether it is there, whether it is a minus. -/
inductive Sign : List Char → Bool → Bool → Prop
  | none : Sign [] false false
  | plus : Sign ['+'] true false
  | minus : Sign ['-'] true true

/-- The text, without whitespace, of a rational number. -/
inductive Reads : List Char → ℚ → Prop
  | int (sg t : List Char) (b neg : Bool) (n : Nat) (hs : Sign sg b neg) (ht : Numeral t n) : Reads (sg ++ t) (if neg then -(n : ℚ) else n)
  | ratio (sg t u : List Char) (b neg : Bool) (n d : Nat) (hs : Sign sg b neg) (ht : Numeral t n) (hu : Numeral u d) (hd : d ≠ 0) : Reads (sg ++ t ++ '/' :: u) ((if neg then -(n : ℚ) else n) / d)

theorem digit_iff (c : Char) (d : Nat) : toDigit 10 c = some d ↔ Digit c ∧ d = c.toNat - 48 := by
  simp only [toDigit, Digit]
  split_ifs <;> simp <;> omega

theorem read_digit (p : Parse) (c : Char) (h : Digit c) : readChar p c = if p.slash then some { p with digits := true, den := p.den * 10 + (c.toNat - 48) } else some { p with digits := true, num := p.num * 10 + (c.toNat - 48) } := by
  have h0 : toDigit 10 c = some (c.toNat - 48) := (digit_iff c _).2 ⟨h, rfl⟩
  have h1 : c ≠ '/' ∧ c ≠ '+' ∧ c ≠ '-' ∧ c ≠ '_' := by
    refine ⟨?_, ?_, ?_, ?_⟩ <;> rintro rfl <;> revert h <;> unfold Digit <;> decide
  have h2 : blank c = false := by
    unfold Digit at h
    simp only [blank, Bool.or_eq_false_iff, decide_eq_false_iff_not, Bool.and_eq_false_iff]
    omega
  simp [readChar, h1, h2, h0]

theorem read_numeral {t : List Char} {n : Nat} (h : Numeral t n) (p : Parse) : (p.slash = false → p.num = 0 → readChars p t = some { p with digits := true, num := n }) ∧
    (p.slash = true → p.den = 0 → readChars p t = some { p with digits := true, den := n }) := by
  induction h with
  | digit c h => constructor <;> intro h1 h2 <;> simp [readChars, read_digit _ _ h, h1, h2]
  | more t n c _ h ih =>
    constructor <;> intro h1 h2
    · simp [readChars_append, ih.1 h1 h2, readChars, read_digit _ _ h, h1]
    · simp [readChars_append, ih.2 h1 h2, readChars, read_digit _ _ h, h1]
  | sep t n _ ih =>
    have e : ∀ p : Parse, p.digits = true → readChar p '_' = some p := fun p hp => by simp [readChar, hp]
    constructor <;> intro h1 h2
    · simp [readChars_append, ih.1 h1 h2, readChars, e]
    · simp [readChars_append, ih.2 h1 h2, readChars, e]

theorem read_sign {sg : List Char} {b neg : Bool} (h : Sign sg b neg) : readChars ⟨false, false, false, false, 0, 0⟩ sg = some ⟨b, neg, false, false, 0, 0⟩ := by
  cases h <;> rfl

/-- What has been read. -/
def Inv (s : List Char) (p : Parse) : Prop := ∃ sg b neg, Sign sg b neg ∧
  ((s = sg ∧ p = ⟨b, neg, false, false, 0, 0⟩) ∨
   (∃ t n, Numeral t n ∧ s = sg ++ t ∧ p = ⟨b, neg, true, false, n, 0⟩) ∨
   (∃ t n, Numeral t n ∧ s = sg ++ t ++ ['/'] ∧ p = ⟨b, neg, false, true, n, 0⟩) ∨
   (∃ t n u d, Numeral t n ∧ Numeral u d ∧ s = sg ++ t ++ '/' :: u ∧ p = ⟨b, neg, true, true, n, d⟩))

theorem inv_step (s : List Char) (c : Char) (hc : blank c = false) (p p' : Parse) (hi : Inv s p) (h : readChar p c = some p') : Inv (s ++ [c]) p' := by
  obtain ⟨sg, b, neg, hs, hi⟩ := hi
  by_cases hd : Digit c
  · rw [read_digit _ _ hd] at h
    rcases hi with ⟨rfl, rfl⟩ | ⟨t, n, ht, rfl, rfl⟩ | ⟨t, n, ht, rfl, rfl⟩ | ⟨t, n, u, d, ht, hu, rfl, rfl⟩ <;> simp at h <;> subst h
    · exact ⟨_, b, neg, hs, .inr (.inl ⟨[c], _, .digit c hd, rfl, by simp⟩)⟩
    · exact ⟨_, b, neg, hs, .inr (.inl ⟨t ++ [c], _, .more t n c ht hd, by simp, rfl⟩)⟩
    · exact ⟨_, b, neg, hs, .inr (.inr (.inr ⟨t, n, [c], _, ht, .digit c hd, by simp, by simp⟩))⟩
    · exact ⟨_, b, neg, hs, .inr (.inr (.inr ⟨t, n, u ++ [c], _, ht, .more u d c hu hd, by simp, rfl⟩))⟩
  · have h0 : toDigit 10 c = none := by
      cases e : toDigit 10 c with
      | none => rfl
      | some d => exact absurd ((digit_iff c d).1 e).1 hd
    simp only [readChar, hc, h0] at h
    rcases hi with ⟨rfl, rfl⟩ | ⟨t, n, ht, rfl, rfl⟩ | ⟨t, n, ht, rfl, rfl⟩ | ⟨t, n, u, d, ht, hu, rfl, rfl⟩
    · cases hs with
      | none =>
        simp at h
        obtain ⟨hc1, h⟩ := h
        split at h
        · rename_i e; simp at h; subst h; subst e; exact ⟨_, _, _, .plus, .inl ⟨rfl, rfl⟩⟩
        · split at h
          · rename_i e; simp at h; subst h; subst e; exact ⟨_, _, _, .minus, .inl ⟨rfl, rfl⟩⟩
          · simp at h
      | plus => simp at h
      | minus => simp at h
    · simp at h
      split at h
      · rename_i e; simp at h; subst h; subst e; exact ⟨_, b, neg, hs, .inr (.inr (.inl ⟨t, n, ht, rfl, rfl⟩))⟩
      · split at h
        · rename_i e; simp at h; subst h; subst e; exact ⟨_, b, neg, hs, .inr (.inl ⟨_, n, .sep t n ht, by simp, rfl⟩)⟩
        · simp at h
    · simp at h
    · simp at h
      obtain ⟨rfl, rfl⟩ := h.2
      exact ⟨_, b, neg, hs, .inr (.inr (.inr ⟨t, n, _, d, ht, .sep u d hu, by simp, rfl⟩))⟩

theorem inv_run (s : List Char) : ∀ p, (∀ c ∈ s, blank c = false) → readChars ⟨false, false, false, false, 0, 0⟩ s = some p → Inv s p := by
  induction s using List.reverseRecOn with
  | nil => intro p _ h; simp [readChars] at h; subst h; exact ⟨[], false, false, .none, .inl ⟨rfl, rfl⟩⟩
  | append_singleton s c ih =>
    intro p hb h
    rw [readChars_append] at h
    cases e : readChars ⟨false, false, false, false, 0, 0⟩ s with
    | none => simp [e] at h
    | some q =>
      simp only [e, Option.bind_some, readChars] at h
      cases e' : readChar q c with
      | none => simp [e'] at h
      | some r =>
        simp [e'] at h
        subst h
        exact inv_step s c (hb c (by simp)) q r (ih q (fun c hc => hb c (by simp [hc])) e) e'

/-- **C83** exactly the texts of the grammar (whitespace aside, see `C83_whitespace`) are accepted, with the number they stand for. -/
theorem C83_grammar (s : List Char) (hs : ∀ c ∈ s, blank c = false) (o : Option Val) (v : Val) : toRational (.str s) o = .ok v ↔ ∃ q, Reads s q ∧ v = boxQ q := by
  have key : ∀ q, parseRational s = some q ↔ Reads s q := by
    intro q
    unfold parseRational
    constructor
    · intro h
      cases e : readChars ⟨false, false, false, false, 0, 0⟩ s with
      | none => simp [e] at h
      | some p =>
        simp only [e, Option.bind_some] at h
        obtain ⟨sg, b, neg, hsg, ⟨rfl, rfl⟩ | ⟨t, n, ht, rfl, rfl⟩ | ⟨t, n, ht, rfl, rfl⟩ | ⟨t, n, u, d, ht, hu, rfl, rfl⟩⟩ := inv_run s p hs e
        · simp [finish] at h
        · simp [finish] at h
          rw [← h]; exact .int sg t b neg n hsg ht
        · simp [finish] at h
        · simp [finish] at h
          obtain ⟨h1, h2⟩ := h
          have := Reads.ratio sg t u b neg n d hsg ht hu h1
          rw [← h2, Rat.mkRat_eq_div]
          cases neg <;> simpa using this
    · intro h
      cases h with
      | int sg t b neg n hsg ht =>
        rw [readChars_append, read_sign hsg, Option.bind_some, (read_numeral ht _).1 rfl rfl]
        simp [finish]
      | ratio sg t u b neg n d hsg ht hu hd =>
        rw [readChars_append, readChars_append, read_sign hsg, Option.bind_some, (read_numeral ht _).1 rfl rfl]
        simp only [Option.bind_some, readChars]
        have : readChar ⟨b, neg, true, false, n, 0⟩ '/' = some ⟨b, neg, false, true, n, 0⟩ := by simp [readChar]
        rw [this, Option.bind_some, (read_numeral hu _).2 rfl rfl]
        simp only [Option.bind_some, finish, Bool.not_true, Bool.false_eq_true, if_false, if_true, if_neg hd, Rat.mkRat_eq_div]
        cases neg <;> simp
  have eq : toRational (.str s) o = match parseRational s with
    | some q => .ok (boxQ q)
    | none => .error .badParse := rfl
  rw [eq]
  cases e : parseRational s with
  | none =>
    simp only [reduceCtorEq, false_iff]
    rintro ⟨q, hq, _⟩
    rw [(key q).2 hq] at e
    simp at e
  | some q =>
    constructor
    · intro h; exact ⟨q, (key q).1 e, (Except.ok.inj h).symm⟩
    · rintro ⟨q', hq, rfl⟩
      rw [(key q').2 hq] at e
      simp at e
      rw [e]
example : Reads ['-', '1', '_', '/', '2'] (-1 / 2) := by
  have := Reads.ratio ['-'] ['1', '_'] ['2'] true true 1 2 .minus (.sep ['1'] 1 (.digit '1' (by unfold Digit; decide))) (.digit '2' (by unfold Digit; decide)) (by decide)
  simpa using this

/-! ## abs and sqrt -/

/-- C83: `abs` of a rational number is exact. -/
theorem C83_abs (n : Int) (d : Nat) : ∃ v, absV (.rational n d) = .ok v ∧ Is v |(n : ℚ) / d| :=
  ⟨_, by rw [absV], by rw [Rat.mkRat_eq_div]; exact is_boxQ _⟩

theorem abs64_toInt (i : Int) (h : -2 ^ 63 < i) (h' : i < 2 ^ 63) : (abs64 (i64 i)).toInt = |i| := by
  have e : (i64 i).toInt = i := by simp only [i64, BitVec.toInt_ofInt]; rw [Int.bmod_eq_of_le (by omega) (by omega)]
  unfold abs64
  rw [e]
  split
  · rw [BitVec.toInt_neg, e, abs_of_neg (by assumption), Int.bmod_eq_of_le (by omega) (by omega)]
  · rw [e, abs_of_nonneg (by omega)]

/-- C83: `abs` of a complex number is that of its parts. Missing: a part that is the least of 64 bits, -2^63 (which no source text writes down, but arithmetic gives). -/
theorem C83_abs_complex_partial (re im : Int) (h : -2 ^ 63 < re) (h' : re < 2 ^ 63) (k : -2 ^ 63 < im) (k' : im < 2 ^ 63) (hi : im ≠ 0) :
    absV (.complex re im) = .ok (.complex |re| |im|) := by
  have e := abs64_toInt im k k'
  have : abs64 (i64 im) ≠ 0 := fun h0 => by
    rw [h0] at e
    exact abs_ne_zero.2 hi e.symm
  simp only [absV, boxC, if_neg this, abs64_toInt re h h', e]

/-- C83: and of an int, the magnitude. Missing: the least int, as in C53. -/
theorem C83_abs_int_partial (i : Int) (h : -2 ^ 62 < i) (h' : i < 2 ^ 62) : absV (.int i) = .ok (.int |i|) ∧ (∀ b, absV (.bool b) = .ok (.int (if b then 1 else 0))) := by
  refine ⟨?_, fun b => by cases b <;> rfl⟩
  simp only [absV, boxI, abs64_toInt i (by omega) (by omega)]
  rw [Int.bmod_eq_of_le (by have := abs_nonneg i; omega) (by have := abs_lt.2 ⟨h, h'⟩; omega)]

/-- C83: `abs` of anything else is an error. -/
theorem C83_abs_error (v : Val) : (match v with | .bool _ | .int _ | .complex _ _ | .rational _ _ | .vector _ => False | _ => True) → absV v = .error .argInt := by
  cases v <;> simp [absV]

/-- C83: `sqrt` of a rational number that is a natural number `n` is the greatest whole `y` with `y * y ≤ n`, as for ints. -/
theorem C83_sqrt_whole (guess : Nat) (v : Val) (n : Nat) (a : Int) (b : Nat) (hv : v = .rational a b) (h : (a : ℚ) / b = n) :
    ∃ y : Nat, (∃ w, sqrtV guess v = .ok w ∧ Is w y) ∧ y * y ≤ n ∧ n < (y + 1) * (y + 1) := by
  subst hv
  have e : mkRat a b = (n : ℚ) := by rw [Rat.mkRat_eq_div]; exact h
  refine ⟨Nat.sqrt n, ⟨_, ?_, is_boxQ _⟩, Nat.sqrt_le n, Nat.lt_succ_sqrt n⟩
  rw [sqrtV]
  simp only [e, Rat.num_natCast, Rat.den_natCast, Int.toNat_natCast, Nat.sqrt_one]
  rw [if_neg (by omega), Rat.mkRat_one]
  rfl

/-- C83: `sqrt` of any other rational number rounds numerator and denominator (in lowest terms) down, each for itself: the result is `y / z` for the greatest `y`, `z` with `y * y ≤ n`, `z * z ≤ d`. -/
theorem C83_sqrt_rounds (guess : Nat) (n d : Nat) (hc : n.Coprime d) (hd : 0 < d) :
    ∃ y z : Nat, (∃ w, sqrtV guess (.rational n d) = .ok w ∧ Is w ((y : ℚ) / z)) ∧ y * y ≤ n ∧ n < (y + 1) * (y + 1) ∧ z * z ≤ d ∧ d < (z + 1) * (z + 1) := by
  have e : (mkRat n d).num = n ∧ (mkRat n d).den = d := by
    have : mkRat n d = ⟨n, d, by omega, by simpa using hc⟩ := by
      rw [Rat.mkRat_eq_div, ← Rat.num_div_den ⟨n, d, by omega, by simpa using hc⟩]
    rw [this]
    exact ⟨rfl, rfl⟩
  refine ⟨Nat.sqrt n, Nat.sqrt d, ⟨_, ?_, is_boxQ _⟩, Nat.sqrt_le n, Nat.lt_succ_sqrt n, Nat.sqrt_le d, Nat.lt_succ_sqrt d⟩
  rw [sqrtV]
  simp only [e.1, e.2, Int.toNat_natCast]
  rw [if_neg (by omega), Rat.mkRat_eq_div]
  rfl

/-- C83: `sqrt` of an int is that of C53, and of other values than ints and rational numbers it is an error. -/
theorem C83_sqrt_int (guess : Nat) (v : Val) (r : Val) : (Str.sqrt guess v = .ok r → (∀ n d, v ≠ .rational n d) → sqrtV guess v = .ok r) ∧
    (intOf v = none → (∀ n d, v ≠ .rational n d) → sqrtV guess v = .error .argRational) := by
  refine ⟨fun h hr => ?_, fun h hr => ?_⟩
  · cases v <;> simp_all [sqrtV, Str.sqrt, intOf]
  · cases v <;> simp_all [sqrtV, Str.sqrt, intOf]

/-- C83: `abs` of a vector is that of its members, which may be vectors; it fails if one is no number. -/
theorem C83_abs_vector (xs : List Val) : absV (.vector xs) = (xs.mapM absV).map .vector := by
  rw [absV]
  congr 1
  induction xs with
  | nil => rfl
  | cons x xs ih =>
    rw [absL, List.mapM_cons, ih]
    cases absV x with
    | error e => rfl
    | ok y => cases xs.mapM absV <;> rfl

/-- C83: `sqrt` of the square of a rational number is its absolute value. -/
theorem C83_sqrt_square_partial (guess : Nat) (n : Int) (d : Nat) (q : ℚ) (h : (n : ℚ) / d = q * q) : ∃ v, sqrtV guess (.rational n d) = .ok v ∧ Is v |q| := by
  have hm : mkRat n d = q * q := by rw [Rat.mkRat_eq_div, h]
  have hnum : (q * q).num = q.num * q.num := Rat.mul_self_num q
  have hden : (q * q).den = q.den * q.den := Rat.mul_self_den q
  have hneg : ¬ (q * q).num < 0 := by rw [hnum]; exact not_lt.2 (mul_self_nonneg _)
  have hnat : (q.num * q.num).toNat = q.num.natAbs * q.num.natAbs := by
    rw [← Int.natAbs_mul_self, Int.toNat_natCast]
  refine ⟨boxQ |q|, ?_, is_boxQ _⟩
  rw [sqrtV]
  simp only [hm, if_neg hneg, hnum, hden, hnat, Nat.sqrt_eq]
  congr 2
  rw [Rat.mkRat_eq_div, Rat.abs_def, Rat.divInt_eq_div]
  simp
  try exact mul_self_nonneg _

/-- C83: `sqrt` of a negative number is an error, of any other it is none. -/
theorem C83_sqrt_error (guess : Nat) (n : Int) (d : Nat) : sqrtV guess (.rational n d) = .error .negative ↔ (n : ℚ) / d < 0 := by
  rw [sqrtV, ← Rat.mkRat_eq_div, ← Rat.num_neg]
  by_cases h : (mkRat n d).num < 0 <;> simp [h]

/-- C83 violated: `sqrt` should be the greatest `y` with `y * y <= x`, or at least one such `y`; of 1/2 it is 1. -/
theorem C83_violation_sqrt (guess : Nat) : sqrtV guess (.rational 1 2) = .ok (.rational 1 1) := by
  have h1 : mkRat 1 2 = 1 / 2 := by decide +kernel
  have h2 : Nat.sqrt 1 = 1 := by decide +kernel
  have h3 : Nat.sqrt 2 = 1 := by decide +kernel
  have h4 : ((1 : ℚ) / 2).num = 1 ∧ ((1 : ℚ) / 2).den = 2 := by decide +kernel
  rw [sqrtV]
  simp only [h1, h4.1, h4.2, Int.toNat_one, h2, h3]
  rfl

example : parseRational "-6 / 4".toList = some (-3 / 2) := by decide +kernel
example : parseRational "1_0/ 1__5_".toList = some (2 / 3) := by decide +kernel
example : parseRational "_1".toList = none ∧ parseRational "1/-2".toList = none ∧ parseRational "1/0".toList = none := by decide +kernel
example : ∃ v, toRational (.int 6) (some (.rational 4 3)) = .ok v ∧ Is v (9 / 2) := by
  have h := (C83_rational (.int 6) 6 (by simp [number])).2 (.rational 4 3) (4 / 3) (by simp [number])
  rwa [if_neg (by norm_num), show (6 : ℚ) / (4 / 3) = 9 / 2 by norm_num] at h
example : number (.rational 4 3) = some (4 / 3) := by simp [number]
example : numer (.rational (-3) 2) = .ok (.rational (-3) 1) ∧ denom (.int 7) = .ok (.rational 1 1) := ⟨rfl, rfl⟩
example : absV (.vector [.int (-3), .rational (-1) 2, .complex (-1) (-2)]) = .ok (.vector [.int 3, .rational 1 2, .complex 1 2]) := by rfl
example : ((4 : Int) : ℚ) / (9 : Nat) = (-2 / 3) * (-2 / 3) := by norm_num

end Cordy.Rational
