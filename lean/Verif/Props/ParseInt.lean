import Verif.Props.Strings
/-!
# C51 which texts `int`, `hex` and `bin` read, and what the other conversions to `int` give
-/
namespace Cordy.Str
open Cordy.Repr Cordy.Arith Cordy.Op

/-! ## Specification -/

/-- The value of a digit; letters in either case. -/
def digitTable : List (Char × Nat) :=
  [('0', 0), ('1', 1), ('2', 2), ('3', 3), ('4', 4), ('5', 5), ('6', 6), ('7', 7), ('8', 8), ('9', 9),
   ('a', 10), ('b', 11), ('c', 12), ('d', 13), ('e', 14), ('f', 15),
   ('A', 10), ('B', 11), ('C', 12), ('D', 13), ('E', 14), ('F', 15)]

/-- `s` is a non-empty string of base `b` digits (leading zeros allowed) with the value `n`. -/
def Digits (b : Nat) (s : List Char) (n : Nat) : Prop :=
  ∃ ds : List Nat, ds ≠ [] ∧ List.Forall₂ (fun c d => (c, d) ∈ digitTable ∧ d < b) s ds ∧
    ds.foldl (fun acc d => acc * b + d) 0 = n

/-- `s` is a base `b` number, with an optional sign. -/
def Signed (b : Nat) (s : List Char) (i : Int) : Prop :=
  (∃ n, Digits b s n ∧ i = n) ∨ (∃ t n, s = '+' :: t ∧ Digits b t n ∧ i = n) ∨ (∃ t n, s = '-' :: t ∧ Digits b t n ∧ i = -(n : Int))

/-! ## Proofs -/

theorem toDigit_iff (b : Nat) (hb : b ≤ 16) (c : Char) (d : Nat) : toDigit b c = some d ↔ (c, d) ∈ digitTable ∧ d < b := by
  constructor
  · intro h
    have hc : c = Char.ofNat c.toNat := (Char.ofNat_toNat c).symm
    unfold toDigit at h
    simp only [] at h
    generalize c.toNat = n at *
    subst hc
    split at h
    · rename_i d' hd
      split at h
      · cases h
        rename_i hlt
        refine ⟨?_, hlt⟩
        split at hd
        · cases hd; rename_i hr
          obtain ⟨h1, h2⟩ := hr
          interval_cases n <;> simp [digitTable]
        · split at hd
          · cases hd; rename_i hr
            obtain ⟨h1, h2⟩ := hr
            have : n ≤ 102 := by omega
            interval_cases n <;> simp [digitTable]
          · split at hd
            · cases hd; rename_i hr
              obtain ⟨h1, h2⟩ := hr
              have : n ≤ 70 := by omega
              interval_cases n <;> simp [digitTable]
            · cases hd
      · cases h
    · cases h
  · rintro ⟨h, hlt⟩
    simp only [digitTable, List.mem_cons, Prod.mk.injEq, List.not_mem_nil, or_false] at h
    have : ∀ (c : Char) (k : Nat), toDigit 16 c = some k → k < b → toDigit b c = some k := by
      intro c k h1 h2
      unfold toDigit at h1 ⊢
      simp only [] at h1 ⊢
      split at h1
      · rename_i hx
        split at h1
        · cases h1; simp [h2]
        · cases h1
      · cases h1
    rcases h with ⟨rfl, rfl⟩ | ⟨rfl, rfl⟩ | ⟨rfl, rfl⟩ | ⟨rfl, rfl⟩ | ⟨rfl, rfl⟩ | ⟨rfl, rfl⟩ | ⟨rfl, rfl⟩ | ⟨rfl, rfl⟩ | ⟨rfl, rfl⟩ | ⟨rfl, rfl⟩ | ⟨rfl, rfl⟩ | ⟨rfl, rfl⟩ | ⟨rfl, rfl⟩ | ⟨rfl, rfl⟩ | ⟨rfl, rfl⟩ | ⟨rfl, rfl⟩ | ⟨rfl, rfl⟩ | ⟨rfl, rfl⟩ | ⟨rfl, rfl⟩ | ⟨rfl, rfl⟩ | ⟨rfl, rfl⟩ | ⟨rfl, rfl⟩ <;>
      exact this _ _ (by rfl) hlt

theorem checked_iff {x y : Int} : checked x = some y ↔ x = y ∧ -(2 ^ 63) ≤ x ∧ x < 2 ^ 63 := by
  unfold checked
  split
  · rename_i h; exact ⟨fun e => ⟨Option.some.inj e, h⟩, fun e => by rw [e.1]⟩
  · rename_i h; exact ⟨fun e => absurd e (by simp), fun e => absurd e.2 h⟩

theorem parseLoop_iff (b : Nat) (hb : 2 ≤ b) (hb' : b ≤ 16) (neg : Bool) : ∀ (cs : List Char) (acc : Nat) (i : Int),
    (acc : Int) < 2 ^ 63 + (if neg then 1 else 0) →
    (parseLoop b neg (if neg then -(acc : Int) else acc) cs = some i ↔
      ∃ ds, List.Forall₂ (fun c d => (c, d) ∈ digitTable ∧ d < b) cs ds ∧
        i = (if neg then -(numFrom b acc ds : Int) else numFrom b acc ds) ∧ (numFrom b acc ds : Int) < 2 ^ 63 + (if neg then 1 else 0))
  | [], acc, i, h => by
    simp only [parseLoop]
    constructor
    · intro hi; cases hi; exact ⟨[], .nil, rfl, by simpa [numFrom] using h⟩
    · rintro ⟨ds, hds, hi, -⟩; cases hds; simp [hi, numFrom]
  | c :: cs, acc, i, h => by
    constructor
    · intro hp
      rw [parseLoop] at hp
      split at hp
      · rename_i m d hm hd
        split at hp
        · rename_i acc' ha
          have hd' := (toDigit_iff b hb' c d).1 hd
          obtain ⟨hm, -⟩ := checked_iff.1 hm
          obtain ⟨ha, hr⟩ := checked_iff.1 ha
          subst hm
          rw [ha] at hr
          have hacc : acc' = (if neg then -((acc * b + d : Nat) : Int) else ((acc * b + d : Nat) : Int)) := by
            rw [← ha]; cases neg <;> simp; ring
          rw [hacc] at hp hr
          have hb2 : ((acc * b + d : Nat) : Int) < 2 ^ 63 + (if neg then 1 else 0) := by
            cases neg <;> simp only [Bool.false_eq_true, if_true, if_false] at hr ⊢ <;> omega
          obtain ⟨ds, h1, h2, h3⟩ := (parseLoop_iff b hb hb' neg cs (acc * b + d) i hb2).1 hp
          exact ⟨d :: ds, .cons hd' h1, h2, h3⟩
        · cases hp
      · cases hp
    · rintro ⟨ds, hds, hi, hlt⟩
      cases hds with
      | cons hd hds =>
        rename_i d ds
        have hge := numFrom_ge b (by omega) ds (acc * b + d)
        have hb2 : ((acc * b + d : Nat) : Int) < 2 ^ 63 + (if neg then 1 else 0) := by
          have : numFrom b acc (d :: ds) = numFrom b (acc * b + d) ds := rfl
          rw [this] at hlt; omega
        have key : (acc * b : Nat) ≤ acc * b + d := by omega
        rw [parseLoop_step (m := (if neg then -((acc * b : Nat) : Int) else ((acc * b : Nat) : Int)))
          (a := (if neg then -((acc * b + d : Nat) : Int) else ((acc * b + d : Nat) : Int))) (d := d) ?_ ((toDigit_iff b hb' c d).2 hd) ?_]
        · exact (parseLoop_iff b hb hb' neg cs (acc * b + d) i hb2).2 ⟨ds, hds, hi, hlt⟩
        · refine checked_iff.2 ⟨?_, ?_⟩
          · cases neg <;> simp
          · have h0 : (0 : Int) ≤ ((acc * b : Nat) : Int) := by positivity
            cases neg <;> simp only [Bool.false_eq_true, if_true, if_false, neg_mul] at hb2 ⊢ <;> push_cast at h0 hb2 ⊢ <;> omega
        · refine checked_iff.2 ⟨?_, ?_⟩
          · cases neg <;> simp; ring
          · have h0 : (0 : Int) ≤ ((acc * b : Nat) : Int) := by positivity
            cases neg <;> simp only [Bool.false_eq_true, if_true, if_false] at hb2 ⊢ <;> push_cast at h0 hb2 ⊢ <;> omega

theorem sign_not_digit {b n : Nat} {t : List Char} : ¬ Digits b ('+' :: t) n ∧ ¬ Digits b ('-' :: t) n := by
  constructor <;>
  · rintro ⟨ds, -, hds, -⟩
    cases hds with
    | cons h _ => simp [digitTable] at h

theorem parseLoop_pos_iff (b : Nat) (hb : 2 ≤ b) (hb' : b ≤ 16) (cs : List Char) (hc : cs ≠ []) (i : Int) :
    parseLoop b false 0 cs = some i ↔ ∃ n, Digits b cs n ∧ i = n ∧ (n : Int) < 2 ^ 63 := by
  have := parseLoop_iff b hb hb' false cs 0 i (by norm_num)
  simp only [Bool.false_eq_true, if_false, Nat.cast_zero, add_zero] at this
  rw [this]
  constructor
  · rintro ⟨ds, h1, h2, h3⟩
    refine ⟨_, ⟨ds, ?_, h1, rfl⟩, h2, h3⟩
    rintro rfl; cases h1; exact hc rfl
  · rintro ⟨n, ⟨ds, -, h1, rfl⟩, h2, h3⟩
    exact ⟨ds, h1, h2, h3⟩

theorem parseLoop_neg_iff (b : Nat) (hb : 2 ≤ b) (hb' : b ≤ 16) (cs : List Char) (hc : cs ≠ []) (i : Int) :
    parseLoop b true 0 cs = some i ↔ ∃ n, Digits b cs n ∧ i = -(n : Int) ∧ (n : Int) ≤ 2 ^ 63 := by
  have := parseLoop_iff b hb hb' true cs 0 i (by norm_num)
  simp only [if_true, Nat.cast_zero, neg_zero] at this
  rw [this]
  constructor
  · rintro ⟨ds, h1, h2, h3⟩
    refine ⟨_, ⟨ds, ?_, h1, rfl⟩, h2, Int.lt_add_one_iff.1 h3⟩
    rintro rfl; cases h1; exact hc rfl
  · rintro ⟨n, ⟨ds, -, h1, rfl⟩, h2, h3⟩
    exact ⟨ds, h1, h2, Int.lt_add_one_iff.2 h3⟩

theorem digits_ne_nil {b n : Nat} (h : Digits b [] n) : False := by
  obtain ⟨ds, h1, h2, -⟩ := h
  cases h2; exact h1 rfl

theorem parseI64_plus (b : Nat) (t : List Char) (ht : t ≠ []) : parseI64 b ('+' :: t) = parseLoop b false 0 t := by
  unfold parseI64; split <;> simp_all
theorem parseI64_minus (b : Nat) (t : List Char) (ht : t ≠ []) : parseI64 b ('-' :: t) = parseLoop b true 0 t := by
  unfold parseI64; split <;> simp_all

theorem parseI64_iff (b : Nat) (hb : 2 ≤ b) (hb' : b ≤ 16) (s : List Char) (i : Int) :
    parseI64 b s = some i ↔ Signed b s i ∧ -(2 ^ 63) ≤ i ∧ i < 2 ^ 63 := by
  have hpos := parseLoop_pos_iff b hb hb'
  have hneg := parseLoop_neg_iff b hb hb'
  obtain ⟨M, hM, hM1⟩ : ∃ M : Int, M = 2 ^ 63 ∧ 1 ≤ M := ⟨_, rfl, by norm_num⟩
  rw [← hM] at hpos hneg ⊢
  clear hM
  rcases s with _ | ⟨c, t⟩
  · simp only [parseI64, reduceCtorEq, false_iff]
    rintro ⟨h | ⟨_, _, h, _⟩ | ⟨_, _, h, _⟩, _⟩
    · obtain ⟨n, h, _⟩ := h; exact digits_ne_nil h
    · cases h
    · cases h
  by_cases hp : c = '+'
  · subst hp
    by_cases ht : t = []
    · subst ht
      simp only [parseI64, reduceCtorEq, false_iff]
      rintro ⟨⟨n, h, _⟩ | ⟨t, n, h, h', _⟩ | ⟨t, n, h, _⟩, _⟩
      · exact sign_not_digit.1 h
      · cases h; exact digits_ne_nil h'
      · cases h
    · rw [parseI64_plus b t ht, hpos t ht]
      constructor
      · rintro ⟨n, h1, h2, h3⟩; exact ⟨.inr (.inl ⟨t, n, rfl, h1, h2⟩), by omega, by omega⟩
      · rintro ⟨⟨n, h, _⟩ | ⟨t, n, h, h', h2⟩ | ⟨t, n, h, _⟩, h3, h4⟩
        · exact absurd h sign_not_digit.1
        · cases h; exact ⟨n, h', h2, by omega⟩
        · cases h
  by_cases hm : c = '-'
  · subst hm
    by_cases ht : t = []
    · subst ht
      simp only [parseI64, reduceCtorEq, false_iff]
      rintro ⟨⟨n, h, _⟩ | ⟨t, n, h, h', _⟩ | ⟨t, n, h, h', _⟩, _⟩
      · exact sign_not_digit.2 h
      · cases h
      · cases h; exact digits_ne_nil h'
    · rw [parseI64_minus b t ht, hneg t ht]
      constructor
      · rintro ⟨n, h1, h2, h3⟩; exact ⟨.inr (.inr ⟨t, n, rfl, h1, h2⟩), by omega, by omega⟩
      · rintro ⟨⟨n, h, _⟩ | ⟨t, n, h, h', h2⟩ | ⟨t, n, h, h', h2⟩, h3, h4⟩
        · exact absurd h sign_not_digit.2
        · cases h
        · cases h; exact ⟨n, h', h2, by omega⟩
  · have : parseI64 b (c :: t) = parseLoop b false 0 (c :: t) := by
      unfold parseI64; split <;> simp_all
    rw [this, hpos _ (by simp)]
    constructor
    · rintro ⟨n, h1, h2, h3⟩; exact ⟨.inl ⟨n, h1, h2⟩, by omega, by omega⟩
    · rintro ⟨⟨n, h, h2⟩ | ⟨t, n, h, h', h2⟩ | ⟨t, n, h, h', h2⟩, h3, h4⟩
      · exact ⟨n, h, h2, by omega⟩
      · cases h; exact absurd rfl hp
      · cases h; exact absurd rfl hm

/-- **C51** `int(s)` gives the number that `s` is, if it is an int, for every decimal number with or without sign and leading zeros. -/
theorem C51_int_reads (s : List Char) (i : Int) (h : Signed 10 s i) (hi : Small i) (d : Option Val) : toInt (.str s) d = .ok (.int i) := by
  have := (parseI64_iff 10 (by omega) (by omega) s i).2 ⟨h, by have := hi.1; omega, by have := hi.2; omega⟩
  simp only [toInt, this, boxInt_exact _ hi]

/-- **C51** `int(s)` of any text that is not a decimal number is an error, or the given default. -/
theorem C51_int_rejects (s : List Char) (h : ∀ i, ¬ Signed 10 s i) :
    toInt (.str s) none = .error .badInt ∧ ∀ d, toInt (.str s) (some d) = .ok d := by
  have : parseI64 10 s = none := by
    cases hp : parseI64 10 s with
    | none => rfl
    | some i => exact absurd ((parseI64_iff 10 (by omega) (by omega) s i).1 hp).1 (h i)
  constructor
  · simp only [toInt, this]
  · intro d; simp only [toInt, this]

/-- **C51** `hex(s)` and `bin(s)` give the number that `s` is in base 16 or 2, and an error for any other text. -/
theorem C51_radix_reads (b : Nat) (hb : b = 16 ∨ b = 2) (s : List Char) :
    (∀ i, Signed b s i → Small i → radix b (.str s) = .ok (.int i)) ∧ ((∀ i, ¬ Signed b s i) → radix b (.str s) = .error .badInt) := by
  constructor
  · intro i h hi
    have := (parseI64_iff b (by omega) (by omega) s i).2 ⟨h, by have := hi.1; omega, by have := hi.2; omega⟩
    simp only [radix, this, boxInt_exact _ hi]
  · intro h
    have : parseI64 b s = none := by
      cases hp : parseI64 b s with
      | none => rfl
      | some i => exact absurd ((parseI64_iff b (by omega) (by omega) s i).1 hp).1 (h i)
    simp only [radix, this]

/-- **C51** `int` of other values: `nil` is 0, `false` and `true` are 0 and 1, an int is itself, a rational is converted when it is whole (and an int), anything else is an error,
whatever the default. -/
theorem C51_int_values (dflt : Option Val) :
    toInt .nil dflt = .ok (.int 0) ∧ toInt (.bool false) dflt = .ok (.int 0) ∧ toInt (.bool true) dflt = .ok (.int 1) ∧
    (∀ i, toInt (.int i) dflt = .ok (.int i)) ∧
    (∀ n, Small n → toInt (.rational n 1) dflt = .ok (.int n)) ∧
    (∀ n d, d ≠ 1 → toInt (.rational n d) dflt = .error .badInt) ∧
    (∀ n, ¬ Small n → toInt (.rational n 1) dflt = .error .badInt) ∧
    (∀ xs, toInt (.list xs) dflt = .error .badInt) := by
  refine ⟨rfl, rfl, rfl, fun _ => rfl, fun n h => ?_, fun n d h => ?_, fun n h => ?_, fun _ => rfl⟩
  · simp only [toInt, if_true]
    exact (if_pos h).trans (by rw [boxInt_exact _ h])
  · simp only [toInt, if_neg h]
  · simp only [toInt, if_true]
    exact if_neg h

theorem byteLen_one : ∀ (s : List Char), byteLen s = 1 → ∃ c, s = [c] ∧ c.toNat ≤ 127
  | [], h => by simp [byteLen] at h
  | c :: cs, h => by
    have h1 := Char.utf8Size_pos c
    have hc : byteLen (c :: cs) = c.utf8Size + byteLen cs := by simp [byteLen]
    cases cs with
    | nil =>
      refine ⟨c, rfl, ?_⟩
      have : c.utf8Size = 1 := by simp [byteLen] at hc h; omega
      unfold Char.utf8Size at this
      simp only [] at this
      split at this
      · rename_i hv; exact UInt32.le_iff_toNat_le.1 hv
      · split at this
        · omega
        · split at this <;> omega
    | cons d ds =>
      have h2 := Char.utf8Size_pos d
      have : byteLen (d :: ds) = d.utf8Size + byteLen ds := by simp [byteLen]
      omega

/-- **C51** `ord` is defined on one-character ASCII strings only. -/
theorem C51_ord_domain (s : List Char) (v : Val) (h : ord (.str s) = .ok v) : ∃ c, s = [c] ∧ c.toNat ≤ 127 ∧ v = .int c.toNat := by
  unfold ord at h
  simp only [] at h
  split at h
  · rename_i hb
    obtain ⟨c, rfl, hc⟩ := byteLen_one s hb
    simp only [] at h; cases h
    exact ⟨c, rfl, hc, rfl⟩
  · cases h

/-- **C51** `chr` gives a one-character string, for a positive number, or an error. -/
theorem C51_chr_domain (i : Int) (v : Val) (h : chr (.int i) = .ok v) : 0 < i ∧ ∃ c : Char, v = .str [c] ∧ (c.toNat : Int) = i % 2 ^ 32 := by
  unfold chr at h
  simp only [Cordy.asInt] at h
  split at h
  · cases h
  · rename_i hi
    refine ⟨by omega, ?_⟩
    split at h
    · rename_i c hc
      cases h
      refine ⟨c, rfl, ?_⟩
      unfold charFromU32 at hc
      split at hc
      · rename_i hv
        cases hc
        have : (Char.ofNatAux (i % 2 ^ 32).toNat hv).toNat = (i % 2 ^ 32).toNat := rfl
        rw [this]; omega
      · cases hc
    · cases h

/-- **C51** `char` of the number of any character but NUL is that character; a number that is no character's (zero, negative, a surrogate, more than 0x10FFFF) is an error. Missing: numbers
above 32 bits, which are truncated (`C51_violation_chr_truncates`). -/
theorem C51_chr_partial (i : Int) (h : i < 2 ^ 32) : (∀ c : Char, c.toNat ≠ 0 → (c.toNat : Int) = i → chr (.int i) = .ok (.str [c])) ∧
    ((i = 0 ∨ ∀ c : Char, (c.toNat : Int) ≠ i) → chr (.int i) = .error .badOrdinal) := by
  refine ⟨fun c h0 hc => ?_, fun hc => ?_⟩
  · subst hc
    have hv : c.toNat.isValidChar := c.valid
    have hm : ((c.toNat : Int) % 2 ^ 32).toNat = c.toNat := by omega
    simp only [chr, Cordy.asInt, if_neg (show ¬ (c.toNat : Int) ≤ 0 by omega), hm, charFromU32, dif_pos hv]
    rfl
  · simp only [chr, Cordy.asInt]
    by_cases h0 : i ≤ 0
    · rw [if_pos h0]
    · rw [if_neg h0]
      have hm : (i % 2 ^ 32).toNat = i.toNat := by omega
      rw [hm]
      have hn : ¬ i.toNat.isValidChar := fun hv => by
        rcases hc with rfl | hc
        · exact h0 (by omega)
        · refine hc (Char.ofNatAux i.toNat hv) ?_
          have : (Char.ofNatAux i.toNat hv).toNat = i.toNat := rfl
          rw [this]
          omega
      simp only [charFromU32, dif_neg hn]

/-- **C51, violated**: `ord` is an error for every character that is not ASCII, although the documentation has it for any character. -/
theorem C51_violation_ord (c : Char) (h : 127 < c.toNat) : ord (.str [c]) = .error .argChar := by
  cases e : ord (.str [c]) with
  | ok v =>
    obtain ⟨d, h1, h2, _⟩ := C51_ord_domain [c] v e
    simp at h1
    subst h1
    omega
  | error x =>
    simp only [ord] at e
    split at e <;> simp at e <;> rw [e]

example : chr (.int 0x1F600) = .ok (.str ['😀']) := (C51_chr_partial _ (by decide)).1 '😀' (by decide) rfl
example : chr (.int 0xD800) = .error .badOrdinal := (C51_chr_partial _ (by decide)).2 (.inr fun c h => by
  have this : c.toNat.isValidChar := c.valid
  have h' : c.toNat = 0xD800 := by omega
  rw [h'] at this
  revert this
  decide)

/-- **C53** `real` and `imag` give the parts of every number: an int and a bool (as 0 or 1) have the imaginary part 0. -/
theorem C53_real_imag (re im : Int) (h1 : Small re) (h2 : Small im) (b : Bool) :
    real (.complex re im) = .ok (.int re) ∧ imag (.complex re im) = .ok (.int im) ∧
    real (.int re) = .ok (.int re) ∧ imag (.int re) = .ok (.int 0) ∧
    real (.bool b) = .ok (.int (if b = true then 1 else 0)) ∧ imag (.bool b) = .ok (.int 0) := by
  refine ⟨?_, ?_, rfl, rfl, rfl, rfl⟩
  · simp only [real, boxInt_exact _ h1]
  · simp only [imag, boxInt_exact _ h2]

example : Signed 16 ['-', '0', 'F', 'f'] (-255) :=
  .inr (.inr ⟨_, 255, rfl, ⟨[0, 15, 15], by simp, by simp [digitTable], by decide⟩, rfl⟩)
example : toInt (.str ['+', '0', '0', '7']) none = .ok (.int 7) :=
  C51_int_reads _ _ (.inr (.inl ⟨_, 7, rfl, ⟨[0, 0, 7], by simp, by simp [digitTable], by decide⟩, rfl⟩)) ⟨by decide, by decide⟩ _
example : ∀ i, ¬ Signed 10 ['1', ':'] i := by
  rintro i (⟨n, ⟨ds, -, h, -⟩, -⟩ | ⟨t, n, h, -⟩ | ⟨t, n, h, -⟩)
  · cases h with
    | cons _ h => cases h with
      | cons h _ => simp [digitTable] at h
  · simp at h
  · simp at h

end Cordy.Str
