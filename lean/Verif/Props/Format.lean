import Verif.Props.Strings
/-!
# C50 string formatting
-/
namespace Cordy.Str
open Cordy.Repr Cordy.Arith Cordy.Op

/-! ## Specification -/

/-- The conversions `%d`, `%x`, `%b`, `%s`. -/
inductive Conv where
  | d | x | b | s
  deriving DecidableEq, Repr

/-- A parsed format string: literal characters, `%%`, and directives `%[0][width]conv`. Width 0 stands for no width. -/
inductive Item where
  | lit (c : Char)
  | percent
  | dir (zero : Bool) (width : Nat) (conv : Conv)
  deriving DecidableEq, Repr

/-- The character of a conversion. -/
def Conv.char : Conv → Char
  | .d => 'd' | .x => 'x' | .b => 'b' | .s => 's'

/-- How an item is written in a format string. -/
def Item.render : Item → List Char
  | .lit c => [c]
  | .percent => ['%', '%']
  | .dir zero width conv => '%' :: ((if zero then ['0'] else []) ++ ((if width = 0 then [] else natText 10 width) ++ [conv.char]))

/-- A literal is not `%`; widths fit a machine word. -/
def Item.Valid : Item → Prop
  | .lit c => c ≠ '%'
  | .percent => True
  | .dir _ w _ => w < 2 ^ 64

/-- Pad on the left / on the right up to a width. -/
def padLeft (fill : Char) (w : Nat) (s : List Char) : List Char := List.replicate (w - s.length) fill ++ s
def padRight (fill : Char) (w : Nat) (s : List Char) : List Char := s ++ List.replicate (w - s.length) fill

/-- What one directive prints for its argument: ints are right aligned, with spaces or, after the sign, zeros; strings are left aligned. -/
def Conv.text (toStr : Val → List Char) (zero : Bool) (w : Nat) (conv : Conv) (arg : Val) : Res (List Char) :=
  match conv with
  | .s => .ok (padRight ' ' w (toStr arg))
  | .d => (Cordy.asInt arg).map fun i =>
      if zero then (if i < 0 then '-' :: padLeft '0' (w - 1) (natText 10 i.natAbs) else padLeft '0' w (natText 10 i.natAbs))
      else padLeft ' ' w (decText i)
  | .x => (Cordy.asInt arg).map fun i => padLeft (if zero then '0' else ' ') w (radixText 16 i)
  | .b => (Cordy.asInt arg).map fun i => padLeft (if zero then '0' else ' ') w (radixText 2 i)

/-- The substitution: left to right, each directive uses the next argument. -/
def subst (toStr : Val → List Char) : List Item → List Val → Res (List Char)
  | [], [] => .ok []
  | [], _ :: _ => .error .formatUnused
  | .lit c :: is, args => (subst toStr is args).map (c :: ·)
  | .percent :: is, args => (subst toStr is args).map ('%' :: ·)
  | .dir _ _ _ :: _, [] => .error .formatMissing
  | .dir z w c :: is, a :: args =>
    match c.text toStr z w a with
    | .error e => .error e
    | .ok t => (subst toStr is args).map (t ++ ·)

/-! ## Proofs -/

theorem digitChar_class (d : Nat) (h : d < 10) : (0 < d → '1' ≤ digitChar d ∧ digitChar d ≤ '9') ∧ (d = 0 → digitChar d = '0') ∧
    (digitChar d).toNat - 48 = d := by
  interval_cases d <;> decide

theorem zero_class : ¬ ('1' ≤ '0' ∧ '0' ≤ '9') := by decide

theorem scanWidth_digits (rest : List Char) (hr : ∀ c, rest.head? = some c → ¬ ('1' ≤ c ∧ c ≤ '9') ∧ c ≠ '0') :
    ∀ (ds : List Nat) (buf : List Char), (∀ d ∈ ds, d < 10) → (buf ≠ [] ∨ ds.head? ≠ some 0) →
    scanWidth (ds.map digitChar ++ rest) buf = .ok (buf ++ ds.map digitChar, rest)
  | [], buf, _, _ => by
    cases rest with
    | nil => simp [scanWidth]
    | cons c cs =>
      obtain ⟨h1, h2⟩ := hr c rfl
      simp only [List.map_nil, List.nil_append, scanWidth, if_neg h1, if_neg h2, List.append_nil]
  | d :: ds, buf, hd, hb => by
    obtain ⟨h1, h2, _⟩ := digitChar_class d (hd d (by simp))
    have ih := scanWidth_digits rest hr ds (buf ++ [digitChar d]) (fun d h => hd d (by simp [h])) (.inl (by simp))
    simp only [List.map_cons, List.cons_append, scanWidth]
    by_cases h : 0 < d
    · rw [if_pos (h1 h), ih]; simp
    · have h0 : d = 0 := by omega
      have hbuf : buf ≠ [] := by
        rcases hb with hb | hb
        · exact hb
        · simp [h0] at hb
      have he : buf.isEmpty = false := by cases buf <;> simp_all
      rw [h2 h0] at ih ⊢
      rw [if_neg zero_class, if_pos rfl, he, if_neg (by simp), ih]; simp

theorem decVal_digits (ds : List Nat) (h : ∀ d ∈ ds, d < 10) : decVal (ds.map digitChar) = numFrom 10 0 ds := by
  unfold decVal numFrom
  suffices ∀ a, List.foldl (fun n c => 10 * n + (Char.toNat c - 48)) a (ds.map digitChar) = ds.foldl (fun a d => a * 10 + d) a from this 0
  induction ds with
  | nil => intro a; rfl
  | cons d ds ih =>
    intro a
    obtain ⟨_, _, h3⟩ := digitChar_class d (h d (by simp))
    simp only [List.map_cons, List.foldl_cons, h3]
    rw [ih (fun d hd => h d (by simp [hd]))]; congr 1; ring

theorem conv_not_digit (conv : Conv) : ¬ ('1' ≤ conv.char ∧ conv.char ≤ '9') ∧ conv.char ≠ '0' := by
  cases conv <;> decide

/-- The width written in a directive is read back. -/
theorem scanWidth_render (w : Nat) (hw : w < 2 ^ 64) (conv : Conv) (rest : List Char) :
    ∃ buf, scanWidth ((if w = 0 then [] else natText 10 w) ++ (conv.char :: rest)) [] = .ok (buf, conv.char :: rest) ∧
      parseWidth buf = .ok w := by
  have hr : ∀ c, (conv.char :: rest).head? = some c → ¬ ('1' ≤ c ∧ c ≤ '9') ∧ c ≠ '0' := by
    intro c hc; simp at hc; subst hc; exact conv_not_digit conv
  by_cases h : w = 0
  · refine ⟨[], ?_, by simp [parseWidth, h]⟩
    rw [if_pos h]
    exact scanWidth_digits _ hr [] [] (by simp) (.inr (by simp))
  · obtain ⟨h1, h2, h3, h4, _⟩ := digitsAux_spec 10 (by omega) w
    refine ⟨natText 10 w, ?_, ?_⟩
    · rw [if_neg h]
      exact scanWidth_digits _ hr (digitsAux 10 w []) [] h1 (.inr (fun hc => h (h4 hc)))
    · have hv : decVal (natText 10 w) = w := by rw [natText, decVal_digits _ h1, h2]
      have he : (natText 10 w).isEmpty = false := by
        rw [natText]; cases hx : digitsAux 10 w [] with
        | nil => exact absurd hx h3
        | cons _ _ => rfl
      rw [parseWidth, he, hv, if_neg (by simp), if_pos hw]

theorem natText_head_ne_zero (w : Nat) (h : w ≠ 0) : (natText 10 w).head? ≠ some '0' := by
  obtain ⟨h1, _, h3, h4, _⟩ := digitsAux_spec 10 (by omega) w
  rw [natText]
  rcases hx : digitsAux 10 w [] with _ | ⟨x, xs⟩
  · simp
  · rw [hx] at h1 h4
    simp only [List.map_cons, List.head?_cons]
    intro hc
    have hxlt := h1 x (by simp)
    have : x = 0 := by
      obtain ⟨hp, _, _⟩ := digitChar_class x hxlt
      by_contra hne
      have := hp (by omega)
      rw [Option.some.inj hc] at this
      exact zero_class this
    exact h (h4 (by simp [this]))

theorem zeroFlag_render (zero : Bool) (w : Nat) (conv : Conv) (rest : List Char) :
    zeroFlag ((if zero then ['0'] else []) ++ ((if w = 0 then [] else natText 10 w) ++ (conv.char :: rest))) =
      (zero, (if w = 0 then [] else natText 10 w) ++ (conv.char :: rest)) := by
  cases zero
  · simp only [Bool.false_eq_true, if_false, List.nil_append]
    unfold zeroFlag
    split
    · rename_i cs h
      exfalso
      by_cases hw : w = 0
      · rw [if_pos hw] at h
        have := (conv_not_digit conv).2
        simp at h; exact this h.1
      · rw [if_neg hw] at h
        have := natText_head_ne_zero w hw
        rcases hx : natText 10 w with _ | ⟨x, xs⟩
        · have := natText_cons 10 w (by omega) (by omega)
          rw [hx] at this; simp at this
        · rw [hx] at h this; simp at h this; exact this h.1
    · rfl
  · simp [zeroFlag]

theorem padNum_eq (zero : Bool) (w : Nat) (digits : List Char) :
    padNum zero w false digits = padLeft (if zero then '0' else ' ') w digits := by
  cases zero <;> simp [padNum, padLeft]

theorem convert_eq (toStr : Val → List Char) (zero : Bool) (w : Nat) (conv : Conv) (args : List Val) :
    convert toStr zero w (some conv.char) args =
      match args with
      | [] => .error .formatMissing
      | a :: as => (conv.text toStr zero w a).map (·, as) := by
  cases args with
  | nil => cases conv <;> rfl
  | cons a as =>
    cases conv
    · show (do let i ← Cordy.asInt a; (.ok (padNum zero w (decide (i < 0)) (natText 10 i.natAbs), as) : Res _)) = _
      simp only [Conv.text]
      cases Cordy.asInt a with
      | error e => rfl
      | ok i =>
        show (.ok (_, as) : Res _) = .ok (_, as)
        congr 2
        by_cases h : i < 0 <;> cases zero <;> simp [padNum, padLeft, decText, h]
        · rw [Nat.add_comm]
        · rw [Nat.sub_sub]
    · show (do let i ← Cordy.asInt a; (.ok (padNum zero w false (radixText 16 i), as) : Res _)) = _
      simp only [Conv.text]
      cases Cordy.asInt a with
      | error e => rfl
      | ok i => show (.ok (_, as) : Res _) = .ok (_, as); rw [padNum_eq]
    · show (do let i ← Cordy.asInt a; (.ok (padNum zero w false (radixText 2 i), as) : Res _)) = _
      simp only [Conv.text]
      cases Cordy.asInt a with
      | error e => rfl
      | ok i => show (.ok (_, as) : Res _) = .ok (_, as); rw [padNum_eq]
    · rfl

theorem directive_render (toStr : Val → List Char) (zero : Bool) (w : Nat) (hw : w < 2 ^ 64) (conv : Conv) (rest : List Char)
    (args : List Val) :
    directive toStr ((if zero then ['0'] else []) ++ ((if w = 0 then [] else natText 10 w) ++ (conv.char :: rest))) args =
      match args with
      | [] => .error .formatMissing
      | a :: as => (conv.text toStr zero w a).map (·, rest, as) := by
  obtain ⟨buf, h1, h2⟩ := scanWidth_render w hw conv rest
  unfold directive
  rw [zeroFlag_render]
  simp only [h1, h2, List.head?_cons, convert_eq]
  cases args with
  | nil => rfl
  | cons a as =>
    simp only []
    cases conv.text toStr zero w a with
    | error e => rfl
    | ok t => rfl

theorem run_out (toStr : Val → List Char) (cs : List Char) (args : List Val) (out : List Char) :
    run toStr cs args out = (run toStr cs args []).map (out ++ ·) := by
  induction hn : cs.length using Nat.strongRecOn generalizing cs args out with
  | ind n ih =>
    rw [run.eq_def, run.eq_def toStr cs args []]
    split
    · split <;> simp [Except.map]
    · rename_i cs
      rw [ih cs.length (by rw [← hn]; simp) cs args (out ++ ['%']) rfl, ih cs.length (by rw [← hn]; simp) cs args ([] ++ ['%']) rfl]
      cases run toStr cs args [] <;> simp [Except.map]
    · rename_i cs _
      split
      · rfl
      · rename_i t rest as hd
        have hl := directive_length hd
        rw [ih rest.length (by rw [← hn]; simp; omega) rest as (out ++ t) rfl,
          ih rest.length (by rw [← hn]; simp; omega) rest as ([] ++ t) rfl]
        cases run toStr rest as [] <;> simp [Except.map]
    · rename_i c cs _ _
      rw [ih cs.length (by rw [← hn]; simp) cs args (out ++ [c]) rfl, ih cs.length (by rw [← hn]; simp) cs args ([] ++ [c]) rfl]
      cases run toStr cs args [] <;> simp [Except.map]

theorem run_lit (toStr : Val → List Char) (c : Char) (hc : c ≠ '%') (cs : List Char) (args : List Val) :
    run toStr (c :: cs) args [] = (run toStr cs args []).map (c :: ·) := by
  rw [run.eq_def]
  split
  · simp_all
  · simp_all
  · simp_all
  · rename_i h1 h2
    cases h2
    rw [run_out]; rfl

theorem run_percent (toStr : Val → List Char) (cs : List Char) (args : List Val) :
    run toStr ('%' :: '%' :: cs) args [] = (run toStr cs args []).map ('%' :: ·) := by
  rw [run]; rw [run_out]; rfl

theorem run_dir (toStr : Val → List Char) (cs : List Char) (hcs : cs.head? ≠ some '%') (args : List Val) :
    run toStr ('%' :: cs) args [] =
      match directive toStr cs args with
      | .error e => .error e
      | .ok (t, rest, as) => (run toStr rest as []).map (t ++ ·) := by
  rw [run.eq_def]
  split
  · simp_all
  · rename_i h; simp at h; subst h; simp at hcs
  · rename_i h; cases h
    cases hd : directive toStr cs args with
    | error e => simp only []
    | ok r => obtain ⟨t, rest, as⟩ := r; simp only []; rw [run_out]; rfl
  · rename_i h h2; cases h2; exact (h rfl).elim

theorem render_head (zero : Bool) (w : Nat) (conv : Conv) (rest : List Char) :
    ((if zero then ['0'] else []) ++ ((if w = 0 then [] else natText 10 w) ++ (conv.char :: rest))).head? ≠ some '%' := by
  cases zero
  · by_cases hw : w = 0
    · simp [hw]; cases conv <;> decide
    · rcases hx : digitsAux 10 w [] with _ | ⟨x, xs⟩
      · exact absurd hx (digitsAux_spec 10 (by omega) w).2.2.1
      · have hxl := (digitsAux_spec 10 (by omega) w).1 x (by simp [hx])
        simp only [hw, if_false, natText, hx, Bool.false_eq_true, List.nil_append, List.map_cons, List.cons_append, List.head?_cons]
        intro hc
        have := Option.some.inj hc
        revert this
        interval_cases x <;> decide
  · simp

/-- **C50** formatting replaces the directives left to right with the arguments, one each, copies everything else, and reports
missing, left over and wrongly typed arguments: on every well-formed format string it is exactly the substitution. -/
theorem C50_substitutes (toStr : Val → List Char) (items : List Item) (hv : ∀ i ∈ items, i.Valid) (args : List Val) :
    run toStr (items.flatMap Item.render) args [] = subst toStr items args := by
  induction items generalizing args with
  | nil => rw [List.flatMap_nil, run]; cases args <;> rfl
  | cons i is ih =>
    have ih' := ih (fun i h => hv i (by simp [h]))
    rw [List.flatMap_cons]
    cases i with
    | lit c =>
      show run toStr (c :: is.flatMap Item.render) args [] = _
      rw [run_lit _ _ (hv (.lit c) (by simp)), ih', subst]
    | percent =>
      show run toStr ('%' :: '%' :: is.flatMap Item.render) args [] = _
      rw [run_percent, ih', subst]
    | dir z w c =>
      have hw : w < 2 ^ 64 := hv (.dir z w c) (by simp)
      have he : Item.render (.dir z w c) ++ is.flatMap Item.render =
          '%' :: ((if z then ['0'] else []) ++ ((if w = 0 then [] else natText 10 w) ++ (c.char :: is.flatMap Item.render))) := by
        simp [Item.render]
      rw [he, run_dir _ _ (render_head _ _ _ _), directive_render _ _ _ hw]
      cases args with
      | nil => rfl
      | cons a as =>
        simp only [subst]
        cases c.text toStr z w a with
        | error e => rfl
        | ok t => show (run toStr (is.flatMap Item.render) as []).map _ = _; rw [ih']

/-- What the interpreter's `%` does with a list, a vector, or a single other argument. -/
theorem C50_arguments (toStr : Val → List Char) (items : List Item) (hv : ∀ i ∈ items, i.Valid) :
    (∀ xs, format toStr (items.flatMap Item.render) (.list xs) = (subst toStr items xs).map .str) ∧
    (∀ xs, format toStr (items.flatMap Item.render) (.vector xs) = (subst toStr items xs).map .str) ∧
    (∀ v, (∀ xs, v ≠ .list xs) → (∀ xs, v ≠ .vector xs) →
      format toStr (items.flatMap Item.render) v = (subst toStr items [v]).map .str) := by
  refine ⟨fun xs => ?_, fun xs => ?_, fun v h1 h2 => ?_⟩ <;> rw [format, ← C50_substitutes toStr items hv]
  · rfl
  · rfl
  · have : asSequence v = [v] := by cases v <;> simp_all [asSequence]
    rw [this]

/-- **C50** a successful formatting uses exactly as many arguments as there are directives. -/
theorem C50_argument_count (toStr : Val → List Char) (items : List Item) (args : List Val) (s : List Char)
    (h : subst toStr items args = .ok s) :
    args.length = items.countP (fun i => match i with | .dir _ _ _ => true | _ => false) := by
  induction items generalizing args s with
  | nil => cases args with
    | nil => rfl
    | cons a as => cases h
  | cons i is ih =>
    cases i with
    | lit c =>
      simp only [subst] at h
      cases hs : subst toStr is args with
      | error e => rw [hs] at h; cases h
      | ok t => simpa using ih args t hs
    | percent =>
      simp only [subst] at h
      cases hs : subst toStr is args with
      | error e => rw [hs] at h; cases h
      | ok t => simpa using ih args t hs
    | dir z w c =>
      cases args with
      | nil => cases h
      | cons a as =>
        simp only [subst] at h
        cases ht : c.text toStr z w a with
        | error e => rw [ht] at h; cases h
        | ok t =>
          rw [ht] at h
          cases hs : subst toStr is as with
          | error e => simp only [hs] at h; cases h
          | ok t => simpa using ih as t hs

/-- **C50** every directive prints at least as many characters as its width, and exactly the unpadded text when that is long enough. -/
theorem C50_width (toStr : Val → List Char) (zero : Bool) (w : Nat) (conv : Conv) (a : Val) (t t0 : List Char)
    (h : conv.text toStr zero w a = .ok t) (h0 : conv.text toStr false 0 a = .ok t0) :
    t.length = max w t0.length ∧ (w ≤ t0.length → t = t0) := by
  cases conv with
  | s =>
    cases h; cases h0
    simp only [padRight, List.length_append, List.length_replicate, Nat.zero_sub, List.replicate_zero, List.append_nil]
    refine ⟨by omega, fun h => by rw [Nat.sub_eq_zero_of_le h]; simp⟩
  | d =>
    simp only [Conv.text] at h h0
    cases hi : Cordy.asInt a with
    | error e => rw [hi] at h; cases h
    | ok i =>
      rw [hi] at h h0; cases h; cases h0
      cases zero
      · simp only [padLeft, Bool.false_eq_true, if_false, List.length_append, List.length_replicate, Nat.zero_sub, List.replicate_zero, List.nil_append]
        refine ⟨by omega, fun h => by rw [Nat.sub_eq_zero_of_le h]; simp⟩
      · by_cases hneg : i < 0
        · simp only [hneg, if_true, padLeft, decText, Bool.false_eq_true, if_false, List.length_append, List.length_replicate,
            Nat.zero_sub, List.replicate_zero, List.nil_append, List.length_cons]
          refine ⟨by omega, fun h => ?_⟩
          rw [Nat.sub_eq_zero_of_le (by omega)]; simp
        · simp only [hneg, if_true, padLeft, decText, Bool.false_eq_true, if_false, List.length_append, List.length_replicate,
            Nat.zero_sub, List.replicate_zero, List.nil_append]
          refine ⟨by omega, fun h => ?_⟩
          rw [Nat.sub_eq_zero_of_le (by omega)]; simp
  | x =>
    simp only [Conv.text] at h h0
    cases hi : Cordy.asInt a with
    | error e => rw [hi] at h; cases h
    | ok i =>
      rw [hi] at h h0; cases h; cases h0
      simp only [padLeft, List.length_append, List.length_replicate, Nat.zero_sub, List.replicate_zero, List.nil_append]
      refine ⟨by omega, fun h => by rw [Nat.sub_eq_zero_of_le h]; simp⟩
  | b =>
    simp only [Conv.text] at h h0
    cases hi : Cordy.asInt a with
    | error e => rw [hi] at h; cases h
    | ok i =>
      rw [hi] at h h0; cases h; cases h0
      simp only [padLeft, List.length_append, List.length_replicate, Nat.zero_sub, List.replicate_zero, List.nil_append]
      refine ⟨by omega, fun h => by rw [Nat.sub_eq_zero_of_le h]; simp⟩

/-! ### Malformed format strings -/

theorem digit_is_digitChar (c : Char) (h : '0' ≤ c ∧ c ≤ '9') : ∃ d, d < 10 ∧ c = digitChar d := by
  have h1 : 48 ≤ c.toNat := by have := h.1; simpa [Char.le_def, UInt32.le_iff_toNat_le] using this
  have h2 : c.toNat ≤ 57 := by have := h.2; simpa [Char.le_def, UInt32.le_iff_toNat_le] using this
  refine ⟨c.toNat - 48, by omega, ?_⟩
  rw [digitChar, if_pos (by omega), show 48 + (c.toNat - 48) = c.toNat by omega]
  exact (Char.ofNat_toNat c).symm

/-- What the width scanner accepts. -/
theorem scanWidth_inv : ∀ (cs buf b r : List Char), scanWidth cs buf = .ok (b, r) →
    ∃ ds : List Nat, b = buf ++ ds.map digitChar ∧ cs = ds.map digitChar ++ r ∧ (∀ d ∈ ds, d < 10) ∧
      (buf = [] → ds.head? ≠ some 0)
  | [], buf, b, r, h => by cases h; exact ⟨[], by simp, by simp, by simp, by simp⟩
  | c :: cs, buf, b, r, h => by
    simp only [scanWidth] at h
    split at h
    · rename_i hc
      have hd : '0' ≤ c ∧ c ≤ '9' := ⟨Char.le_trans (show '0' ≤ '1' by decide) hc.1, hc.2⟩
      obtain ⟨d, hd10, rfl⟩ := digit_is_digitChar c hd
      obtain ⟨ds, h1, h2, h3, _⟩ := scanWidth_inv _ _ _ _ h
      refine ⟨d :: ds, by simp [h1], by simp [h2], by simpa using ⟨hd10, h3⟩, fun _ hc0 => ?_⟩
      simp at hc0; subst hc0; exact zero_class hc
    · split at h
      · split at h
        · cases h
        · rename_i hc he
          obtain ⟨ds, h1, h2, h3, _⟩ := scanWidth_inv _ _ _ _ h
          refine ⟨0 :: ds, ?_, ?_, by simpa using h3, fun hb => ?_⟩
          · rw [h1]; simp [digitChar]
          · rw [hc, h2]; simp [digitChar]
          · subst hb; simp at he
      · cases h; exact ⟨[], by simp, by simp, by simp, by simp⟩

/-- Numerals are unique. -/
theorem numFrom_snoc (ds : List Nat) (d : Nat) : numFrom 10 0 (ds ++ [d]) = numFrom 10 0 ds * 10 + d := by
  simp [numFrom]

theorem numeral_unique (ds : List Nat) (h : ∀ d ∈ ds, d < 10) (hne : ds ≠ []) (h0 : ds.head? ≠ some 0) :
    digitsAux 10 (numFrom 10 0 ds) [] = ds ∧ numFrom 10 0 ds ≠ 0 := by
  induction ds using List.reverseRecOn with
  | nil => exact absurd rfl hne
  | append_singleton ds d ih =>
    have hd := h d (by simp)
    by_cases he : ds = []
    · subst he
      simp only [List.nil_append, numFrom, List.foldl_cons, List.foldl_nil, Nat.zero_mul, Nat.zero_add]
      simp at h0
      refine ⟨?_, by omega⟩
      rw [digitsAux, dif_pos (.inl hd)]
    · have h0' : ds.head? ≠ some 0 := by
        cases ds with
        | nil => exact absurd rfl he
        | cons x xs => simpa using h0
      obtain ⟨h1, h2⟩ := ih (fun d hd => h d (by simp [hd])) he h0'
      rw [numFrom_snoc]
      refine ⟨?_, by omega⟩
      rw [digitsAux, dif_neg (by omega), digitsAux_append]
      have e1 : (numFrom 10 0 ds * 10 + d) / 10 = numFrom 10 0 ds := by omega
      have e2 : (numFrom 10 0 ds * 10 + d) % 10 = d := by omega
      rw [e1, e2, h1]

theorem directive_inv (toStr : Val → List Char) (cs : List Char) (args : List Val) (t r : List Char) (as : List Val)
    (h : directive toStr cs args = .ok (t, r, as)) :
    ∃ (zero : Bool) (w : Nat) (conv : Conv), w < 2 ^ 64 ∧
      cs = (if zero then ['0'] else []) ++ ((if w = 0 then [] else natText 10 w) ++ (Conv.char conv :: r)) := by
  unfold directive at h
  have hz : cs = (if (zeroFlag cs).1 then ['0'] else []) ++ (zeroFlag cs).2 := by
    unfold zeroFlag; split <;> simp
  cases hs : scanWidth (zeroFlag cs).2 [] with
  | error e => rw [hs] at h; cases h
  | ok p =>
    obtain ⟨buf, rest⟩ := p
    rw [hs] at h; simp only [] at h
    obtain ⟨ds, hb, hcs, hd, hh⟩ := scanWidth_inv _ _ _ _ hs
    simp only [List.nil_append] at hb
    cases hw : parseWidth buf with
    | error e => rw [hw] at h; cases h
    | ok w =>
      rw [hw] at h; simp only [] at h
      have hwid : w < 2 ^ 64 ∧ buf = (if w = 0 then [] else natText 10 w) := by
        by_cases hbe : buf = []
        · rw [hbe] at hw; have hw : (Except.ok 0 : Res Nat) = .ok w := hw
          cases hw; exact ⟨Nat.two_pow_pos 64, by simp [hbe]⟩
        · have hne : ds ≠ [] := by rintro rfl; exact hbe (by simp [hb])
          obtain ⟨h1, h2⟩ := numeral_unique ds hd hne (hh rfl)
          have he : buf.isEmpty = false := by simpa using hbe
          rw [parseWidth, he, if_neg (by simp)] at hw
          have hv : decVal buf = numFrom 10 0 ds := by rw [hb, decVal_digits ds hd]
          rw [hv] at hw
          split at hw
          · rename_i hlt
            cases hw
            exact ⟨hlt, by rw [if_neg h2, natText, h1, hb]⟩
          · cases hw
      have hconv : ∃ conv, rest.head? = some (Conv.char conv) := by
        cases hc : convert toStr (zeroFlag cs).1 w rest.head? args with
        | error e => rw [hc] at h; cases h
        | ok p =>
          unfold convert at hc
          split at hc
          · rename_i hr; exact ⟨.d, hr⟩
          · rename_i hr; exact ⟨.x, hr⟩
          · rename_i hr; exact ⟨.b, hr⟩
          · rename_i hr; exact ⟨.s, hr⟩
          · cases hc
      obtain ⟨conv, hconv⟩ := hconv
      have hr : r = rest.drop 1 := by
        cases hc : convert toStr (zeroFlag cs).1 w rest.head? args with
        | error e => rw [hc] at h; cases h
        | ok p => rw [hc] at h; cases h; rfl
      refine ⟨(zeroFlag cs).1, w, conv, hwid.1, ?_⟩
      rw [← hwid.2, hr]
      conv_lhs => rw [hz, hcs, ← hb]
      rcases rest with _ | ⟨x, xs⟩
      · simp at hconv
      · simp at hconv; subst hconv; simp

/-- **C50** a format string that is not well formed is an error, whatever the arguments are.  Missing: with a width that does not fit
a machine word the "error" is a panic (`C50_violation_width_panics`). -/
theorem C50_malformed_partial (toStr : Val → List Char) (cs : List Char)
    (h : ¬ ∃ items : List Item, (∀ i ∈ items, i.Valid) ∧ cs = items.flatMap Item.render) (args : List Val) :
    ∃ e, run toStr cs args [] = .error e := by
  by_contra hc
  have hok : ∃ s, run toStr cs args [] = .ok s := by
    cases hr : run toStr cs args [] with
    | error e => exact absurd ⟨e, hr⟩ hc
    | ok s => exact ⟨s, rfl⟩
  clear hc
  apply h
  clear h
  obtain ⟨s, hs⟩ := hok
  induction hn : cs.length using Nat.strongRecOn generalizing cs args s with
  | ind n ih =>
    match cs, hs, hn with
    | [], _, _ => exact ⟨[], by simp, rfl⟩
    | c :: cs, hs, hn =>
      by_cases hc : c = '%'
      · subst hc
        by_cases hp : cs.head? = some '%'
        · rcases cs with _ | ⟨x, xs⟩
          · simp at hp
          · simp at hp; subst hp
            rw [run_percent] at hs
            cases hr : run toStr xs args [] with
            | error e => rw [hr] at hs; cases hs
            | ok s' =>
              obtain ⟨items, hv, he⟩ := ih xs.length (by rw [← hn]; simp) xs args s' hr rfl
              exact ⟨.percent :: items, by simpa [Item.Valid] using hv, by simp [Item.render, ← he]⟩
        · rw [run_dir _ _ hp] at hs
          cases hd : directive toStr cs args with
          | error e => rw [hd] at hs; cases hs
          | ok p =>
            obtain ⟨t, r, as⟩ := p
            rw [hd] at hs; simp only [] at hs
            have hl := directive_length hd
            cases hr : run toStr r as [] with
            | error e => rw [hr] at hs; cases hs
            | ok s' =>
              obtain ⟨items, hv, he⟩ := ih r.length (by rw [← hn]; simp; omega) r as s' hr rfl
              obtain ⟨z, w, conv, hw, hcs⟩ := directive_inv _ _ _ _ _ _ hd
              exact ⟨.dir z w conv :: items, by simpa [Item.Valid] using ⟨hw, hv⟩, by rw [hcs]; simp [Item.render, ← he]⟩
      · rw [run_lit _ _ hc] at hs
        cases hr : run toStr cs args [] with
        | error e => rw [hr] at hs; cases hs
        | ok s' =>
          obtain ⟨items, hv, he⟩ := ih cs.length (by rw [← hn]; simp) cs args s' hr rfl
          exact ⟨.lit c :: items, by simpa [Item.Valid] using ⟨hc, hv⟩, by simp [Item.render, ← he]⟩

/-- The hypotheses are met: `a%%%05d%s` with an int and a string. -/
example : run (fun _ => ['z']) "a%%%05d%3s".toList [.int (-42), .nil] [] = .ok "a%-0042z  ".toList := by
  have := C50_substitutes (fun _ => ['z']) [.lit 'a', .percent, .dir true 5 .d, .dir false 3 .s] (by
    intro i hi; fin_cases hi <;> simp [Item.Valid]) [.int (-42), .nil]
  have he : ([.lit 'a', .percent, .dir true 5 .d, .dir false 3 .s] : List Item).flatMap Item.render = "a%%%05d%3s".toList := by
    simp [Item.render, natText, digitsAux, digitChar, Conv.char]
  rw [← he, this]
  simp [subst, Conv.text, Cordy.asInt, Except.map, padLeft, padRight, natText, digitsAux, digitChar]

/-- **C50 (violation)** a width that does not fit a machine word panics instead of raising an error. -/
theorem C50_violation_width_panics (toStr : Val → List Char) (a : Val) :
    run toStr ('%' :: (List.replicate 20 '9' ++ ['d'])) [a] [] = .error .panic := by
  rw [run_dir _ _ (by decide)]
  have : directive toStr (List.replicate 20 '9' ++ ['d']) [a] = .error .panic := by rfl
  rw [this]

end Cordy.Str
