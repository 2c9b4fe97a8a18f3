import Verif.Spec.Language

/-! # Every sentence of the grammar has balanced brackets -/
namespace Cordy.Language
open Cordy.Scan (Token)

theorem brackets_append (u v st : List Token) : brackets (u ++ v) st = (brackets u st).bind (brackets v) := by
  induction u generalizing st with
  | nil => rfl
  | cons t u ih =>
    rw [List.cons_append, brackets, brackets]
    cases bracket t st with
    | none => rfl
    | some st' => exact ih st'

theorem bracket_frame (t : Token) (st st' ext : List Token) (h : bracket t st = some st') : bracket t (st ++ ext) = some (st' ++ ext) := by
  unfold bracket at h ⊢
  cases hc : closer t with
  | some c => rw [hc] at h; cases h; rfl
  | none =>
    rw [hc] at h
    dsimp only at h ⊢
    by_cases hk : isCloser t = true
    · rw [if_pos hk] at h ⊢
      split at h
      · rename_i he
        cases st with
        | nil => cases he
        | cons c st =>
          cases he
          cases h
          rw [if_pos (by rfl)]
          rfl
      · cases h
    · rw [if_neg hk] at h ⊢
      cases h
      rfl

theorem brackets_frame (ts st st' ext : List Token) (h : brackets ts st = some st') : brackets ts (st ++ ext) = some (st' ++ ext) := by
  induction ts generalizing st with
  | nil => cases h; rfl
  | cons t ts ih =>
    rw [brackets] at h ⊢
    cases hb : bracket t st with
    | none => rw [hb] at h; cases h
    | some s1 =>
      rw [hb] at h
      rw [bracket_frame _ _ _ ext hb]
      exact ih _ h

theorem brackets_lines (n : Nat) (w st : List Token) : brackets (List.replicate n .newLine ++ w) st = brackets w st := by
  induction n with
  | zero => rfl
  | succ n ih => rw [List.replicate_succ, List.cons_append, brackets]; exact ih

/-- A token of a class that is no bracket. -/
def plain (t : Token) : Bool := (closer t).isNone && !isCloser t

/-- The effect of a class of tokens on the brackets. -/
def clsStep : Cls → List Token → Option (List Token)
  | .is t, st => bracket t st
  | .oneOf ts, st => if ts.all plain then some st else none
  | _, st => some st

theorem bracket_plain {t : Token} (h : plain t = true) (st : List Token) : bracket t st = some st := by
  rw [plain, Bool.and_eq_true] at h
  unfold bracket
  cases hc : closer t with
  | some c => rw [hc] at h; simp at h
  | none =>
    have : isCloser t = false := by simpa using h.2
    rw [this]
    rfl

theorem clsStep_ok {c : Cls} {t : Token} (h : c.ok t = true) {st st' : List Token} (hs : clsStep c st = some st') : bracket t st = some st' := by
  cases c with
  | is u =>
    have : u = t := by simpa [Cls.ok] using h
    subst this
    exact hs
  | oneOf ts =>
    simp only [clsStep] at hs
    split at hs
    · rename_i ha
      cases hs
      have hm : t ∈ ts := by simpa [Cls.ok] using h
      exact bracket_plain (List.all_eq_true.mp ha t hm) st
    · cases hs
  | name => cases t <;> simp_all [Cls.ok, clsStep, bracket, closer, isCloser]
  | int => cases t <;> simp_all [Cls.ok, clsStep, bracket, closer, isCloser]
  | complex => cases t <;> simp_all [Cls.ok, clsStep, bracket, closer, isCloser]
  | str => cases t <;> simp_all [Cls.ok, clsStep, bracket, closer, isCloser]
  | minMax => cases t <;> simp_all [Cls.ok, clsStep, bracket, closer, isCloser]

/-- The closing brackets in a nonterminal that are not opened in it. -/
def pops : NT → List Token
  | .sliceTail => [.closeSquare]
  | _ => []

/-- The effect of symbols. -/
def symStep : List Sym → List Token → Option (List Token)
  | [], st => some st
  | .tok c :: ss, st => (clsStep c st).bind (symStep ss)
  | .nt x :: ss, st => (if (pops x).isPrefixOf st then some (st.drop (pops x).length) else none).bind (symStep ss)
  | _ :: ss, st => symStep ss st

/-- Checked for every production. -/
theorem prods_balanced (x : NT) : (prods x).all (fun ss => symStep ss (pops x) == some []) = true := by
  cases x with
  | methodList b => cases b <;> decide +kernel
  | params b => cases b <;> decide +kernel
  | expr b => cases b <;> decide +kernel
  | _ => decide +kernel

mutual
theorem Gen_brackets : {ss : List Sym} → {w rest : List Token} → Gen ss w rest → ∀ st st', symStep ss st = some st' → brackets w st = some st'
  | _, _, _, .nil _, st, st', h => h
  | _, _, _, .tok (c := c) (t := t) n hc hg, st, st', h => by
    rw [brackets_lines, brackets]
    rw [symStep] at h
    cases hs : clsStep c st with
    | none => rw [hs] at h; cases h
    | some st1 =>
      rw [hs] at h
      rw [clsStep_ok hc hs]
      exact Gen_brackets hg _ _ h
  | _, _, _, .nt (x := x) hd hg, st, st', h => by
    rw [brackets_append]
    rw [symStep] at h
    have hx := Der_brackets hd
    split at h
    · rename_i hp
      obtain ⟨ext, rfl⟩ := List.isPrefixOf_iff_prefix.mp hp
      rw [List.drop_left] at h
      rw [brackets_frame _ _ _ ext hx]
      exact Gen_brackets hg _ _ h
    · cases h
  | _, _, _, .adj _ hg, st, st', h => Gen_brackets hg st st' h
  | _, _, _, .look _ _ hg, st, st', h => Gen_brackets hg st st' h
theorem Der_brackets : {x : NT} → {w rest : List Token} → Der x w rest → brackets w (pops x) = some []
  | x, _, _, .prod (ss := ss) hm hg => by
    have := List.all_eq_true.mp (prods_balanced x) ss hm
    exact Gen_brackets hg _ _ (by simpa using this)
end

end Cordy.Language
