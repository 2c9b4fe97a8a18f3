import Verif.Lemmas.ParserPrefix

/-! # Every rule satisfies the conditions of `ParserPrefix` -/
namespace Cordy.Parser
open Cordy.Scan (Token)

theorem CL_mono (p : Prog α) : ∀ e, CL p false → CL p e := by
  induction p with
  | ret a => intro e _; trivial
  | peek k f ih =>
    intro e h
    rcases k with _ | k
    · exact h
    · exact fun o => ih o e (h o)
  | peekNN f ih => intro e h; exact fun o => ih o e (h o)
  | adv f ih => intro e h; exact h
  | call r f ih => intro e h; exact h
  | err ty f ih => intro e h; exact ⟨fun hx => absurd (h.1 hx) (by intro h; cases h), h.2⟩
  | resync t f ih => intro e h; exact h
  | sem f ih => intro e h; exact ih e h
  | panic => intro e _; trivial

theorem CL_bind (p : Prog α) (g : α → Prog β) (hg : ∀ a, CL (g a) false) : ∀ e, CL p e → CL (p.bind g) e := by
  induction p with
  | ret a => intro e _; exact CL_mono _ e (hg a)
  | peek k f ih =>
    intro e h
    rcases k with _ | k
    · exact ⟨ih _ _ h.1, fun t => ih _ _ (h.2 t)⟩
    · exact fun o => ih o e (h o)
  | peekNN f ih => intro e h; exact fun o => ih o e (h o)
  | adv f ih => intro e h; exact fun o => ih o _ (h o)
  | call r f ih => intro e h; exact ⟨h.1, h.2.1, fun b => ih b _ (h.2.2 b)⟩
  | err ty f ih => intro e h; exact ⟨h.1, ih _ h.2⟩
  | resync t f ih => intro e h; exact ih _ h
  | sem f ih => intro e h; exact ih e h
  | panic => intro e _; trivial

theorem CL_bind' (p : Prog α) (g : α → Prog β) (e : Bool) (hp : CL p e) (hg : ∀ a, CL (g a) false) : CL (p >>= g) e := CL_bind p g hg e hp
theorem CL_discard (p : Prog α) (e : Bool) (hp : CL p e) : CL (discard p) e := CL_bind p (fun _ => .ret ()) (fun _ => True.intro) e hp
theorem CL_peek (e : Bool) : CL peek e := ⟨trivial, fun _ => trivial⟩
theorem CL_peek2 (e : Bool) : CL peek2 e := fun _ => trivial
theorem CL_peek3 (e : Bool) : CL peek3 e := fun _ => trivial
theorem CL_peekNN (e : Bool) : CL peekNN e := fun _ => trivial
theorem CL_adv (e : Bool) : CL adv e := fun _ => trivial
theorem CL_sem (e : Bool) : CL sem e := trivial
theorem CL_resync (t : Token) (e : Bool) : CL (resync t) e := trivial
theorem CL_pure (a : α) (e : Bool) : CL (pure a : Prog α) e := trivial
theorem CL_call (r : Rule) (e : Bool) (h1 : r ≠ .root) (h2 : r ≠ .evalRoot) : CL (call r) e := ⟨h1, h2, fun _ => trivial⟩
theorem CL_err (ty : ErrTy) (e : Bool) (h : ty ≠ .unexpectedTokenAfterEoF) : CL (err ty) e := ⟨fun hx => absurd hx h, trivial⟩

theorem CL_panic (e : Bool) : CL (Prog.panic : Prog α) e := trivial

macro "clgo" : tactic => `(tactic| ((try simp only [body, expect, trailingComma, advanceIdentifier, expectIdentifier, beginModule, fieldAccess, expression, expressionRestricted, expr, unaryOperator, binaryLeft, binaryRight, op3, binLoop, indexSuffix, suffix, suffix.arrow, paramDefault, commaArg, terminal]); repeat' first
                              | with_reducible exact CL_peek _
                              | with_reducible exact CL_peek2 _
                              | with_reducible exact CL_peek3 _
                              | with_reducible exact CL_peekNN _
                              | with_reducible exact CL_adv _
                              | with_reducible exact CL_sem _
                              | with_reducible exact CL_resync _ _
                              | with_reducible exact CL_pure _ _
                              | with_reducible exact CL_panic _
                              | exact CL_call _ _ (by intro h; cases h) (by intro h; cases h)
                              | exact CL_err _ _ (by intro h; cases h)
                              | with_reducible apply CL_discard
                              | with_reducible apply CL_bind'
                              | with_reducible intro _
                              | split))

theorem CL_root : CL (body .root) false := by
  simp only [body]
  refine CL_bind' _ _ _ (by clgo) fun _ => CL_bind' _ _ _ (by clgo) fun _ => ?_
  exact ⟨trivial, fun t => ⟨fun _ => rfl, trivial⟩⟩

theorem CL_evalRoot : CL (body .evalRoot) false := by
  simp only [body]
  refine CL_bind' _ _ _ (by clgo) fun _ => CL_bind' _ _ _ (by clgo) fun _ => ?_
  exact ⟨trivial, fun t => ⟨fun _ => rfl, trivial⟩⟩

theorem CL_all (r : Rule) : CL (body r) false := by
  cases r
  case root => exact CL_root
  case evalRoot => exact CL_evalRoot
  case e11 comma => cases comma <;> clgo
  all_goals clgo

end Cordy.Parser
