import Verif.Lemmas.ParserSound

/-!
# Parsing the first part of a text that has no errors

Two runs of the parser, on `w` and on `w ++ v`, are compared. They do the same until the first looks behind the end of `w`.
-/
namespace Cordy.Parser
open Cordy.Scan (Token)

/-- The tokens but for line breaks. -/
def dense (ts : List Token) : List Token := ts.filter (fun t => t != .newLine)

/-- The tokens at the end of a line after which the parser may give up instead of asking for more. -/
def Ex : Token → Bool
  | .openParen | .mul | .kNot | .kFn => true
  | .identifier s => isMinMax s
  | _ => false

/-- An error that is not about the syntax of `w`, or about its end, or about its last token. -/
def FirstOk (w : List Token) (e : PErr) : Prop :=
  e.ty = .semantic ∨ e.isEof = true ∨ ∃ t, Ex t = true ∧ e.got = some t ∧ (dense w).getLast? = some t

/-- The run on `w` has seen the end of `w`. -/
def Div (w : List Token) (s : St) : Prop :=
  (∃ e es, s.errs = e :: es ∧ FirstOk w e) ∨
  (s.recov = false ∧ s.errs = [] ∧ (vis s = [] ∨ ∃ t, vis s = [t] ∧ Ex t = true ∧ (dense w).getLast? = some t))

/-- `unexpectedTokenAfterEoF` is reported only if there is a token (`e`: it is known that there is one), by the rules that are not called. -/
def CL : Prog α → Bool → Prop
  | .ret _, _ => True
  | .peek 0 f, _ => CL (f none) false ∧ ∀ t, CL (f (some t)) true
  | .peek (_ + 1) f, e => ∀ o, CL (f o) e
  | .peekNN f, e => ∀ o, CL (f o) e
  | .adv f, _ => ∀ o, CL (f o) false
  | .call r f, _ => r ≠ .root ∧ r ≠ .evalRoot ∧ ∀ b, CL (f b) false
  | .err ty f, e => (ty = .unexpectedTokenAfterEoF → e = true) ∧ CL f false
  | .resync _ f, _ => CL f false
  | .sem f, e => CL f e
  | .panic, _ => True

theorem vis_dense {s : St} (h : s.recov = false) : vis s = dense s.input := vis_clean h

theorem dense_suffix {a b : List Token} (h : a <:+ b) : dense a <:+ dense b := by
  obtain ⟨u, rfl⟩ := h
  unfold dense
  rw [List.filter_append]
  exact List.suffix_append _ _

theorem dense_append (a b : List Token) : dense (a ++ b) = dense a ++ dense b := List.filter_append ..

/-- Nothing was taken but tokens at the front. -/
theorem Div_suffix {w : List Token} {s s' : St} (h : Div w s) (he : s'.errs = s.errs) (hr : s.recov = false → s'.recov = false)
    (hi : s'.input <:+ s.input) : Div w s' := by
  rcases h with ⟨e, es, h1, h2⟩ | ⟨h1, h2, h3⟩
  · exact Or.inl ⟨e, es, by rw [he, h1], h2⟩
  · refine Or.inr ⟨hr h1, by rw [he, h2], ?_⟩
    have hs := dense_suffix hi
    rw [← vis_dense h1, ← vis_dense (hr h1)] at hs
    rcases h3 with h3 | ⟨t, h3, h4, h5⟩
    · rw [h3] at hs
      exact Or.inl (List.suffix_nil.mp hs)
    · rw [h3] at hs
      rcases List.suffix_cons_iff.mp hs with hs | hs
      · exact Or.inr ⟨t, hs, h4, h5⟩
      · exact Or.inl (List.suffix_nil.mp hs)

theorem advance_suffix (s : St) : (advance s).2.input <:+ s.input := by
  unfold advance
  split
  · exact List.suffix_refl _
  · have hd : s.input.dropWhile (fun t => t == .newLine) <:+ s.input := List.dropWhile_suffix _
    split
    · exact List.nil_suffix
    · rename_i t rest hr
      rw [hr] at hd
      exact (List.suffix_cons _ _).trans hd

theorem advance_recov (s : St) : (advance s).2.recov = s.recov := by
  unfold advance
  split
  · rfl
  · split <;> rfl

theorem skipTo_suffix {t : Token} : ∀ {ts rest : List Token}, skipTo t ts = some rest → rest <:+ ts := by
  intro ts
  induction ts with
  | nil => intro rest h; cases h
  | cons u us ih =>
    intro rest h
    rw [skipTo] at h
    split at h
    · cases h; exact List.suffix_cons _ _
    · exact (ih h).trans (List.suffix_cons _ _)

theorem isEof_of {ty : ErrTy} (h1 : ty ≠ .semantic) (h2 : ty ≠ .unexpectedTokenAfterEoF) (n : Nat) : (PErr.mk ty none n).isEof = true := by
  cases ty <;> simp_all [PErr.isEof]

theorem Div_err {w : List Token} {s : St} {ty : ErrTy} (h : Div w s) (hu : ty = .unexpectedTokenAfterEoF → vis s ≠ [] ∨ s.errs ≠ []) :
    Div w (doError s ty (vis s)[0]? true) := by
  rcases h with ⟨e, es, h1, h2⟩ | ⟨h1, h2, h3⟩
  · obtain ⟨xs, hx⟩ := (doError_errs s ty (vis s)[0]? true).1
    rw [h1] at hx
    exact Or.inl ⟨e, es ++ xs, by rw [← hx]; rfl, h2⟩
  · refine Or.inl ⟨⟨ty, (vis s)[0]?, s.input.length⟩, [], ?_, ?_⟩
    · simp [doError, h1, h2]
    · by_cases hs : ty = .semantic
      · exact Or.inl hs
      · rcases h3 with h3 | ⟨t, h3, h4, h5⟩
        · refine Or.inr (Or.inl ?_)
          rw [h3]
          refine isEof_of hs ?_ _
          intro hx
          rcases hu hx with h | h
          · exact h h3
          · exact h h2
        · refine Or.inr (Or.inr ⟨t, h4, ?_, h5⟩)
          rw [h3]; rfl

theorem Div_resync {w : List Token} {s : St} (t : Token) (h : Div w s) : Div w (doResync s t) := by
  unfold doResync
  split
  · exact Div_suffix h (advance_errs s) (fun hr => by rw [advance_recov]; exact hr) (advance_suffix s)
  · split
    · rename_i rest hk
      exact Div_suffix h rfl (fun _ => rfl) (skipTo_suffix hk)
    · split
      · exact Div_suffix h rfl (fun _ => rfl) List.nil_suffix
      · have h' : Div w { s with input := [] } := Div_suffix h rfl (fun hr => hr) List.nil_suffix
        have hv : vis { s with input := [] } = [] := by simp [vis]
        have := Div_err (ty := .expectedToken t) h' (by intro hx; cases hx)
        rw [hv] at this
        exact this

theorem Div_sem {w : List Token} {s : St} (h : Div w s) : Div w (doSem s) := by
  unfold doSem
  dsimp only
  have h' : Div w { s with n := s.n + 1 } := h
  have key : ∀ l, Div w (doError { s with n := s.n + 1 } .semantic none l) := by
    intro l
    rcases h' with ⟨e, es, h1, h2⟩ | ⟨h1, h2, h3⟩
    · obtain ⟨xs, hx⟩ := (doError_errs { s with n := s.n + 1 } .semantic none l).1
      have h1' : s.errs = e :: es := h1
      exact Or.inl ⟨e, es ++ xs, by rw [← hx, h1]; rfl, h2⟩
    · refine Or.inl ⟨⟨.semantic, none, s.input.length⟩, [], ?_, Or.inl rfl⟩
      have h1' : s.recov = false := h1
      have h2' : s.errs = [] := h2
      simp [doError, h1', h2']
  split
  · exact h'
  · exact key false
  · exact key true

theorem Div_runP {w : List Token} {f : Rule → St → Res Bool}
    (hf : ∀ r s b s', r ≠ .root → r ≠ .evalRoot → Div w s → f r s = .done b s' → Div w s') (p : Prog α) :
    ∀ s e a s', CL p e → (e = true → vis s ≠ [] ∨ s.errs ≠ []) → Div w s → runP f p s = .done a s' → Div w s' := by
  induction p with
  | ret a => intro s e b s' _ _ hd h; cases h; exact hd
  | peek k g ih =>
    intro s e b s' hc he hd h
    rcases k with _ | k
    · rw [runP] at h
      cases hv : vis s with
      | nil => rw [hv] at h; exact ih _ _ _ _ _ hc.1 (by intro hx; cases hx) hd h
      | cons t ts => rw [hv] at h; exact ih _ _ _ _ _ (hc.2 t) (fun _ => Or.inl (by rw [hv]; intro hx; cases hx)) hd h
    · exact ih _ _ _ _ _ (hc _) he hd h
  | peekNN g ih => intro s e b s' hc he hd h; exact ih _ _ _ _ _ (hc _) he hd h
  | adv g ih =>
    intro s e b s' hc he hd h
    exact ih _ _ false _ _ (hc _) (by intro hx; cases hx) (Div_suffix hd (advance_errs s) (fun hr => by rw [advance_recov]; exact hr) (advance_suffix s)) h
  | call r g ih =>
    intro s e b s' hc he hd h
    rw [runP] at h
    split at h
    · rename_i hx
      exact ih _ _ _ _ _ (hc.2.2 _) (by intro hx; cases hx) (hf _ _ _ _ hc.1 hc.2.1 hd hx) h
    · cases h
    · cases h
  | err ty g ih =>
    intro s e b s' hc he hd h
    exact ih _ _ _ _ hc.2 (by intro hx; cases hx) (Div_err hd fun hx => he (hc.1 hx)) h
  | resync t g ih => intro s e b s' hc he hd h; exact ih _ _ _ _ hc (by intro hx; cases hx) (Div_resync t hd) h
  | sem g ih =>
    intro s e b s' hc he hd h
    refine ih _ _ _ _ hc ?_ (Div_sem hd) h
    intro hx
    rcases he hx with h1 | h1
    · by_cases h2 : (doSem s).errs = []
      · left
        have h3 : doSem s = { s with n := s.n + 1 } ∨ (doSem s).errs ≠ [] := by
          unfold doSem
          dsimp only
          have hr := vis_recov' h1
          split
          · exact Or.inl rfl
          · exact Or.inr (by simp [doError, hr])
          · exact Or.inr (by simp [doError, hr])
        rcases h3 with h3 | h3
        · rw [h3]; exact h1
        · exact absurd h2 h3
      · exact Or.inr h2
    · obtain ⟨xs, hx⟩ := doSem_errs s
      refine Or.inr ?_
      rw [← hx]
      intro hy
      exact h1 (List.append_eq_nil_iff.mp hy).1
  | panic => intro s e b s' hc he hd h; cases h
where
  vis_recov' {s : St} (h : vis s ≠ []) : s.recov = false := by
    cases hr : s.recov with
    | false => rfl
    | true => exact absurd (by simp [vis, hr]) h

theorem Div_run {w : List Token} (hC : ∀ r, CL (body r) false) : ∀ n r s b s', Div w s → run n r s = .done b s' → Div w s' := by
  intro n
  induction n with
  | zero => intro r s b s' _ h; cases h
  | succ n ih =>
    intro r s b s' hd h
    exact Div_runP (fun r s b s' _ _ => ih r s b s') (body r) s false b s' (hC r) (by intro hx; cases hx) hd h

/-! ## After the end of `w` was seen, while tokens are left -/

/-- The rules that take the first of these tokens. -/
def Takes : Rule → List Token → Prop
  | .terminal, [.identifier _] => True
  | .e11 true, [.minus] | .e11 true, [.not] => True
  | .e9, [.minus] | .e9, [.not] | .e8, [.minus] | .e8, [.not] | .e7, [.minus] | .e7, [.not] | .e6, [.minus] | .e6, [.not] => True
  | .e5, [.minus] | .e5, [.not] | .e4, [.minus] | .e4, [.not] | .e3, [.minus] | .e3, [.not] => True
  | .unary, [.minus] | .unary, [.not] | .prefixLoop, [.minus] | .prefixLoop, [.not] => True
  | _, _ => False

/-- The tokens `vs` are taken without an error, or `Q` holds when the program ends. -/
def D : Prog α → List Token → (α → List Token → Prop) → Prop
  | .ret a, vs, Q => Q a vs
  | .peek k f, vs, Q => D (f vs[k]?) vs Q
  | .peekNN f, vs, Q => D (f (some .newLine)) vs Q ∧ D (f vs[0]?) vs Q
  | .adv f, vs, Q => match vs with
    | t :: u :: ts => D (f (some t)) (u :: ts) Q
    | _ => True
  | .call r _, vs, _ => Takes r vs
  | .err _ _, _, _ => False
  | .resync _ _, _, _ => False
  | .sem f, vs, Q => D f vs Q
  | .panic, _, _ => False

theorem D_bind (p : Prog α) (g : α → Prog β) (vs : List Token) (Q) : D (p.bind g) vs Q = D p vs fun a vs => D (g a) vs Q := by
  induction p generalizing vs with
  | ret a => rfl
  | peek k f ih => simp only [Prog.bind, D, ih]
  | peekNN f ih => simp only [Prog.bind, D, ih]
  | adv f ih => rcases vs with _ | ⟨t, _ | ⟨u, ts⟩⟩ <;> simp only [Prog.bind, D, ih]
  | call r f ih => rfl
  | err ty f ih => rfl
  | resync t f ih => rfl
  | sem f ih => simp only [Prog.bind, D, ih]
  | panic => rfl

def never : α → List Token → Prop := fun _ _ => False

/-- Nothing wrong so far. -/
structure Clean (s : St) : Prop where
  recov : s.recov = false
  errs : s.errs = []

theorem Clean.done {w : List Token} {s : St} (h : Clean s) (hv : vis s = []) : Div w s := Or.inr ⟨h.recov, h.errs, Or.inl hv⟩

theorem advance_vis {s : St} (h : s.recov = false) {t : Token} {ts : List Token} (hv : vis s = t :: ts) :
    (advance s).1 = some t ∧ vis (advance s).2 = ts := by
  rw [vis_dense h] at hv
  have key : ∀ l : List Token, dense l = t :: ts → ∃ rest, l.dropWhile (fun t => t == .newLine) = t :: rest ∧ dense rest = ts := by
    intro l
    induction l with
    | nil => intro hx; cases hx
    | cons a l ih =>
      intro hx
      by_cases ha : a = .newLine
      · subst ha
        exact ih hx
      · rw [dense, List.filter_cons_of_pos (by simpa using ha)] at hx
        cases hx
        refine ⟨l, ?_, rfl⟩
        rw [List.dropWhile_cons_of_neg (by simpa using ha)]
  obtain ⟨rest, h1, h2⟩ := key _ hv
  have : advance s = (some t, { s with input := rest }) := by
    unfold advance
    simp [h, h1]
  rw [this]
  refine ⟨rfl, ?_⟩
  rw [← h2]
  exact vis_dense (s := { s with input := rest }) h

theorem front_cases {s : St} (h : s.recov = false) (hv : vis s ≠ []) : front s = some .newLine ∨ front s = (vis s)[0]? := by
  unfold front
  simp only [h, Bool.false_eq_true, if_false]
  rw [vis_dense h] at hv ⊢
  cases hi : s.input with
  | nil => rw [hi] at hv; exact absurd rfl hv
  | cons a l =>
    by_cases ha : a = .newLine
    · left; rw [ha]; rfl
    · right
      rw [dense, List.filter_cons_of_pos (by simpa using ha)]
      rfl

theorem D_runP {w : List Token} {f : Rule → St → Res Bool}
    (hf : ∀ r s b s', r ≠ .root → r ≠ .evalRoot → Div w s → f r s = .done b s' → Div w s')
    (ht : ∀ r s b s', Clean s → Takes r (vis s) → f r s = .done b s' → Div w s') (p : Prog α) :
    ∀ s e a s', CL p e → vis s ≠ [] → Clean s → D p (vis s) never → runP f p s = .done a s' → Div w s' := by
  induction p with
  | ret a => intro s e b s' _ _ _ hD h; exact hD.elim
  | peek k g ih =>
    intro s e b s' hc hv hs hD h
    rcases k with _ | k
    · rw [runP] at h
      cases hx : (vis s)[0]? with
      | none => simp at hx; exact absurd hx hv
      | some t =>
        rw [D, hx] at hD
        rw [hx] at h
        exact ih _ _ _ _ _ (hc.2 t) hv hs hD h
    · exact ih _ _ _ _ _ (hc _) hv hs hD h
  | peekNN g ih =>
    intro s e b s' hc hv hs hD h
    rw [runP] at h
    rcases front_cases hs.recov hv with hx | hx
    · rw [hx] at h; exact ih _ _ _ _ _ (hc _) hv hs hD.1 h
    · rw [hx] at h; exact ih _ _ _ _ _ (hc _) hv hs hD.2 h
  | adv g ih =>
    intro s e b s' hc hv hs hD h
    rw [runP] at h
    cases hx : vis s with
    | nil => exact absurd hx hv
    | cons t ts =>
      obtain ⟨h1, h2⟩ := advance_vis hs.recov hx
      have hs' : Clean (advance s).2 := ⟨by rw [advance_recov]; exact hs.recov, by rw [advance_errs]; exact hs.errs⟩
      cases ts with
      | nil => exact Div_runP hf _ _ false _ _ (hc _) (by intro hx; cases hx) (hs'.done h2) h
      | cons u ts =>
        rw [hx] at hD
        rw [h1] at h
        exact ih _ _ _ _ _ (hc _) (by rw [h2]; intro hy; cases hy) hs' (by rw [h2]; exact hD) h
  | call r g ih =>
    intro s e b s' hc hv hs hD h
    rw [runP] at h
    split at h
    · rename_i hx
      exact Div_runP hf _ _ false _ _ (hc.2.2 _) (by intro hx; cases hx) (ht _ _ _ _ hs hD hx) h
    · cases h
    · cases h
  | err ty g ih => intro s e b s' _ _ _ hD h; exact hD.elim
  | resync t g ih => intro s e b s' _ _ _ hD h; exact hD.elim
  | sem g ih =>
    intro s e b s' hc hv hs hD h
    rw [runP] at h
    unfold doSem at h
    dsimp only at h
    have key : ∀ l, runP f g (doError { s with n := s.n + 1 } .semantic none l) = .done b s' → Div w s' := by
      intro l h
      refine Div_runP hf g _ e _ _ hc ?_ (Or.inl ⟨⟨.semantic, none, s.input.length⟩, [], ?_, Or.inl rfl⟩) h
      · intro _; right; simp [doError, hs.recov]
      · simp [doError, hs.recov, hs.errs]
    split at h
    · exact ih { s with n := s.n + 1 } e b s' hc hv ⟨hs.recov, hs.errs⟩ hD h
    · exact key _ h
    · exact key _ h
  | panic => intro s e b s' _ _ _ hD h; exact hD.elim

theorem D_run {w : List Token} (hC : ∀ r, CL (body r) false) (hT : ∀ r vs, Takes r vs → vs ≠ [] ∧ D (body r) vs never) :
    ∀ n r s b s', Clean s → Takes r (vis s) → run n r s = .done b s' → Div w s' := by
  intro n
  induction n with
  | zero => intro r s b s' _ _ h; cases h
  | succ n ih =>
    intro r s b s' hs ht h
    exact D_runP (fun r s b s' _ _ => Div_run hC n r s b s') ih (body r) s false b s' (hC r) (hT _ _ ht).1 hs (hT _ _ ht).2 h

/-! ## Until then -/

/-- The operators of the levels of expressions up to a rule. -/
def isOp3 : Token → Bool
  | .mul | .div | .mod | .pow | .kIn | .kIs => true
  | _ => false

def opsOf : Rule → Token → Bool
  | .e3, t | .l3, t => isOp3 t
  | .e4, t | .l4, t => isOp3 t || op4 (some t)
  | .e5, t | .l5, t => isOp3 t || op4 (some t) || op5 (some t)
  | .e6, t | .l6, t | .e7, t | .l7, t => isOp3 t || op4 (some t) || op5 (some t) || op6 (some t)
  | .e8, t | .l8, t | .e9, t | .l9, t | .e11 true, t => isOp3 t || op4 (some t) || op5 (some t) || op6 (some t) || op8 (some t)
  | _, _ => false

def long3 : Rule → Bool
  | .e3 | .l3 | .e4 | .l4 | .e5 | .l5 | .e6 | .l6 | .e7 | .l7 | .e8 | .l8 | .e9 | .l9 | .e11 true => true
  | _ => false

/-- After a rule, not just one of its operators is left. -/
def lpost (r : Rule) (vs : List Token) : Prop :=
  (∀ t, vs = [t] → opsOf r t = false) ∧ (long3 r = true → vs ≠ [.kIs, .kNot] ∧ vs ≠ [.kNot, .kIn])

/-- When a rule is called. -/
def lpre : Rule → List Token → Prop
  | .l4, vs => lpost .e3 vs
  | .l5, vs => lpost .e4 vs
  | .l6, vs => lpost .e5 vs
  | .l7, vs => lpost .e6 vs
  | .l8, vs => lpost .e7 vs
  | .l9, vs => lpost .e8 vs
  | _, _ => True

/-- Runs in step; the first run sees `vs`. `Q` when the program ends in step, `Z` when it ends after the end was seen. -/
def L : Prog α → List Token → (α → List Token → Prop) → (α → List Token → Prop) → Prop
  | .ret a, vs, Q, _ => Q a vs
  | .peek 0 f, vs, Q, Z => ∀ t ts, vs = t :: ts → L (f (some t)) vs Q Z
  | .peek 1 f, vs, Q, Z => ∀ t ts, vs = t :: ts → (∀ u us, ts = u :: us → L (f (some u)) vs Q Z) ∧ (ts = [] → Ex t = false → D (f none) [t] Z)
  | .peek 2 f, vs, Q, Z => ∀ t ts, vs = t :: ts → (∀ u x xs, ts = u :: x :: xs → L (f (some x)) vs Q Z) ∧ (∀ u, ts = [u] → D (f none) [t, u] Z) ∧
    (ts = [] → Ex t = false → D (f none) [t] Z)
  | .peek _ _, vs, _, _ => vs = []
  | .peekNN f, vs, Q, Z => ∀ t ts, vs = t :: ts → L (f (some .newLine)) vs Q Z ∧ L (f (some t)) vs Q Z
  | .adv f, vs, Q, Z => ∀ t ts, vs = t :: ts → L (f (some t)) ts Q Z
  | .call r f, vs, Q, Z => vs ≠ [] → lpre r vs ∧ ∀ b vs', lpost r vs' → L (f b) vs' Q Z
  | .err _ _, _, _, _ => True
  | .resync _ f, _, Q, Z => ∀ vs', L f vs' Q Z
  | .sem f, vs, Q, Z => L f vs Q Z
  | .panic, _, _, _ => True

theorem L_bind (p : Prog α) (g : α → Prog β) (vs : List Token) (Q Z) :
    L (p.bind g) vs Q Z = L p vs (fun a vs => L (g a) vs Q Z) (fun a vs => D (g a) vs Z) := by
  induction p generalizing vs with
  | ret a => rfl
  | peek k f ih => rcases k with _ | _ | _ | k <;> simp only [Prog.bind, Nat.zero_add, Nat.reduceAdd, L, D_bind, ih]
  | peekNN f ih => simp only [Prog.bind, L, ih]
  | adv f ih => simp only [Prog.bind, L, ih]
  | call r f ih => simp only [Prog.bind, L, ih]
  | err ty f ih => rfl
  | resync t f ih => simp only [Prog.bind, L, ih]
  | sem f ih => simp only [Prog.bind, L, ih]
  | panic => rfl

structure Lock (w v : List Token) (s1 s2 : St) : Prop where
  c1 : Clean s1
  c2 : Clean s2
  input : s2.input = s1.input ++ v
  suffix : s1.input <:+ w

theorem Lock.vis {w v : List Token} {s1 s2 : St} (h : Lock w v s1 s2) : vis s2 = vis s1 ++ dense v := by
  rw [vis_dense h.c1.recov, vis_dense h.c2.recov, h.input, dense_append]

theorem Lock.last {w v : List Token} {s1 s2 : St} (h : Lock w v s1 s2) {t : Token} (hv : Parser.vis s1 = [t]) : (dense w).getLast? = some t := by
  obtain ⟨u, hu⟩ := dense_suffix h.suffix
  rw [← vis_dense h.c1.recov, hv] at hu
  rw [← hu]
  simp

theorem dropWhile_nil {p : Token → Bool} : ∀ {l : List Token}, l.dropWhile p = [] → ∀ a ∈ l, p a = true := by
  intro l
  induction l with
  | nil => intro _ a ha; cases ha
  | cons x l ih =>
    intro h a ha
    cases hx : p x with
    | false => rw [List.dropWhile_cons_of_neg (by rw [hx]; intro h; cases h)] at h; cases h
    | true =>
      rw [List.dropWhile_cons_of_pos hx] at h
      rcases List.mem_cons.mp ha with rfl | ha
      · exact hx
      · exact ih h a ha

theorem dropWhile_append {a b : List Token} {t : Token} {rest : List Token} (h : a.dropWhile (fun t => t == .newLine) = t :: rest) :
    (a ++ b).dropWhile (fun t => t == .newLine) = t :: (rest ++ b) := by
  induction a with
  | nil => cases h
  | cons x a ih =>
    rw [List.cons_append]
    by_cases hx : x = .newLine
    · subst hx
      exact ih h
    · rw [List.dropWhile_cons_of_neg (by simpa using hx)] at h ⊢
      cases h
      rfl

theorem skipTo_append {t : Token} (b : List Token) : ∀ {a rest : List Token}, skipTo t a = some rest → skipTo t (a ++ b) = some (rest ++ b) := by
  intro a
  induction a with
  | nil => intro rest h; cases h
  | cons x a ih =>
    intro rest h
    rw [List.cons_append, skipTo]
    rw [skipTo] at h
    split at h
    · rename_i hx; cases h; rw [if_pos hx]
    · rename_i hx; rw [if_neg hx]; exact ih h

theorem advance_lock {w v : List Token} {s1 s2 : St} (h : Lock w v s1 s2) (hv : Parser.vis s1 ≠ []) :
    (advance s2).1 = (advance s1).1 ∧ Lock w v (advance s1).2 (advance s2).2 := by
  cases hx : s1.input.dropWhile (fun t => t == .newLine) with
  | nil =>
    refine absurd ?_ hv
    rw [vis_dense h.c1.recov, dense, List.filter_eq_nil_iff]
    intro a ha
    have := dropWhile_nil hx a ha
    simpa using this
  | cons t rest =>
    have h1 : advance s1 = (some t, { s1 with input := rest }) := by unfold advance; simp [h.c1.recov, hx]
    have h2 : advance s2 = (some t, { s2 with input := rest ++ v }) := by
      unfold advance
      rw [h.input, dropWhile_append hx]
      simp [h.c2.recov]
    refine ⟨by rw [h1, h2], ⟨?_, ?_⟩, ⟨?_, ?_⟩, ?_, ?_⟩
    · rw [h1]; exact h.c1.recov
    · rw [h1]; exact h.c1.errs
    · rw [h2]; exact h.c2.recov
    · rw [h2]; exact h.c2.errs
    · rw [h1, h2]
    · exact (advance_suffix s1).trans h.suffix

theorem L_runP {w v : List Token} {f : Rule → St → Res Bool}
    (he : ∀ r s b s', f r s = .done b s' → s.errs <+: s'.errs)
    (hf : ∀ r s b s', r ≠ .root → r ≠ .evalRoot → Div w s → f r s = .done b s' → Div w s')
    (ht : ∀ r s b s', Clean s → Takes r (vis s) → f r s = .done b s' → Div w s')
    (hl : ∀ r s1 s2 b1 s1' b2 s2', Lock w v s1 s2 → lpre r (vis s1) → f r s1 = .done b1 s1' → f r s2 = .done b2 s2' → s2'.errs = [] →
      (b1 = b2 ∧ Lock w v s1' s2' ∧ lpost r (vis s1')) ∨ Div w s1') (p : Prog α) :
    ∀ s1 s2 e a1 s1' a2 s2' Q, CL p e → (e = true → vis s1 ≠ []) → Lock w v s1 s2 → L p (vis s1) Q never →
      runP f p s1 = .done a1 s1' → runP f p s2 = .done a2 s2' → s2'.errs = [] →
      (a1 = a2 ∧ Lock w v s1' s2' ∧ Q a1 (vis s1')) ∨ Div w s1' := by
  have stop : ∀ {α : Type} (p : Prog α) s1 s2 e a1 s1', Lock w v s1 s2 → vis s1 = [] → CL p e → (e = true → vis s1 ≠ []) → runP f p s1 = .done a1 s1' → Div w s1' := by
    intro α p s1 s2 e a1 s1' hk hv hc hx h
    exact Div_runP hf p _ e _ _ hc (fun hy => Or.inl (hx hy)) (hk.c1.done hv) h
  induction p with
  | ret a => intro s1 s2 e a1 s1' a2 s2' Q _ _ hk hL h1 h2 _; cases h1; cases h2; exact Or.inl ⟨rfl, hk, hL⟩
  | peek k g ih =>
    intro s1 s2 e a1 s1' a2 s2' Q hc hx hk hL h1 h2 h3
    by_cases hv : vis s1 = []
    · exact Or.inr (stop _ _ _ _ _ _ hk hv hc hx h1)
    rw [runP] at h1 h2
    -- the same token in both runs
    have same : ∀ u, (vis s1)[k]? = some u → L (g (some u)) (vis s1) Q never → (∃ e', CL (g (some u)) e' ∧ (e' = true → vis s1 ≠ [])) →
        (a1 = a2 ∧ Lock w v s1' s2' ∧ Q a1 (vis s1')) ∨ Div w s1' := by
      intro u hu hL' hc'
      obtain ⟨e', hc1, hc2⟩ := hc'
      have hu2 : (vis s2)[k]? = some u := by
        rw [hk.vis, List.getElem?_append_left]
        · exact hu
        · exact (List.getElem?_eq_some_iff.mp hu).1
      rw [hu] at h1
      rw [hu2] at h2
      exact ih _ _ _ e' _ _ _ _ Q hc1 hc2 hk hL' h1 h2 h3
    -- the first run sees the end
    have gone : (vis s1)[k]? = none → k ≠ 0 → (∃ t, vis s1 = [t] ∧ (Ex t = false → D (g none) [t] never)) ∨ D (g none) (vis s1) never → Div w s1' := by
      intro hn h0 hD
      rw [hn] at h1
      have hc' : CL (g none) e := by
        rcases k with _ | k
        · exact absurd rfl h0
        · exact hc none
      rcases hD with ⟨t, hvt, hD⟩ | hD
      · cases hE : Ex t with
        | true =>
          refine Div_runP hf (g none) s1 e _ _ hc' (fun hy => Or.inl (hx hy)) ?_ h1
          exact Or.inr ⟨hk.c1.recov, hk.c1.errs, Or.inr ⟨t, hvt, hE, hk.last hvt⟩⟩
        | false => exact D_runP hf ht (g none) s1 e _ _ hc' hv hk.c1 (by rw [hvt]; exact hD hE) h1
      · exact D_runP hf ht (g none) s1 e _ _ hc' hv hk.c1 hD h1
    cases hvs : vis s1 with
    | nil => exact absurd hvs hv
    | cons t ts =>
      have hne : ∀ e' : Bool, e' = true → vis s1 ≠ [] := fun _ _ => hv
      rcases k with _ | _ | _ | k
      · have hL' := hL t ts hvs
        exact same t (by rw [hvs]; rfl) hL' ⟨true, hc.2 t, hne _⟩
      · have hL' := hL t ts hvs
        cases hts : ts with
        | nil => exact Or.inr (gone (by rw [hvs, hts]; rfl) (by omega) (Or.inl ⟨t, by rw [hvs, hts], hL'.2 hts⟩))
        | cons u us => exact same u (by rw [hvs, hts]; rfl) (hL'.1 u us hts) ⟨e, hc _, hne _⟩
      · have hL' := hL t ts hvs
        cases hts : ts with
        | nil => exact Or.inr (gone (by rw [hvs, hts]; rfl) (by omega) (Or.inl ⟨t, by rw [hvs, hts], hL'.2.2 hts⟩))
        | cons u us =>
          cases hus : us with
          | nil =>
            subst hus
            exact Or.inr (gone (by rw [hvs, hts]; rfl) (by omega) (Or.inr (by rw [hvs, hts]; exact hL'.2.1 u hts)))
          | cons x xs => exact same x (by rw [hvs, hts, hus]; rfl) (hL'.1 u x xs (by rw [hts, hus])) ⟨e, hc _, hne _⟩
      · exact absurd hL hv
  | peekNN g ih =>
    intro s1 s2 e a1 s1' a2 s2' Q hc hx hk hL h1 h2 h3
    by_cases hv : vis s1 = []
    · exact Or.inr (stop _ _ _ _ _ _ hk hv hc hx h1)
    rw [runP] at h1 h2
    have hfr : front s2 = front s1 := by
      unfold front
      rw [hk.c1.recov, hk.c2.recov, hk.input]
      cases hi : s1.input with
      | nil => rw [vis_dense hk.c1.recov, hi] at hv; exact absurd rfl hv
      | cons a l => rfl
    cases hvs : vis s1 with
    | nil => exact absurd hvs hv
    | cons t ts =>
      have hL' := hL t ts hvs
      rw [hfr] at h2
      rcases front_cases hk.c1.recov hv with hy | hy
      · rw [hy] at h1 h2
        exact ih _ _ _ e _ _ _ _ Q (hc _) hx hk hL'.1 h1 h2 h3
      · rw [hvs] at hy
        rw [hy] at h1 h2
        exact ih _ _ _ e _ _ _ _ Q (hc _) hx hk hL'.2 h1 h2 h3
  | adv g ih =>
    intro s1 s2 e a1 s1' a2 s2' Q hc hx hk hL h1 h2 h3
    by_cases hv : vis s1 = []
    · exact Or.inr (stop _ _ _ _ _ _ hk hv hc hx h1)
    rw [runP] at h1 h2
    cases hvs : vis s1 with
    | nil => exact absurd hvs hv
    | cons t ts =>
      have hL' := hL t ts hvs
      obtain ⟨ha, hk'⟩ := advance_lock hk hv
      obtain ⟨hb, hvs'⟩ := advance_vis hk.c1.recov hvs
      rw [ha, hb] at h2
      rw [hb] at h1
      exact ih _ _ _ false _ _ _ _ Q (hc _) (by intro hy; cases hy) hk' (by rw [hvs']; exact hL') h1 h2 h3
  | call r g ih =>
    intro s1 s2 e a1 s1' a2 s2' Q hc hx hk hL h1 h2 h3
    by_cases hv : vis s1 = []
    · exact Or.inr (stop _ _ _ _ _ _ hk hv hc hx h1)
    rw [runP] at h1 h2
    split at h1
    · rename_i b1 t1 hr1
      split at h2
      · rename_i b2 t2 hr2
        have e2 := runP_errs he _ _ _ _ h2
        rw [h3] at e2
        have e3 : t2.errs = [] := List.prefix_nil.mp e2
        rcases hl _ _ _ _ _ _ _ hk (hL hv).1 hr1 hr2 e3 with ⟨hb, hk', hp⟩ | hd
        · subst hb
          exact ih _ _ _ false _ _ _ _ Q (hc.2.2 _) (by intro hy; cases hy) hk' ((hL hv).2 _ _ hp) h1 h2 h3
        · exact Or.inr (Div_runP hf _ _ false _ _ (hc.2.2 _) (by intro hy; cases hy) hd h1)
      · cases h2
      · cases h2
    · cases h1
    · cases h1
  | err ty g ih =>
    intro s1 s2 e a1 s1' a2 s2' Q hc hx hk hL h1 h2 h3
    rw [runP] at h2
    have e1 := doError_errs s2 ty (vis s2)[0]? true
    have e2 := runP_errs he _ _ _ _ h2
    rw [h3] at e2
    have e3 := List.prefix_nil.mp e2
    exact absurd (by rw [e3, hk.c2.errs]) (e1.2 hk.c2.recov)
  | resync t g ih =>
    intro s1 s2 e a1 s1' a2 s2' Q hc hx hk hL h1 h2 h3
    by_cases hv : vis s1 = []
    · exact Or.inr (stop _ _ _ _ _ _ hk hv hc hx h1)
    rw [runP] at h1 h2
    have h0 : (vis s2)[0]? = (vis s1)[0]? := by
      rw [hk.vis]
      cases hvs : vis s1 with
      | nil => exact absurd hvs hv
      | cons t ts => rfl
    unfold doResync at h1 h2
    rw [h0] at h2
    split at h1
    · rename_i ht
      rw [if_pos ht] at h2
      obtain ⟨_, hk'⟩ := advance_lock hk hv
      exact ih _ _ false _ _ _ _ Q hc (by intro hy; cases hy) hk' (hL _) h1 h2 h3
    · rename_i ht
      rw [if_neg ht] at h2
      cases hsk : skipTo t s1.input with
      | some rest =>
        rw [hsk] at h1
        rw [hk.input, skipTo_append v hsk] at h2
        refine ih _ _ false _ _ _ _ Q hc (by intro hy; cases hy) ?_ (hL _) h1 h2 h3
        exact ⟨⟨rfl, hk.c1.errs⟩, ⟨rfl, hk.c2.errs⟩, rfl, (skipTo_suffix hsk).trans hk.suffix⟩
      | none =>
        rw [hsk] at h1
        simp only [hk.c1.recov, Bool.false_eq_true, if_false] at h1
        refine Or.inr (Div_runP hf _ _ false _ _ hc (by intro hy; cases hy) ?_ h1)
        refine Or.inl ⟨⟨.expectedToken t, none, 0⟩, [], ?_, Or.inr (Or.inl rfl)⟩
        simp [doError, hk.c1.recov, hk.c1.errs]
  | sem g ih =>
    intro s1 s2 e a1 s1' a2 s2' Q hc hx hk hL h1 h2 h3
    rw [runP] at h1 h2
    have e2 := runP_errs he _ _ _ _ h2
    rw [h3] at e2
    have e3 := List.prefix_nil.mp e2
    have hs2 : doSem s2 = { s2 with n := s2.n + 1 } := by
      unfold doSem at e3 ⊢
      dsimp only at e3 ⊢
      split
      · rfl
      · rename_i ho; rw [ho] at e3; simp [doError, hk.c2.recov] at e3
      · rename_i ho; rw [ho] at e3; simp [doError, hk.c2.recov] at e3
    rw [hs2] at h2
    unfold doSem at h1
    dsimp only at h1
    have key : ∀ l, runP f g (doError { s1 with n := s1.n + 1 } .semantic none l) = .done a1 s1' → Div w s1' := by
      intro l h
      refine Div_runP hf g _ e _ _ hc ?_ (Or.inl ⟨⟨.semantic, none, s1.input.length⟩, [], ?_, Or.inl rfl⟩) h
      · intro _; right; simp [doError, hk.c1.recov]
      · simp [doError, hk.c1.recov, hk.c1.errs]
    split at h1
    · exact ih { s1 with n := s1.n + 1 } { s2 with n := s2.n + 1 } e _ _ _ _ Q hc hx
        ⟨⟨hk.c1.recov, hk.c1.errs⟩, ⟨hk.c2.recov, hk.c2.errs⟩, hk.input, hk.suffix⟩ hL h1 h2 h3
    · exact Or.inr (key _ h1)
    · exact Or.inr (key _ h1)
  | panic => intro s1 s2 e a1 s1' a2 s2' Q _ _ _ _ h1; cases h1

/-- The rule keeps in step. -/
def Steps (r : Rule) : Prop := ∀ vs, lpre r vs → L (body r) vs (fun _ vs' => lpost r vs') never

theorem L_run {w v : List Token} (hC : ∀ r, CL (body r) false) (hT : ∀ r vs, Takes r vs → vs ≠ [] ∧ D (body r) vs never) (hL : ∀ r, Steps r) :
    ∀ n r s1 s2 b1 s1' b2 s2', Lock w v s1 s2 → lpre r (vis s1) → run n r s1 = .done b1 s1' → run n r s2 = .done b2 s2' → s2'.errs = [] →
      (b1 = b2 ∧ Lock w v s1' s2' ∧ lpost r (vis s1')) ∨ Div w s1' := by
  intro n
  induction n with
  | zero => intro r s1 s2 b1 s1' b2 s2' _ _ h; cases h
  | succ n ih =>
    intro r s1 s2 b1 s1' b2 s2' hk hp h1 h2 h3
    exact L_runP (run_errs n) (fun r s b s' _ _ => Div_run hC n r s b s') (D_run hC hT n) ih (body r) s1 s2 false b1 s1' b2 s2' _ (hC r)
      (by intro hy; cases hy) hk (hL r _ hp) h1 h2 h3

end Cordy.Parser
