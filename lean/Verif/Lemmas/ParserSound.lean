import Verif.Lemmas.ParserTerm
import Verif.Spec.Language

/-!
# What is accepted is a sentence of the grammar

`S` is a calculus for the rules, for runs without errors. It tracks what is known of the next three tokens and a set of residuals: a pair of a nonterminal and the symbols still needed for one of its productions.
`S_run`: if every rule satisfies it, a run without errors takes a sentence of the rule's nonterminal.
-/
namespace Cordy.Parser
open Cordy.Scan (Token)
open Cordy.Language (NT Sym Cls Gen Der prods nextTok)

/-- A set of next tokens; `none` if nothing is known. -/
abbrev Kn := Option (List (Option Token))

def Kn.has : Kn → Option Token → Prop
  | none, _ => True
  | some l, o => o ∈ l

def allL : List (Option Token) → (Option Token → Prop) → Prop
  | [], _ => True
  | [o], P => P o
  | o :: l, P => P o ∧ allL l P

def allK : Kn → (Option Token → Prop) → Prop
  | none, P => ∀ o, P o
  | some l, P => allL l P

theorem allL_mem {l : List (Option Token)} {P : Option Token → Prop} (h : allL l P) {o : Option Token} (ho : o ∈ l) : P o := by
  induction l with
  | nil => cases ho
  | cons a l ih =>
    cases l with
    | nil =>
      cases ho with
      | head => exact h
      | tail _ h' => cases h'
    | cons b l =>
      cases ho with
      | head => exact h.1
      | tail _ h' => exact ih h.2 h'

theorem allK_has {k : Kn} {P : Option Token → Prop} (h : allK k P) {o : Option Token} (ho : k.has o) : P o := by
  cases k with
  | none => exact h o
  | some l => exact allL_mem h ho

/-- Residuals. -/
abbrev Rs := List (NT × List Sym)

/-- The token `t` is taken. -/
def stepT (R : Rs) (t : Token) : Rs :=
  R.filterMap fun p => match p.2 with
    | .tok c :: ss => if c.ok t then some (p.1, ss) else none
    | _ => none

/-- Has `x` the production `m`? -/
def isUnit (x m : NT) : Bool := (prods x).any fun ss => match ss with
  | [.nt y] => decide (y = m)
  | _ => false

/-- A sentence of `m` is taken. -/
def stepN (R : Rs) (m : NT) : Rs :=
  R.filterMap fun p => match p.2 with
    | .nt x :: ss => if decide (x = m) || isUnit x m then some (p.1, ss) else none
    | _ => none

/-- The next token is `o`. -/
def knowO (R : Rs) (o : Option Token) : Rs := R.flatMap fun p => p :: match p.2 with
  | .look cs :: ss => (match o with
    | none => []
    | some t => if cs.any (fun c => c.ok t) then [(p.1, ss)] else [])
  | _ => []

def knowK (R : Rs) : Kn → Rs
  | some [o] => knowO R o
  | _ => R

/-- The next token is on the same line. -/
def onLine (R : Rs) : Rs :=
  R ++ R.filterMap fun p => match p.2 with
    | .adj :: ss => some (p.1, ss)
    | _ => none

/-- Nothing more is needed. -/
def closedBy (k : Kn) : List Sym → Bool
  | [] => true
  | .look cs :: ss => (match k with
    | none => false
    | some l => l.all fun o => match o with
      | none => false
      | some t => cs.any (fun c => c.ok t)) && closedBy k ss
  | _ => false

def accepts (R : Rs) (k : Kn) (m : NT) : Bool := R.any fun p => decide (p.1 = m) && closedBy k p.2

/-- What a rule takes, if it returns `b`; `none`: it does not return `b` in a run without errors. -/
def Nt : Rule → Bool → Option NT
  | .commaArg, true => some .spread
  | .lvalue, true => some .lvalue
  | .lvalueTerms, true => some .lvalues
  | .lvalue, false => none
  | .lvalueTerms, false => none
  | _, true => none
  | .root, _ => some .program
  | .evalRoot, _ => some .evalText
  | .statements, _ => some .stmts
  | .block, _ => some .block
  | .structOrModule false, _ => some .structDecl
  | .structOrModule true, _ => some .moduleDecl
  | .structLoop, _ => some .fieldList
  | .methodLoop m, _ => some (.methodList (!m))
  | .nativeModule, _ => some .nativeDecl
  | .nativeLoop, _ => some .nativeList
  | .nativeFunction, _ => some .nativeSig
  | .annotated, _ => some .annotated
  | .namedFunction, _ => some .fnStmt
  | .exprFunction, _ => some .fnExpr
  | .params self _, _ => some (.params self)
  | .paramLoop _, _ => some .paramList
  | .functionBody, _ => some .fnBody
  | .returnS, _ => some .returnStmt
  | .ifS, _ => some .ifChain
  | .whileS, _ => some .whileStmt
  | .doS, _ => some .doStmt
  | .loopS, _ => some .loopStmt
  | .forS, _ => some .forStmt
  | .breakS, _ => some .breakStmt
  | .continueS, _ => some .continueStmt
  | .assertS, _ => some .assertStmt
  | .letS, _ => some .letStmt
  | .letLoop, _ => some .letList
  | .exprStatement, _ => some .exprStmt
  | .terminal, _ => some .term
  | .commaExpr, _ => some .parens
  | .commaLoop, _ => some .elementsTail
  | .commaArg, _ => some .arg
  | .listOrSlice, _ => some .listOrSlice
  | .listLoop, _ => some .listTail
  | .sliceLit, _ => some .sliceTail
  | .dictOrSet, _ => some .dictOrSet
  | .dictLoop none, _ => some .entries
  | .dictLoop (some true), _ => some .dictEntries
  | .dictLoop (some false), _ => some .setEntries
  | .ifThenElse, _ => some .ifExpr
  | .thenElse, _ => some .thenElse
  | .unary, _ => some .unary
  | .prefixLoop, _ => some .prefixes
  | .suffixLoop, _ => some .suffixes
  | .e3, _ => some .e3
  | .e4, _ => some .e4
  | .e5, _ => some .e5
  | .e6, _ => some .e6
  | .e7, _ => some .e7
  | .e8, _ => some .e8
  | .e9, _ => some .e9
  | .e10, _ => some .e10
  | .e11 c, _ => some (.expr c)
  | .l3, _ => some .l3
  | .l4, _ => some .l4
  | .l5, _ => some .l5
  | .l6, _ => some .l6
  | .l7, _ => some .l7
  | .l8, _ => some .l8
  | .l9, _ => some .l9
  | .l10, _ => some .l10

/-- The next token when a rule is called. -/
def pre : Rule → Kn
  | .structOrModule false => some [some .kStruct]
  | .structOrModule true => some [some .kModule]
  | .nativeModule => some [some .kNative]
  | .annotated => some [some .at]
  | .namedFunction => some [some .kFn]
  | .exprFunction => some [some .kFn]
  | .returnS => some [some .kReturn]
  | .ifS => some [some .kIf, some .kElif]
  | .whileS => some [some .kWhile]
  | .doS => some [some .kDo]
  | .loopS => some [some .kLoop]
  | .forS => some [some .kFor]
  | .breakS => some [some .kBreak]
  | .continueS => some [some .kContinue]
  | .assertS => some [some .kAssert]
  | .letS => some [some .kLet]
  | .commaExpr => some [some .openParen]
  | .listOrSlice => some [some .openSquare]
  | .sliceLit => some [some .colon]
  | .dictOrSet => some [some .openBrace]
  | .ifThenElse => some [some .kIf]
  | _ => none

/-- The next token when a rule returns. -/
def after : Rule → Kn
  | .root => some [none]
  | .evalRoot => some [none]
  | .statements => some [some .closeBrace, none]
  | .paramLoop _ => some [some .closeParen]
  | .commaLoop => some [some .closeParen]
  | .structLoop => some [some .closeParen]
  | .dictLoop _ => some [some .closeBrace]
  | .methodLoop _ => some [some .closeBrace]
  | .nativeLoop => some [some .closeBrace]
  | .listLoop => some [some .closeSquare]
  | _ => none

/-- `k` is a subset of `l`. -/
def sub (k : Kn) : Kn → Prop
  | none => True
  | some l => allK k fun o => l.contains o = true

def S : Prog α → Rs → (k0 k1 k2 : Kn) → (α → Rs → Kn → Kn → Kn → Prop) → Prop
  | .ret a, R, k0, k1, k2, Q => Q a R k0 k1 k2
  | .peek 0 f, R, k0, k1, k2, Q => allK k0 fun o => S (f o) (knowO R o) (some [o]) k1 k2 Q
  | .peek 1 f, R, k0, k1, k2, Q => allK k1 fun o => S (f o) R k0 (some [o]) k2 Q
  | .peek 2 f, R, k0, k1, k2, Q => allK k2 fun o => S (f o) R k0 k1 (some [o]) Q
  | .peek (_ + 3) f, R, k0, k1, k2, Q => ∀ o, S (f o) R k0 k1 k2 Q
  | .peekNN f, R, k0, k1, k2, Q =>
    S (f none) R k0 k1 k2 Q ∧ S (f (some .newLine)) R k0 k1 k2 Q ∧
    ∀ t, t ≠ .newLine → k0.has (some t) → S (f (some t)) (knowO (onLine R) (some t)) (some [some t]) k1 k2 Q
  | .adv f, R, k0, k1, k2, Q => allK k0 fun o => match o with
    | none => False
    | some t => S (f (some t)) (stepT R t) k1 k2 none Q
  | .call r f, R, k0, _, _, Q =>
    sub k0 (pre r) ∧ ∀ b m, Nt r b = some m → S (f b) (stepN (knowK R k0) m) (after r) none none Q
  | .err _ _, _, _, _, _, _ => True
  | .resync t f, R, k0, k1, k2, Q => t ≠ .newLine ∧ sub k0 (some [some t, none]) ∧ S f (stepT R t) k1 k2 none Q
  | .sem f, R, k0, k1, k2, Q => S f R k0 k1 k2 Q
  | .panic, _, _, _, _, _ => True

theorem S_bind (p : Prog α) (g : α → Prog β) (R : Rs) (k0 k1 k2 : Kn) (Q) :
    S (p.bind g) R k0 k1 k2 Q = S p R k0 k1 k2 (fun a R k0 k1 k2 => S (g a) R k0 k1 k2 Q) := by
  induction p generalizing R k0 k1 k2 with
  | ret a => rfl
  | peek k f ih =>
    rcases k with _ | _ | _ | k <;> simp only [Prog.bind, S, ih]
  | peekNN f ih => simp only [Prog.bind, S, ih]
  | adv f ih =>
    simp only [Prog.bind, S]
    congr 1
    funext o
    cases o with
    | none => rfl
    | some t => exact ih _ _ _ _ _
  | call r f ih => simp only [Prog.bind, S, ih]
  | err ty f ih => rfl
  | resync t f ih => simp only [Prog.bind, S, ih]
  | sem f ih => simp only [Prog.bind, S, ih]
  | panic => rfl

/-! ## More residuals and more knowledge -/

theorem stepT_sub {R R' : Rs} (h : R ⊆ R') (t : Token) : stepT R t ⊆ stepT R' t := by
  intro p hp
  rw [stepT, List.mem_filterMap] at hp ⊢
  obtain ⟨a, ha, he⟩ := hp
  exact ⟨a, h ha, he⟩

theorem stepN_sub {R R' : Rs} (h : R ⊆ R') (m : NT) : stepN R m ⊆ stepN R' m := by
  intro p hp
  rw [stepN, List.mem_filterMap] at hp ⊢
  obtain ⟨a, ha, he⟩ := hp
  exact ⟨a, h ha, he⟩

theorem knowO_sub {R R' : Rs} (h : R ⊆ R') (o : Option Token) : knowO R o ⊆ knowO R' o := by
  intro p hp
  rw [knowO, List.mem_flatMap] at hp ⊢
  obtain ⟨a, ha, he⟩ := hp
  exact ⟨a, h ha, he⟩

theorem knowO_self (R : Rs) (o : Option Token) : R ⊆ knowO R o := by
  intro p hp
  rw [knowO, List.mem_flatMap]
  exact ⟨p, hp, List.mem_cons_self⟩

theorem onLine_sub {R R' : Rs} (h : R ⊆ R') : onLine R ⊆ onLine R' := by
  intro p hp
  rw [onLine, List.mem_append] at hp ⊢
  rcases hp with hp | hp
  · exact .inl (h hp)
  · rw [List.mem_filterMap] at hp
    obtain ⟨a, ha, he⟩ := hp
    exact .inr (List.mem_filterMap.mpr ⟨a, h ha, he⟩)

theorem knowK_self (R : Rs) (k : Kn) : R ⊆ knowK R k := by
  unfold knowK
  split
  · exact knowO_self _ _
  · exact fun _ h => h

/-- `k'` knows as much as `k`. -/
def Kn.le (k' k : Kn) : Prop := k = none ∨ k' = k

theorem allL_of {P : Option Token → Prop} (h : ∀ o, P o) : (l : List (Option Token)) → allL l P
  | [] => trivial
  | [o] => h o
  | o :: b :: l => ⟨h o, allL_of h (b :: l)⟩

theorem allK_le {k' k : Kn} {P : Option Token → Prop} (hk : k'.le k) (h : allK k P) : allK k' P := by
  rcases hk with rfl | rfl
  · cases k' with
    | none => exact h
    | some l => exact allL_of h l
  · exact h

theorem allL_imp {P P' : Option Token → Prop} (hp : ∀ o, P o → P' o) : (l : List (Option Token)) → allL l P → allL l P'
  | [], _ => trivial
  | [_], h => hp _ h
  | _ :: b :: l, h => ⟨hp _ h.1, allL_imp hp (b :: l) h.2⟩

theorem allK_imp {P P' : Option Token → Prop} (hp : ∀ o, P o → P' o) (k : Kn) (h : allK k P) : allK k P' := by
  cases k with
  | none => exact fun o => hp o (h o)
  | some l => exact allL_imp hp l h

theorem sub_le {k' k : Kn} (hk : k'.le k) {l : Kn} (h : sub k l) : sub k' l := by
  cases l with
  | none => trivial
  | some l => exact allK_le hk h

theorem knowK_sub {R R' : Rs} (h : R ⊆ R') {k' k : Kn} (hk : k'.le k) : knowK R k ⊆ knowK R' k' := by
  rcases hk with rfl | rfl
  · exact fun p hp => knowK_self _ _ (h hp)
  · unfold knowK
    split
    · exact knowO_sub h _
    · exact h

theorem has_le {k' k : Kn} (hk : k'.le k) {o : Option Token} (h : k'.has o) : k.has o := by
  rcases hk with rfl | rfl
  · trivial
  · exact h

theorem Kn.le_refl (k : Kn) : k.le k := .inr rfl

theorem S_mono (p : Prog α) {Q Q' : α → Rs → Kn → Kn → Kn → Prop}
    (hQ : ∀ a R R' k0 k0' k1 k1' k2 k2', R ⊆ R' → k0'.le k0 → k1'.le k1 → k2'.le k2 → Q a R k0 k1 k2 → Q' a R' k0' k1' k2') :
    ∀ {R R' : Rs} {k0 k0' k1 k1' k2 k2' : Kn}, R ⊆ R' → k0'.le k0 → k1'.le k1 → k2'.le k2 → S p R k0 k1 k2 Q → S p R' k0' k1' k2' Q' := by
  induction p with
  | ret a => intro R R' k0 k0' k1 k1' k2 k2' hR h0 h1 h2 h; exact hQ _ _ _ _ _ _ _ _ _ hR h0 h1 h2 h
  | peek k f ih =>
    intro R R' k0 k0' k1 k1' k2 k2' hR h0 h1 h2 h
    rcases k with _ | _ | _ | k
    · exact allK_imp (fun o ho => ih o (knowO_sub hR o) (Kn.le_refl _) h1 h2 ho) _ (allK_le h0 h)
    · exact allK_imp (fun o ho => ih o hR h0 (Kn.le_refl _) h2 ho) _ (allK_le h1 h)
    · exact allK_imp (fun o ho => ih o hR h0 h1 (Kn.le_refl _) ho) _ (allK_le h2 h)
    · exact fun o => ih o hR h0 h1 h2 (h o)
  | peekNN f ih =>
    intro R R' k0 k0' k1 k1' k2 k2' hR h0 h1 h2 h
    exact ⟨ih _ hR h0 h1 h2 h.1, ih _ hR h0 h1 h2 h.2.1,
      fun t ht hk => ih _ (knowO_sub (onLine_sub hR) _) (Kn.le_refl _) h1 h2 (h.2.2 t ht (has_le h0 hk))⟩
  | adv f ih =>
    intro R R' k0 k0' k1 k1' k2 k2' hR h0 h1 h2 h
    rw [S] at h ⊢
    refine allK_imp (fun o ho => ?_) _ (allK_le h0 h)
    cases o with
    | none => exact ho
    | some t => exact ih _ (stepT_sub hR t) h1 h2 (Kn.le_refl _) ho
  | call r f ih =>
    intro R R' k0 k0' k1 k1' k2 k2' hR h0 h1 h2 h
    exact ⟨sub_le h0 h.1, fun b m hm => ih b (stepN_sub (knowK_sub hR h0) m) (Kn.le_refl _) (Kn.le_refl _) (Kn.le_refl _) (h.2 b m hm)⟩
  | err ty f ih => intros; trivial
  | resync t f ih =>
    intro R R' k0 k0' k1 k1' k2 k2' hR h0 h1 h2 h
    exact ⟨h.1, sub_le h0 h.2.1, ih (stepT_sub hR t) h1 h2 (Kn.le_refl _) h.2.2⟩
  | sem f ih => intro R R' k0 k0' k1 k1' k2 k2' hR h0 h1 h2 h; exact ih hR h0 h1 h2 h
  | panic => intros; trivial

/-- All the productions that a rule may follow. -/
def R0 (r : Rule) : Rs :=
  (match Nt r true with | none => [] | some m => (prods m).map fun ss => (m, ss)) ++
  (match Nt r false with | none => [] | some m => (prods m).map fun ss => (m, ss))

/-- The end of a rule. -/
def QS (r : Rule) : Bool → Rs → Kn → Kn → Kn → Prop := fun b R k0 _ _ =>
  (∃ m, Nt r b = some m ∧ accepts R k0 m = true) ∧ sub k0 (after r)

theorem closedBy_le {k' k : Kn} (hk : k'.le k) : (ss : List Sym) → closedBy k ss = true → closedBy k' ss = true
  | [], _ => rfl
  | .look cs :: ss, h => by
    rcases hk with rfl | rfl
    · simp [closedBy] at h
    · exact h
  | .tok _ :: _, h => by simp [closedBy] at h
  | .nt _ :: _, h => by simp [closedBy] at h
  | .adj :: _, h => by simp [closedBy] at h

theorem QS_mono (r : Rule) : ∀ a R R' k0 k0' k1 k1' k2 k2', R ⊆ R' → k0'.le k0 → k1'.le k1 → k2'.le k2 →
    QS r a R k0 k1 k2 → QS r a R' k0' k1' k2' := by
  intro a R R' k0 k0' k1 k1' k2 k2' hR h0 _ _ h
  obtain ⟨⟨m, hm, ha⟩, hs⟩ := h
  refine ⟨⟨m, hm, ?_⟩, sub_le h0 hs⟩
  rw [accepts, List.any_eq_true] at ha ⊢
  obtain ⟨p, hp, hq⟩ := ha
  rw [Bool.and_eq_true] at hq
  exact ⟨p, hR hp, by rw [Bool.and_eq_true]; exact ⟨hq.1, closedBy_le h0 _ hq.2⟩⟩

/-- The rule satisfies the calculus. -/
def Sound (r : Rule) : Prop := S (body r) (R0 r) (pre r) none none (QS r)

/-! ## Errors are never taken back -/

theorem doError_errs (s : St) (ty : ErrTy) (g : Option Token) (l : Bool) :
    s.errs <+: (doError s ty g l).errs ∧ (s.recov = false → (doError s ty g l).errs ≠ s.errs) := by
  unfold doError
  constructor
  · show s.errs <+: if s.recov then s.errs else _
    split
    · exact List.prefix_refl _
    · exact List.prefix_append _ _
  · intro hr
    show (if s.recov then s.errs else _) ≠ s.errs
    rw [hr]
    simp

theorem advance_errs (s : St) : (advance s).2.errs = s.errs := by
  unfold advance
  split
  · rfl
  · split <;> rfl

theorem doResync_errs (s : St) (t : Token) : s.errs <+: (doResync s t).errs := by
  unfold doResync
  split
  · rw [advance_errs]; exact List.prefix_refl _
  · split
    · exact List.prefix_refl _
    · split
      · exact List.prefix_refl _
      · exact (doError_errs { s with input := [] } _ _ _).1

theorem doSem_errs (s : St) : s.errs <+: (doSem s).errs := by
  unfold doSem
  dsimp only
  split
  · exact List.prefix_refl _
  · exact (doError_errs { s with n := s.n + 1 } _ _ _).1
  · exact (doError_errs { s with n := s.n + 1 } _ _ _).1

theorem runP_errs {f : Rule → St → Res Bool} (hf : ∀ r s b s', f r s = .done b s' → s.errs <+: s'.errs) (p : Prog α) :
    ∀ s a s', runP f p s = .done a s' → s.errs <+: s'.errs := by
  induction p with
  | ret a => intro s b s' h; cases h; exact List.prefix_refl _
  | peek k f ih => intro s b s' h; exact ih _ _ _ _ h
  | peekNN f ih => intro s b s' h; exact ih _ _ _ _ h
  | adv f ih => intro s b s' h; have := ih _ _ _ _ h; rwa [advance_errs] at this
  | call r g ih =>
    intro s b s' h
    rw [runP] at h
    split at h
    · rename_i hd
      exact (hf _ _ _ _ hd).trans (ih _ _ _ _ h)
    · cases h
    · cases h
  | err ty g ih => intro s b s' h; exact (doError_errs s ty _ true).1.trans (ih _ _ _ h)
  | resync t g ih => intro s b s' h; exact (doResync_errs s t).trans (ih _ _ _ h)
  | sem g ih => intro s b s' h; exact (doSem_errs s).trans (ih _ _ _ h)
  | panic => intro s b s' h; cases h

theorem run_errs : ∀ n r s b s', run n r s = .done b s' → s.errs <+: s'.errs := by
  intro n
  induction n with
  | zero => intro r s b s' h; cases h
  | succ n ih => intro r s b s' h; exact runP_errs ih _ _ _ _ h

/-! ## The meaning of the calculus -/

/-- What is left of the input after `s0` is what `s` sees; the residuals can be completed. -/
structure Inv (s0 s : St) (R : Rs) (k0 k1 k2 : Kn) : Prop where
  clean : s.recov = false
  h0 : k0.has (vis s)[0]?
  h1 : k1.has (vis s)[1]?
  h2 : k2.has (vis s)[2]?
  res : ∃ w, s0.input = w ++ s.input ∧
    ∀ p ∈ R, ∀ v rest, s.input = v ++ rest → Gen p.2 v rest → Der p.1 (w ++ v) rest

/-- A run of a rule without errors. -/
def Good (r : Rule) (s : St) (b : Bool) (s' : St) : Prop :=
  s'.recov = false ∧ (after r).has (vis s')[0]? ∧ ∃ m, Nt r b = some m ∧ ∃ w, s.input = w ++ s'.input ∧ Der m w s'.input

theorem vis_clean {s : St} (h : s.recov = false) : vis s = s.input.filter (fun t => t != .newLine) := by simp [vis, h]

theorem nextTok_vis {s : St} (h : s.recov = false) : nextTok s.input = (vis s)[0]? := by
  rw [vis_clean h]; exact List.head?_eq_getElem?

theorem knowO_ok {s0 s : St} {R : Rs} {k0 k1 k2 : Kn} (hI : Inv s0 s R k0 k1 k2) {o : Option Token} (ho : (vis s)[0]? = o) :
    Inv s0 s (knowO R o) (some [o]) k1 k2 := by
  obtain ⟨w, hw, hR⟩ := hI.res
  refine ⟨hI.clean, by rw [ho]; exact List.mem_singleton.mpr rfl, hI.h1, hI.h2, w, hw, ?_⟩
  intro p hp v rest he hg
  rw [knowO, List.mem_flatMap] at hp
  obtain ⟨a, ha, hp⟩ := hp
  rcases List.mem_cons.mp hp with rfl | hp
  · exact hR _ ha v rest he hg
  · split at hp
    · rename_i cs ss hs
      split at hp
      · cases hp
      · rename_i t
        split at hp
        · rename_i hc
          rcases List.mem_singleton.mp hp with rfl
          refine hR _ ha v rest he ?_
          rw [hs]
          exact .look (by rw [← he, nextTok_vis hI.clean, ho]) hc hg
        · cases hp
    · cases hp

theorem knowK_ok {s0 s : St} {R : Rs} {k0 k1 k2 : Kn} (hI : Inv s0 s R k0 k1 k2) : Inv s0 s (knowK R k0) k0 k1 k2 := by
  unfold knowK
  split
  · exact knowO_ok hI (List.mem_singleton.mp hI.h0)
  · exact hI

theorem onLine_ok {s0 s : St} {R : Rs} {k0 k1 k2 : Kn} (hI : Inv s0 s R k0 k1 k2) (ho : s.input.head? ≠ some .newLine) :
    Inv s0 s (onLine R) k0 k1 k2 := by
  obtain ⟨w, hw, hR⟩ := hI.res
  refine ⟨hI.clean, hI.h0, hI.h1, hI.h2, w, hw, ?_⟩
  intro p hp v rest he hg
  rw [onLine, List.mem_append] at hp
  rcases hp with hp | hp
  · exact hR _ hp v rest he hg
  · rw [List.mem_filterMap] at hp
    obtain ⟨a, ha, hp⟩ := hp
    split at hp
    · rename_i ss hs
      cases hp
      refine hR _ ha v rest he ?_
      rw [hs]
      exact .adj (by rw [← he]; exact ho) hg
    · cases hp

theorem dropWhile_lines (l : List Token) :
    ∃ k, l = List.replicate k .newLine ++ l.dropWhile (fun t => t == .newLine) := by
  induction l with
  | nil => exact ⟨0, rfl⟩
  | cons a l ih =>
    rw [List.dropWhile_cons]
    by_cases h : a = .newLine
    · subst h
      obtain ⟨k, hk⟩ := ih
      exact ⟨k + 1, by rw [List.replicate_succ]; simpa using hk⟩
    · have : (a == Token.newLine) = false := by simpa using h
      rw [this]
      exact ⟨0, rfl⟩

theorem stepT_ok {s0 s : St} {R : Rs} {k0 k1 k2 : Kn} (hI : Inv s0 s R k0 k1 k2) {t : Token} (ht : (vis s)[0]? = some t) :
    (advance s).1 = some t ∧ Inv s0 (advance s).2 (stepT R t) k1 k2 none := by
  obtain ⟨w, hw, hR⟩ := hI.res
  cases hv : vis s with
  | nil => rw [hv] at ht; cases ht
  | cons u l =>
    rw [hv] at ht
    cases ht
    obtain ⟨ha, hvis, _, hrec⟩ := advance_act hv
    refine ⟨ha, hrec, ?_, ?_, trivial, ?_⟩
    · have := hI.h1; rw [hv] at this; rw [hvis]; simpa using this
    · have := hI.h2; rw [hv] at this; rw [hvis]; simpa using this
    · have hin : ∃ k, s.input = List.replicate k .newLine ++ t :: (advance s).2.input := by
        obtain ⟨k, hk⟩ := dropWhile_lines s.input
        refine ⟨k, ?_⟩
        unfold advance at ha ⊢
        rw [if_neg (by simp [hI.clean])] at ha ⊢
        split at ha
        · cases ha
        · rename_i hd
          rw [hd] at hk
          cases ha
          exact hk
      obtain ⟨k, hk⟩ := hin
      refine ⟨w ++ (List.replicate k .newLine ++ [t]), by rw [hw, hk]; simp, ?_⟩
      intro p hp v rest he hg
      rw [stepT, List.mem_filterMap] at hp
      obtain ⟨a, haR, hp⟩ := hp
      split at hp
      · rename_i c ss hs
        split at hp
        · rename_i hc
          cases hp
          have := hR _ haR (List.replicate k .newLine ++ t :: v) rest (by rw [hk, he]; simp) (by rw [hs]; exact .tok k hc hg)
          simpa using this
        · cases hp
      · cases hp

theorem isUnit_mem {x m : NT} (h : isUnit x m = true) : [Sym.nt m] ∈ prods x := by
  rw [isUnit, List.any_eq_true] at h
  obtain ⟨ss, hs, he⟩ := h
  split at he
  · rename_i y
    rw [decide_eq_true_eq] at he
    subst he
    exact hs
  · cases he

theorem stepN_ok {s0 s s' : St} {R : Rs} {k0 k1 k2 k0' : Kn} (hI : Inv s0 s R k0 k1 k2) {m : NT} {u : List Token}
    (hc : s'.recov = false) (hk : k0'.has (vis s')[0]?) (hu : s.input = u ++ s'.input) (hd : Der m u s'.input) :
    Inv s0 s' (stepN R m) k0' none none := by
  obtain ⟨w, hw, hR⟩ := hI.res
  refine ⟨hc, hk, trivial, trivial, w ++ u, by rw [hw, hu]; simp, ?_⟩
  intro p hp v rest he hg
  rw [stepN, List.mem_filterMap] at hp
  obtain ⟨a, haR, hp⟩ := hp
  split at hp
  · rename_i x ss hs
    split at hp
    · rename_i hx
      cases hp
      have hd' : Der x u (v ++ rest) := by
        rw [← he]
        rcases Bool.or_eq_true_iff.mp hx with hx | hx
        · rw [decide_eq_true_eq] at hx; subst hx; exact hd
        · have := Gen.nt (ss := []) (v := []) (rest := s'.input) hd (.nil _)
          rw [List.append_nil] at this
          exact .prod (isUnit_mem hx) this
      have := hR _ haR (u ++ v) rest (by rw [hu, he]; simp) (by rw [hs]; exact .nt hd' hg)
      simpa using this
    · cases hp
  · cases hp

theorem closedBy_gen {s : St} (hc : s.recov = false) {k : Kn} (hk : k.has (vis s)[0]?) :
    (ss : List Sym) → closedBy k ss = true → Gen ss [] s.input
  | [], _ => .nil _
  | .look cs :: ss, h => by
    unfold closedBy at h
    rw [Bool.and_eq_true] at h
    have ih := closedBy_gen hc hk ss h.2
    split at h
    · exact absurd h.1 (by simp)
    · rename_i l
      have := List.all_eq_true.mp h.1 _ hk
      split at this
      · cases this
      · rename_i t ht
        exact .look (by rw [List.nil_append, nextTok_vis hc, ht]) this ih
  | .tok _ :: _, h => by simp [closedBy] at h
  | .nt _ :: _, h => by simp [closedBy] at h
  | .adj :: _, h => by simp [closedBy] at h

theorem skipTo_none {t : Token} (ht : t ≠ .newLine) (l : List Token) (h : l.filter (fun t => t != .newLine) = []) : skipTo t l = none := by
  induction l with
  | nil => rfl
  | cons a l ih =>
    by_cases ha : a = .newLine
    · subst ha
      rw [skipTo, if_neg (fun h => ht h.symm)]
      exact ih (by simpa using h)
    · rw [List.filter_cons_of_pos (by simpa using ha)] at h
      cases h

theorem sub_has {k : Kn} {l : Kn} (h : sub k l) {o : Option Token} (ho : k.has o) : l.has o := by
  cases l with
  | none => trivial
  | some l =>
    have := allK_has h ho
    show o ∈ l
    simpa using this

theorem S_runP {s0 : St} {f : Rule → St → Res Bool}
    (he : ∀ r s b s', f r s = .done b s' → s.errs <+: s'.errs)
    (hf : ∀ r s b s', f r s = .done b s' → s.recov = false → (pre r).has (vis s)[0]? → s'.errs = s.errs → Good r s b s')
    (p : Prog α) : ∀ (s : St) (R : Rs) (k0 k1 k2 : Kn) (Q : α → Rs → Kn → Kn → Kn → Prop) (a : α) (s' : St),
    Inv s0 s R k0 k1 k2 → S p R k0 k1 k2 Q → runP f p s = .done a s' → s'.errs = s.errs →
    ∃ R' k0' k1' k2', Inv s0 s' R' k0' k1' k2' ∧ Q a R' k0' k1' k2' := by
  induction p with
  | ret a => intro s R k0 k1 k2 Q b s' hI hS h _; cases h; exact ⟨R, k0, k1, k2, hI, hS⟩
  | peek k g ih =>
    intro s R k0 k1 k2 Q b s' hI hS h hc
    rw [runP] at h
    rcases k with _ | _ | _ | k
    · exact ih _ _ _ _ _ _ _ _ _ (knowO_ok hI rfl) (allK_has hS hI.h0) h hc
    · exact ih _ _ _ _ _ _ _ _ _ ⟨hI.clean, hI.h0, List.mem_singleton.mpr rfl, hI.h2, hI.res⟩ (allK_has hS hI.h1) h hc
    · exact ih _ _ _ _ _ _ _ _ _ ⟨hI.clean, hI.h0, hI.h1, List.mem_singleton.mpr rfl, hI.res⟩ (allK_has hS hI.h2) h hc
    · exact ih _ _ _ _ _ _ _ _ _ hI (hS _) h hc
  | peekNN g ih =>
    intro s R k0 k1 k2 Q b s' hI hS h hc
    rw [runP] at h
    have hfr : front s = s.input.head? := by simp [front, hI.clean]
    cases hv : front s with
    | none => rw [hv] at h; exact ih _ _ _ _ _ _ _ _ _ hI hS.1 h hc
    | some t =>
      rw [hv] at h
      by_cases hn : t = .newLine
      · subst hn; exact ih _ _ _ _ _ _ _ _ _ hI hS.2.1 h hc
      · have hin : s.input.head? = some t := by rw [← hfr, hv]
        have hvis : (vis s)[0]? = some t := by
          rw [vis_clean hI.clean]
          cases hi : s.input with
          | nil => rw [hi] at hin; cases hin
          | cons a l =>
            rw [hi] at hin
            cases hin
            rw [List.filter_cons_of_pos (by simpa using hn)]
            rfl
        have hk : k0.has (some t) := by rw [← hvis]; exact hI.h0
        refine ih _ _ _ _ _ _ _ _ _ (knowO_ok (onLine_ok hI ?_) hvis) (hS.2.2 t hn hk) h hc
        rw [hin]
        intro hx
        cases hx
        exact hn rfl
  | adv g ih =>
    intro s R k0 k1 k2 Q b s' hI hS h hc
    rw [runP] at h
    rw [S] at hS
    have hk := allK_has hS hI.h0
    split at hk
    · exact hk.elim
    · rename_i t ht
      obtain ⟨h1, h2⟩ := stepT_ok hI ht
      rw [h1] at h
      exact ih _ _ _ _ _ _ _ _ _ h2 hk h (by rw [hc, advance_errs])
  | call r g ih =>
    intro s R k0 k1 k2 Q b s' hI hS h hc
    rw [runP] at h
    split at h
    · rename_i c s1 hd
      have e1 := he _ _ _ _ hd
      have e2 := runP_errs he _ _ _ _ h
      rw [hc] at e2
      have e3 : s1.errs = s.errs := e2.eq_of_length_le e1.length_le
      obtain ⟨h1, h2, m, hm, u, hu, hder⟩ := hf _ _ _ _ hd hI.clean (sub_has hS.1 hI.h0) e3
      exact ih _ _ _ _ _ _ _ _ _ (stepN_ok (knowK_ok hI) h1 h2 hu hder) (hS.2 c m hm) h (by rw [hc, e3])
    · cases h
    · cases h
  | err ty g ih =>
    intro s R k0 k1 k2 Q b s' hI hS h hc
    rw [runP] at h
    have e1 := doError_errs s ty (vis s)[0]? true
    have e2 := runP_errs he _ _ _ _ h
    rw [hc] at e2
    exact absurd (e2.eq_of_length_le e1.1.length_le) (e1.2 hI.clean)
  | resync t g ih =>
    intro s R k0 k1 k2 Q b s' hI hS h hc
    rw [runP] at h
    obtain ⟨ht, hs, hS⟩ := hS
    have hk := sub_has hs hI.h0
    have e2 := runP_errs he _ _ _ _ h
    rw [hc] at e2
    by_cases hv : (vis s)[0]? = some t
    · have hr : doResync s t = (advance s).2 := by rw [doResync, if_pos hv]
      rw [hr] at h
      exact ih _ _ _ _ _ _ _ _ (stepT_ok hI hv).2 hS h (by rw [hc, advance_errs])
    · have hn : (vis s)[0]? = none := by
        have : (vis s)[0]? ∈ [some t, none] := hk
        simpa [hv] using this
      have hnil : s.input.filter (fun t => t != .newLine) = [] := by
        rw [vis_clean hI.clean] at hn
        simpa using hn
      have hr : doResync s t = doError { s with input := [] } (.expectedToken t) none true := by
        rw [doResync, if_neg hv, skipTo_none ht _ hnil]
        simp [hI.clean]
      rw [hr] at e2
      have e1 := doError_errs { s with input := [] } (.expectedToken t) none true
      exact absurd (e2.eq_of_length_le e1.1.length_le) (e1.2 hI.clean)
  | sem g ih =>
    intro s R k0 k1 k2 Q b s' hI hS h hc
    rw [runP] at h
    have e1 := doSem_errs s
    have e2 := runP_errs he _ _ _ _ h
    rw [hc] at e2
    have e3 : (doSem s).errs = s.errs := e2.eq_of_length_le e1.length_le
    have hd : doSem s = { s with n := s.n + 1 } := by
      unfold doSem at e3 ⊢
      dsimp only at e3 ⊢
      split
      · rfl
      · rename_i ho
        rw [ho] at e3
        exact absurd e3 ((doError_errs { s with n := s.n + 1 } _ _ _).2 hI.clean)
      · rename_i ho
        rw [ho] at e3
        exact absurd e3 ((doError_errs { s with n := s.n + 1 } _ _ _).2 hI.clean)
    rw [hd] at h
    exact ih { s with n := s.n + 1 } _ _ _ _ _ _ _ ⟨hI.clean, hI.h0, hI.h1, hI.h2, hI.res⟩ hS h hc
  | panic => intro s R k0 k1 k2 Q b s' hI hS h hc; cases h

/-- If every rule satisfies the calculus, a run of a rule without errors takes a sentence of its nonterminal. -/
theorem S_run (hS : ∀ r, Sound r) : ∀ n r s b s', run n r s = .done b s' → s.recov = false → (pre r).has (vis s)[0]? →
    s'.errs = s.errs → Good r s b s' := by
  intro n
  induction n with
  | zero => intro r s b s' h; cases h
  | succ n ih =>
    intro r s b s' h hc hp he
    rw [run] at h
    have hI : Inv s s (R0 r) (pre r) none none := by
      refine ⟨hc, hp, trivial, trivial, [], rfl, ?_⟩
      intro p hp v rest _ hg
      have hmem : p.2 ∈ prods p.1 := by
        rw [R0, List.mem_append] at hp
        rcases hp with hp | hp
        all_goals
          split at hp
          · cases hp
          · rw [List.mem_map] at hp
            obtain ⟨ss, hs, rfl⟩ := hp
            exact hs
      exact .prod hmem hg
    obtain ⟨R', k0', k1', k2', hI', ⟨⟨m, hm, ha⟩, hs⟩⟩ := S_runP (run_errs n) ih (body r) s _ _ _ _ _ _ _ hI (hS r) h he
    refine ⟨hI'.clean, sub_has hs hI'.h0, m, hm, ?_⟩
    obtain ⟨w, hw, hR⟩ := hI'.res
    refine ⟨w, hw, ?_⟩
    rw [accepts, List.any_eq_true] at ha
    obtain ⟨p, hp, hq⟩ := ha
    rw [Bool.and_eq_true, decide_eq_true_eq] at hq
    have := hR p hp [] s'.input rfl (closedBy_gen hI'.clean hI'.h0 _ hq.2)
    rw [List.append_nil, hq.1] at this
    exact this

end Cordy.Parser
