import Verif.Spec.SourceStmt
import Verif.Lemmas.Grammar4
/-! Lemmas for C81: the parser of statements accepts what the grammar does. -/
namespace Cordy.Source
open Cordy.Grammar

theorem stopL_all (ts : List T) : StopL 9 ts ↔ contSuffix ts = false ∧ stopOp 3 ts ∧ stopOp 4 ts ∧ stopOp 5 ts ∧ stopOp 6 ts ∧ stopOp 7 ts ∧ stopOp 8 ts ∧ stopOp 9 ts := by
  constructor
  · rintro ⟨h, k⟩
    exact ⟨h, k 3 (by omega) (by omega), k 4 (by omega) (by omega), k 5 (by omega) (by omega), k 6 (by omega) (by omega), k 7 (by omega) (by omega), k 8 (by omega) (by omega), k 9 (by omega) (by omega)⟩
  · rintro ⟨h, h3, h4, h5, h6, h7, h8, h9⟩
    refine ⟨h, fun j a b => ?_⟩
    rcases (by omega : j = 3 ∨ j = 4 ∨ j = 5 ∨ j = 6 ∨ j = 7 ∨ j = 8 ∨ j = 9) with rfl | rfl | rfl | rfl | rfl | rfl | rfl <;> assumption

theorem stopOp_ne {k : Nat} (hk : k ≠ 8) {ts : List T} : stopOp k ts ↔ ∀ op r, opAt k ts = some (op, r) → blocked op r = true := by
  simp [stopOp, hk]

theorem stopOp_eight {ts : List T} : stopOp 8 ts ↔ ∀ c r, cmpAt ts = some (c, r) → peek r = some .rparen := by
  simp [stopOp]

set_option maxHeartbeats 2000000 in
theorem stopL_iff (ts : List T) : StopL 9 ts ↔ goesOn ts = false := by
  rw [stopL_all, stopOp_ne (by decide), stopOp_ne (by decide), stopOp_ne (by decide), stopOp_ne (by decide), stopOp_ne (by decide), stopOp_eight, stopOp_ne (by decide)]
  cases ts with
  | nil => simp [goesOn, contSuffix, opAt, op3, cmpAt]
  | cons p r =>
    obtain ⟨b, t⟩ := p
    cases t
    case kIs =>
      cases r with
      | nil => simp [goesOn, contSuffix, opAt, op3, cmpAt, blocked, peek]
      | cons q r => obtain ⟨b', t'⟩ := q; cases t' <;> simp [goesOn, contSuffix, opAt, op3, cmpAt, blocked, peek]
    case kNot =>
      cases r with
      | nil => simp [goesOn, contSuffix, opAt, op3, cmpAt, blocked, peek]
      | cons q r => obtain ⟨b', t'⟩ := q; cases t' <;> simp [goesOn, contSuffix, opAt, op3, cmpAt, blocked, peek]
    case lparen | lsq | lit | kIf | ident => cases b <;> simp [goesOn, contSuffix, opAt, op3, cmpAt, blocked, peek]
    all_goals (simp [goesOn, contSuffix, opAt, op3, cmpAt, blocked, peek])

theorem asgAt_iff (ts : List T) : asgAt ts = none ↔ assigns ts = false := by
  cases ts with
  | nil => simp [asgAt, assigns]
  | cons p r =>
    obtain ⟨b, t⟩ := p
    cases t
    case ident s =>
      cases r with
      | nil => simp [asgAt, assigns, peek]
      | cons q r =>
        obtain ⟨b', t'⟩ := q
        cases t' <;> simp [asgAt, assigns, peek]
        split <;> simp_all
    all_goals simp [asgAt, assigns]

theorem stopE_iff (ts : List T) : StopE ts ↔ goesOn ts = false ∧ assigns ts = false := by
  rw [StopE, stopL_iff, asgAt_iff]

/-! ## How expressions begin -/

/-- The tokens with which an expression can begin. -/
def starts : List T → Bool
  | (_, .lit _) :: _ | (_, .ident _) :: _ | (_, .lparen) :: _ | (_, .lsq) :: _ | (_, .kIf) :: _ | (_, .minus) :: _ | (_, .bang) :: _ | (_, .kNot) :: _ | (_, .word .lbrace) :: _ => true
  | _ => false

theorem pTerm_starts {n : Nat} {ts : List T} {p : E × List T} (h : pTerm n ts = some p) : starts ts = true := by
  cases n with
  | zero => simp [pTerm] at h
  | succ n =>
    simp only [pTerm] at h
    split at h <;> first | rfl | (simp at h)

theorem prefixes_starts (ts : List T) (h : starts (prefixes ts).2 = true) : starts ts = true := by
  cases ts with
  | nil => simpa [prefixes] using h
  | cons q r =>
    obtain ⟨b, t⟩ := q
    cases t <;> first | rfl | (simpa [prefixes, prefixOf] using h)

theorem pLvl_starts : ∀ {n k : Nat} {ts : List T} {p : E × List T}, pLvl n k ts = some p → starts ts = true := by
  intro n
  induction n with
  | zero => intro k ts p h; simp [pLvl] at h
  | succ n ih =>
    intro k ts p h
    simp only [pLvl] at h
    split at h
    · cases n with
      | zero => simp [pUnary] at h
      | succ n =>
        simp only [pUnary] at h
        split at h
        · rename_i ht
          exact prefixes_starts _ (pTerm_starts ht)
        · simp at h
    · split at h
      · rename_i hl
        exact ih hl
      · simp at h

theorem pExpr_starts {n : Nat} {ts : List T} {p : E × List T} (h : pExpr n ts = some p) : starts ts = true := by
  cases n with
  | zero => simp [pExpr] at h
  | succ n =>
    simp only [pExpr] at h
    split at h
    · rename_i hl
      exact pLvl_starts hl
    · simp at h

/-! ## Completeness -/

theorem BeginsE.gives {e : E} {ts r : List T} (h : BeginsE e ts r) : Gives (fun n => pExpr n ts) (e, r) := by
  obtain ⟨o, t, rfl, hg, h1, h2⟩ := h
  exact claim hg r ((stopE_iff r).mpr ⟨h1, h2⟩)

theorem BeginsE.starts {e : E} {ts r : List T} (h : BeginsE e ts r) : starts ts = true := by
  obtain ⟨N, hN⟩ := h.gives
  exact pExpr_starts (hN N (Nat.le_refl _))

theorem BeginsE.top {e : E} {ts r : List T} (h : BeginsE e ts r) (hc : peek r ≠ some .comma) : Gives (fun n => pTop n ts) (e, r) := by
  obtain ⟨N, hN⟩ := h.gives
  refine ⟨N, fun n hn => ?_⟩
  simp only [pTop, hN n hn, if_neg hc]

theorem BeginsR.gives {e : E} {ts r : List T} (h : BeginsR e ts r) : Gives (fun n => pLvl n 9 ts) (e, r) := by
  obtain ⟨o, t, rfl, hg, h1, h2, h3⟩ := h
  exact claim hg r (e, r) (fun ho => (stopE_iff r).mpr ⟨h1, h3 ho⟩) (fun h => absurd h h2) (After.stop (by omega) ((stopL_iff r).mpr h1))

theorem pThen_peek {n : Nat} {c : E} {ts : List T} {p : E × List T} (h : pThen n c ts = some p) : peek ts = some .kThen := by
  cases n with
  | zero => simp [pThen] at h
  | succ n =>
    simp only [pThen] at h
    split at h
    · rfl
    · simp at h

/-- What the parser does with a phrase. -/
def Takes : Ph → List T → List T → Prop
  | .stmts b, ts, r => Gives (fun n => pStmts n ts) (b, r)
  | .stmt s, ts, r => ts ≠ [] ∧ peek ts ≠ some (.word .rbrace) ∧ Gives (fun n => pStmt n ts) (s, r)
  | .block b, ts, r => (∃ l ts', ts = (l, .word .lbrace) :: ts') ∧ Gives (fun n => pBlock n ts) (b, r)
  | .cond x, ts, r => Gives (fun n => pIf n ts) (x, r) ∧ ((∃ c t e, x = .elif c t e) ∨ ∃ e, x = .elifThen e)
  | .loopElse b, ts, r => Gives (fun n => pLoopElse n ts) (b, r)
  | .lets ds, ts, r => Gives (fun n => pLets n ts) (ds, r)
  | .term p, ts, r => Gives (fun n => pLV n ts) (p, r)
  | .terms ps, ts, r => Gives (fun n => pTerms n ts) (ps, r)
  | .dflt d, ts, r => Gives (fun n => pDefault n ts) (d, r)
  | .params ps, ts, r => Gives (fun n => pParams n ts) (ps, r)
  | .body b, ts, r => Gives (fun n => pBody n ts) (b, r)

theorem peek_cons (l : Bool) (t : Tok) (r : List T) : peek ((l, t) :: r) = some t := rfl

theorem pIf_block {n : Nat} {ts r r1 : List T} {c : E} {t : SBlock} (h : pExpr n ts = some (c, r)) (hr : ∃ l r', r = (l, .word .lbrace) :: r') (hb : pBlock n r = some (t, r1)) :
    pIf (n + 1) ts = match (generalizing := false) r1 with
      | (_, .kElif) :: r2 =>
        match pIf n r2 with
        | some (els, r3) => some (.elif c t els, r3)
        | none => none
      | (_, .kElse) :: r2 =>
        match pBlock n r2 with
        | some (b, r3) => some (.elif c t (.els b), r3)
        | none => none
      | _ => some (.elif c t .none, r1) := by
  obtain ⟨l, r', rfl⟩ := hr
  simp only [pIf, h, peek_cons, Option.some.injEq, reduceCtorEq, if_false, hb]
  rfl

theorem isStar_iff (p : Pat String) : isStar p = true ↔ p.starred := by cases p <;> simp [isStar, Pat.starred]

mutual
theorem emptyP_iff : ∀ p : Pat String, emptyP p = true ↔ p.vars = []
  | .name _ => by simp [emptyP, Pat.vars]
  | .hole => by simp [emptyP, Pat.vars]
  | .starHole => by simp [emptyP, Pat.vars]
  | .star _ => by simp [emptyP, Pat.vars]
  | .terms ps => by simp [emptyP, Pat.vars, emptyAll_iff ps]
theorem emptyAll_iff : ∀ ps : List (Pat String), emptyAll ps = true ↔ Pat.varsAll ps = []
  | [] => by simp [emptyAll, Pat.varsAll]
  | p :: ps => by simp [emptyAll, Pat.varsAll, emptyP_iff p, emptyAll_iff ps]
end

theorem letTarget_iff (ps : List (Pat String)) : letTarget ps = true ↔ Pat.varsAll ps ≠ [] ∧ ∀ x, ps ≠ [.star x] := by
  unfold letTarget
  split
  · simp
  · rename_i h
    rw [Bool.not_eq_true', ← Bool.not_eq_true, emptyAll_iff]
    exact ⟨fun h1 => ⟨h1, fun x hx => h x hx⟩, fun h1 => h1.1⟩

theorem plainNames_map (xs : List String) : plainNames (xs.map .name) = some xs := by
  induction xs with
  | nil => rfl
  | cons x xs ih => simp [plainNames, ih]

theorem plainNames_eq : ∀ {ps : List (Pat String)} {xs : List String}, plainNames ps = some xs → ps = xs.map .name
  | [], xs, h => by simp [plainNames] at h; subst h; rfl
  | p :: ps, xs, h => by
    cases p <;> simp only [plainNames] at h
    · cases hp : plainNames ps with
      | none => simp [hp] at h
      | some ys =>
        rw [hp] at h
        simp only [Option.map_some, Option.some.injEq] at h
        subst h
        rw [plainNames_eq hp]
        rfl
    all_goals cases h

theorem pLV_peek {n : Nat} {ts : List T} {p : Pat String × List T} (h : pLV n ts = some p) : ¬ peek ts = some .rparen := by
  intro hp
  cases n with
  | zero => simp [pLV] at h
  | succ n =>
    cases ts with
    | nil => simp [peek] at hp
    | cons q ts =>
      obtain ⟨l, t⟩ := q
      rw [peek_cons, Option.some.injEq] at hp
      subst hp
      simp [pLV] at h

theorem takes {p : Ph} {ts r : List T} (h : GS p ts r) : Takes p ts r := by
  induction h with
  | done h => exact .mk ⟨0, fun n _ => by simp [pStmts, h]⟩
  | more _ _ ih1 ih2 =>
    obtain ⟨h1, h2, N1, hN1⟩ := ih1
    obtain ⟨N2, hN2⟩ := ih2
    exact .mk ⟨N1 + N2, fun n hn => by simp [pStmts, h1, h2, hN1 n (by omega), hN2 n (by omega)]⟩
  | block l l' _ ih =>
    obtain ⟨N, hN⟩ := ih
    exact ⟨⟨l, _, rfl⟩, .mk ⟨N, fun n hn => by simp [pBlock, hN n hn]⟩⟩
  | @expr e ts r hi hb hc =>
    have hs := hb.starts
    obtain ⟨N, hN⟩ := hb.top hc
    cases ts with
    | nil => simp [starts] at hs
    | cons q ts =>
      obtain ⟨b, t⟩ := q
      refine ⟨by simp, ?_, .mk ⟨N, fun n hn => ?_⟩⟩
      · rintro h; simp [peek] at h; subst h; simp [starts] at hs
      · have := hN n hn
        simp only at this
        cases t <;> (try (rename_i w; cases (w : Word))) <;> first | (simp [starts] at hs; done) | (exact absurd rfl hi) | (simp only [pStmt, this])
  | semi l => exact ⟨by simp, by simp [peek], .mk ⟨0, fun n _ => by simp [pStmt]⟩⟩
  | lets l _ ih =>
    obtain ⟨N, hN⟩ := ih
    exact ⟨by simp, by simp [peek], .mk ⟨N, fun n hn => by simp [pStmt, hN n hn]⟩⟩
  | name l => exact .mk ⟨0, fun n _ => by simp [pLV]⟩
  | hole l => exact .mk ⟨0, fun n _ => by simp [pLV]⟩
  | star l l' => exact .mk ⟨0, fun n _ => by simp [pLV]⟩
  | starHole l l' => exact .mk ⟨0, fun n _ => by simp [pLV]⟩
  | parens l l' _ ih =>
    obtain ⟨N, hN⟩ := ih
    exact .mk ⟨N, fun n hn => by simp [pLV, hN n hn]⟩
  | @term1 p ts r _ hc ih =>
    obtain ⟨N, hN⟩ := ih
    refine .mk ⟨N, fun n hn => ?_⟩
    have h := hN n hn
    simp only at h
    simp only [pTerms, h]
    cases r with
    | nil => rfl
    | cons q r => obtain ⟨b, t⟩ := q; cases t <;> first | rfl | (exact absurd rfl hc)
  | @termMore p ps ts r r' l _ _ hs ih1 ih2 =>
    obtain ⟨N, hN⟩ := ih1
    obtain ⟨N', hN'⟩ := ih2
    refine .mk ⟨N + N', fun n hn => ?_⟩
    have h := hN n (by omega)
    have h' := hN' n (by omega)
    simp only at h h'
    have hb : ¬ (isStar p && ps.any isStar) = true := by
      simp only [Bool.and_eq_true, List.any_eq_true, isStar_iff]
      rintro ⟨h1, q, h2, h3⟩
      exact hs h1 q h2 h3
    simp only [pTerms, h, h', if_neg hb]
  | letNames _ he ih =>
    obtain ⟨N, hN⟩ := ih
    exact .mk ⟨N, fun n hn => by simp [pLets, hN n hn, he, plainNames_map]⟩
  | letLast l _ h1 h2 hb hc ih =>
    obtain ⟨N, hN⟩ := ih
    obtain ⟨N', hN'⟩ := hb.gives
    exact .mk ⟨N + N', fun n hn => by simp [pLets, hN n (by omega), peek_cons, hN' n (by omega), hc, (letTarget_iff _).mpr ⟨h1, h2⟩]⟩
  | letMore l l' _ h1 h2 hb _ ih ih' =>
    obtain ⟨N, hN⟩ := ih
    obtain ⟨N', hN'⟩ := hb.gives
    obtain ⟨M, hM⟩ := ih'
    exact .mk ⟨N + N' + M, fun n hn => by simp [pLets, hN n (by omega), peek_cons, hN' n (by omega), hM n (by omega), (letTarget_iff _).mpr ⟨h1, h2⟩]⟩
  | ite l _ ih =>
    obtain ⟨⟨N, hN⟩, _⟩ := ih
    exact ⟨by simp, by simp [peek], .mk ⟨N, fun n hn => by simp [pStmt, hN n hn]⟩⟩
  | thenElse l _ ih =>
    obtain ⟨⟨N, hN⟩, _⟩ := ih
    exact ⟨by simp, by simp [peek], .mk ⟨N, fun n hn => by simp [pStmt, hN n hn]⟩⟩
  | @condThen e ts r o t ht hg h1 h2 =>
    subst ht
    obtain ⟨N, hN⟩ := claim hg r ((stopE_iff r).mpr ⟨h1, h2⟩)
    refine ⟨.mk ⟨N, fun n hn => ?_⟩, .inr ⟨_, rfl⟩⟩
    have h := hN n hn
    simp only at h
    cases hp : pExpr n (t ++ r) with
    | none => simp [hp] at h
    | some q =>
      rw [hp] at h
      simp only [Option.bind_some] at h
      simp only [pIf, hp, pThen_peek h, if_true, h]
  | @condNone c t ts r r' hb _ h1 h2 ih =>
    obtain ⟨N, hN⟩ := hb.gives
    obtain ⟨hl, N', hN'⟩ := ih
    refine ⟨.mk ⟨N + N', fun n hn => ?_⟩, .inl ⟨_, _, _, rfl⟩⟩
    rw [pIf_block (hN n (by omega)) hl (hN' n (by omega))]
    cases r' with
    | nil => rfl
    | cons q r' => obtain ⟨b, t'⟩ := q; cases t' <;> first | rfl | (exact absurd rfl h1) | (exact absurd rfl h2)
  | condElse l hb _ _ ih1 ih2 =>
    obtain ⟨N, hN⟩ := hb.gives
    obtain ⟨hl, N', hN'⟩ := ih1
    obtain ⟨_, N2, hN2⟩ := ih2
    refine ⟨.mk ⟨N + N' + N2, fun n hn => ?_⟩, .inl ⟨_, _, _, rfl⟩⟩
    rw [pIf_block (hN n (by omega)) hl (hN' n (by omega))]
    simp [hN2 n (by omega)]
  | condElif l hb _ _ ih1 ih2 =>
    obtain ⟨N, hN⟩ := hb.gives
    obtain ⟨hl, N', hN'⟩ := ih1
    obtain ⟨⟨N2, hN2⟩, _⟩ := ih2
    refine ⟨.mk ⟨N + N' + N2, fun n hn => ?_⟩, .inl ⟨_, _, _, rfl⟩⟩
    rw [pIf_block (hN n (by omega)) hl (hN' n (by omega))]
    simp [hN2 n (by omega)]
  | @elseNone ts h =>
    refine .mk ⟨0, fun n _ => ?_⟩
    cases ts with
    | nil => rfl
    | cons q ts => obtain ⟨b, t⟩ := q; cases t <;> first | rfl | (exact absurd rfl h)
  | elseSome l _ ih =>
    obtain ⟨_, N, hN⟩ := ih
    exact .mk ⟨N, fun n hn => by simp [pLoopElse, hN n hn]⟩
  | loop l _ ih =>
    obtain ⟨_, N, hN⟩ := ih
    exact ⟨by simp, by simp [peek], .mk ⟨N, fun n hn => by simp [pStmt, hN n hn]⟩⟩
  | «while» l hb _ _ ih1 ih2 =>
    obtain ⟨hl, N1, hN1⟩ := ih1
    obtain ⟨N, hN⟩ := hb.top (by obtain ⟨l, r', rfl⟩ := hl; simp [peek])
    obtain ⟨N2, hN2⟩ := ih2
    exact ⟨by simp, by simp [peek], .mk ⟨N + N1 + N2, fun n hn => by simp [pStmt, hN n (by omega), hN1 n (by omega), hN2 n (by omega)]⟩⟩
  | @doOnce b els r r1 r2 l _ hw _ ih1 ih2 =>
    obtain ⟨hl, N1, hN1⟩ := ih1
    obtain ⟨N2, hN2⟩ := ih2
    refine ⟨by simp, by simp [peek], .mk ⟨N1 + N2, fun n hn => ?_⟩⟩
    have h2 := hN2 n (by omega)
    simp only at h2
    simp only [pStmt, hN1 n (by omega)]
    cases r1 with
    | nil => simp [h2]
    | cons q r1 =>
      obtain ⟨b', t⟩ := q
      cases t with
      | word w => cases w <;> first | (exact absurd rfl hw) | simp [h2]
      | _ => simp [h2]
  | doWhile l l' _ hb hc _ ih1 ih2 =>
    obtain ⟨hl, N1, hN1⟩ := ih1
    obtain ⟨N, hN⟩ := hb.top hc
    obtain ⟨N2, hN2⟩ := ih2
    exact ⟨by simp, by simp [peek], .mk ⟨N + N1 + N2, fun n hn => by simp [pStmt, hN n (by omega), hN1 n (by omega), hN2 n (by omega)]⟩⟩
  | «for» l l' _ hb _ _ ih0 ih1 ih2 =>
    obtain ⟨N0, hN0⟩ := ih0
    obtain ⟨hl, N1, hN1⟩ := ih1
    obtain ⟨N, hN⟩ := hb.top (by obtain ⟨l, r', rfl⟩ := hl; simp [peek])
    obtain ⟨N2, hN2⟩ := ih2
    exact ⟨by simp, by simp [peek], .mk ⟨N + N0 + N1 + N2, fun n hn => by simp [pStmt, hN0 n (by omega), hN n (by omega), hN1 n (by omega), hN2 n (by omega)]⟩⟩
  | brk l => exact ⟨by simp, by simp [peek], .mk ⟨0, fun n _ => by simp [pStmt]⟩⟩
  | cont l => exact ⟨by simp, by simp [peek], .mk ⟨0, fun n _ => by simp [pStmt]⟩⟩
  | @assert e r r' l hb hc =>
    obtain ⟨N, hN⟩ := hb.gives
    refine ⟨by simp, by simp [peek], .mk ⟨N, fun n hn => ?_⟩⟩
    simp only [pStmt, hN n hn]
    cases r' with
    | nil => rfl
    | cons q r1 =>
      obtain ⟨b', t⟩ := q
      cases t with
      | word w => cases w <;> first | (exact absurd rfl hc) | rfl
      | _ => rfl
  | assertMsg l l' hb hm hc =>
    obtain ⟨N, hN⟩ := hb.gives
    obtain ⟨N1, hN1⟩ := hm.top hc
    exact ⟨by simp, by simp [peek], .mk ⟨N + N1, fun n hn => by simp [pStmt, hN n (by omega), hN1 n (by omega)]⟩⟩
  | @retNil r l hr =>
    refine ⟨by simp, by simp [peek], .mk ⟨0, fun n _ => ?_⟩⟩
    cases r with
    | nil => simp [peek] at hr
    | cons q r => obtain ⟨b, t⟩ := q; simp only [peek, List.head?_cons, Option.map_some, Option.some.injEq] at hr; subst hr; rfl
  | retSemi l l' => exact ⟨by simp, by simp [peek], .mk ⟨0, fun n _ => by simp [pStmt]⟩⟩
  | @ret e r r' l hb hc =>
    have hs := hb.starts
    obtain ⟨N, hN⟩ := hb.top hc
    refine ⟨by simp, by simp [peek], .mk ⟨N, fun n hn => ?_⟩⟩
    have := hN n hn
    simp only at this
    cases r with
    | nil => simp [starts] at hs
    | cons q r =>
      obtain ⟨b, t⟩ := q
      cases t <;> (try (rename_i w; cases (w : Word))) <;> first | (simp [starts] at hs; done) | (simp only [pStmt, this])
  | @dfltNone ts h1 h2 =>
    refine ⟨0, fun n _ => ?_⟩
    cases ts with
    | nil => rfl
    | cons q ts =>
      obtain ⟨b, t⟩ := q
      cases t <;> (try (rename_i w; cases (w : Word))) <;> first | (exact absurd rfl h1) | (exact absurd rfl h2) | rfl
  | dfltNil l => exact ⟨0, fun n _ => rfl⟩
  | dfltSome l hb =>
    obtain ⟨N, hN⟩ := hb.gives
    exact ⟨N, fun n hn => by simp [pDefault, hN n hn]⟩
  | paramsNil l => exact .mk ⟨0, fun n _ => by simp [pParams, peek_cons]⟩
  | paramsLast l _ _ ih0 ih =>
    obtain ⟨N, hN⟩ := ih
    obtain ⟨N0, hN0⟩ := ih0
    exact .mk ⟨N + N0, fun n hn => by
      simp only [pParams, if_neg (pLV_peek (hN0 n (by omega))), hN0 n (by omega), hN n (by omega)]⟩
  | paramsMore l _ _ _ ih0 ih1 ih2 =>
    obtain ⟨N0, hN0⟩ := ih0
    obtain ⟨N, hN⟩ := ih1
    obtain ⟨N2, hN2⟩ := ih2
    exact .mk ⟨N0 + N + N2, fun n hn => by
      simp only [pParams, if_neg (pLV_peek (hN0 n (by omega))), hN0 n (by omega), hN n (by omega), hN2 n (by omega)]⟩
  | bodyBlock _ ih =>
    obtain ⟨⟨l, r', rfl⟩, N, hN⟩ := ih
    exact .mk ⟨N, fun n hn => by simpa only [pBody] using hN n hn⟩
  | bodyExpr l hb hc =>
    obtain ⟨N, hN⟩ := hb.top hc
    exact .mk ⟨N, fun n hn => by simp [pBody, hN n hn]⟩
  | fn l l' l'' _ _ ih1 ih2 =>
    obtain ⟨N, hN⟩ := ih1
    obtain ⟨N2, hN2⟩ := ih2
    exact ⟨by simp, by simp [peek], .mk ⟨N + N2, fun n hn => by simp [pStmt, hN n (by omega), hN2 n (by omega)]⟩⟩

/-! ## Soundness -/

theorem pExpr_begins {n : Nat} {ts r : List T} {e : E} (h : pExpr n ts = some (e, r)) : BeginsE e ts r := by
  obtain ⟨hs, o, t, ht, hg⟩ := (sound n).expr _ _ _ h
  exact ⟨o, t, ht, hg, (stopE_iff r).mp hs⟩

theorem pTop_begins {n : Nat} {ts r : List T} {e : E} (h : pTop n ts = some (e, r)) : BeginsE e ts r ∧ peek r ≠ some .comma := by
  simp only [pTop] at h
  split at h
  · rename_i e' r' he
    split at h
    · simp at h
    · rename_i hc
      simp only [Option.some.injEq, Prod.mk.injEq] at h
      obtain ⟨rfl, rfl⟩ := h
      exact ⟨pExpr_begins he, hc⟩
  · simp at h

theorem pLvl_begins {n : Nat} {ts r : List T} {e : E} (h : pLvl n 9 ts = some (e, r)) (hr : peek r ≠ some .eq) : BeginsR e ts r := by
  obtain ⟨hs, o, t, ht, hg, ho⟩ := (sound n).lvl 9 _ _ _ (by omega) (by omega) h
  exact ⟨o, t, ht, hg, (stopL_iff r).mp hs, hr, fun h => ((stopE_iff r).mp (ho h)).2⟩

theorem peek_eq {ts : List T} {t : Tok} (h : peek ts = some t) : ∃ l, ts = (l, t) :: ts.tail := by
  cases ts with
  | nil => simp [peek] at h
  | cons q r => obtain ⟨l, t'⟩ := q; simp [peek] at h; subst h; exact ⟨l, rfl⟩

theorem pTerms_sound : ∀ n : Nat, (∀ {ts r : List T} {p : Pat String}, pLV n ts = some (p, r) → GS (.term p) ts r) ∧
    (∀ {ts r : List T} {ps : List (Pat String)}, pTerms n ts = some (ps, r) → GS (.terms ps) ts r) := by
  intro n
  induction n with
  | zero => exact ⟨fun h => by simp [pLV] at h, fun h => by simp [pTerms] at h⟩
  | succ n ih =>
    refine ⟨fun {ts r p} h => ?_, fun {ts r ps} h => ?_⟩
    · simp only [pLV] at h
      split at h
      · simp only [Option.some.injEq, Prod.mk.injEq] at h
        obtain ⟨rfl, rfl⟩ := h
        exact .name _
      · simp only [Option.some.injEq, Prod.mk.injEq] at h
        obtain ⟨rfl, rfl⟩ := h
        exact .hole _
      · simp only [Option.some.injEq, Prod.mk.injEq] at h
        obtain ⟨rfl, rfl⟩ := h
        exact .star _ _
      · simp only [Option.some.injEq, Prod.mk.injEq] at h
        obtain ⟨rfl, rfl⟩ := h
        exact .starHole _ _
      · split at h
        · rename_i ps l r1 hp
          simp only [Option.some.injEq, Prod.mk.injEq] at h
          obtain ⟨rfl, rfl⟩ := h
          exact .parens _ _ (ih.2 hp)
        · simp at h
      · simp at h
    · simp only [pTerms] at h
      split at h
      · rename_i p r0 hp
        have hp := ih.1 hp
        split at h
        · rename_i l r1
          split at h
          · rename_i qs r2 hq
            split at h
            · simp at h
            · rename_i hs
              simp only [Option.some.injEq, Prod.mk.injEq] at h
              obtain ⟨rfl, rfl⟩ := h
              refine .termMore _ hp (ih.2 hq) fun h1 q h2 h3 => hs ?_
              simp only [Bool.and_eq_true, List.any_eq_true, isStar_iff]
              exact ⟨h1, q, h2, h3⟩
          · simp at h
        · rename_i hc
          simp only [Option.some.injEq, Prod.mk.injEq] at h
          obtain ⟨rfl, rfl⟩ := h
          refine .term1 hp fun hk => ?_
          obtain ⟨l, hl⟩ := peek_eq hk
          exact hc _ _ hl
      · simp at h

theorem pLets_sound : ∀ {n : Nat} {ts r : List T} {ds : List Dec}, pLets n ts = some (ds, r) → peek r ≠ some .eq → GS (.lets ds) ts r := by
  intro n
  induction n with
  | zero => intro ts r ds h; simp [pLets] at h
  | succ n ih =>
    intro ts r ds h hr
    simp only [pLets] at h
    split at h
    · rename_i ps r0 hx
      have hn := (pTerms_sound n).2 hx
      split at h
      · rename_i he
        obtain ⟨l', hl'⟩ := peek_eq he
        split at h
        · rename_i ht
          obtain ⟨h1, h2⟩ := (letTarget_iff _).mp ht
          rw [hl'] at hn
          split at h
          · rename_i e r1 hl
            split at h
            · rename_i hc
              split at h
              · rename_i ds' r2 hd
                simp only [Option.some.injEq, Prod.mk.injEq] at h
                obtain ⟨rfl, rfl⟩ := h
                obtain ⟨l'', hl''⟩ := peek_eq hc
                refine .letMore l' l'' hn h1 h2 ?_ (ih hd hr)
                rw [← hl'']
                exact pLvl_begins hl (by rw [hc]; simp)
              · simp at h
            · rename_i hc
              simp only [Option.some.injEq, Prod.mk.injEq] at h
              obtain ⟨rfl, rfl⟩ := h
              exact .letLast l' hn h1 h2 (pLvl_begins hl hr) hc
          · simp at h
        · simp at h
      · rename_i he
        split at h
        · rename_i xs hp
          simp only [Option.some.injEq, Prod.mk.injEq] at h
          obtain ⟨rfl, rfl⟩ := h
          rw [plainNames_eq hp] at hn
          exact .letNames hn he
        · simp at h
    · simp at h

theorem pDefault_sound {n : Nat} {ts r : List T} {d : Option E} (h : pDefault n ts = some (d, r)) : GS (.dflt d) ts r := by
  unfold pDefault at h
  split at h
  · simp only [Option.some.injEq, Prod.mk.injEq] at h
    obtain ⟨rfl, rfl⟩ := h
    exact .dfltNil _
  · split at h
    · rename_i he
      simp only [Option.some.injEq, Prod.mk.injEq] at h
      obtain ⟨rfl, rfl⟩ := h
      exact .dfltSome _ (pExpr_begins he)
    · simp at h
  · rename_i h1 h2
    simp only [Option.some.injEq, Prod.mk.injEq] at h
    obtain ⟨rfl, rfl⟩ := h
    refine .dfltNone ?_ ?_
    · intro hp
      obtain ⟨l, hl⟩ := peek_eq hp
      exact h2 _ _ hl
    · intro hp
      obtain ⟨l, hl⟩ := peek_eq hp
      exact h1 _ _ hl

theorem pParams_sound : ∀ {n : Nat} {ts r : List T} {ps : List (Pat String × Option E)}, pParams n ts = some (ps, r) → GS (.params ps) ts r := by
  intro n
  induction n with
  | zero => intro ts r ps h; simp [pParams] at h
  | succ n ih =>
    intro ts r ps h
    simp only [pParams] at h
    split at h
    · rename_i hr
      obtain ⟨l, hl⟩ := peek_eq hr
      simp only [Option.some.injEq, Prod.mk.injEq] at h
      obtain ⟨rfl, rfl⟩ := h
      rw [hl]
      exact .paramsNil _
    · split at h
      · rename_i hlv
        split at h
        · rename_i hd
          split at h
          · simp only [Option.some.injEq, Prod.mk.injEq] at h
            obtain ⟨rfl, rfl⟩ := h
            exact .paramsLast _ ((pTerms_sound n).1 hlv) (pDefault_sound hd)
          · split at h
            · rename_i hp
              simp only [Option.some.injEq, Prod.mk.injEq] at h
              obtain ⟨rfl, rfl⟩ := h
              exact .paramsMore _ ((pTerms_sound n).1 hlv) (pDefault_sound hd) (ih hp)
            · simp at h
          · simp at h
        · simp at h
      · simp at h

theorem pStmts_peek {n : Nat} {ts : List T} {p : SBlock × List T} (h : pStmts n ts = some p) : peek ts ≠ some .eq := by
  intro he
  obtain ⟨l, hl⟩ := peek_eq he
  rw [hl] at h
  cases n with
  | zero => simp [pStmts] at h
  | succ n =>
    simp only [pStmts, peek_cons, List.cons_ne_nil, Option.some.injEq, reduceCtorEq, or_self, if_false] at h
    cases n with
    | zero => simp [pStmt] at h
    | succ n =>
      simp only [pStmt] at h
      cases ht : pTop n ((l, .eq) :: ts.tail) with
      | none => simp [ht] at h
      | some q =>
        have := (pTop_begins (e := q.1) (r := q.2) ht).1.starts
        simp [starts] at this

structure SoundS (n : Nat) : Prop where
  stmts : ∀ ts b r, pStmts n ts = some (b, r) → GS (.stmts b) ts r
  stmt : ∀ ts s r, pStmt n ts = some (s, r) → peek r ≠ some .eq → GS (.stmt s) ts r
  block : ∀ ts b r, pBlock n ts = some (b, r) → GS (.block b) ts r
  cond : ∀ ts x r, pIf n ts = some (x, r) → GS (.cond x) ts r
  loopElse : ∀ ts b r, pLoopElse n ts = some (b, r) → GS (.loopElse b) ts r
  body : ∀ ts b r, pBody n ts = some (b, r) → GS (.body b) ts r

theorem soundS_stmt {n : Nat} (S : SoundS n) : ∀ ts s r, pStmt (n + 1) ts = some (s, r) → peek r ≠ some .eq → GS (.stmt s) ts r := by
  intro ts s r h hr
  simp only [pStmt] at h
  split at h
  · split at h
    · rename_i hd
      simp only [Option.some.injEq, Prod.mk.injEq] at h
      obtain ⟨rfl, rfl⟩ := h
      exact .lets _ (pLets_sound hd hr)
    · simp at h
  · split at h
    · rename_i hd
      simp only [Option.some.injEq, Prod.mk.injEq] at h
      obtain ⟨rfl, rfl⟩ := h
      exact .ite _ (S.cond _ _ _ hd)
    · rename_i hd
      simp only [Option.some.injEq, Prod.mk.injEq] at h
      obtain ⟨rfl, rfl⟩ := h
      exact .thenElse _ (S.cond _ _ _ hd)
    · simp at h
  · split at h
    · rename_i hd
      simp only [Option.some.injEq, Prod.mk.injEq] at h
      obtain ⟨rfl, rfl⟩ := h
      exact .loop _ (S.block _ _ _ hd)
    · simp at h
  · split at h
    · rename_i h1
      split at h
      · rename_i h2
        split at h
        · rename_i h3
          simp only [Option.some.injEq, Prod.mk.injEq] at h
          obtain ⟨rfl, rfl⟩ := h
          exact .while _ (pTop_begins h1).1 (S.block _ _ _ h2) (S.loopElse _ _ _ h3)
        · simp at h
      · simp at h
    · simp at h
  · split at h
    · rename_i h1
      split at h
      · split at h
        · rename_i h2
          split at h
          · rename_i h3
            simp only [Option.some.injEq, Prod.mk.injEq] at h
            obtain ⟨rfl, rfl⟩ := h
            exact .doWhile _ _ (S.block _ _ _ h1) (pTop_begins h2).1 (pTop_begins h2).2 (S.loopElse _ _ _ h3)
          · simp at h
        · simp at h
      · rename_i hw
        split at h
        · rename_i h3
          simp only [Option.some.injEq, Prod.mk.injEq] at h
          obtain ⟨rfl, rfl⟩ := h
          refine .doOnce _ (S.block _ _ _ h1) ?_ (S.loopElse _ _ _ h3)
          intro hp
          obtain ⟨l, hl⟩ := peek_eq hp
          exact hw _ _ hl
        · simp at h
    · simp at h
  · split at h
    · rename_i h0
      split at h
      · rename_i h1
        split at h
        · rename_i h2
          split at h
          · rename_i h3
            simp only [Option.some.injEq, Prod.mk.injEq] at h
            obtain ⟨rfl, rfl⟩ := h
            exact .for _ _ ((pTerms_sound n).2 h0) (pTop_begins h1).1 (S.block _ _ _ h2) (S.loopElse _ _ _ h3)
          · simp at h
        · simp at h
      · simp at h
    · simp at h
  · simp only [Option.some.injEq, Prod.mk.injEq] at h
    obtain ⟨rfl, rfl⟩ := h
    exact .brk _
  · simp only [Option.some.injEq, Prod.mk.injEq] at h
    obtain ⟨rfl, rfl⟩ := h
    exact .cont _
  · split at h
    · rename_i h1
      split at h
      · split at h
        · rename_i h2
          simp only [Option.some.injEq, Prod.mk.injEq] at h
          obtain ⟨rfl, rfl⟩ := h
          exact .assertMsg _ _ (pExpr_begins h1) (pTop_begins h2).1 (pTop_begins h2).2
        · simp at h
      · rename_i hw
        simp only [Option.some.injEq, Prod.mk.injEq] at h
        obtain ⟨rfl, rfl⟩ := h
        refine .assert _ (pExpr_begins h1) ?_
        intro hp
        obtain ⟨l, hl⟩ := peek_eq hp
        exact hw _ _ hl
    · simp at h
  · simp only [Option.some.injEq, Prod.mk.injEq] at h
    obtain ⟨rfl, rfl⟩ := h
    exact .semi _
  · split at h
    · simp only [Option.some.injEq, Prod.mk.injEq] at h
      obtain ⟨rfl, rfl⟩ := h
      exact .retNil _ rfl
    · simp only [Option.some.injEq, Prod.mk.injEq] at h
      obtain ⟨rfl, rfl⟩ := h
      exact .retSemi _ _
    · split at h
      · rename_i h1
        simp only [Option.some.injEq, Prod.mk.injEq] at h
        obtain ⟨rfl, rfl⟩ := h
        exact .ret _ (pTop_begins h1).1 (pTop_begins h1).2
      · simp at h
  · split at h
    · split at h
      · rename_i h1
        split at h
        · rename_i h2
          simp only [Option.some.injEq, Prod.mk.injEq] at h
          obtain ⟨rfl, rfl⟩ := h
          exact .fn _ _ _ (pParams_sound h1) (S.body _ _ _ h2)
        · simp at h
      · simp at h
    · simp at h
  · rename_i hif _ _ _ _ _ _ _ _ _ _
    split at h
    · rename_i h1
      simp only [Option.some.injEq, Prod.mk.injEq] at h
      obtain ⟨rfl, rfl⟩ := h
      refine .expr ?_ (pTop_begins h1).1 (pTop_begins h1).2
      intro hp
      obtain ⟨l, hl⟩ := peek_eq hp
      exact hif _ _ hl
    · simp at h

theorem soundS : ∀ n, SoundS n
  | 0 => ⟨by simp [pStmts], by simp [pStmt], by simp [pBlock], by simp [pIf], by simp [pLoopElse], by simp [pBody]⟩
  | n + 1 => by
    have S := soundS n
    refine ⟨?_, soundS_stmt S, ?_, ?_, ?_, ?_⟩
    · intro ts b r h
      simp only [pStmts] at h
      split at h
      · rename_i hd
        simp only [Option.some.injEq, Prod.mk.injEq] at h
        obtain ⟨rfl, rfl⟩ := h
        exact .done hd
      · split at h
        · rename_i h1
          split at h
          · rename_i h2
            simp only [Option.some.injEq, Prod.mk.injEq] at h
            obtain ⟨rfl, rfl⟩ := h
            exact .more (S.stmt _ _ _ h1 (pStmts_peek h2)) (S.stmts _ _ _ h2)
          · simp at h
        · simp at h
    · intro ts b r h
      simp only [pBlock] at h
      split at h
      · split at h
        · rename_i h1
          simp only [Option.some.injEq, Prod.mk.injEq] at h
          obtain ⟨rfl, rfl⟩ := h
          exact .block _ _ (S.stmts _ _ _ h1)
        · simp at h
      · simp at h
    · intro ts x r h
      simp only [pIf] at h
      split at h
      · rename_i c r0 hc
        split at h
        · split at h
          · rename_i e r1 ht
            simp only [Option.some.injEq, Prod.mk.injEq] at h
            obtain ⟨rfl, rfl⟩ := h
            obtain ⟨t1, h1, h2, h3⟩ := (sound n).then_ _ _ _ _ ht
            obtain ⟨_, o, t, h4, h5⟩ := (sound n).expr _ _ _ hc
            obtain ⟨g1, g2⟩ := (stopE_iff _).mp h2
            exact .condThen (by rw [h4, h1, List.append_assoc]) (h3 o t h5) g1 g2
          · simp at h
        · split at h
          · rename_i t r1 hb
            split at h
            · split at h
              · rename_i h2
                simp only [Option.some.injEq, Prod.mk.injEq] at h
                obtain ⟨rfl, rfl⟩ := h
                exact .condElif _ (pExpr_begins hc) (S.block _ _ _ hb) (S.cond _ _ _ h2)
              · simp at h
            · split at h
              · rename_i h2
                simp only [Option.some.injEq, Prod.mk.injEq] at h
                obtain ⟨rfl, rfl⟩ := h
                exact .condElse _ (pExpr_begins hc) (S.block _ _ _ hb) (S.block _ _ _ h2)
              · simp at h
            · rename_i n1 n2
              simp only [Option.some.injEq, Prod.mk.injEq] at h
              obtain ⟨rfl, rfl⟩ := h
              refine .condNone (pExpr_begins hc) (S.block _ _ _ hb) ?_ ?_
              · intro hp
                obtain ⟨l, hl⟩ := peek_eq hp
                exact n1 _ _ hl
              · intro hp
                obtain ⟨l, hl⟩ := peek_eq hp
                exact n2 _ _ hl
          · simp at h
      · simp at h
    · intro ts b r h
      simp only [pLoopElse] at h
      split at h
      · exact .elseSome _ (S.block _ _ _ h)
      · rename_i hn
        simp only [Option.some.injEq, Prod.mk.injEq] at h
        obtain ⟨rfl, rfl⟩ := h
        refine .elseNone ?_
        intro hp
        obtain ⟨l, hl⟩ := peek_eq hp
        exact hn _ _ hl
    · intro ts b r h
      simp only [pBody] at h
      split at h
      · split at h
        · rename_i h1
          simp only [Option.some.injEq, Prod.mk.injEq] at h
          obtain ⟨rfl, rfl⟩ := h
          exact .bodyExpr _ (pTop_begins h1).1 (pTop_begins h1).2
        · simp at h
      · exact .bodyBlock (S.block _ _ _ h)

/-- The parser accepts what the grammar does. -/
theorem parses_program (ts : List T) (p : SBlock) : (∃ n, pStmts n ts = some (p, [])) ↔ GS (.stmts p) ts [] := by
  constructor
  · rintro ⟨n, h⟩
    exact (soundS n).stmts _ _ _ h
  · intro h
    obtain ⟨N, hN⟩ := takes h
    exact ⟨N, hN N (Nat.le_refl _)⟩

theorem program_unique {ts : List T} {p p' : SBlock} (h : GS (.stmts p) ts []) (h' : GS (.stmts p') ts []) : p = p' := by
  obtain ⟨N, hN⟩ := takes h
  obtain ⟨M, hM⟩ := takes h'
  have h1 := hN (N + M) (by omega)
  have h2 := hM (N + M) (by omega)
  simp only at h1 h2
  rw [h1] at h2
  simpa using h2

end Cordy.Source
