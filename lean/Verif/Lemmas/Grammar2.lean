import Verif.Lemmas.Grammar
/-! Lemmas: the parser accepts each phrase of the grammar, with the tree the grammar gives. -/
namespace Cordy.Grammar

def ok1 : Tok → Bool
  | .rparen | .rsq | .comma | .word .rbrace | .word .colon => false
  | _ => true

theorem peek_some {ts : List T} {t : Tok} (h : peek ts = some t) : ∃ b r, ts = (b, t) :: r := by
  match ts, h with
  | (b, t') :: r, h => simp [peek] at h; subst h; exact ⟨b, r, rfl⟩

theorem startTok_ok1 {t : Tok} (h : startTok t = true) : ok1 t = true := by cases t <;> (try (rename_i w; cases (w : Word))) <;> simp [startTok] at h <;> rfl

theorem spell_head {op : SecOp} {top : List T} (h : top.map (·.2) = spellSec op) : ∃ b t r, top = (b, t) :: r ∧ ok1 t = true := by
  match top, h with
  | [], h => cases op with
    | inf op => cases op <;> simp [spellSec, spell] at h
    | cmp c => simp [spellSec] at h
  | (b, t) :: r, h =>
    refine ⟨b, t, r, rfl, ?_⟩
    cases op with
    | inf op => cases op <;> simp [spellSec, spell] at h <;> (try obtain ⟨rfl, _⟩ := h) <;> rfl
    | cmp c => simp [spellSec] at h; obtain ⟨rfl, _⟩ := h; rfl

theorem Starts.head1 {ts : List T} (h : Starts ts) : ∃ b t r, ts = (b, t) :: r ∧ ok1 t = true := by
  obtain ⟨b, t, r, rfl, h1, _⟩ := h
  exact ⟨b, t, r, rfl, startTok_ok1 h1⟩

theorem head1_append {ts r : List T} (h : ∃ b t r, ts = (b, t) :: r ∧ ok1 t = true) : ∃ b t r', ts ++ r = (b, t) :: r' ∧ ok1 t = true := by
  obtain ⟨b, t, r0, rfl, h1⟩ := h
  exact ⟨b, t, r0 ++ r, rfl, h1⟩

theorem G.head1 {nt : Nt} {o : Bool} {r : Res} {ts : List T} (h : G nt o r ts) (hb : nt ≠ .bound := by simp) : ∃ b t r', ts = (b, t) :: r' ∧ ok1 t = true := by
  by_cases hn : nt.isE = true
  · exact (h.starts hn).head1
  · induction h with
    | noBound | bound => exact absurd rfl hb
    | cmp1 b c _ _ => exact ⟨b, _, _, rfl, rfl⟩
    | cmpMore b c _ _ _ _ => exact ⟨b, _, _, rfl, rfl⟩
    | argExpr last h _ => exact (h.starts rfl).head1
    | argUnary last b p _ => exact ⟨b, _, _, rfl, by cases p <;> rfl⟩
    | argField last b b' s => exact ⟨b, _, _, rfl, rfl⟩
    | argUnroll last b _ _ => exact ⟨b, _, _, rfl, rfl⟩
    | argOp last op _ _ h => exact spell_head h
    | argLeft last op _ h _ _ _ => exact head1_append (spell_head h)
    | argRight op _ h _ _ => exact head1_append (h.starts rfl).head1
    | entUnroll h ih => exact ih (by simp) (by simp [Nt.isE])
    | entPair b _ _ _ ih _ => exact head1_append (ih (by simp) (by simp [Nt.isE]))
    | ent1 h ih => exact ih (by simp) (by simp [Nt.isE])
    | entTrail b _ ih => exact head1_append (ih (by simp) (by simp [Nt.isE]))
    | entMore b _ _ ih _ => exact head1_append (ih (by simp) (by simp [Nt.isE]))
    | args1 h ih => exact ih (by simp) (by simp [Nt.isE])
    | argsTrail b _ ih => exact head1_append (ih (by simp) (by simp [Nt.isE]))
    | argsMore b _ _ ih _ => exact head1_append (ih (by simp) (by simp [Nt.isE]))
    | _ => simp [Nt.isE] at hn

theorem peek_ok {ts : List T} (h : ∃ b t r, ts = (b, t) :: r ∧ ok1 t = true) : peek ts ≠ some .rparen ∧ peek ts ≠ some .rsq ∧ peek ts ≠ some .comma ∧ peek ts ≠ some (.word .rbrace) := by
  obtain ⟨b, t, r, rfl, h1⟩ := h
  cases t <;> (try (rename_i w; cases (w : Word))) <;> simp [ok1] at h1 <;> simp [peek]

theorem G.chainHead {o : Bool} {ops : List (Cmp × E)} {ts : List T} (h : G .chain o (.ch ops) ts) :
    ops ≠ [] ∧ ∃ b c r, ts = (b, .cmp c) :: r := by
  cases h with
  | cmp1 b c _ => exact ⟨by simp, b, c, _, rfl⟩
  | cmpMore b c _ _ => exact ⟨by simp, b, c, _, rfl⟩

theorem pSuffix_stop {n : Nat} {x : E} {ts : List T} (h : contSuffix ts = false) : pSuffix (n + 1) x ts = some (x, ts) := by
  match ts, h with
  | [], _ => rfl
  | (b, t) :: r, h =>
    cases t <;> cases b <;> first | rfl | (simp [contSuffix] at h; done) | skip
    simp [contSuffix] at h
    simp [pSuffix, h]

theorem pLoop_stop {n k : Nat} {x : E} {ts : List T} (h : stopOp k ts) (hk : k ≠ 8) : pLoop (n + 1) k x ts = some (x, ts) := by
  simp only [stopOp, if_neg hk] at h
  simp only [pLoop]
  cases ho : opAt k ts with
  | none => rfl
  | some p => obtain ⟨op, r⟩ := p; simp [h op r ho]

theorem pChain_stop {n : Nat} {ts : List T} (h : stopOp 8 ts) : pChain (n + 1) ts = some ([], ts) := by
  simp only [stopOp, if_true] at h
  simp only [pChain]
  cases ho : cmpAt ts with
  | none => rfl
  | some p => obtain ⟨op, r⟩ := p; simp [h op r ho]

/-- What follows an expression of level `k`, so that the parser of level `k` gives `res`. -/
def After (k : Nat) (x : E) (rest : List T) (res : E × List T) : Prop :=
  if k = 2 ∨ k = 8 then StopL k rest ∧ res = (x, rest) else StopL (k - 1) rest ∧ Gives (fun n => pLoop n k x rest) res

theorem After.stop {k : Nat} {x : E} {rest : List T} (hk : 2 ≤ k) (h : StopL k rest) : After k x rest (x, rest) := by
  unfold After
  split
  · exact ⟨h, rfl⟩
  · refine ⟨h.mono (by omega), 1, fun n hn => ?_⟩
    cases n with
    | zero => omega
    | succ n => exact pLoop_stop (h.2 k (by omega) (Nat.le_refl _)) (by omega)

def endTok : Tok → Bool
  | .comma | .rparen | .rsq | .word .rbrace => true
  | _ => false

/-- The tokens that come after an argument. -/
def argEnd : Tok → Bool
  | .comma | .rparen | .rsq | .word .rbrace | .word .colon => true
  | _ => false

def Claim : Nt → Bool → Res → List T → Prop
  | .term, o, .e x, ts => ∀ rest, (o = true → StopE rest) → Gives (fun n => pTerm n (ts ++ rest)) (x, rest)
  | .cond, _, .e x, ts => ∀ rest, StopE rest → Gives (fun n => (pExpr n (ts ++ rest)).bind fun p => pThen n p.1 p.2) (x, rest)
  | .suf, o, .e x, ts => ∀ rest res, (o = true → StopE rest) → (peek rest = some .eq → assignable x = true) → Gives (fun n => pSuffix n x rest) res →
      Gives (fun n => (pTerm n (ts ++ rest)).bind fun p => pSuffix n p.1 p.2) res
  | .lvl k, o, .e x, ts => ∀ rest res, (o = true → StopE rest) → (peek rest = some .eq → assignable x = true) → After k x rest res →
      Gives (fun n => pLvl n k (ts ++ rest)) res
  | .chain, o, .ch ops, ts => ∀ rest, (o = true → StopE rest) → peek rest ≠ some .eq → StopL 8 rest → Gives (fun n => pChain n (ts ++ rest)) (ops, rest)
  | .expr, _, .e x, ts => ∀ rest, StopE rest → Gives (fun n => pExpr n (ts ++ rest)) (x, rest)
  | .bound, _, .e x, ts => ∀ stops b t rest, (∀ u ∈ stops, u = .rsq ∨ u = .word .colon) → (t = .rsq ∨ t = .word .colon) → t ∈ stops ∨ ts ≠ [] → Gives (fun n => orNil stops (ts ++ (b, t) :: rest) (pExpr n (ts ++ (b, t) :: rest))) (x, (b, t) :: rest)
  | .arg t, _, .e x, ts => ∀ b rest, argEnd t = true → Gives (fun n => pArg n (ts ++ (b, t) :: rest)) (x, (b, t) :: rest)
  | .args close, _, .es as tr, ts => ∀ b rest, endTok close = true → close ≠ .comma → Gives (fun n => pArgs n close (ts ++ (b, close) :: rest)) (as, tr, (b, close) :: rest) ∧
      (close = .word .rbrace → ∀ d, d ≠ some true → ∃ d', d' ≠ some true ∧ Gives (fun n => pEntries n d (ts ++ (b, close) :: rest)) (as, d', (b, close) :: rest))
  | .entry t, _, .es es p, ts => ∀ b rest d, argEnd t = true → t ≠ .word .colon → d ≠ some false → ∃ a r v, Gives (fun n => pArg n (ts ++ (b, t) :: rest)) (a, r) ∧ (p = true → Gives (fun n => pArg n r.tail) v) ∧
      ∀ w, (p = true → w = some v) → entry d a r w = some (es, if p then some true else d, (b, t) :: rest)
  | .entries, _, .es es p, ts => ∀ b rest d, d ≠ some false → Gives (fun n => pEntries n d (ts ++ (b, .word .rbrace) :: rest)) (es, if p then some true else d, (b, .word .rbrace) :: rest)
  | _, _, _, _ => True

theorem StopE.peek_ne {ts : List T} (h : StopE ts) : peek ts ≠ some .eq := by
  intro hp
  match ts, hp with
  | (b, t) :: r, hp =>
    simp [peek] at hp; subst hp
    have := h.2
    simp [asgAt] at this

/-- Enough fuel for two. -/
theorem Gives.mk {α : Type} {f : Nat → Option α} {a : α} (h : ∃ N, ∀ n, N ≤ n → f (n + 1) = some a) : Gives f a := by
  obtain ⟨N, hN⟩ := h
  refine ⟨N + 1, fun n hn => ?_⟩
  cases n with
  | zero => omega
  | succ n => exact hN n (by omega)

theorem argEnd_neutral {t : Tok} (h : argEnd t = true) : neutral t = true := by cases t <;> simp [argEnd] at h <;> rfl

theorem argEnd_end {t : Tok} (h : argEnd t = true) (hc : t ≠ .word .colon) : endTok t = true := by cases t <;> (try (rename_i w; cases (w : Word))) <;> simp [argEnd] at h <;> simp at hc <;> rfl

theorem endTok_arg {t : Tok} (h : endTok t = true) : argEnd t = true := by cases t <;> (try (rename_i w; cases (w : Word))) <;> simp [endTok] at h <;> rfl

theorem endTok_ends {b : Bool} {t : Tok} {r : List T} (h : endTok t = true) : endsArg ((b, t) :: r) = true := by
  cases t <;> (try (rename_i w; cases (w : Word))) <;> simp [endTok] at h <;> rfl

theorem secOp_end {b : Bool} {t : Tok} {r : List T} (h : argEnd t = true) : secOp ((b, t) :: r) = none := by
  cases t <;> simp [argEnd] at h <;> rfl

theorem secOp_starts {ts : List T} (h : Starts ts) : secOp ts = none := by
  obtain ⟨b, t, r, rfl, h1, h2⟩ := h
  cases t <;> simp [startTok] at h1 <;> try rfl
  obtain ⟨b', t', r', rfl, h3⟩ := h2 (by simp [prefixOf])
  cases t' <;> simp [startTok] at h3 <;> rfl

theorem unaryRef_starts {ts : List T} (h : Starts ts) : ∀ p r, unaryRef ts = some (p, r) → endsArg r = false := by
  obtain ⟨b, t, r0, rfl, h1, h2⟩ := h
  intro p r hu
  have : ∃ b' t' r', r = (b', t') :: r' ∧ startTok t' = true := by
    cases t <;> simp [startTok] at h1 <;> simp [unaryRef] at hu
    · obtain ⟨_, _, rfl⟩ := hu; exact h2 (by simp [prefixOf])
    · obtain ⟨_, rfl⟩ := hu; exact h2 (by simp [prefixOf])
    · obtain ⟨_, rfl⟩ := hu; exact h2 (by simp [prefixOf])
  obtain ⟨b', t', r', rfl, h3⟩ := this
  cases t' <;> (try (rename_i w; cases (w : Word))) <;> simp [startTok] at h3 <;> rfl

theorem pArg_starts {n : Nat} {ts : List T} (h : Starts ts) : pArg (n + 1) ts = pArgE n ts := by
  simp only [pArg]
  cases hu : unaryRef ts with
  | none => rfl
  | some p => obtain ⟨p, r⟩ := p; simp [unaryRef_starts h p r hu]

theorem pArgE_starts {n : Nat} {ts : List T} (h : Starts ts) : pArgE (n + 1) ts = (pExpr n ts).bind fun p =>
    match secOp p.2 with
    | some (op, r') => if endsArg r' then some (.secR op p.1, r') else some (p.1, p.2)
    | none => some (p.1, p.2) := by
  have hs := secOp_starts h
  obtain ⟨b, t, r, rfl, h1, h2⟩ := h
  cases t <;> simp [startTok] at h1 <;> simp only [pArgE, hs] <;>
    (cases pExpr n _ with
      | none => rfl
      | some p => rfl)

/-- The operator of a section. -/
theorem secOp_spell {op : SecOp} (hs : Sectional op) {top : List T} (r : List T) (h : top.map (·.2) = spellSec op) (his : op = .inf .is → peek r ≠ some .kNot) :
    secOp (top ++ r) = some (op, r) := by
  cases op with
  | cmp c =>
    match top, h with
    | [(b, t)], h => simp [spellSec] at h; subst h; rfl
  | inf op =>
    simp only [spellSec] at h
    have ho := opAt_spell op top r h (fun e => his (by rw [e]))
    by_cases h3 : level op = 3
    · rw [h3] at ho
      simp only [opAt] at ho
      simp [secOp, ho]
    · cases op <;> simp [level] at h3 <;> simp [Sectional] at hs <;>
        (match top, h with
          | [(b, t)], h => simp [spell] at h; subst h; rfl)

theorem unaryRef_spell {op : SecOp} (hs : Sectional op) {top : List T} (r : List T) (h : top.map (·.2) = spellSec op) : unaryRef (top ++ r) = none := by
  cases op with
  | cmp c =>
    match top, h with
    | [(b, t)], h => simp [spellSec] at h; subst h; rfl
  | inf op =>
    cases op <;> simp [Sectional] at hs <;> simp only [spellSec, spell] at h <;>
    first
    | (match top, h with
       | [(b, t)], h => simp at h; subst h; rfl)
    | (match top, h with
       | [(b, t), (b', t')], h => simp at h; obtain ⟨rfl, rfl⟩ := h; rfl)

theorem pArgE_sec {n : Nat} {op : SecOp} (hs : Sectional op) {top : List T} (r : List T) (h : top.map (·.2) = spellSec op) (his : op = .inf .is → peek r ≠ some .kNot) :
    pArgE (n + 1) (top ++ r) = if endsArg r then some (.opRef op, r) else (pExpr n r).bind fun p => some (.secL op p.1, p.2) := by
  have h1 := secOp_spell hs r h his
  have key : ∀ ts, secOp ts = some (op, r) → pArgE (n + 1) ts = if endsArg r then some (.opRef op, r) else (pExpr n r).bind fun p => some (.secL op p.1, p.2) := by
    intro ts h2
    match ts, h2 with
    | (b, t) :: rr, h2 =>
      cases t <;> (try (simp [secOp, op3] at h2; done)) <;> simp only [pArgE, h2] <;> (split <;> first | rfl | (cases pExpr n r <;> rfl))
  exact key _ h1

theorem secOp_unfold {ts : List T} {op : SecOp} {r : List T} (h : secOp ts = some (op, r)) : Sectional op ∧ ∃ top, ts = top ++ r ∧ top.map (·.2) = spellSec op ∧ (op = .inf .is → peek r ≠ some .kNot) := by
  unfold secOp at h
  split at h
  · rename_i op' r' h3
    simp at h; obtain ⟨rfl, rfl⟩ := h
    unfold op3 at h3
    split at h3 <;> simp at h3 <;> obtain ⟨rfl, rfl⟩ := h3
    · exact ⟨by simp [Sectional], [_], rfl, rfl, by simp⟩
    · exact ⟨by simp [Sectional], [_], rfl, rfl, by simp⟩
    · exact ⟨by simp [Sectional], [_], rfl, rfl, by simp⟩
    · exact ⟨by simp [Sectional], [_], rfl, rfl, by simp⟩
    · exact ⟨by simp [Sectional], [_, _], rfl, rfl, by simp⟩
    · rename_i hno
      refine ⟨by simp [Sectional], [_], rfl, rfl, fun _ hp => ?_⟩
      obtain ⟨b, r'', he⟩ := peek_some hp
      exact hno _ _ he
    · exact ⟨by simp [Sectional], [_], rfl, rfl, by simp⟩
    · exact ⟨by simp [Sectional], [_, _], rfl, rfl, by simp⟩
  · split at h <;> simp at h <;> obtain ⟨rfl, rfl⟩ := h <;> exact ⟨by simp [Sectional], [_], rfl, rfl, by simp⟩

/-- A right section: the expression ends before the operator. -/
theorem stopE_sec {op : SecOp} (hs : Sectional op) {top : List T} (b : Bool) (r : List T) (h : top.map (·.2) = spellSec op) : StopE (top ++ (b, .rparen) :: r) := by
  cases op with
  | cmp c =>
    match top, h with
    | [(b', t)], h =>
      simp [spellSec] at h; subst h
      have h7 := stopL_cmp b' c ((b, .rparen) :: r)
      refine ⟨⟨h7.1, fun j h3 hj => ?_⟩, rfl⟩
      by_cases h8 : j ≤ 7
      · exact h7.2 j h3 h8
      · by_cases h9 : j = 8
        · subst h9; simp only [stopOp, if_true]; intro c' r' hc; simp [cmpAt] at hc; obtain ⟨_, rfl⟩ := hc; rfl
        · obtain rfl : j = 9 := by omega
          simp [stopOp, opAt]
  | inf op =>
    simp only [spellSec] at h
    refine ⟨⟨contSuffix_spell op top _ h, fun j h3 hj => ?_⟩, ?_⟩
    · unfold stopOp
      split
      · intro c r' hc; rw [cmpAt_spell op top _ h] at hc; simp at hc
      · intro op' r' ho
        by_cases hl : j = level op
        · subst hl
          rw [opAt_spell op top _ h (by intro _; simp [peek])] at ho
          simp at ho; obtain ⟨rfl, rfl⟩ := ho
          cases op <;> simp [Sectional] at hs <;> rfl
        · rw [opAt_other op top _ h j hl h3] at ho; simp at ho
    · match top, h with
      | [], h => cases op <;> simp [spell] at h
      | (b, t) :: top', h => cases op <;> simp [spell] at h <;> (try obtain ⟨rfl, _⟩ := h) <;> (try subst h) <;> rfl

theorem pUnary_prefix (n : Nat) (b : Bool) (p : Prefix) (ts : List T) : pUnary n ((b, spellPrefix p) :: ts) = (pUnary n ts).map fun q => (.unary p q.1, q.2) := by
  cases n with
  | zero => rfl
  | succ n =>
    have h1 : prefixes ((b, spellPrefix p) :: ts) = (p :: (prefixes ts).1, (prefixes ts).2) := by cases p <;> rfl
    simp only [pUnary, h1]
    cases pTerm n (prefixes ts).2 with
    | none => rfl
    | some q =>
      simp only
      cases pSuffix n q.1 q.2 with
      | none => rfl
      | some q => rfl

def headTok : Tok → Bool
  | .lit _ | .ident _ | .lparen | .lsq | .kIf | .word .lbrace => true
  | _ => false

theorem G.sufHead {nt : Nt} {o : Bool} {r : Res} {ts : List T} (h : G nt o r ts) (hn : nt = .term ∨ nt = .suf) : ∃ b t r', ts = (b, t) :: r' ∧ headTok t = true := by
  have app : ∀ {ts r : List T}, (∃ b t r', ts = (b, t) :: r' ∧ headTok t = true) → ∃ b t r', ts ++ r = (b, t) :: r' ∧ headTok t = true := by
    rintro ts r ⟨b, t, r', rfl, h⟩; exact ⟨b, t, _, rfl, h⟩
  induction h with
  | lit b n => exact ⟨b, _, _, rfl, rfl⟩
  | var b s => exact ⟨b, _, _, rfl, rfl⟩
  | paren b b' _ _ => exact ⟨b, _, _, rfl, rfl⟩
  | list0 b b' => exact ⟨b, _, _, rfl, rfl⟩
  | list b b' _ _ => exact ⟨b, _, _, rfl, rfl⟩
  | set0 b b' => exact ⟨b, _, _, rfl, rfl⟩
  | set b b' _ _ => exact ⟨b, _, _, rfl, rfl⟩
  | dict b b' _ _ => exact ⟨b, _, _, rfl, rfl⟩
  | ite b _ _ => exact ⟨b, _, _, rfl, rfl⟩
  | ofTerm _ ih => exact ih (.inl rfl)
  | call0 b _ ih => exact app (ih (.inr rfl))
  | call b _ _ ih _ => rw [List.append_assoc]; exact app (ih (.inr rfl))
  | index b _ _ ih _ => rw [List.append_assoc]; exact app (ih (.inr rfl))
  | slice b b' _ _ _ ih _ _ => simp only [List.append_assoc]; exact app (ih (.inr rfl))
  | sliceStep b b' b'' _ _ _ _ ih _ _ _ => simp only [List.append_assoc]; exact app (ih (.inr rfl))
  | bareLit n _ ih => exact app (ih (.inr rfl))
  | bareVar s _ ih => exact app (ih (.inr rfl))
  | bareIf _ _ ih _ => exact app (ih (.inr rfl))
  | field b b' s _ ih => exact app (ih (.inr rfl))
  | _ => simp at hn

theorem prefixes_head {b : Bool} {t : Tok} {r : List T} (h : headTok t = true) : prefixes ((b, t) :: r) = ([], (b, t) :: r) := by
  cases t <;> simp [headTok] at h <;> rfl

end Cordy.Grammar
