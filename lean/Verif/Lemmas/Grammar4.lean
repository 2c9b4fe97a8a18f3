import Verif.Lemmas.Grammar3
/-! Lemmas: what the parser accepts is a phrase of the grammar. -/
namespace Cordy.Grammar

theorem opAt_unfold {k : Nat} {ts r : List T} {op : Infix} (h : opAt k ts = some (op, r)) :
    level op = k ∧ ∃ top, ts = top ++ r ∧ top.map (·.2) = spell op ∧ (op = .is → peek r ≠ some .kNot) := by
  unfold opAt at h
  split at h
  · unfold op3 at h
    split at h <;> simp at h <;> obtain ⟨rfl, rfl⟩ := h
    · exact ⟨rfl, [_], rfl, rfl, by simp⟩
    · exact ⟨rfl, [_], rfl, rfl, by simp⟩
    · exact ⟨rfl, [_], rfl, rfl, by simp⟩
    · exact ⟨rfl, [_], rfl, rfl, by simp⟩
    · exact ⟨rfl, [_, _], rfl, rfl, by simp⟩
    · rename_i hno
      refine ⟨rfl, [_], rfl, rfl, fun _ hp => ?_⟩
      obtain ⟨b, r'', he⟩ := peek_some hp
      exact hno _ _ he
    · exact ⟨rfl, [_], rfl, rfl, by simp⟩
    · exact ⟨rfl, [_, _], rfl, rfl, by simp⟩
  all_goals
    (first
      | (simp at h; done)
      | (split at h <;> simp at h <;> obtain ⟨rfl, rfl⟩ := h <;> exact ⟨rfl, [_], rfl, rfl, by simp⟩))

theorem asgAt_unfold {ts r : List T} {a : Asg} (h : asgAt ts = some (a, r)) : ∃ ta, ts = ta ++ r ∧ ta.map (·.2) = spellAsg a := by
  unfold asgAt at h
  split at h
  · simp at h; obtain ⟨rfl, rfl⟩ := h; exact ⟨[_], rfl, rfl⟩
  · simp at h; obtain ⟨rfl, rfl⟩ := h; exact ⟨[_], rfl, rfl⟩
  · rename_i s b' r'
    by_cases h1 : s = "max"
    · simp [h1] at h; obtain ⟨rfl, rfl⟩ := h; exact ⟨[_, _], rfl, by simp [spellAsg, h1]⟩
    · by_cases h2 : s = "min"
      · simp [h2] at h; obtain ⟨rfl, rfl⟩ := h; exact ⟨[_, _], rfl, by simp [spellAsg, h2]⟩
      · simp [h1, h2] at h
  · simp at h

theorem cmpAt_unfold {ts r : List T} {c : Cmp} (h : cmpAt ts = some (c, r)) : ∃ b, ts = (b, .cmp c) :: r := by
  unfold cmpAt at h
  split at h
  · simp at h; obtain ⟨rfl, rfl⟩ := h; exact ⟨_, rfl⟩
  · simp at h

theorem unaryRef_unfold {ts r : List T} {p : Prefix} (h : unaryRef ts = some (p, r)) : ∃ b, ts = (b, spellPrefix p) :: r := by
  unfold unaryRef at h
  split at h
  · simp at h; obtain ⟨rfl, rfl⟩ := h; exact ⟨_, rfl⟩
  · simp at h; obtain ⟨rfl, rfl⟩ := h; exact ⟨_, rfl⟩
  · split at h
    · simp at h
    · simp at h; obtain ⟨rfl, rfl⟩ := h; exact ⟨_, rfl⟩
  · simp at h

theorem prefixes_sound (ts : List T) : ∃ tp, ts = tp ++ (prefixes ts).2 ∧ tp.map (·.2) = (prefixes ts).1.map spellPrefix := by
  induction ts with
  | nil => exact ⟨[], rfl, rfl⟩
  | cons a ts ih =>
    obtain ⟨b, t⟩ := a
    obtain ⟨tp, h1, h2⟩ := ih
    simp only [prefixes]
    cases hp : prefixOf t with
    | none => exact ⟨[], rfl, rfl⟩
    | some p =>
      refine ⟨(b, t) :: tp, ?_, ?_⟩
      · simp only [List.cons_append]; rw [← h1]
      · simp only [List.map_cons, h2, List.cons.injEq, and_true]
        cases t <;> simp [prefixOf] at hp <;> subst hp <;> rfl

theorem unary_sound {o : Bool} {x : E} {t1 : List T} (h : G (.lvl 2) o (.e x) t1) (ps : List Prefix) (tp : List T) (hp : tp.map (·.2) = ps.map spellPrefix) :
    G (.lvl 2) o (.e (ps.foldr .unary x)) (tp ++ t1) := by
  induction ps generalizing tp with
  | nil => simp at hp; subst hp; exact h
  | cons p ps ih =>
    match tp, hp with
    | (b, t) :: tp', hp =>
      simp at hp; obtain ⟨rfl, hp⟩ := hp
      exact .unary b p (ih tp' hp)

/-- A phrase `x` of kind `nt`, then the rest. -/
def Ph (nt : Nt) (x : E) (ts r : List T) : Prop := ∃ o t1, ts = t1 ++ r ∧ G nt o (.e x) t1 ∧ (o = true → StopE r)

/-- A loop went from the accumulated `acc` before `ts` to `x` before `r`. -/
def Step (nt : Nt) (acc x : E) (ts r : List T) : Prop := ∃ t1, ts = t1 ++ r ∧
  ∀ oa ta, G nt oa (.e acc) ta → (oa = true → StopE ts) → ∃ o, G nt o (.e x) (ta ++ t1) ∧ (o = true → StopE r)

theorem Step.refl (nt : Nt) (x : E) (ts : List T) : Step nt x x ts ts :=
  ⟨[], rfl, fun oa ta h ho => ⟨oa, by simpa using h, ho⟩⟩

theorem Step.ph {nt : Nt} {acc x : E} {ts ts' r : List T} (h : Ph nt acc ts ts') (hs : Step nt acc x ts' r) : Ph nt x ts r := by
  obtain ⟨o, t1, rfl, h1, h2⟩ := h
  obtain ⟨t2, rfl, h3⟩ := hs
  obtain ⟨o', h4, h5⟩ := h3 o t1 h1 h2
  exact ⟨o', t1 ++ t2, by simp, h4, h5⟩

/-- One more phrase, which cannot come after an open one, and then a loop. -/
theorem Step.cons {nt : Nt} {acc acc' x : E} {ts ts' r t0 : List T} (he : ts = t0 ++ ts') (hn : ¬ StopE ts)
    (h : ∀ ta, G nt false (.e acc) ta → ∃ o, G nt o (.e acc') (ta ++ t0) ∧ (o = true → StopE ts')) (hs : Step nt acc' x ts' r) : Step nt acc x ts r := by
  obtain ⟨t2, rfl, h3⟩ := hs
  refine ⟨t0 ++ t2, by simp [he], fun oa ta hg ho => ?_⟩
  cases oa with
  | true => exact absurd (ho rfl) hn
  | false =>
    obtain ⟨o, h4, h5⟩ := h ta hg
    obtain ⟨o', h6, h7⟩ := h3 o _ h4 h5
    exact ⟨o', by simpa using h6, h7⟩

structure Sound (n : Nat) : Prop where
  term : ∀ ts x r, pTerm n ts = some (x, r) → Ph .term x ts r
  then_ : ∀ c ts x r, pThen n c ts = some (x, r) → ∃ t1, ts = t1 ++ r ∧ StopE r ∧ ∀ oc tc, G .expr oc (.e c) tc → G .cond true (.e x) (tc ++ t1)
  args : ∀ close ts as tr r, endTok close = true → pArgs n close ts = some (as, tr, r) → ∃ o t1 b r', ts = t1 ++ r ∧ r = (b, close) :: r' ∧ G (.args close) o (.es as tr) t1
  arg : ∀ ts x r, pArg n ts = some (x, r) → ∃ t1, ts = t1 ++ r ∧ ∀ b t r', r = (b, t) :: r' → argEnd t = true → G (.arg t) false (.e x) t1
  argE : ∀ ts x r, pArgE n ts = some (x, r) → ∃ t1, ts = t1 ++ r ∧ ∀ b t r', r = (b, t) :: r' → argEnd t = true → G (.arg t) false (.e x) t1
  entries : ∀ d ts es d' r, pEntries n d ts = some (es, d', r) → ∃ t1 b r', ts = t1 ++ r ∧ r = (b, .word .rbrace) :: r' ∧
    (d ≠ some false → d' = some true → ∃ o p, G .entries o (.es es p) t1 ∧ (d = none → p = true)) ∧ (d ≠ some true → d' ≠ some true → ∃ o tr, G (.args (.word .rbrace)) o (.es es tr) t1) ∧
    (d = some true → d' = some true) ∧ (d = some false → d' ≠ some true)
  suffix : ∀ acc ts x r, pSuffix n acc ts = some (x, r) → contSuffix r = false ∧ Step .suf acc x ts r
  unary : ∀ ts x r, pUnary n ts = some (x, r) → contSuffix r = false ∧ Ph (.lvl 2) x ts r
  lvl : ∀ k ts x r, 2 ≤ k → k ≤ 9 → pLvl n k ts = some (x, r) → StopL k r ∧ Ph (.lvl k) x ts r
  loop : ∀ k acc ts x r, 3 ≤ k → k ≤ 9 → k ≠ 8 → StopL (k - 1) ts → pLoop n k acc ts = some (x, r) → StopL k r ∧ Step (.lvl k) acc x ts r
  chain : ∀ ts ops r, StopL 7 ts → pChain n ts = some (ops, r) → StopL 8 r ∧ (ops = [] ∧ ts = r ∨ ¬ StopE ts ∧ ∃ o t1, ts = t1 ++ r ∧ G .chain o (.ch ops) t1 ∧ (o = true → StopE r))
  expr : ∀ ts x r, pExpr n ts = some (x, r) → StopE r ∧ ∃ o t1, ts = t1 ++ r ∧ G .expr o (.e x) t1

theorem stopL_succ {k : Nat} {ts : List T} (h : StopL k ts) (h1 : stopOp (k + 1) ts) : StopL (k + 1) ts :=
  ⟨h.1, fun j h3 hj => by
    by_cases e : j = k + 1
    · subst e; exact h1
    · exact h.2 j h3 (by omega)⟩

theorem not_stop_suffix {ts : List T} (h : contSuffix ts = true) : ¬ StopE ts := fun hs => by
  have := hs.1.1; simp [h] at this

theorem sound_bound {n : Nat} (S : Sound n) {stops : List Tok} {ts r : List T} {x : E} (h : orNil stops ts (pExpr n ts) = some (x, r)) : ∃ o t1, ts = t1 ++ r ∧ G .bound o (.e x) t1 := by
  have he : pExpr n ts = some (x, r) → ∃ o t1, ts = t1 ++ r ∧ G .bound o (.e x) t1 := fun h => by
    obtain ⟨_, o, t1, h1, h2⟩ := S.expr _ _ _ h
    exact ⟨o, t1, h1, .bound h2⟩
  unfold orNil at h
  split at h
  · split at h
    · simp at h
      obtain ⟨rfl, rfl⟩ := h
      exact ⟨false, [], rfl, .noBound⟩
    · exact he h
  · exact he h

theorem sound_boundE {n : Nat} (S : Sound n) {ts r : List T} {x : E} (hr : peek r = some .rsq) (h : orNil [.word .colon] ts (pExpr n ts) = some (x, r)) : ∃ o t1, ts = t1 ++ r ∧ G .expr o (.e x) t1 := by
  unfold orNil at h
  split at h
  · rename_i t hp
    split at h
    · rename_i hm
      simp at h
      obtain ⟨rfl, rfl⟩ := h
      rw [hr] at hp
      cases hp
      simp at hm
    · obtain ⟨_, o, t1, h1, h2⟩ := S.expr _ _ _ h
      exact ⟨o, t1, h1, h2⟩
  · obtain ⟨_, o, t1, h1, h2⟩ := S.expr _ _ _ h
    exact ⟨o, t1, h1, h2⟩

theorem sound_term {n : Nat} (S : Sound n) : ∀ ts x r, pTerm (n + 1) ts = some (x, r) → Ph .term x ts r := by
  intro ts x r h
  unfold pTerm at h
  split at h
  · simp at h; obtain ⟨rfl, rfl⟩ := h; exact ⟨false, [_], rfl, .lit _ _, by simp⟩
  · simp at h; obtain ⟨rfl, rfl⟩ := h; exact ⟨false, [_], rfl, .var _ _, by simp⟩
  · rename_i b0 r0
    split at h
    · rename_i ha
      simp at h; obtain ⟨rfl, rfl⟩ := h
      obtain ⟨o, t1, b, r', rfl, he, hg⟩ := S.args _ _ _ _ _ rfl ha
      simp at he; obtain ⟨rfl, rfl⟩ := he
      rename_i b1 r1
      refine ⟨false, _, ?_, .paren b0 b1 hg, by simp⟩
      simp only [List.append_assoc, List.cons_append, List.nil_append]
    · simp at h
  · rename_i b0 r0
    split at h
    · rename_i hp
      simp at h; obtain ⟨rfl, rfl⟩ := h
      obtain ⟨b, r', rfl⟩ := peek_some hp
      exact ⟨false, [_, _], rfl, .list0 _ _, by simp⟩
    · split at h
      · rename_i ha
        simp at h; obtain ⟨rfl, rfl⟩ := h
        obtain ⟨o, t1, b, r', rfl, he, hg⟩ := S.args _ _ _ _ _ rfl ha
        simp at he; obtain ⟨rfl, rfl⟩ := he
        rename_i b1 r1 _
        refine ⟨false, _, ?_, .list b0 b1 hg, by simp⟩
        simp only [List.append_assoc, List.cons_append, List.nil_append]
      · simp at h
  · rename_i b0 r0
    split at h
    · rename_i hp
      simp at h; obtain ⟨rfl, rfl⟩ := h
      obtain ⟨b, r', rfl⟩ := peek_some hp
      exact ⟨false, [_, _], rfl, .set0 _ _, by simp⟩
    · split at h
      · rename_i d b1 r1 ha
        simp at h
        obtain ⟨t1, b, r', rfl, he, h1, h2, -, -⟩ := S.entries _ _ _ _ _ ha
        simp at he; obtain ⟨rfl, rfl⟩ := he
        obtain ⟨h, rfl⟩ := h
        split at h
        · rename_i hd
          subst h
          obtain ⟨o, p, hg, hp⟩ := h1 (by simp) hd
          rw [hp rfl] at hg
          refine ⟨false, _, ?_, .dict b0 b1 hg, by simp⟩
          simp only [List.append_assoc, List.cons_append, List.nil_append]
        · rename_i hd
          subst h
          obtain ⟨o, tr, hg⟩ := h2 (by simp) hd
          refine ⟨false, _, ?_, .set b0 b1 hg, by simp⟩
          simp only [List.append_assoc, List.cons_append, List.nil_append]
      · simp at h
  · rename_i b0 r0
    split at h
    · rename_i hc
      obtain ⟨hs, o, t1, rfl, hg⟩ := S.expr _ _ _ hc
      obtain ⟨t2, rfl, hs', h2⟩ := S.then_ _ _ _ _ h
      exact ⟨true, _, by simp, .ite b0 (h2 _ _ hg), fun _ => hs'⟩
    · simp at h
  · simp at h

theorem sound_then {n : Nat} (S : Sound n) : ∀ c ts x r, pThen (n + 1) c ts = some (x, r) → ∃ t1, ts = t1 ++ r ∧ StopE r ∧ ∀ oc tc, G .expr oc (.e c) tc → G .cond true (.e x) (tc ++ t1) := by
  intro c ts x r h
  unfold pThen at h
  split at h
  · rename_i b0 r0
    split at h
    · rename_i t b1 r1 ht
      obtain ⟨_, o, t1, rfl, hg⟩ := S.expr _ _ _ ht
      split at h
      · rename_i hc
        obtain ⟨_, o2, t2, rfl, hg2⟩ := S.expr _ _ _ hc
        split at h
        · rename_i hf
          simp at h; obtain ⟨rfl, rfl⟩ := h
          obtain ⟨t3, rfl, hs, h3⟩ := S.then_ _ _ _ _ hf
          refine ⟨(b0, .kThen) :: (t1 ++ (b1, .kElif) :: (t2 ++ t3)), by simp, hs, fun oc tc hgc => ?_⟩
          have := G.condElif b0 b1 hgc hg (h3 _ _ hg2)
          simpa using this
        · simp at h
      · simp at h
    · rename_i t b1 r1 ht
      obtain ⟨_, o, t1, rfl, hg⟩ := S.expr _ _ _ ht
      split at h
      · rename_i hc
        simp at h; obtain ⟨rfl, rfl⟩ := h
        obtain ⟨hs, o2, t2, rfl, hg2⟩ := S.expr _ _ _ hc
        refine ⟨(b0, .kThen) :: (t1 ++ (b1, .kElse) :: t2), by simp, hs, fun oc tc hgc => ?_⟩
        have := G.condElse b0 b1 hgc hg hg2
        simpa using this
      · simp at h
    · simp at h
  · simp at h

theorem sound_args {n : Nat} (S : Sound n) : ∀ close ts as tr r, endTok close = true → pArgs (n + 1) close ts = some (as, tr, r) → ∃ o t1 b r', ts = t1 ++ r ∧ r = (b, close) :: r' ∧ G (.args close) o (.es as tr) t1 := by
  intro close ts as tr r hcl h
  unfold pArgs at h
  split at h
  · rename_i a r0 ha
    obtain ⟨t1, rfl, g1⟩ := S.arg _ _ _ ha
    split at h
    · rename_i hp
      obtain ⟨b, r1, rfl⟩ := peek_some hp
      have hf : G (.arg .comma) false (.e a) t1 := g1 _ _ _ rfl rfl
      split at h
      · rename_i hp2
        simp at h hp2; obtain ⟨rfl, rfl, rfl⟩ := h
        obtain ⟨b', r2, rfl⟩ := peek_some hp2
        exact ⟨false, _, b', r2, by simp, rfl, .argsTrail b hf⟩
      · split at h
        · rename_i hr
          simp at h; obtain ⟨rfl, rfl, rfl⟩ := h
          obtain ⟨o, t2, b', r', he, rfl, hg⟩ := S.args _ _ _ _ _ hcl hr
          simp at he; subst he
          exact ⟨false, _, b', r', by simp, rfl, .argsMore b hf hg⟩
        · simp at h
    · split at h
      · rename_i hp
        simp at h; obtain ⟨rfl, rfl, rfl⟩ := h
        obtain ⟨b, r1, rfl⟩ := peek_some hp
        exact ⟨false, t1, b, r1, rfl, rfl, .args1 (o := false) (g1 _ _ _ rfl (endTok_arg hcl))⟩
      · simp at h
  · simp at h

theorem sound_arg {n : Nat} (S : Sound n) : ∀ ts x r, pArg (n + 1) ts = some (x, r) → ∃ t1, ts = t1 ++ r ∧ ∀ b t r', r = (b, t) :: r' → argEnd t = true → G (.arg t) false (.e x) t1 := by
  intro ts x r h
  unfold pArg at h
  split at h
  · rename_i hu
    split at h
    · rename_i hE
      simp at h; obtain ⟨rfl, rfl⟩ := h
      obtain ⟨b, rfl⟩ := unaryRef_unfold hu
      refine ⟨[_], rfl, fun b' t r' e _ => .argUnary _ _ _ ?_⟩
      rintro rfl
      rw [e] at hE
      simp [endsArg, peek] at hE
    · exact S.argE _ _ _ h
  · exact S.argE _ _ _ h

theorem StopE.notBlocked {k : Nat} {ts r : List T} {op : Infix} (h : StopE ts) (ho : opAt k ts = some (op, r)) (h3 : 3 ≤ k) (h9 : k ≤ 9) (h8 : k ≠ 8) : blocked op r = true := by
  have := h.1.2 k h3 h9
  simp only [stopOp, if_neg h8] at this
  exact this op r ho

theorem stopE_secOp {ts r : List T} {op : SecOp} (h : StopE ts) (ho : secOp ts = some (op, r)) : peek r = some .rparen := by
  obtain ⟨hs, top, rfl, ht, his⟩ := secOp_unfold ho
  cases op with
  | inf op =>
    have hl := level_range op
    have := h.notBlocked (opAt_spell op top r ht (fun e => his (by rw [e]))) hl.1 hl.2.1 hl.2.2
    simpa [blocked, hs.2.1] using this
  | cmp c =>
    match top, ht with
    | [(b, t)], ht =>
      simp [spellSec] at ht; subst ht
      have := h.1.2 8 (by omega) (by omega)
      simp only [stopOp, if_true] at this
      exact this c r rfl

theorem sound_argE {n : Nat} (S : Sound n) : ∀ ts x r, pArgE (n + 1) ts = some (x, r) → ∃ t1, ts = t1 ++ r ∧ ∀ b t r', r = (b, t) :: r' → argEnd t = true → G (.arg t) false (.e x) t1 := by
  intro ts x r h
  unfold pArgE at h
  split at h
  · split at h
    · simp at h; obtain ⟨rfl, rfl⟩ := h
      exact ⟨[_, _], rfl, fun _ _ _ _ _ => .argField _ _ _ _⟩
    · simp at h
  · split at h
    · rename_i he
      simp at h; obtain ⟨rfl, rfl⟩ := h
      obtain ⟨_, o, t1, rfl, hg⟩ := S.expr _ _ _ he
      exact ⟨_ :: t1, rfl, fun _ _ _ _ _ => .argUnroll _ _ hg⟩
    · simp at h
  · split at h
    · rename_i op r0 hs
      obtain ⟨hsec, top, rfl, ht, his⟩ := secOp_unfold hs
      split at h
      · rename_i hE
        simp at h; obtain ⟨rfl, rfl⟩ := h
        refine ⟨top, rfl, fun b' t r' e _ => .argOp _ _ ?_ hsec ht⟩
        rintro rfl
        rw [e] at hE
        simp [endsArg, peek] at hE
      · split at h
        · rename_i he
          simp at h; obtain ⟨rfl, rfl⟩ := h
          obtain ⟨_, o, t1, rfl, hg⟩ := S.expr _ _ _ he
          have his' : op = .inf .is → peek t1 ≠ some .kNot := fun e hp => his e (peek_append hp)
          exact ⟨top ++ t1, by simp, fun _ _ _ _ _ => .argLeft _ _ hsec ht his' hg⟩
        · simp at h
    · split at h
      · rename_i he
        obtain ⟨hst, o, t1, rfl, hg⟩ := S.expr _ _ _ he
        split at h
        · rename_i op r1 hs
          split at h
          · simp at h; obtain ⟨rfl, rfl⟩ := h
            have hp := stopE_secOp hst hs
            obtain ⟨hsec, top, rfl, ht, his⟩ := secOp_unfold hs
            refine ⟨t1 ++ top, by simp, fun b' t r' e _ => ?_⟩
            rw [e] at hp
            simp [peek] at hp
            subst hp
            exact .argRight _ hsec hg ht
          · simp at h; obtain ⟨rfl, rfl⟩ := h
            exact ⟨t1, rfl, fun _ _ _ _ _ => .argExpr _ hg⟩
        · simp at h; obtain ⟨rfl, rfl⟩ := h
          exact ⟨t1, rfl, fun _ _ _ _ _ => .argExpr _ hg⟩
      · simp at h

/-- One entry. -/
theorem sound_entry {n : Nat} (S : Sound n) {d : Option Bool} {a : E} {t0 r : List T} (ha : ∀ b t r', r = (b, t) :: r' → argEnd t = true → G (.arg t) false (.e a) t0) {es d' r1}
    (h : entry d a r (pArg n r.tail) = some (es, d', r1)) (b : Bool) (t : Tok) (r' : List T) (hr1 : r1 = (b, t) :: r') (ht : endTok t = true) :
    ∃ t1, t0 ++ r = t1 ++ r1 ∧ (d = some true → d' = some true) ∧ (d = some false → d' = some false) ∧
      (d ≠ some false → d' ≠ some false → ∃ p, G (.entry t) false (.es es p) t1 ∧ (d' = some true → d = none → p = true)) ∧
      (d' ≠ some true → ∃ x, es = [x] ∧ G (.arg t) false (.e x) t1) := by
  have hc : t ≠ .word .colon := fun e => by subst e; simp [endTok] at ht
  unfold entry at h
  split at h
  · rename_i hu
    simp at h
    obtain ⟨rfl, rfl, rfl⟩ := h
    have hg := ha b t r' hr1 (endTok_arg ht)
    refine ⟨t0, rfl, id, id, fun _ _ => ?_, fun _ => ⟨a, rfl, hg⟩⟩
    cases a with
    | unroll x => exact ⟨false, .entUnroll hg, fun h1 h2 => by rw [h2] at h1; simp at h1⟩
    | _ => simp [isUnroll] at hu
  · rename_i hu
    split at h
    · rename_i hp
      obtain ⟨bc, r2, rfl⟩ := peek_some hp.1
      split at h
      · rename_i v r3 hv
        simp at h
        obtain ⟨rfl, rfl, rfl⟩ := h
        obtain ⟨t2, h2, g2⟩ := S.arg _ _ _ hv
        simp only [List.tail_cons] at h2
        subst h2
        refine ⟨t0 ++ (bc, .word .colon) :: t2, by simp, by simp, fun h => absurd h hp.2, fun _ _ => ⟨true, ?_, by simp⟩, by simp⟩
        exact .entPair bc (ha _ _ _ rfl rfl) (by simpa using hu) (g2 b t r' hr1 (endTok_arg ht))
      · simp at h
    · split at h
      · simp at h
      · rename_i hd
        simp at h
        obtain ⟨rfl, rfl, rfl⟩ := h
        exact ⟨t0, rfl, fun h => absurd h hd, by simp, by simp, fun _ => ⟨a, rfl, ha b t r' hr1 (endTok_arg ht)⟩⟩

theorem sound_entries {n : Nat} (S : Sound n) : ∀ d ts es d' r, pEntries (n + 1) d ts = some (es, d', r) → ∃ t1 b r', ts = t1 ++ r ∧ r = (b, .word .rbrace) :: r' ∧
    (d ≠ some false → d' = some true → ∃ o p, G .entries o (.es es p) t1 ∧ (d = none → p = true)) ∧ (d ≠ some true → d' ≠ some true → ∃ o tr, G (.args (.word .rbrace)) o (.es es tr) t1) ∧
    (d = some true → d' = some true) ∧ (d = some false → d' ≠ some true) := by
  intro d ts es d' r h
  unfold pEntries at h
  split at h
  · rename_i a r0 ha
    obtain ⟨t0, rfl, g0⟩ := S.arg _ _ _ ha
    split at h
    · rename_i es1 d1 r1 he
      split at h
      · rename_i hp
        obtain ⟨b, r2, rfl⟩ := peek_some hp
        obtain ⟨t1, e1, k1, k2, k3, k4⟩ := sound_entry S g0 he b .comma r2 rfl rfl
        rw [e1]
        by_cases hp2 : peek ((b, Tok.comma) :: r2).tail = some (.word .rbrace)
        · rw [if_pos hp2] at h
          obtain ⟨b', r3, e3⟩ := peek_some hp2
          simp only [List.tail_cons] at e3
          subst e3
          simp at h
          obtain ⟨rfl, rfl, rfl⟩ := h
          refine ⟨t1 ++ [(b, .comma)], b', r3, by simp, rfl, fun hd hd' => ?_, fun hd hd' => ?_, k1, fun hd => by rw [k2 hd]; simp⟩
          · obtain ⟨p, hg, hp⟩ := k3 hd (by rw [hd']; simp)
            exact ⟨false, p, .entTrail b hg, hp hd'⟩
          · obtain ⟨x, rfl, hg⟩ := k4 hd'
            exact ⟨false, true, .argsTrail b hg⟩
        · rw [if_neg hp2] at h
          cases hr : pEntries n d1 ((b, Tok.comma) :: r2).tail with
          | none => rw [hr] at h; simp at h
          | some q =>
            obtain ⟨es2, d2, r3⟩ := q
            rw [hr] at h
            simp at h
            obtain ⟨rfl, rfl, rfl⟩ := h
            obtain ⟨t2, b', r', e2, rfl, m1, m2, m3, m4⟩ := S.entries _ _ _ _ _ hr
            simp only [List.tail_cons] at e2
            subst e2
            refine ⟨t1 ++ (b, .comma) :: t2, b', r', by simp, rfl, fun hd hd' => ?_, fun hd hd' => ?_, fun hd => m3 (k1 hd), fun hd => m4 (k2 hd)⟩
            · have hd1 : d1 ≠ some false := fun e => m4 e hd'
              obtain ⟨p, hg, hp⟩ := k3 hd hd1
              obtain ⟨o, p', hg', hp'⟩ := m1 hd1 hd'
              refine ⟨false, p || p', .entMore b hg hg', fun e => ?_⟩
              cases d1 with
              | none => rw [hp' rfl]; simp
              | some q => cases q with
                | true => rw [hp rfl e]; simp
                | false => simp at hd1
            · have hd1 : d1 ≠ some true := fun e => hd' (m3 e)
              obtain ⟨x, rfl, hg⟩ := k4 hd1
              obtain ⟨o, tr, hg'⟩ := m2 hd1 hd'
              exact ⟨false, tr, .argsMore b hg hg'⟩
      · split at h
        · rename_i hp
          obtain ⟨b, r2, rfl⟩ := peek_some hp
          obtain ⟨t1, e1, k1, k2, k3, k4⟩ := sound_entry S g0 he b _ r2 rfl rfl
          rw [e1]
          simp at h
          obtain ⟨rfl, rfl, rfl⟩ := h
          refine ⟨t1, b, r2, rfl, rfl, fun hd hd' => ?_, fun hd hd' => ?_, k1, fun hd => by rw [k2 hd]; simp⟩
          · obtain ⟨p, hg, hp⟩ := k3 hd (by rw [hd']; simp)
            exact ⟨false, p, .ent1 hg, hp hd'⟩
          · obtain ⟨x, rfl, hg⟩ := k4 hd'
            exact ⟨false, false, .args1 hg⟩
        · simp at h
    · simp at h
  · simp at h

theorem sound_suffix {n : Nat} (S : Sound n) : ∀ acc ts x r, pSuffix (n + 1) acc ts = some (x, r) → contSuffix r = false ∧ Step .suf acc x ts r := by
  intro acc ts x r h
  by_cases hc : contSuffix ts = false
  · rw [pSuffix_stop hc] at h
    simp at h; obtain ⟨rfl, rfl⟩ := h
    exact ⟨hc, .refl _ _ _⟩
  · simp only [Bool.not_eq_false] at hc
    have hn := not_stop_suffix hc
    unfold pSuffix at h
    split at h
    · split at h
      · rename_i hp
        obtain ⟨b, r0, rfl⟩ := peek_some hp
        obtain ⟨h1, h2⟩ := S.suffix _ _ _ _ h
        exact ⟨h1, .cons (t0 := [_, _]) rfl hn (fun ta hg => ⟨false, .call0 b hg, by simp⟩) h2⟩
      · split at h
        · rename_i ha
          obtain ⟨o, t1, b, r', rfl, he, hg1⟩ := S.args _ _ _ _ _ rfl ha
          simp at he; obtain ⟨rfl, rfl⟩ := he
          obtain ⟨h1, h2⟩ := S.suffix _ _ _ _ h
          rename_i as tr b' r'' _
          refine ⟨h1, .cons (t0 := (false, .lparen) :: (t1 ++ [(b', .rparen)])) (by simp) hn (fun ta hg => ⟨false, ?_, by simp⟩) h2⟩
          have := G.call b' hg hg1
          simpa using this
        · simp at h
    · split at h
      · rename_i b r' he
        obtain ⟨o, t1, rfl, hg1⟩ := sound_boundE S rfl he
        obtain ⟨h1, h2⟩ := S.suffix _ _ _ _ h
        refine ⟨h1, .cons (t0 := (false, .lsq) :: (t1 ++ [(b, .rsq)])) (by simp) hn (fun ta hg => ⟨false, ?_, by simp⟩) h2⟩
        have := G.index b hg hg1
        simpa using this
      · rename_i b r' he
        obtain ⟨o, t1, rfl, hg1⟩ := sound_bound S he
        split at h
        · rename_i b' r' he
          obtain ⟨o', t2, rfl, hg2⟩ := sound_bound S he
          obtain ⟨h1, h2⟩ := S.suffix _ _ _ _ h
          refine ⟨h1, .cons (t0 := (false, .lsq) :: (t1 ++ (b, .word .colon) :: (t2 ++ [(b', .rsq)]))) (by simp) hn (fun ta hg => ⟨false, ?_, by simp⟩) h2⟩
          have := G.slice b b' hg hg1 hg2
          simpa using this
        · rename_i b' r' he
          obtain ⟨o', t2, rfl, hg2⟩ := sound_bound S he
          split at h
          · rename_i b'' r' he
            obtain ⟨o'', t3, rfl, hg3⟩ := sound_bound S he
            obtain ⟨h1, h2⟩ := S.suffix _ _ _ _ h
            refine ⟨h1, .cons (t0 := (false, .lsq) :: (t1 ++ (b, .word .colon) :: (t2 ++ (b', .word .colon) :: (t3 ++ [(b'', .rsq)])))) (by simp) hn (fun ta hg => ⟨false, ?_, by simp⟩) h2⟩
            have := G.sliceStep b b' b'' hg hg1 hg2 hg3
            simpa using this
          · simp at h
        · simp at h
      · simp at h
    · rename_i s r0
      split at h
      · rename_i hp; simp [contSuffix, hp] at hc
      · obtain ⟨h1, h2⟩ := S.suffix _ _ _ _ h
        exact ⟨h1, .cons (t0 := [_]) rfl hn (fun ta hg => ⟨false, .bareVar s hg, by simp⟩) h2⟩
    · obtain ⟨h1, h2⟩ := S.suffix _ _ _ _ h
      exact ⟨h1, .cons (t0 := [_]) rfl hn (fun ta hg => ⟨false, .bareLit _ hg, by simp⟩) h2⟩
    · split at h
      · rename_i ht
        obtain ⟨o, t1, he, hg1, hs⟩ := S.term _ _ _ ht
        obtain ⟨h1, h2⟩ := S.suffix _ _ _ _ h
        refine ⟨h1, .cons (t0 := t1) he hn (fun ta hg => ?_) h2⟩
        cases hg1 with
        | ite b hg2 =>
          simp at he; obtain ⟨⟨rfl, -⟩, -⟩ := he
          exact ⟨true, .bareIf hg hg2, fun _ => hs rfl⟩
        | _ => simp at he
      · simp at h
    · split at h
      · obtain ⟨h1, h2⟩ := S.suffix _ _ _ _ h
        exact ⟨h1, .cons (t0 := [_, _]) rfl hn (fun ta hg => ⟨false, .field _ _ _ hg, by simp⟩) h2⟩
      · simp at h
    · rename_i hx
      exfalso
      unfold contSuffix at hc
      split at hc <;> simp_all

theorem sound_unary {n : Nat} (S : Sound n) : ∀ ts x r, pUnary (n + 1) ts = some (x, r) → contSuffix r = false ∧ Ph (.lvl 2) x ts r := by
  intro ts x r h
  unfold pUnary at h
  split at h
  · rename_i e r0 ht
    split at h
    · rename_i e' r' hsf
      simp at h; obtain ⟨rfl, rfl⟩ := h
      obtain ⟨tp, he, hp⟩ := prefixes_sound ts
      obtain ⟨h1, h2⟩ := S.suffix _ _ _ _ hsf
      obtain ⟨o, t1, h3, h4, h5⟩ := S.term _ _ _ ht
      obtain ⟨o', t2, h6, h7, h8⟩ := Step.ph (nt := .suf) ⟨o, t1, h3, .ofTerm h4, h5⟩ h2
      refine ⟨h1, o', tp ++ t2, ?_, unary_sound (.ofSuf h7) _ _ hp, h8⟩
      rw [List.append_assoc, ← h6]; exact he
    · simp at h
  · simp at h

theorem sound_lvl {n : Nat} (S : Sound n) : ∀ k ts x r, 2 ≤ k → k ≤ 9 → pLvl (n + 1) k ts = some (x, r) → StopL k r ∧ Ph (.lvl k) x ts r := by
  intro k ts x r h2 h9 h
  unfold pLvl at h
  split at h
  · obtain rfl : k = 2 := by omega
    obtain ⟨h1, h2⟩ := S.unary _ _ _ h
    exact ⟨⟨h1, fun j _ _ => by omega⟩, h2⟩
  · split at h
    · rename_i e r0 hl
      obtain ⟨hs, hph⟩ := S.lvl _ _ _ _ (by omega) (by omega) hl
      have hph' : Ph (.lvl k) e ts r0 := by
        obtain ⟨o, t1, h3, h4, h5⟩ := hph
        have := G.lift (show 2 ≤ k - 1 by omega) (by omega) h4
        rw [show k - 1 + 1 = k by omega] at this
        exact ⟨o, t1, h3, this, h5⟩
      split at h
      · rename_i h8
        subst h8
        split at h
        · rename_i hc
          simp at h; obtain ⟨rfl, rfl⟩ := h
          obtain ⟨h1, h2⟩ := S.chain _ _ _ hs hc
          rcases h2 with ⟨_, rfl⟩ | ⟨_, o, t1, _, hg, _⟩
          · exact ⟨h1, hph'⟩
          · exact absurd rfl hg.chainHead.1
        · rename_i hc
          simp at h; obtain ⟨rfl, rfl⟩ := h
          obtain ⟨h1, h2⟩ := S.chain _ _ _ hs hc
          rcases h2 with ⟨h2, _⟩ | ⟨hn, o, t1, rfl, hg, ho⟩
          · simp at h2
          · obtain ⟨o', t0, rfl, h4, h5⟩ := hph
            cases o' with
            | true => exact absurd (h5 rfl) hn
            | false => exact ⟨h1, o, t0 ++ t1, by simp, .compare h4 hg, ho⟩
        · simp at h
      · rename_i h8
        obtain ⟨h1, h2⟩ := S.loop _ _ _ _ _ (by omega) h9 h8 hs h
        exact ⟨h1, h2.ph hph'⟩
    · simp at h

theorem sound_loop {n : Nat} (S : Sound n) : ∀ k acc ts x r, 3 ≤ k → k ≤ 9 → k ≠ 8 → StopL (k - 1) ts → pLoop (n + 1) k acc ts = some (x, r) → StopL k r ∧ Step (.lvl k) acc x ts r := by
  intro k acc ts x r h3 h9 h8 hst h
  unfold pLoop at h
  split at h
  · rename_i op r0 ho
    split at h
    · rename_i hb
      simp at h; obtain ⟨rfl, rfl⟩ := h
      refine ⟨?_, .refl _ _ _⟩
      have := stopL_succ hst (by
        rw [show k - 1 + 1 = k by omega]
        simp only [stopOp, if_neg h8]
        intro op' r' ho'
        rw [ho] at ho'; simp at ho'; obtain ⟨rfl, rfl⟩ := ho'; exact hb)
      rwa [show k - 1 + 1 = k by omega] at this
    · rename_i hb
      split at h
      · rename_i e r1 hl
        obtain ⟨hs, o, t1, rfl, hg, hop⟩ := S.lvl _ _ _ _ (by omega) (by omega) hl
        obtain ⟨h1, h2⟩ := S.loop _ _ _ _ _ h3 h9 h8 hs h
        obtain ⟨hlv, top, rfl, htop, his⟩ := opAt_unfold ho
        subst hlv
        refine ⟨h1, .cons (t0 := top ++ t1) (by simp) (fun hse => hb (hse.notBlocked ho h3 h9 h8)) (fun ta hga => ⟨o, ?_, hop⟩) h2⟩
        have := G.bin op hga hg htop (fun e hp => his e (peek_append hp))
        simpa using this
      · simp at h
  · rename_i ho
    simp at h; obtain ⟨rfl, rfl⟩ := h
    refine ⟨?_, .refl _ _ _⟩
    have := stopL_succ hst (by
      rw [show k - 1 + 1 = k by omega]
      simp only [stopOp, if_neg h8]
      intro op' r' ho'
      rw [ho] at ho'; simp at ho')
    rwa [show k - 1 + 1 = k by omega] at this

theorem sound_chain {n : Nat} (S : Sound n) : ∀ ts ops r, StopL 7 ts → pChain (n + 1) ts = some (ops, r) →
    StopL 8 r ∧ (ops = [] ∧ ts = r ∨ ¬ StopE ts ∧ ∃ o t1, ts = t1 ++ r ∧ G .chain o (.ch ops) t1 ∧ (o = true → StopE r)) := by
  intro ts ops r hst h
  unfold pChain at h
  split at h
  · rename_i c r0 hc
    split at h
    · rename_i hp
      simp at h; obtain ⟨rfl, rfl⟩ := h
      refine ⟨stopL_succ hst ?_, .inl ⟨rfl, rfl⟩⟩
      simp only [stopOp, if_true]
      intro c' r' hc'; rw [hc] at hc'; simp at hc'; obtain ⟨_, rfl⟩ := hc'; exact hp
    · rename_i hp
      split at h
      · rename_i e r1 hl
        split at h
        · rename_i ops' r2 hch
          simp at h; obtain ⟨rfl, rfl⟩ := h
          obtain ⟨hs, o, t1, rfl, hg, ho⟩ := S.lvl _ _ _ _ (by omega) (by omega) hl
          obtain ⟨h1, h2⟩ := S.chain _ _ _ hs hch
          obtain ⟨b, rfl⟩ := cmpAt_unfold hc
          have hn : ¬ StopE ((b, Tok.cmp c) :: (t1 ++ r1)) := fun hse => by
            have := hse.1.2 8 (by omega) (by omega)
            simp only [stopOp, if_true] at this
            exact hp (this c _ rfl)
          refine ⟨h1, .inr ⟨hn, ?_⟩⟩
          rcases h2 with ⟨rfl, rfl⟩ | ⟨hn', o', t2, rfl, hg2, ho2⟩
          · exact ⟨o, _ :: t1, rfl, .cmp1 b c hg, ho⟩
          · cases o with
            | true => exact absurd (ho rfl) hn'
            | false => exact ⟨o', _ :: t1 ++ t2, by simp, .cmpMore b c hg hg2, ho2⟩
        · simp at h
      · simp at h
  · rename_i hc
    simp at h; obtain ⟨rfl, rfl⟩ := h
    refine ⟨stopL_succ hst ?_, .inl ⟨rfl, rfl⟩⟩
    simp only [stopOp, if_true]
    intro c' r' hc'; rw [hc] at hc'; simp at hc'

theorem sound_expr {n : Nat} (S : Sound n) : ∀ ts x r, pExpr (n + 1) ts = some (x, r) → StopE r ∧ ∃ o t1, ts = t1 ++ r ∧ G .expr o (.e x) t1 := by
  intro ts x r h
  unfold pExpr at h
  split at h
  · rename_i l r0 hl
    obtain ⟨hs, o, t1, rfl, hg, ho⟩ := S.lvl _ _ _ _ (by omega) (by omega) hl
    split at h
    · rename_i op r1 ha
      split at h
      · rename_i hass
        split at h
        · rename_i e r2 he
          simp at h; obtain ⟨rfl, rfl⟩ := h
          obtain ⟨hs2, o2, t2, rfl, hg2⟩ := S.expr _ _ _ he
          obtain ⟨ta, rfl, hta⟩ := asgAt_unfold ha
          cases o with
          | true => have := (ho rfl).2; rw [ha] at this; simp at this
          | false => exact ⟨hs2, o2, t1 ++ ta ++ t2, by simp, .assign op hg hass hta hg2⟩
        · simp at h
      · simp at h
    · rename_i ha
      simp at h; obtain ⟨rfl, rfl⟩ := h
      exact ⟨⟨hs, ha⟩, o, t1, rfl, .ofLvl hg⟩
  · simp at h

theorem sound (n : Nat) : Sound n := by
  induction n with
  | zero => constructor <;> intros <;> simp_all [pTerm, pEntries, pThen, pArgs, pArg, pArgE, pSuffix, pUnary, pLvl, pLoop, pChain, pExpr]
  | succ n S =>
    exact ⟨sound_term S, sound_then S, sound_args S, sound_arg S, sound_argE S, sound_entries S, sound_suffix S, sound_unary S, sound_lvl S, sound_loop S, sound_chain S, sound_expr S⟩

end Cordy.Grammar
