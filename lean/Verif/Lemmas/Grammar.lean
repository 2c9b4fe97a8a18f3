import Verif.Spec.Grammar
/-! Lemmas: the parser accepts the phrases of the grammar. -/
namespace Cordy.Grammar

/-- The suffix loop goes on at these tokens. -/
def contSuffix : List T → Bool
  | (false, .lparen) :: _ => true
  | (false, .lsq) :: _ => true
  | (false, .ident _) :: r => !(peek r == some .eq)
  | (false, .lit _) :: _ => true
  | (false, .kIf) :: _ => true
  | (_, .arrow) :: _ => true
  | _ => false

/-- The loop of level `k` stops at these tokens. -/
def stopOp (k : Nat) (ts : List T) : Prop :=
  if k = 8 then ∀ c r, cmpAt ts = some (c, r) → peek r = some .rparen
  else ∀ op r, opAt k ts = some (op, r) → blocked op r = true

def StopL (k : Nat) (ts : List T) : Prop :=
  contSuffix ts = false ∧ ∀ j, 3 ≤ j → j ≤ k → stopOp j ts

def StopE (ts : List T) : Prop := StopL 9 ts ∧ asgAt ts = none

theorem StopL.mono {k j : Nat} {ts : List T} (h : StopL k ts) (hj : j ≤ k) : StopL j ts :=
  ⟨h.1, fun i h1 h2 => h.2 i h1 (by omega)⟩

theorem StopE.lvl {k : Nat} {ts : List T} (h : StopE ts) (hk : k ≤ 9) : StopL k ts := h.1.mono hk

/-- Tokens at which every loop stops. -/
def neutral : Tok → Bool
  | .rparen | .rsq | .comma | .kThen | .kElif | .kElse | .ellipsis | .word _ => true
  | _ => false

theorem opAt_head {k : Nat} {b : Bool} {t : Tok} {ts : List T} (h : neutral t = true) : opAt k ((b, t) :: ts) = none := by
  unfold opAt
  split
  · cases t <;> simp [neutral] at h <;> rfl
  all_goals (first | rfl | (cases t <;> simp [neutral] at h <;> rfl))

theorem stopE_neutral {b : Bool} {t : Tok} {ts : List T} (h : neutral t = true) : StopE ((b, t) :: ts) := by
  refine ⟨⟨?_, fun j _ _ => ?_⟩, ?_⟩
  · cases t <;> simp [neutral] at h <;> cases b <;> rfl
  · unfold stopOp
    split
    · intro c r hc; cases t <;> simp [neutral] at h <;> simp [cmpAt] at hc
    · intro op r ho; rw [opAt_head h] at ho; simp at ho
  · cases t <;> simp [neutral] at h <;> rfl

theorem stopE_nil : StopE [] := by
  refine ⟨⟨rfl, fun j _ _ => ?_⟩, rfl⟩
  unfold stopOp
  split
  · intro c r hc; simp [cmpAt] at hc
  · intro op r ho
    unfold opAt at ho
    split at ho <;> simp [op3] at ho

/-! ## Results with enough fuel -/

def Gives {α : Type} (f : Nat → Option α) (a : α) : Prop := ∃ N, ∀ n, N ≤ n → f n = some a

theorem Gives.const {α : Type} (a : α) : Gives (fun _ => some a) a := ⟨0, fun _ _ => rfl⟩

theorem Gives.succ {α : Type} {f g : Nat → Option α} {a : α} (h : Gives g a) (hf : ∀ n, f (n + 1) = g n) : Gives f a := by
  obtain ⟨N, hN⟩ := h
  refine ⟨N + 1, fun n hn => ?_⟩
  cases n with
  | zero => omega
  | succ n => rw [hf]; exact hN n (by omega)

theorem Gives.congr {α : Type} {f g : Nat → Option α} {a : α} (h : Gives g a) (hf : ∀ n, f n = g n) : Gives f a := by
  obtain ⟨N, hN⟩ := h
  exact ⟨N, fun n hn => by rw [hf]; exact hN n hn⟩

theorem Gives.bind {α β : Type} {f : Nat → Option α} {a : α} {g : Nat → α → Option β} {b : β} (h : Gives f a) (h' : Gives (fun n => g n a) b) :
    Gives (fun n => (f n).bind (g n)) b := by
  obtain ⟨N, hN⟩ := h
  obtain ⟨N', hN'⟩ := h'
  refine ⟨N + N', fun n hn => ?_⟩
  simp only [hN n (by omega), Option.bind_some]
  exact hN' n (by omega)

/-! ## First tokens -/

def startTok : Tok → Bool
  | .lit _ | .ident _ | .lparen | .lsq | .kIf | .minus | .bang | .kNot | .word .lbrace => true
  | _ => false

/-- The first token starts an expression, and so does the one after a prefix operator. -/
def Starts (ts : List T) : Prop :=
  ∃ b t r, ts = (b, t) :: r ∧ startTok t = true ∧ (prefixOf t ≠ none → ∃ b' t' r', r = (b', t') :: r' ∧ startTok t' = true)

theorem Starts.append {ts r : List T} (h : Starts ts) : Starts (ts ++ r) := by
  obtain ⟨b, t, r0, rfl, h1, h2⟩ := h
  refine ⟨b, t, r0 ++ r, rfl, h1, fun hp => ?_⟩
  obtain ⟨b', t', r', rfl, h3⟩ := h2 hp
  exact ⟨b', t', r' ++ r, rfl, h3⟩

/-- Which kinds of phrases are expressions. -/
def Nt.isE : Nt → Bool
  | .term | .suf | .lvl _ | .expr | .cond => true
  | _ => false

theorem G.starts {nt : Nt} {o : Bool} {r : Res} {ts : List T} (h : G nt o r ts) (hn : nt.isE = true) : Starts ts := by
  induction h with
  | lit b n => exact ⟨b, _, _, rfl, rfl, by simp [prefixOf]⟩
  | var b s => exact ⟨b, _, _, rfl, rfl, by simp [prefixOf]⟩
  | paren b b' _ _ => exact ⟨b, _, _, rfl, rfl, by simp [prefixOf]⟩
  | list0 b b' => exact ⟨b, _, _, rfl, rfl, by simp [prefixOf]⟩
  | list b b' _ _ => exact ⟨b, _, _, rfl, rfl, by simp [prefixOf]⟩
  | set0 b b' => exact ⟨b, _, _, rfl, rfl, by simp [prefixOf]⟩
  | set b b' _ _ => exact ⟨b, _, _, rfl, rfl, by simp [prefixOf]⟩
  | dict b b' _ _ => exact ⟨b, _, _, rfl, rfl, by simp [prefixOf]⟩
  | ite b _ _ => exact ⟨b, _, _, rfl, rfl, by simp [prefixOf]⟩
  | condElse b b' _ _ _ ih1 ih2 ih3 => rw [List.append_assoc]; exact (ih1 rfl).append
  | condElif b b' _ _ _ ih1 ih2 ih3 => rw [List.append_assoc]; exact (ih1 rfl).append
  | ofTerm _ ih => exact ih rfl
  | call0 b _ ih => exact (ih rfl).append
  | call b _ _ ih _ => rw [List.append_assoc]; exact (ih rfl).append
  | index b _ _ ih _ => rw [List.append_assoc]; exact (ih rfl).append
  | slice b b' _ _ _ ih _ _ => simp only [List.append_assoc]; exact (ih rfl).append
  | sliceStep b b' b'' _ _ _ _ ih _ _ _ => simp only [List.append_assoc]; exact (ih rfl).append
  | bareLit n _ ih => exact (ih rfl).append
  | bareVar s _ ih => exact (ih rfl).append
  | bareIf _ _ ih _ => exact (ih rfl).append
  | field b b' s _ ih => exact (ih rfl).append
  | ofSuf _ ih => exact ih rfl
  | unary b p _ ih =>
    obtain ⟨b', t', r', rfl, h1, h2⟩ := ih rfl
    exact ⟨b, _, _, rfl, by cases p <;> rfl, fun _ => ⟨b', t', r', rfl, h1⟩⟩
  | lift _ _ _ ih => exact ih rfl
  | bin op _ _ _ _ ih _ => rw [List.append_assoc]; exact (ih rfl).append
  | compare _ _ ih _ => exact (ih rfl).append
  | ofLvl _ ih => exact ih rfl
  | assign a _ _ _ _ ih _ => rw [List.append_assoc]; exact (ih rfl).append
  | noBound | bound | cmp1 | cmpMore | argExpr | argUnary | argField | argUnroll | argOp | argLeft | argRight | args1 | argsTrail | argsMore | entUnroll | entPair | ent1 | entTrail | entMore => simp [Nt.isE] at hn

theorem Starts.peek {ts : List T} (h : Starts ts) : ∃ t, peek ts = some t ∧ startTok t = true := by
  obtain ⟨b, t, r, rfl, h1, _⟩ := h
  exact ⟨t, rfl, h1⟩

theorem peek_append {ts r : List T} {t : Tok} (h : peek ts = some t) : peek (ts ++ r) = some t := by
  cases ts with
  | nil => simp [peek] at h
  | cons a ts => simpa [peek] using h

theorem startTok_ne {t : Tok} (h : startTok t = true) : t ≠ .rparen ∧ t ≠ .rsq ∧ t ≠ .comma ∧ t ≠ .word .rbrace ∧ t ≠ .word .colon := by
  cases t <;> (try (rename_i w; cases (w : Word))) <;> simp [startTok] at h <;> simp

theorem Starts.notEnds {ts : List T} (h : Starts ts) : endsArg ts = false := by
  obtain ⟨b, t, r, rfl, h1, h2⟩ := h
  cases t <;> (try (rename_i w; cases (w : Word))) <;> simp [startTok] at h1 <;> rfl

/-! ## Operators -/

/-- The token list of an operator is recognised at its level, and the levels below stop before it. -/
theorem opAt_spell (op : Infix) (top r : List T) (h : top.map (·.2) = spell op) (his : op = .is → peek r ≠ some .kNot) :
    opAt (level op) (top ++ r) = some (op, r) := by
  cases op <;> simp only [spell] at h
  case isNot =>
    match top, h with
    | [(b, t), (b', t')], h => simp at h; obtain ⟨rfl, rfl⟩ := h; rfl
  case notIn =>
    match top, h with
    | [(b, t), (b', t')], h => simp at h; obtain ⟨rfl, rfl⟩ := h; rfl
  case is =>
    match top, h with
    | [(b, t)], h =>
      simp at h; subst h
      have := his rfl
      match r, this with
      | [], _ => rfl
      | (b', t') :: r', h' =>
        simp [peek] at h'
        cases t' <;> first | rfl | simp at h'
  all_goals
    match top, h with
    | [(b, t)], h => simp at h; subst h; rfl

theorem opAt_other (op : Infix) (top r : List T) (h : top.map (·.2) = spell op) (j : Nat) (hj : j ≠ level op) (hj8 : 3 ≤ j) : opAt j (top ++ r) = none := by
  have key : ∀ t b r', (spell op).head? = some t → top ++ r = (b, t) :: r' → opAt j ((b, t) :: r') = none := by
    intro t b r' ht he
    cases op <;> simp [spell] at ht <;> subst ht <;> simp only [level] at hj <;>
      (unfold opAt; split <;> first | rfl | omega | skip)
    all_goals
      (match top, h, he with
        | [(b1, t1), (b2, t2)], h, he =>
          simp [spell] at h he
          obtain ⟨rfl, rfl⟩ := h
          obtain ⟨_, rfl⟩ := he
          first | rfl | omega)
  match top, h with
  | [], h => cases op <;> simp [spell] at h
  | (b, t) :: top', h =>
    refine key t b (top' ++ r) ?_ rfl
    rw [← h]; rfl

theorem cmpAt_spell (op : Infix) (top r : List T) (h : top.map (·.2) = spell op) : cmpAt (top ++ r) = none := by
  match top, h with
  | [], h => cases op <;> simp [spell] at h
  | (b, t) :: top', h => cases op <;> simp [spell] at h <;> (try obtain ⟨rfl, _⟩ := h) <;> rfl

theorem contSuffix_spell (op : Infix) (top r : List T) (h : top.map (·.2) = spell op) : contSuffix (top ++ r) = false := by
  match top, h with
  | [], h => cases op <;> simp [spell] at h
  | (b, t) :: top', h => cases op <;> simp [spell] at h <;> (try obtain ⟨rfl, _⟩ := h) <;> cases b <;> rfl

theorem level_range (op : Infix) : 3 ≤ level op ∧ level op ≤ 9 ∧ level op ≠ 8 := by cases op <;> simp [level]

/-- An operator stops the levels below its own. -/
theorem stopL_op (op : Infix) (top r : List T) (h : top.map (·.2) = spell op) : StopL (level op - 1) (top ++ r) := by
  refine ⟨contSuffix_spell op top r h, fun j h3 hj => ?_⟩
  have := level_range op
  unfold stopOp
  split
  · intro c r' hc; rw [cmpAt_spell op top r h] at hc; simp at hc
  · intro op' r' ho; rw [opAt_other op top r h j (by omega) h3] at ho; simp at ho

theorem stopL_cmp (b : Bool) (c : Cmp) (r : List T) : StopL 7 ((b, .cmp c) :: r) := by
  refine ⟨by cases b <;> rfl, fun j h3 hj => ?_⟩
  unfold stopOp
  rw [if_neg (by omega)]
  intro op r' ho
  exfalso
  unfold opAt at ho
  split at ho <;> simp [op3] at ho

theorem peek_spell (op : Infix) (top r : List T) (h : top.map (·.2) = spell op) : peek (top ++ r) ≠ some .eq := by
  match top, h with
  | [], h => cases op <;> simp [spell] at h
  | (b, t) :: top', h => cases op <;> simp [spell] at h <;> (try obtain ⟨rfl, _⟩ := h) <;> simp_all [peek]

theorem asgAt_spell (a : Asg) (ta r : List T) (h : ta.map (·.2) = spellAsg a) : asgAt (ta ++ r) = some (a, r) := by
  cases a <;> simp only [spellAsg] at h
  case max =>
    match ta, h with
    | [(b, t), (b', t')], h => simp at h; obtain ⟨rfl, rfl⟩ := h; rfl
  case min =>
    match ta, h with
    | [(b, t), (b', t')], h => simp at h; obtain ⟨rfl, rfl⟩ := h; rfl
  all_goals
    match ta, h with
    | [(b, t)], h => simp at h; subst h; rfl

theorem stopL_asg (a : Asg) (ta r : List T) (h : ta.map (·.2) = spellAsg a) : StopL 9 (ta ++ r) := by
  have hh : ∃ b t r', ta ++ r = (b, t) :: r' ∧ (t = .eq ∨ (∃ a, t = .asg a) ∨ (∃ s, t = .ident s ∧ peek r' = some .eq)) := by
    cases a <;> simp only [spellAsg] at h
    case max =>
      match ta, h with
      | [(b, t), (b', t')], h => simp at h; obtain ⟨rfl, rfl⟩ := h; exact ⟨b, _, _, rfl, .inr (.inr ⟨_, rfl, rfl⟩)⟩
    case min =>
      match ta, h with
      | [(b, t), (b', t')], h => simp at h; obtain ⟨rfl, rfl⟩ := h; exact ⟨b, _, _, rfl, .inr (.inr ⟨_, rfl, rfl⟩)⟩
    case eq =>
      match ta, h with
      | [(b, t)], h => simp at h; subst h; exact ⟨b, _, _, rfl, .inl rfl⟩
    all_goals
      match ta, h with
      | [(b, t)], h => simp at h; subst h; exact ⟨b, _, _, rfl, .inr (.inl ⟨_, rfl⟩)⟩
  obtain ⟨b, t, r', he, ht⟩ := hh
  rw [he]
  refine ⟨?_, fun j h3 hj => ?_⟩
  · rcases ht with rfl | ⟨a, rfl⟩ | ⟨s, rfl, hp⟩
    · cases b <;> rfl
    · cases b <;> rfl
    · cases b
      · simp [contSuffix, hp]
      · rfl
  · unfold stopOp
    split
    · intro c r'' hc; rcases ht with rfl | ⟨a, rfl⟩ | ⟨s, rfl, hp⟩ <;> simp [cmpAt] at hc
    · intro op r'' ho
      exfalso
      unfold opAt at ho
      rcases ht with rfl | ⟨a, rfl⟩ | ⟨s, rfl, hp⟩ <;> split at ho <;> simp [op3] at ho

end Cordy.Grammar
