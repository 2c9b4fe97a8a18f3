import Verif.Model.Parser

/-!
# The parser ends

`T` is a calculus for the rules: following a rule's program, it tracks if the input got shorter (or error recovery began), what is known of the next tokens, and demands of every call that the input got shorter
or the called rule has a smaller rank. `T_run`: if every rule satisfies it, then every rule ends, with a depth of calls linear in the number of tokens.
-/
namespace Cordy.Parser
open Cordy.Scan (Token)

/-- The tokens left, without line breaks. -/
def toks (s : St) : List Token := s.input.filter (fun t => t != .newLine)

/-- Twice the number of tokens left, plus one if they are seen. -/
def mu (s : St) : Nat := 2 * (toks s).length + if vis s = [] then 0 else 1

theorem vis_eq (s : St) : vis s = if s.recov then [] else toks s := rfl

theorem vis_recov {s : St} (h : vis s ≠ []) : s.recov = false ∧ vis s = toks s := by
  rw [vis_eq] at h ⊢
  split at h
  · exact absurd rfl h
  · rename_i hr
    simp [hr]

theorem mu_act {s : St} (h : vis s ≠ []) : mu s = 2 * (toks s).length + 1 := by simp [mu, h]
theorem mu_blind {s : St} (h : vis s = []) : mu s = 2 * (toks s).length := by simp [mu, h]

theorem mu_le_toks (s : St) : mu s ≤ 2 * (toks s).length + 1 := by
  unfold mu; split <;> omega

theorem filter_dropWhile (l : List Token) :
    l.filter (fun t => t != .newLine) = (l.dropWhile (fun t => t == .newLine)).filter (fun t => t != .newLine) := by
  induction l with
  | nil => rfl
  | cons a l ih =>
    rw [List.dropWhile_cons]
    by_cases h : a = .newLine
    · subst h; simp [ih]
    · have : (a == Token.newLine) = false := by simpa using h
      rw [this]; rfl

theorem dropWhile_head {l : List Token} {t : Token} {r : List Token} (h : l.dropWhile (fun t => t == .newLine) = t :: r) :
    t ≠ .newLine := by
  induction l with
  | nil => simp at h
  | cons a l ih =>
    rw [List.dropWhile_cons] at h
    split at h
    · exact ih h
    · rename_i hn
      cases h
      simpa using hn

theorem advance_blind {s : St} (h : vis s = []) :
    (advance s).1 = none ∧ vis (advance s).2 = [] ∧ mu (advance s).2 = mu s := by
  unfold advance
  split
  · exact ⟨rfl, h, rfl⟩
  · rename_i hr
    have ht : toks s = [] := by simpa [vis_eq, hr] using h
    have hf := filter_dropWhile s.input
    split
    · refine ⟨rfl, ?_, ?_⟩
      · simp [vis]
      · rw [mu_blind (s := s) h, ht]; simp [mu, vis, toks]
    · rename_i t rest he
      have hd := dropWhile_head he
      rw [he] at hf
      unfold toks at ht
      rw [ht, List.filter_cons_of_pos (by simpa using hd)] at hf
      cases hf

theorem advance_act {s : St} {t : Token} {r : List Token} (h : vis s = t :: r) :
    (advance s).1 = some t ∧ vis (advance s).2 = r ∧ mu (advance s).2 < mu s ∧ (advance s).2.recov = false := by
  have ⟨hr, ht⟩ := vis_recov (s := s) (by rw [h]; simp)
  rw [h] at ht
  unfold advance
  rw [if_neg (by simp [hr])]
  have hf := filter_dropWhile s.input
  unfold toks at ht
  rw [← ht] at hf
  split
  · rename_i he; rw [he] at hf; cases hf
  · rename_i u rest he
    have hd := dropWhile_head he
    rw [he, List.filter_cons_of_pos (by simpa using hd)] at hf
    have hu : t = u := (List.cons.inj hf).1
    have hs : rest.filter (fun t => t != .newLine) = r := (List.cons.inj hf).2.symm
    refine ⟨by rw [hu], ?_, ?_, hr⟩
    · show (if s.recov then [] else rest.filter _) = r
      rw [hr]; exact hs
    · rw [mu_act (s := s) (by rw [h]; simp)]
      have h1 : (toks s).length = r.length + 1 := by unfold toks; rw [← ht]; rfl
      have h2 := mu_le_toks { s with input := rest }
      have h3 : (toks { s with input := rest }).length = r.length := by
        show (rest.filter _).length = _
        rw [hs]
      show mu { s with input := rest } < _
      omega

theorem doError_vis (s : St) (ty : ErrTy) (g : Option Token) : vis (doError s ty g true) = [] := by
  simp [vis, doError]

theorem doError_toks (s : St) (ty : ErrTy) (g : Option Token) (l : Bool) : toks (doError s ty g l) = toks s := rfl

theorem doError_mu (s : St) (ty : ErrTy) (g : Option Token) :
    mu (doError s ty g true) ≤ mu s ∧ (vis s ≠ [] → mu (doError s ty g true) < mu s) := by
  rw [mu_blind (doError_vis s ty g), doError_toks]
  constructor
  · unfold mu; omega
  · intro h; rw [mu_act h]; omega

theorem doSem_cases (s : St) :
    toks (doSem s) = toks s ∧ (vis (doSem s) = vis s ∨ vis (doSem s) = []) := by
  unfold doSem
  dsimp only
  split
  · exact ⟨rfl, .inl rfl⟩
  · refine ⟨rfl, .inl ?_⟩
    simp [vis, doError]
  · exact ⟨rfl, .inr (doError_vis _ _ _)⟩

theorem doSem_mu (s : St) : mu (doSem s) ≤ mu s := by
  obtain ⟨ht, hv⟩ := doSem_cases s
  unfold mu
  rw [ht]
  rcases hv with hv | hv
  · rw [hv]
  · rw [hv, if_pos rfl]; omega

theorem skipTo_length {t : Token} {l r : List Token} (h : skipTo t l = some r) (ht : t ≠ .newLine) :
    (r.filter (fun t => t != .newLine)).length < (l.filter (fun t => t != .newLine)).length := by
  induction l with
  | nil => cases h
  | cons a l ih =>
    rw [skipTo] at h
    split at h
    · rename_i ha
      cases h
      subst ha
      rw [List.filter_cons_of_pos (by simpa using ht)]
      simp
    · have := ih h
      by_cases ha : a = .newLine
      · subst ha; simpa using this
      · rw [List.filter_cons_of_pos (by simpa using ha)]
        simp only [List.length_cons]
        omega

theorem doResync_mu (s : St) (t : Token) (ht : t ≠ .newLine) : mu (doResync s t) ≤ mu s := by
  unfold doResync
  split
  · rename_i h
    cases hv : vis s with
    | nil => rw [hv] at h; cases h
    | cons a r => exact Nat.le_of_lt (advance_act hv).2.2.1
  · split
    · rename_i rest hk
      have h1 := skipTo_length hk ht
      have h2 := mu_le_toks { s with input := rest, recov := false }
      have h3 : 2 * (toks s).length ≤ mu s := by unfold mu; omega
      have h4 : (toks { s with input := rest, recov := false }).length < (toks s).length := h1
      omega
    · split
      · have : mu { s with input := [], recov := false } = 0 := by simp [mu, toks, vis]
        omega
      · have : mu (doError { s with input := [] } (.expectedToken t) none true) = 0 := by
          rw [mu_blind (doError_vis _ _ _), doError_toks]; rfl
        omega

/-! ## The calculus -/

inductive V where
  | unk | blind | act
  deriving DecidableEq

abbrev K := Option Token → Prop
def K.top : K := fun _ => True
def K.is (o : Option Token) : K := fun x => x = o

/-- Rank of a rule when tokens are seen. -/
def rankA : Rule → Nat
  | .root => 30 | .evalRoot => 30 | .statements => 20 | .namedFunction => 14
  | .exprStatement => 12 | .e11 _ => 11 | .e10 => 10 | .e9 => 9 | .e8 => 8 | .e7 => 7 | .e6 => 6 | .e5 => 5 | .e4 => 4 | .e3 => 3
  | .unary => 2 | .terminal => 1 | .suffixLoop => 2 | .commaArg => 12 | .dictLoop _ => 13 | .lvalue => 0 | .lvalueTerms => 1 | .letLoop => 2
  | .paramLoop _ => 1 | .functionBody => 0 | .structOrModule _ => 13 | .nativeModule => 13 | .annotated => 13 | .returnS => 13 | .ifS => 13
  | .whileS => 13 | .doS => 13 | .loopS => 13 | .forS => 13 | .breakS => 13 | .continueS => 13 | .assertS => 13 | .letS => 13
  | _ => 0

/-- Rank of a rule when no tokens are seen. -/
def rankB : Rule → Nat
  | .root => 30 | .evalRoot => 30 | .block => 1
  | .unary => 1 | .e3 => 2 | .e4 => 3 | .e5 => 4 | .e6 => 5 | .e7 => 6 | .e8 => 7 | .e9 => 8 | .e10 => 9 | .e11 _ => 10
  | .exprStatement => 11 | .commaArg => 11 | .thenElse => 11 | .returnS => 11
  | .commaExpr => 12 | .sliceLit => 12 | .dictLoop _ => 12 | .ifThenElse => 12
  | .listOrSlice => 13 | .dictOrSet => 13
  | .lvalueTerms => 1 | .letLoop => 9 | .letS => 10 | .paramLoop _ => 11 | .params _ _ => 12 | .nativeFunction => 13
  | .namedFunction => 20 | .exprFunction => 20 | .annotated => 21 | .methodLoop _ => 20 | .structOrModule _ => 21 | .nativeLoop => 20
  | .nativeModule => 21 | .ifS => 20 | .whileS => 20 | .doS => 20 | .loopS => 20 | .forS => 20 | .assertS => 20
  | _ => 0

/-- The rules that always take a token or start error recovery. -/
def prog : Rule → Bool
  | .root | .evalRoot | .statements | .prefixLoop | .suffixLoop => false
  | .l3 | .l4 | .l5 | .l6 | .l7 | .l8 | .l9 | .l10 => false
  | .structLoop | .methodLoop _ | .nativeLoop | .commaLoop | .listLoop | .functionBody => false
  | _ => true

/-- `dec`: `mu` got smaller since the rule began; `ifa`: it did if tokens were seen when the rule began. -/
def T (r0 : Rule) : Prog α → (dec ifa : Bool) → V → (k0 k1 : K) → (α → Bool → Bool → V → K → K → Prop) → Prop
  | .ret a, d, i, v, k0, k1, Q => Q a d i v k0 k1
  | .peek 0 f, d, i, v, k0, k1, Q =>
    (v ≠ .act → k0 none → T r0 (f none) d true .blind (K.is none) (K.is none) Q) ∧
    (v ≠ .blind → ∀ t, k0 (some t) → T r0 (f (some t)) (d || i) i .act (K.is (some t)) k1 Q)
  | .peek (k + 1) f, d, i, v, k0, k1, Q =>
    (k1 none ∨ k ≠ 0 → T r0 (f none) d i v k0 (if k = 0 then K.is none else k1) Q) ∧
    (v ≠ .blind → ∀ t, k1 (some t) ∨ k ≠ 0 →
      T r0 (f (some t)) (d || i) i .act (fun o => k0 o ∧ o ≠ none) (if k = 0 then K.is (some t) else k1) Q)
  | .peekNN f, d, i, v, k0, k1, Q =>
    T r0 (f none) d i v k0 k1 Q ∧ T r0 (f (some .newLine)) d i v k0 k1 Q ∧
    (v ≠ .blind → ∀ t, t ≠ .newLine → k0 (some t) → T r0 (f (some t)) (d || i) i .act (K.is (some t)) k1 Q)
  | .adv f, d, i, v, k0, k1, Q =>
    (v ≠ .act → k0 none → T r0 (f none) d true .blind (K.is none) (K.is none) Q) ∧
    (v ≠ .blind → ∀ t, k0 (some t) → T r0 (f (some t)) true true .unk k1 K.top Q)
  | .call r f, d, i, v, _, _, Q =>
    (d = true ∨ ((i = true ∨ v = .blind ∨ rankA r < rankA r0) ∧ (v = .act ∨ rankB r < rankB r0))) ∧
    ∀ b, T r0 (f b) (d || (prog r && v == .act)) (i || prog r) .unk K.top K.top Q
  | .err _ f, d, _, v, _, _, Q => T r0 f (d || v == .act) true .blind (K.is none) (K.is none) Q
  | .resync t f, d, i, _, _, _, Q => t ≠ .newLine ∧ T r0 f d i .unk K.top K.top Q
  | .sem f, d, i, v, k0, k1, Q =>
    T r0 f d i (if v = .act then .unk else v) (fun o => k0 o ∨ o = none) (fun o => k1 o ∨ o = none) Q
  | .panic, _, _, _, _, _, _ => False

theorem T_bind (r0 : Rule) (p : Prog α) (g : α → Prog β) (d i : Bool) (v : V) (k0 k1 : K) (Q) :
    T r0 (p.bind g) d i v k0 k1 Q = T r0 p d i v k0 k1 (fun a d i v k0 k1 => T r0 (g a) d i v k0 k1 Q) := by
  induction p generalizing d i v k0 k1 with
  | ret a => rfl
  | peek k f ih => cases k <;> simp only [Prog.bind, T, ih]
  | peekNN f ih => simp only [Prog.bind, T, ih]
  | adv f ih => simp only [Prog.bind, T, ih]
  | call r f ih => simp only [Prog.bind, T, ih]
  | err ty f ih => simp only [Prog.bind, T, ih]
  | resync t f ih => simp only [Prog.bind, T, ih]
  | sem f ih => simp only [Prog.bind, T, ih]
  | panic => rfl

/-- What the calculus says of the state `s`, when the rule began in `s0`. -/
structure Abs (s0 s : St) (d i : Bool) (v : V) (k0 k1 : K) : Prop where
  le : mu s ≤ mu s0
  dec : d = true → mu s < mu s0
  ifa : i = true → vis s0 ≠ [] → mu s < mu s0
  blind : v = .blind → vis s = []
  act : v = .act → vis s ≠ []
  k0 : k0 (vis s)[0]?
  k1 : k1 (vis s)[1]?

theorem blind_ifa {s0 s : St} (le : mu s ≤ mu s0) (h : vis s = []) (h0 : vis s0 ≠ []) : mu s < mu s0 := by
  rw [mu_blind h] at *; rw [mu_act h0] at *; omega

theorem act_dec {s0 s : St} {d i : Bool} (le : mu s ≤ mu s0) (dec : d = true → mu s < mu s0) (ifa : i = true → vis s0 ≠ [] → mu s < mu s0)
    (h : vis s ≠ []) : (d || i) = true → mu s < mu s0 := by
  intro hd
  cases hdd : d
  · cases hii : i
    · rw [hdd, hii] at hd; cases hd
    · by_cases h0 : vis s0 = []
      · rw [mu_act h] at *; rw [mu_blind h0] at *; omega
      · exact ifa hii h0
  · exact dec hdd

/-- The end of a rule. -/
def QT (r0 : Rule) : Bool → Bool → Bool → V → K → K → Prop := fun _ d i _ _ _ => prog r0 = true → (d || i) = true

/-- How deep the calls are nested, at most. -/
def bound (r : Rule) (s : St) : Nat := 40 * mu s + (if vis s = [] then rankB r else rankA r)

theorem rank_lt (r : Rule) : rankA r < 40 ∧ rankB r < 40 := by
  cases r <;> exact ⟨by simp [rankA], by simp [rankB]⟩

/-- A rule that ended. -/
structure Ends (r : Rule) (s : St) (x : Res Bool) : Prop where
  ends : ∃ b s', x = .done b s' ∧ mu s' ≤ mu s ∧ (prog r = true → vis s ≠ [] → mu s' < mu s)

theorem T_runP {r0 : Rule} {s0 : St} {f : Rule → St → Res Bool}
    (hf : ∀ r s, bound r s < bound r0 s0 → Ends r s (f r s))
    (p : Prog α) : ∀ (s : St) (d i : Bool) (v : V) (k0 k1 : K) (Q : α → Bool → Bool → V → K → K → Prop),
    Abs s0 s d i v k0 k1 → T r0 p d i v k0 k1 Q →
    ∃ a s', runP f p s = .done a s' ∧ ∃ d' i' v' k0' k1', Abs s0 s' d' i' v' k0' k1' ∧ Q a d' i' v' k0' k1' := by
  induction p with
  | ret a => intro s d i v k0 k1 Q hA hT; exact ⟨a, s, rfl, d, i, v, k0, k1, hA, hT⟩
  | peek k g ih =>
    intro s d i v k0 k1 Q hA hT
    rw [runP]
    cases k with
    | zero =>
      cases hv : (vis s)[0]? with
      | none =>
        have hb : vis s = [] := by
          cases hvv : vis s with
          | nil => rfl
          | cons a l => rw [hvv] at hv; cases hv
        refine ih _ s _ _ _ _ _ Q ?_ (hT.1 ?_ ?_)
        · exact ⟨hA.le, hA.dec, fun _ h0 => blind_ifa hA.le hb h0, fun _ => hb, nofun, hv, by rw [hb]; rfl⟩
        · intro h; exact hA.act h hb
        · rw [← hv]; exact hA.k0
      | some t =>
        have hb : vis s ≠ [] := by intro h; rw [h] at hv; cases hv
        refine ih _ s _ _ _ _ _ Q ?_ (hT.2 ?_ t ?_)
        · exact ⟨hA.le, act_dec hA.le hA.dec hA.ifa hb, hA.ifa, nofun, fun _ => hb, hv, hA.k1⟩
        · intro h; exact hb (hA.blind h)
        · rw [← hv]; exact hA.k0
    | succ k =>
      cases hv : (vis s)[k + 1]? with
      | none =>
        refine ih _ s _ _ _ _ _ Q ?_ (hT.1 ?_)
        · refine ⟨hA.le, hA.dec, hA.ifa, hA.blind, hA.act, hA.k0, ?_⟩
          split
          · rename_i hk; subst hk; exact hv
          · exact hA.k1
        · cases k with
          | zero => left; rw [← hv]; exact hA.k1
          | succ => right; simp
      | some t =>
        have hb : vis s ≠ [] := by intro h; rw [h] at hv; cases hv
        refine ih _ s _ _ _ _ _ Q ?_ (hT.2 ?_ t ?_)
        · refine ⟨hA.le, act_dec hA.le hA.dec hA.ifa hb, hA.ifa, nofun, fun _ => hb, ⟨hA.k0, ?_⟩, ?_⟩
          · cases hvv : vis s with
            | nil => exact absurd hvv hb
            | cons a l => simp
          · split
            · rename_i hk; subst hk; exact hv
            · exact hA.k1
        · intro h; exact hb (hA.blind h)
        · cases k with
          | zero => left; rw [← hv]; exact hA.k1
          | succ => right; simp
  | peekNN g ih =>
    intro s d i v k0 k1 Q hA hT
    rw [runP]
    cases hv : front s with
    | none => exact ih _ s _ _ _ _ _ Q hA hT.1
    | some t =>
      by_cases hn : t = .newLine
      · subst hn; exact ih _ s _ _ _ _ _ Q hA hT.2.1
      · have hr : s.recov = false := by
          unfold front at hv; split at hv
          · cases hv
          · rename_i h; simpa using h
        have hvis : (vis s)[0]? = some t := by
          unfold front at hv
          rw [hr] at hv
          cases hi : s.input with
          | nil => rw [hi] at hv; cases hv
          | cons a l =>
            rw [hi] at hv
            cases hv
            simp [vis, hr, hi, hn]
        have hb : vis s ≠ [] := by intro h; rw [h] at hvis; cases hvis
        refine ih _ s _ _ _ _ _ Q ?_ (hT.2.2 ?_ t hn ?_)
        · exact ⟨hA.le, act_dec hA.le hA.dec hA.ifa hb, hA.ifa, nofun, fun _ => hb, hvis, hA.k1⟩
        · intro h; exact hb (hA.blind h)
        · rw [← hvis]; exact hA.k0
  | adv g ih =>
    intro s d i v k0 k1 Q hA hT
    rw [runP]
    cases hv : vis s with
    | nil =>
      have ⟨h1, h2, h3⟩ := advance_blind hv
      rw [h1]
      refine ih _ _ _ _ _ _ _ Q ?_ (hT.1 ?_ ?_)
      · exact ⟨by rw [h3]; exact hA.le, fun h => by rw [h3]; exact hA.dec h,
          fun _ h0 => blind_ifa (by rw [h3]; exact hA.le) h2 h0, fun _ => h2, nofun, by rw [h2]; rfl, by rw [h2]; rfl⟩
      · intro h; exact hA.act h hv
      · have := hA.k0; rw [hv] at this; exact this
    | cons t l =>
      have ⟨h1, h2, h3, _⟩ := advance_act hv
      rw [h1]
      refine ih _ _ _ _ _ _ _ Q ?_ (hT.2 ?_ t ?_)
      · refine ⟨by have := hA.le; omega, fun _ => by have := hA.le; omega, fun _ _ => by have := hA.le; omega, nofun, nofun, ?_, trivial⟩
        rw [h2]
        have := hA.k1
        rw [hv] at this
        simpa using this
      · intro h; have := hA.blind h; rw [hv] at this; cases this
      · have := hA.k0; rw [hv] at this; exact this
  | call r g ih =>
    intro s d i v k0 k1 Q hA hT
    obtain ⟨hrk, hk⟩ := hT
    have hlt : bound r s < bound r0 s0 := by
      have hr := rank_lt r
      have hr0 := rank_lt r0
      unfold bound
      by_cases hm : mu s < mu s0
      · split <;> split <;> omega
      · have he : mu s = mu s0 := by have := hA.le; omega
        rcases hrk with hd | ⟨ha, hb⟩
        · exact absurd (hA.dec hd) hm
        · by_cases hv : vis s = []
          · by_cases hv0 : vis s0 = []
            · rw [if_pos hv, if_pos hv0]
              rcases hb with hb | hb
              · exact absurd hv (hA.act hb)
              · omega
            · exact absurd (blind_ifa hA.le hv hv0) hm
          · by_cases hv0 : vis s0 = []
            · rw [mu_act hv, mu_blind hv0] at he; omega
            · rw [if_neg hv, if_neg hv0]
              rcases ha with ha | ha | ha
              · exact absurd (hA.ifa ha hv0) hm
              · exact absurd (hA.blind ha) hv
              · omega
    obtain ⟨b, s', hd, hle, hpr⟩ := (hf r s hlt).ends
    rw [runP, hd]
    refine ih b s' _ _ _ _ _ Q ?_ (hk b)
    refine ⟨Nat.le_trans hle hA.le, ?_, ?_, nofun, nofun, trivial, trivial⟩
    · intro h
      rcases Bool.or_eq_true_iff.mp h with h | h
      · have := hA.dec h; omega
      · rw [Bool.and_eq_true] at h
        have := hpr h.1 (hA.act (by simpa using h.2))
        have := hA.le
        omega
    · intro h h0
      rcases Bool.or_eq_true_iff.mp h with h | h
      · have := hA.ifa h h0; omega
      · by_cases hv : vis s = []
        · have := blind_ifa hA.le hv h0; omega
        · have := hpr h hv; have := hA.le; omega
  | err ty g ih =>
    intro s d i v k0 k1 Q hA hT
    rw [runP]
    have hv := doError_vis s ty (vis s)[0]?
    have hm := doError_mu s ty (vis s)[0]?
    refine ih _ _ _ _ _ _ Q ?_ hT
    refine ⟨Nat.le_trans hm.1 hA.le, ?_, fun _ h0 => blind_ifa (Nat.le_trans hm.1 hA.le) hv h0, fun _ => hv, nofun, by rw [hv]; rfl, by rw [hv]; rfl⟩
    intro h
    rcases Bool.or_eq_true_iff.mp h with h | h
    · have := hA.dec h; omega
    · have := hm.2 (hA.act (by simpa using h)); have := hA.le; omega
  | resync t g ih =>
    intro s d i v k0 k1 Q hA hT
    rw [runP]
    have hm := doResync_mu s t hT.1
    refine ih _ _ _ _ _ _ Q ?_ hT.2
    exact ⟨Nat.le_trans hm hA.le, fun h => Nat.lt_of_le_of_lt hm (hA.dec h), fun h h0 => Nat.lt_of_le_of_lt hm (hA.ifa h h0), nofun, nofun, trivial, trivial⟩
  | sem g ih =>
    intro s d i v k0 k1 Q hA hT
    rw [runP]
    have hm := doSem_mu s
    have hc := (doSem_cases s).2
    refine ih _ _ _ _ _ _ Q ?_ hT
    refine ⟨Nat.le_trans hm hA.le, fun h => Nat.lt_of_le_of_lt hm (hA.dec h), fun h h0 => Nat.lt_of_le_of_lt hm (hA.ifa h h0), ?_, ?_, ?_, ?_⟩
    · intro h
      split at h
      · cases h
      · rcases hc with hc | hc
        · rw [hc]; exact hA.blind h
        · exact hc
    · intro h
      split at h
      · cases h
      · contradiction
    · rcases hc with hc | hc
      · left; rw [hc]; exact hA.k0
      · right; rw [hc]; rfl
    · rcases hc with hc | hc
      · left; rw [hc]; exact hA.k1
      · right; rw [hc]; rfl
  | panic => intro s d i v k0 k1 Q hA hT; exact hT.elim

/-- If every rule satisfies the calculus, every rule ends. -/
theorem T_run (h : ∀ r, T r (body r) false false .unk K.top K.top (QT r)) :
    ∀ (n : Nat) (r : Rule) (s : St), bound r s < n → Ends r s (run n r s) := by
  intro n
  induction n with
  | zero => intro r s hb; omega
  | succ n ih =>
    intro r s hb
    rw [run]
    have hf : ∀ r' s', bound r' s' < bound r s → Ends r' s' (run n r' s') := fun r' s' h' => ih r' s' (by omega)
    obtain ⟨b, s', he, d, i, v, k0, k1, hA, hQ⟩ := T_runP hf (body r) s false false .unk K.top K.top (QT r)
      ⟨Nat.le_refl _, nofun, nofun, nofun, nofun, trivial, trivial⟩ (h r)
    refine ⟨b, s', he, hA.le, fun hp hv => ?_⟩
    rcases Bool.or_eq_true_iff.mp (hQ hp) with hd | hi
    · exact hA.dec hd
    · exact hA.ifa hi hv

end Cordy.Parser
