import Verif.Model.Repl
/-! # C47, C48: the REPL -/
namespace Cordy.Repl
variable {O K P M L T V : Type}

/-! ## C47 -/

/-- The new state extends the old one; only constants of functions of this compilation were overwritten. -/
structure Extends (c : CState O K P M L) (p : Parser O K P M L) : Prop where
  code : p.st.code.take c.code.length = c.code
  locations : p.st.locations.take c.locations.length = c.locations
  constants : p.st.constants.take c.constants.length = c.constants
  patterns : p.st.patterns.take c.patterns.length = c.patterns
  globals : p.st.globals.take c.globals.length = c.globals
  modules : p.st.modules.take c.modules.length = c.modules
  methods : p.st.methods.take c.methods.length = c.methods
  own : ∀ i ∈ p.own, c.constants.length ≤ i

theorem take_app {α : Type} {xs ys : List α} (h : xs.take ys.length = ys) (zs : List α) : (xs ++ zs).take ys.length = ys := by
  have : ys.length ≤ xs.length := by
    have := congrArg List.length h
    simp only [List.length_take] at this; omega
  rw [List.take_append_of_le_length this]; exact h

theorem Extends.step {nil : K} {c : CState O K P M L} {p q : Parser O K P M L} (h : Extends c p) (s : Step nil p q) : Extends c q := by
  cases s with
  | emit ops locs => exact { h with code := take_app h.code _, locations := take_app h.locations _ }
  | const k => exact { h with constants := take_app h.constants _ }
  | function =>
    have hl : c.constants.length ≤ p.st.constants.length := by
      have := congrArg List.length h.constants
      simp only [List.length_take] at this; omega
    exact { h with
      constants := take_app h.constants _
      own := by
        intro i hi
        rcases List.mem_append.1 hi with hi | hi
        · exact h.own i hi
        · simp at hi; omega }
  | bake i k hi =>
    refine { h with constants := ?_ }
    show (p.st.constants.set i k).take _ = _
    rw [List.take_set, h.constants]
    exact List.set_eq_of_length_le (h.own i hi)
  | pattern q => exact { h with patterns := take_app h.patterns _ }
  | global x => exact { h with globals := take_app h.globals _ }
  | useField x loc => exact { h with }
  | field x ty off => exact { h with }
  | type => exact { h with }
  | module x => exact { h with modules := take_app h.modules _ }
  | method m => exact { h with methods := take_app h.methods _ }
  | locals l => exact { h with }

theorem Extends.steps {nil : K} {c : CState O K P M L} {p q : Parser O K P M L} (h : Extends c p) (s : Steps nil p q) : Extends c q := by
  induction s with
  | refl => exact h
  | step s _ ih => exact ih (h.step s)

/-- The parser only does what a parser does: from the state it gets, it reaches the state it leaves by the effects of `Step`. -/
def Conforms (nil : K) (C : Compiler O K P M L T) : Prop :=
  ∀ t c, ∃ p : Parser O K P M L, Steps nil ⟨c, []⟩ p ∧ p.st = (C.parse t c).1

theorem restore_save {nil : K} {c : CState O K P M L} {p : Parser O K P M L} (h : Steps nil ⟨c, []⟩ p) : p.st.restore c.save = c := by
  have h : Extends c p := Extends.steps (p := ⟨c, []⟩) ⟨by simp, by simp, by simp, by simp, by simp, by simp, by simp, by simp⟩ h
  simp only [CState.restore, CState.save, h.code, h.locations, h.constants, h.patterns, h.globals, h.modules, h.methods]

/-- **C47** A compilation that fails or is incomplete leaves all of the compiler's state as it was, whatever the parser did before it
found the error. -/
theorem C47_failed_compile (nil : K) (C : Compiler O K P M L T) (hC : Conforms nil C) (text : Text) (c : CState O K P M L)
    (h : (incrementalCompile C text c).2 ≠ .success) : (incrementalCompile C text c).1 = c := by
  unfold incrementalCompile at h ⊢
  simp only at h ⊢
  split at h
  · rename_i hs; exact absurd hs h
  · rename_i hs
    rw [if_neg hs]
    show (tryCompile C true text c).1.restore c.save = c
    unfold tryCompile
    split
    · exact restore_save (nil := nil) (p := ⟨c, []⟩) (.refl _)
    · rename_i t ht
      obtain ⟨p, hp, he⟩ := hC t c
      simp only
      split <;> (simp only; rw [← he]; exact restore_save hp)

/-- What the user enters counts as incomplete exactly when the first error is about the end of the input. -/
theorem C47_incomplete (C : Compiler O K P M L T) (text : Text) (c : CState O K P M L) :
    (incrementalCompile C text c).2 = .aborted ↔
      (∃ e es, C.scan text = .inl (e :: es) ∧ e.eof = true) ∨
      (∃ t e es, C.scan text = .inr t ∧ (C.parse t c).2 = e :: es ∧ e.eof = true) := by
  have hc : ∀ es acc, acc ≠ [] → classify true es acc ≠ .aborted := by
    intro es
    induction es with
    | nil => intro acc _; simp [classify]
    | cons e es ih =>
      intro acc ha
      rw [classify, if_neg (by simp [ha])]
      exact ih _ (by simp)
  have hk : ∀ es, classify true es [] = .aborted ↔ ∃ e es', es = e :: es' ∧ e.eof = true := by
    intro es
    cases es with
    | nil => simp [classify]
    | cons e es =>
      rw [classify]
      split
      · rename_i h; simp at h; simp [h]
      · rename_i h; simp at h
        constructor
        · intro h'; exact absurd h' (hc _ _ (by simp))
        · rintro ⟨e', es', h', h''⟩; simp at h'; rw [← h'.1, h] at h''; simp at h''
  have hi : (incrementalCompile C text c).2 = (tryCompile C true text c).2 := by
    unfold incrementalCompile; simp only; split <;> rfl
  rw [hi]
  unfold tryCompile
  split
  · rename_i es he
    simp only [hk]
    constructor
    · rintro ⟨e, es', rfl, h⟩; exact .inl ⟨e, es', he, h⟩
    · rintro (⟨e, es', h, h'⟩ | ⟨t, e, es', h, _⟩)
      · rw [he] at h; simp at h; exact ⟨e, es', h, h'⟩
      · rw [he] at h; simp at h
  · rename_i t ht
    simp only
    split
    · rename_i he
      constructor
      · intro h; simp at h
      · rintro (⟨e, es', h, h'⟩ | ⟨t', e, es', h, h', _⟩)
        · rw [ht] at h; simp at h
        · rw [ht] at h; simp at h; subst h; rw [h'] at he; simp at he
    · simp only [hk]
      constructor
      · rintro ⟨e, es', h, h'⟩; exact .inr ⟨t, e, es', ht, h, h'⟩
      · rintro (⟨e, es', h, h'⟩ | ⟨t', e, es', h, h', h''⟩)
        · rw [ht] at h; simp at h
        · rw [ht] at h; simp at h; subst h; exact ⟨e, es', h', h''⟩

/-- **C47** for the REPL: a line that is incomplete changes nothing but the text entered so far and the prompt; a line with errors changes
nothing, prints the errors, and the next line starts a new text. -/
theorem C47_failed_line (nil : K) (C : Compiler O K P M L T) (hC : Conforms nil C) (m : Machine V (CState O K P M L))
    (s : Session V (CState O K P M L)) (line : Text) (hl : line ≠ []) :
    ((incrementalCompile C ((addLine s.views line).getLast?.getD []) s.c).2 = .aborted →
      s.line C m line = (⟨true, addLine s.views line, s.c, s.vm⟩, .ok)) ∧
    (∀ es, (incrementalCompile C ((addLine s.views line).getLast?.getD []) s.c).2 = .errors es →
      s.line C m line = (⟨false, addLine s.views line ++ [[]], s.c, es.foldl m.out s.vm⟩, .ok)) := by
  refine ⟨fun h => ?_, fun es h => ?_⟩
  · have h1 := C47_failed_compile nil C hC ((addLine s.views line).getLast?.getD []) s.c (by rw [h]; simp)
    unfold Session.line
    rw [if_neg (by simp [hl])]
    simp only [h, h1]
  · have h1 := C47_failed_compile nil C hC ((addLine s.views line).getLast?.getD []) s.c (by rw [h]; simp)
    unfold Session.line
    rw [if_neg (by simp [hl])]
    simp only [h, h1]

theorem addLine_addLine (vs : List Text) (l k : Text) : addLine (addLine vs l) k = addLine vs (l ++ '\n' :: k) := by
  simp [addLine]

/-- Join lines as the REPL does. -/
def joinLines : Text → List Text → Text
  | l, [] => l
  | l, k :: ks => joinLines (l ++ '\n' :: k) ks

/-- **C47** continuation: lines of which every proper prefix is incomplete do together exactly what the whole text does when it is
entered at once: the incomplete prefixes leave no trace. -/
theorem C47_continuation (nil : K) (C : Compiler O K P M L T) (hC : Conforms nil C) (m : Machine V (CState O K P M L))
    (s : Session V (CState O K P M L)) (l : Text) (ks : List Text) (hl : l ≠ [])
    (h : ∀ i < ks.length, (incrementalCompile C ((addLine s.views (joinLines l (ks.take i))).getLast?.getD []) s.c).2 = .aborted) :
    s.lines C m (l :: ks) = s.line C m (joinLines l ks) := by
  have key : ∀ (ks : List Text) (l : Text) (s₁ : Session V (CState O K P M L)), s₁.c = s.c → s₁.vm = s.vm → l ≠ [] ∨ s₁.continuation = true →
      ∀ vs l₀, addLine s₁.views l = addLine vs l₀ → l₀ ≠ [] →
      (∀ i < ks.length, (incrementalCompile C ((addLine vs (joinLines l₀ (ks.take i))).getLast?.getD []) s.c).2 = .aborted) →
      s₁.lines C m (l :: ks) = (⟨false, vs, s.c, s.vm⟩ : Session V (CState O K P M L)).line C m (joinLines l₀ ks) := by
    intro ks
    induction ks with
    | nil =>
      intro l s₁ hc hv hl vs l₀ he hl₀ _
      have h1 : s₁.line C m l = (⟨false, vs, s.c, s.vm⟩ : Session V (CState O K P M L)).line C m l₀ := by
        unfold Session.line
        rw [if_neg (by rcases hl with hl | hl <;> simp [hl]), if_neg (by simp [hl₀])]
        simp only [he, hc, hv]
      simp only [Session.lines, joinLines, h1]
      split
      · rename_i h; rw [← h]
      · rfl
    | cons k ks ih =>
      intro l s₁ hc hv hl vs l₀ he hl₀ h
      have h0 := h 0 (by simp)
      simp only [List.take_zero, joinLines] at h0
      have h1 : s₁.line C m l = (⟨true, addLine vs l₀, s.c, s.vm⟩, .ok) := by
        unfold Session.line
        rw [if_neg (by rcases hl with hl | hl <;> simp [hl])]
        have hf := C47_failed_compile nil C hC ((addLine vs l₀).getLast?.getD []) s.c (by rw [h0]; simp)
        simp only [he, hc, h0, hf, hv]
      rw [Session.lines, h1]
      simp only [joinLines]
      refine ih k ⟨true, addLine vs l₀, s.c, s.vm⟩ rfl rfl (.inr rfl) vs (l₀ ++ '\n' :: k) (addLine_addLine _ _ _) (by simp) ?_
      intro i hi
      have := h (i + 1) (by simpa using hi)
      simpa [joinLines] using this
  have := key ks l s rfl rfl (.inl hl) s.views l rfl hl h
  rw [this]
  have hj : joinLines l ks ≠ [] := by
    clear h this key
    induction ks generalizing l with
    | nil => exact hl
    | cons k ks ih => exact ih _ (by simp)
  unfold Session.line
  rw [if_neg (by simp [hj]), if_neg (by simp [hj])]

/-- **C47** an `eval`, whether its text compiles or not, leaves the variables of the program being run alone, and everything compiled
before it is still there, at the same place. -/
theorem C47_eval (nil : K) (C : Compiler O K P M L T) (hC : Conforms nil C) (empty : L) (text : Text) (c : CState O K P M L) :
    let c' := (evalCompile C empty text c).1
    c'.locals = c.locals ∧ c.code <+: c'.code ∧ c.locations <+: c'.locations ∧ c.constants <+: c'.constants ∧ c.patterns <+: c'.patterns ∧
    c.globals <+: c'.globals ∧ c.modules <+: c'.modules ∧ c.methods <+: c'.methods := by
  intro c'
  refine ⟨rfl, ?_⟩
  have key : ∀ d : CState O K P M L, (∃ p : Parser O K P M L, Steps nil ⟨{ c with locals := empty }, []⟩ p ∧ p.st = d) →
      c.code <+: d.code ∧ c.locations <+: d.locations ∧ c.constants <+: d.constants ∧ c.patterns <+: d.patterns ∧
      c.globals <+: d.globals ∧ c.modules <+: d.modules ∧ c.methods <+: d.methods := by
    rintro d ⟨p, hp, rfl⟩
    have h : Extends { c with locals := empty } p :=
      Extends.steps (p := ⟨{ c with locals := empty }, []⟩) ⟨by simp, by simp, by simp, by simp, by simp, by simp, by simp, by simp⟩ hp
    have pre : ∀ {α : Type} {xs ys : List α}, xs.take ys.length = ys → ys <+: xs := fun h => h ▸ List.take_prefix _ _
    exact ⟨pre h.code, pre h.locations, pre h.constants, pre h.patterns, pre h.globals, pre h.modules, pre h.methods⟩
  have hd : ∃ p : Parser O K P M L, Steps nil ⟨{ c with locals := empty }, []⟩ p ∧ p.st = (tryCompile C false text { c with locals := empty }).1 := by
    unfold tryCompile
    split
    · exact ⟨⟨{ c with locals := empty }, []⟩, .refl _, rfl⟩
    · rename_i t ht
      simp only
      split <;> exact hC t _
  have := key _ hd
  exact this

/-- A toy compiler: the tokens are the text; a text ending in `(` is incomplete, one with `)` in it has an error, and both happen after
code, a function and a field were already emitted. -/
def toy : Compiler Char Nat Nat Nat Nat Text where
  scan t := .inr t
  parse t c := ({ c with code := c.code ++ t, locations := c.locations ++ t.map (fun _ => 0), constants := c.constants ++ [7],
                         globals := c.globals ++ [t], locals := c.locals + 1, fields := c.fields.resolve t 0 },
    if t.contains ')' then [⟨t, false⟩] else if t.getLast? = some '\n' ∧ t.dropLast.getLast? = some '(' then [⟨[], true⟩] else [])

theorem toy_conforms : Conforms 0 toy := by
  intro t c
  refine ⟨⟨(toy.parse t c).1, [c.constants.length]⟩, ?_, rfl⟩
  refine .step (.emit _ t (t.map (fun _ => 0))) ?_
  refine .step (.function _) ?_
  refine .step (.bake _ c.constants.length 7 (by simp)) ?_
  refine .step (.global _ t) ?_
  refine .step (.locals _ (c.locals + 1)) ?_
  refine .step (.useField _ t 0) ?_
  have h : (c.constants ++ [0]).set c.constants.length 7 = c.constants ++ [7] := by simp
  simp only [List.nil_append, h]
  exact .refl _

/-- The hypotheses are met: an incomplete line, then its end, by a machine that counts the code. -/
example : let C := toy
    let s : Session Nat (CState Char Nat Nat Nat Nat) := ⟨false, [[]], ⟨['p'], [0], [], [], [], ⟨[], [], 0⟩, [], [], 0⟩, 0⟩
    (incrementalCompile C ((addLine s.views ['a', '(']).getLast?.getD []) s.c).2 = .aborted ∧
    (incrementalCompile C ((addLine s.views ['a', ')']).getLast?.getD []) s.c).2 = .errors [['a', ')', '\n']] ∧
    (s.lines C ⟨fun v c => ((v + c.code.length, c), .yield), fun v _ => v, fun v _ => v⟩ [['a', '('], ['b']]).1.vm = 6 := by decide

/-! ## C48 -/

/-- **C48** (partial) After recovery the operand stack holds the values the globals had when the error was raised, in order and nothing
else, the call stack is at top level and no literal is under construction; and nothing else of the stack, the call stack, the literals
or the instruction pointer of the aborted evaluation is left: two machines that agree on the globals and on the heap are the same after
recovery.  Missing, because the code does not do it: `recover` keeps the open upvalues and the number of initialised globals (see the violations). The
hypothesis `n ≤ stack.length` excludes a line that failed before it had initialised the variables it declares. -/
theorem C48_recovery_partial {A W Lit : Type} (m : Full A W Lit) (n : Nat) (f : Nat × Nat) (fs : List (Nat × Nat)) (hf : m.frames = f :: fs)
    (h : n ≤ m.vm.stack.length) :
    (m.recover n).vm.stack.length = n ∧ (∀ (i : Nat), i < n → (m.recover n).vm.stack[i]? = m.vm.stack[i]?) ∧
    (m.recover n).frames = [f] ∧ (m.recover n).vm.fp = f.1 ∧ (m.recover n).literals = [] ∧ (m.recover n).ip = m.codeLen ∧
    ∀ m' : Full A W Lit, m'.vm.stack.take n = m.vm.stack.take n → m'.frames.head? = some f → m'.vm.globals = m.vm.globals →
      m'.vm.opens = m.vm.opens → m'.vm.cells = m.vm.cells → m'.vm.closures = m.vm.closures → m'.vm.world = m.vm.world →
      m'.unroll = m.unroll → m'.codeLen = m.codeLen → m'.recover n = m.recover n := by
  refine ⟨by simp [Full.recover, h], fun i hi => by simp [Full.recover, hi], by simp [Full.recover, hf], by simp [Full.recover, hf], rfl, rfl, ?_⟩
  intro m' h1 h2 h3 h4 h5 h6 h7 h8 h9
  have hfr : m'.frames.take 1 = [f] := by
    cases hm : m'.frames with
    | nil => rw [hm] at h2; simp at h2
    | cons g gs => rw [hm] at h2; simp at h2; simp [h2]
  simp only [Full.recover, hfr, hf, List.take_succ_cons, List.take_zero, h1, h3, h4, h5, h6, h7, h8, h9, List.getLast?_singleton, Option.elim_some]

/-- **C48** after every line the REPL hands the machine over recovered: whatever `recover` establishes, and printing keeps, holds after
every history of lines, in which lines may be incomplete, fail to compile, raise errors, or end normally. -/
theorem C48_every_line (nil : K) (C : Compiler O K P M L T) (hC : Conforms nil C) (m : Machine V (CState O K P M L))
    (Clean : V → CState O K P M L → Prop) (hrec : ∀ v c, Clean (m.recover v c) c) (hout : ∀ v c e, Clean v c → Clean (m.out v e) c)
    (s : Session V (CState O K P M L)) (h0 : Clean s.vm s.c) (ls : List Text) (hok : (s.lines C m ls).2 = .ok) :
    Clean (s.lines C m ls).1.vm (s.lines C m ls).1.c := by
  have one : ∀ (s : Session V (CState O K P M L)) (l : Text), Clean s.vm s.c → (s.line C m l).2 = .ok →
      Clean (s.line C m l).1.vm (s.line C m l).1.c := by
    intro s l h hok
    have hf := C47_failed_compile nil C hC ((addLine s.views l).getLast?.getD []) s.c
    unfold Session.line at hok ⊢
    by_cases h0 : l = [] ∧ s.continuation = false
    · rw [if_pos h0]; exact h
    · rw [if_neg h0] at hok ⊢
      simp only at hok ⊢
      cases hr : (incrementalCompile C ((addLine s.views l).getLast?.getD []) s.c).2 with
      | errors es =>
        simp only [hf (by rw [hr]; simp)]
        clear hok
        have : ∀ (es : List Text) (v : V), Clean v s.c → Clean (es.foldl m.out v) s.c := by
          intro es
          induction es with
          | nil => intro v hv; exact hv
          | cons e es ih => intro v hv; exact ih _ (hout _ _ _ hv)
        exact this es _ h
      | aborted => simp only [hf (by rw [hr]; simp)]; exact h
      | success =>
        simp only [hr] at hok ⊢
        cases hx : (m.run s.vm (incrementalCompile C ((addLine s.views l).getLast?.getD []) s.c).1).2 with
        | exit => simp [hx] at hok
        | yield => exact hrec _ _
        | error e => exact hrec _ _
  induction ls generalizing s with
  | nil => exact h0
  | cons l ls ih =>
    rw [Session.lines] at hok ⊢
    cases hr : (s.line C m l).2 with
    | ok => simp only [hr] at hok ⊢; exact ih _ (one s l h0 hr) hok
    | exit => simp only [hr] at hok; simp at hok

/-- A case: a machine that counts, and whose recovery makes the count even; an error and a normal line. -/
example : let C := toy
    let s : Session Nat (CState Char Nat Nat Nat Nat) := ⟨false, [[]], ⟨['p'], [0], [], [], [], ⟨[], [], 0⟩, [], [], 0⟩, 0⟩
    let m : Machine Nat (CState Char Nat Nat Nat Nat) := ⟨fun v c => ((v + c.code.length, c), if c.code.length = 3 then .error ['e'] else .yield), fun v _ => 2 * v, fun v _ => v + 2⟩
    (s.lines C m [['a'], ['b', 'c'], ['a', ')']]).2 = .ok ∧ (s.lines C m [['a'], ['b', 'c'], ['a', ')']]).1.vm = 34 := by decide

theorem ustep_base (base : List Int) (o : UOp) (u v : List Int × List Int) (h : ustep u o = some v) :
    ustep (base ++ u.1, u.2) o = some (base ++ v.1, v.2) := by
  cases o with
  | begin k => simp only [ustep] at h ⊢; simp at h; subst h; simp
  | more k =>
    simp only [ustep] at h ⊢
    cases hu : u.1.getLast? with
    | none => rw [hu] at h; simp at h
    | some x =>
      rw [hu] at h; simp at h; subst h
      have hne : u.1 ≠ [] := by intro h; rw [h] at hu; simp at hu
      simp [List.getLast?_append, hu, List.dropLast_append_of_ne_nil hne]
  | call n =>
    simp only [ustep] at h ⊢
    cases hu : u.1.getLast? with
    | none => rw [hu] at h; simp at h
    | some x =>
      rw [hu] at h; simp at h; subst h
      have hne : u.1 ≠ [] := by intro h; rw [h] at hu; simp at hu
      simp [List.getLast?_append, hu, List.dropLast_append_of_ne_nil hne]

/-- **C48** The counters of spread arguments an aborted evaluation leaves behind, which recovery does not clear, never matter: code that
runs from a clean machine makes the same calls with the same numbers of arguments, and leaves them where they were. -/
theorem C48_stale_counters (stale : List Int) (os : List UOp) (u v : List Int × List Int) (h : urun u os = some v) :
    urun (stale ++ u.1, u.2) os = some (stale ++ v.1, v.2) := by
  induction os generalizing u with
  | nil => simp only [urun] at h ⊢; simp at h; subst h; rfl
  | cons o os ih =>
    simp only [urun] at h ⊢
    cases hs : ustep u o with
    | none => rw [hs] at h; simp at h
    | some w =>
      rw [hs] at h; simp only [Option.bind_some] at h
      rw [ustep_base stale o u w hs]
      exact ih w h

/-- `f(...[1,2], g(...[]), ...[3])`, after a stale counter: the calls get 0 and 4 arguments -/
example : urun ([5], []) [.begin 2, .begin 0, .call 1, .more 1, .call 3] = some ([5], [0, 4]) := by decide

/-- **C48** declaring a field keeps the numbers of all the names of fields there were, resolves the uses of this name that came before, and no others, and makes the field findable under
its number; fields of other types and of other numbers are where they were. -/
theorem C48_declare_field (F : FieldTab) (x : Name) (ty off : Nat) :
    (∃ i, (F.declare x ty off).names.lookup x = some ⟨i, none⟩ ∧ (F.declare x ty off).lookup.lookup (ty, i) = some off ∧
      (∀ r, F.names.lookup x = some r → i = r.index) ∧ (F.names.lookup x = none → i = F.names.length) ∧
      ∀ k, k ≠ (ty, i) → (F.declare x ty off).lookup.lookup k = F.lookup.lookup k) ∧
    ∀ y, y ≠ x → (F.declare x ty off).names.lookup y = F.names.lookup y := by
  have look : ∀ (i : Nat) (k : Nat × Nat), k ≠ (ty, i) → List.lookup k (((ty, i), off) :: F.lookup) = F.lookup.lookup k := by
    intro i k hk
    have : (k == (ty, i)) = false := by simpa using hk
    simp only [List.lookup, this]
  have hm : ∀ l : List (Name × FieldRef), (∀ y, y ≠ x → (l.map (fun e => if e.1 = x then (x, (⟨e.2.index, none⟩ : FieldRef)) else e)).lookup y = l.lookup y) ∧
      ∀ r, l.lookup x = some r → (l.map (fun e => if e.1 = x then (x, (⟨e.2.index, none⟩ : FieldRef)) else e)).lookup x = some ⟨r.index, none⟩ := by
    intro l
    induction l with
    | nil => exact ⟨fun _ _ => rfl, fun r h => by simp at h⟩
    | cons e l ih =>
      obtain ⟨z, e⟩ := e
      by_cases hz : z = x
      · subst hz
        refine ⟨fun y hy => ?_, fun r h => ?_⟩
        · have : (y == z) = false := by simpa using hy
          simp only [List.map_cons, if_true, List.lookup, this]
          exact ih.1 y hy
        · simp only [List.lookup, beq_self_eq_true, Option.some.injEq] at h
          subst h
          simp [List.lookup]
      · refine ⟨fun y hy => ?_, fun r h => ?_⟩
        · simp only [List.map_cons, if_neg hz, List.lookup]
          split
          · rfl
          · exact ih.1 y hy
        · have : (x == z) = false := by simpa using (fun h => hz h.symm)
          simp only [List.map_cons, if_neg hz, List.lookup, this] at h ⊢
          exact ih.2 r h
  have ha : ∀ (l : List (Name × FieldRef)) (v : FieldRef), (∀ y, y ≠ x → (l ++ [(x, v)]).lookup y = l.lookup y) ∧ (l.lookup x = none → (l ++ [(x, v)]).lookup x = some v) := by
    intro l v
    induction l with
    | nil => exact ⟨fun y hy => by have : (y == x) = false := by simpa using hy
                                   simp [List.lookup, this], fun _ => by simp [List.lookup]⟩
    | cons e l ih =>
      obtain ⟨z, e⟩ := e
      refine ⟨fun y hy => ?_, fun h => ?_⟩
      · simp only [List.cons_append, List.lookup]
        split
        · rfl
        · exact ih.1 y hy
      · simp only [List.cons_append, List.lookup] at h ⊢
        split at h
        · simp at h
        · exact ih.2 h
  unfold FieldTab.declare
  cases hx : F.names.lookup x with
  | some r =>
    exact ⟨⟨r.index, (hm F.names).2 r hx, by simp [List.lookup], fun r' h => by simp at h; rw [h], fun h => by simp at h, look r.index⟩, (hm F.names).1⟩
  | none =>
    exact ⟨⟨F.names.length, (ha F.names _).2 hx, by simp [List.lookup], fun r' h => by simp at h, fun _ => rfl, look F.names.length⟩, (ha F.names _).1⟩

/-- Operations one after another, none of which fails. -/
def vrun {A W : Type} (s : VM.St A W) : List (VM.VOp A) → Option (VM.St A W)
  | [] => some s
  | o :: os => match VM.cstep (E := Nat) id o s with
    | .ok s => vrun s os
    | _ => none

/-- **C48** a line with an error prints no value, whatever comes after the error, and what comes after it is not run. -/
theorem C48_error_line {A W : Type} (n : Nat) (os os' : List (ROp A)) (s : VM.St A W) : (runLine n (os ++ .fail :: os') s).2 = none ∧
    (runLine n (os ++ .fail :: os') s).1 = (runLine n (os ++ [.fail]) s).1 := by
  have key : ∀ (os : List (ROp A)) (s : VM.St A W), (runLine.go (os ++ .fail :: os') s).1 = false ∧ runLine.go (os ++ .fail :: os') s = runLine.go (os ++ [.fail]) s := by
    intro os
    induction os with
    | nil => intro s; exact ⟨rfl, rfl⟩
    | cons o os ih =>
      intro s
      cases o with
      | fail => exact ⟨rfl, rfl⟩
      | op o =>
        simp only [List.cons_append, runLine.go]
        split
        · exact ih _
        · exact ⟨rfl, rfl⟩
        · exact ⟨rfl, rfl⟩
  have h := key os s
  refine ⟨?_, ?_⟩
  · simp only [runLine, h.1]; rfl
  · simp only [runLine, h.2]

/-- **C48** the machine is at top level after every line, with the values of at most `n` globals, and a line that prints a value was run to its end without an error. -/
theorem C48_line {A W : Type} (n : Nat) (os : List (ROp A)) (s : VM.St A W) : (runLine n os s).1.fp = 0 ∧ (runLine n os s).1.stack.length ≤ n ∧
    ((runLine n os s).2 ≠ none → ∃ vs, os = vs.map ROp.op ∧ ∃ s', vrun s vs = some s') := by
  have key : ∀ (os : List (ROp A)) (s : VM.St A W), (runLine.go os s).1 = true → ∃ vs, os = vs.map ROp.op ∧ ∃ s', vrun s vs = some s' := by
    intro os
    induction os with
    | nil => intro s _; exact ⟨[], rfl, s, rfl⟩
    | cons o os ih => 
      intro s h
      cases o with
      | fail => simp [runLine.go] at h
      | op o =>
        simp only [runLine.go] at h
        split at h
        · rename_i s1 h1
          obtain ⟨vs, rfl, hv⟩ := ih s1 h
          exact ⟨o :: vs, rfl, by simp only [vrun, h1]; exact hv⟩
        · simp at h
        · simp at h
  refine ⟨rfl, ?_, fun h => ?_⟩
  · simp only [runLine, List.length_take]; omega
  · apply key os s
    simp only [runLine] at h
    split at h
    · assumption
    · simp at h

open VM in
/-- **C48** violation. `let x = nil + 1` fails. Then `let y = 5`. Now `x` reads 5, and `y` is an error although it was declared and
initialised without one. (Line 1 declares slot 0, so line 2 compiles `y` as slot 1, but recovery cannot put a value in slot 0.) -/
theorem C48_violation_let : let s : St Nat Unit := ⟨[], 0, 0, fun _ => none, [], [], ()⟩
    let s := (runLine 1 [.fail] s).1
    let s := (runLine 2 [.op (.push (.atom 5)), .op .initGlobal] s).1
    (runLine 2 [.op (.pushGlobal 0)] s).2 = some (.atom 5) ∧ (runLine 2 [.op (.pushGlobal 1)] s).2 = none := by
  refine ⟨rfl, rfl⟩

open VM in
/-- **C48** violation. `let f ; fn g() { let v = 7 ; f = fn() -> v ; nil + 1 }`, then `g()` fails. Then `let a = 1`, `let b = 2`. Now `f()`
is 2, the value of `b`: the closure's variable was not closed and still refers to the place on the stack. -/
theorem C48_violation_closure : let s : St Nat Unit := ⟨[.atom 0, .func 0], 0, 2, fun _ => none, [], [], ()⟩
    let s := (runLine 2 [.op (.pushGlobal 1), .op (.frame 3), .op (.push (.atom 7)), .op (.push (.func 1)), .op .mkClosure, .op (.closeLocal 0),
      .op (.storeGlobal 0 true), .fail] s).1
    let s := (runLine 3 [.op (.push (.atom 1)), .op .initGlobal] s).1
    let s := (runLine 4 [.op (.push (.atom 2)), .op .initGlobal] s).1
    (runLine 4 [.op (.pushGlobal 0), .op (.frame 5), .op (.pushUp 0), .op (.ret 0)] s).2 = some (.atom 2) := by
  rfl

/-- models: semantic.rs:1097-1103: the parser reports every field that is used and not declared; those are in its list of errors. -/
def ReportsFields (C : Compiler O K P M L T) : Prop :=
  ∀ t c, (∃ x r, (x, r) ∈ (C.parse t c).1.fields.names ∧ r.loc.isSome) → (C.parse t c).2 ≠ []

/-- The parser does not declare field `x` when it compiles `t`: an entry for `x` stays as it is. -/
def KeepsField (C : Compiler O K P M L T) (x : Name) (t : T) : Prop :=
  ∀ c r, (x, r) ∈ c.fields.names → (x, r) ∈ (C.parse t c).1.fields.names

/-- **C48** violation. If an `eval` with an unknown field fails to compile (`eval('nil->foo')`), its entry is left behind (an `eval` does
not restore the state), and from then on no line compiles that does not declare a field of this name. -/
theorem C48_violation_eval (C : Compiler O K P M L T) (hr : ReportsFields C) (x : Name) (r : FieldRef) (hx : r.loc.isSome)
    (c : CState O K P M L) (h : (x, r) ∈ c.fields.names) (text : Text) (hk : ∀ t, C.scan text = .inr t → KeepsField C x t) :
    (incrementalCompile C text c).2 ≠ .success := by
  have hi : (incrementalCompile C text c).2 = (tryCompile C true text c).2 := by
    unfold incrementalCompile; simp only; split <;> rfl
  have hcl : ∀ es acc, classify true es acc ≠ .success := by
    intro es
    induction es with
    | nil => intro acc; simp [classify]
    | cons e es ih => intro acc; rw [classify]; split <;> simp [ih]
  rw [hi]
  unfold tryCompile
  split
  · exact hcl _ _
  · rename_i t ht
    have := hr t c ⟨x, r, hk t ht c r h, hx⟩
    simp only
    rw [if_neg (by simpa using this)]
    exact hcl _ _

/-- The state after the failed `eval` does have the entry, in the toy compiler (with the errors of undeclared fields). -/
example : let C : Compiler Char Nat Nat Nat Nat Text := { toy with parse := fun t c => ((toy.parse t c).1, ((toy.parse t c).1.fields.names.map (fun e => ⟨e.1, false⟩))) }
    let c : CState Char Nat Nat Nat Nat := ⟨[], [], [], [], [], ⟨[], [], 0⟩, [], [], 0⟩
    (evalCompile C 0 ['f'] c).2 = .errors [['f']] ∧ (evalCompile C 0 ['f'] c).1.fields.names = [(['f'], ⟨0, some 0⟩)] := by decide

end Cordy.Repl
