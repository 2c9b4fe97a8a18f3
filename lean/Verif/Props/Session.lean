import Verif.Lemmas.Session
/-!
# C79: sessions

`Spec/Session.lean` are the rules: what lines typed one after the other do. `Model/Session.lean` is the interpreter, which compiles each line when it is typed, puts its code after the code that is there, and keeps the stack from line to line.
-/
namespace Cordy.Session
open Cordy.Codegen (Out LitTy)
open Cordy.Full (sig St em)
open Cordy.Stmts (Block Op Br PS Does linear entry)
open Cordy.Graph (Instr)
open Cordy.Program
variable {Γ : Codegen.Sig} {E S : Type}

theorem entry_eq (ph : Op (sig Γ)) (q : PS (sig Γ)) (pre locs) : entry ph q pre locs = pre.length := by
  unfold entry
  rw [Graph.emit_eq]
  have h0 : 0 < q.b.graph.length := by rw [Builder.graph_length]; omega
  cases hg : q.b.graph with
  | nil => rw [hg] at h0; simp at h0
  | cons b bs => rfl

/-- One line, on the machine and by the rules. -/
theorem line_key (P : Prog Γ E S) {f} {G} (hG : Agrees P f G) (ph : Op (sig Γ)) (print : Γ.V) (body : Block (sig Γ)) (hok : body.ok none false) (hb : body.each G) (hoks : ∀ F ∈ P.fns, F.ok ∧ F.each G)
    {code : Code Γ} {starts : List (List Nat)} (hL : Laid P code starts f ph P.fns) (hsz : code.length < 2 ^ 31) (vs : List Γ.V) (us : List Int) (s : S) (pre : Code Γ) (locs : List Unit)
    (hpre : linear ph (emitLine (em P.base f) print vs.length body) pre locs <+: code) :
    ∃ B, 0 < B ∧ ∀ n,
      (∀ t, lineEnd P n print body vs s = some t → (∀ w b, t ≠ .stop (.err P.diverge) w b) → Reaches P code starts (.run ⟨pre.length, ⟨vs, ⟨[], us, ([], s)⟩⟩, []⟩) (.stop (stopOf us t))) ∧
      ((lineEnd P n print body vs s = none ∨ ∃ w b, lineEnd P n print body vs s = some (.stop (.err P.diverge) w b)) →
        Late P code starts (n / B) (.run ⟨pre.length, ⟨vs, ⟨[], us, ([], s)⟩⟩, []⟩)) := by
  have hentry := entry_eq ph (emitLine (em P.base f) print vs.length body) pre locs
  rw [← hentry]
  have hcd := Nat.lt_of_le_of_lt hpre.length_le hsz
  have hwf := emitLine_wf P f print vs.length body
  have h0 : 0 < (emitLine (em P.base f) print vs.length body).b.graph.length := by rw [Builder.graph_length]; omega
  have hmem : ∀ F ∈ P.fns, (emitFn (em P.base f) F.required F.defaults F.patterns F.body).1.b.graph.length ≤ (P.fns.map fun F => (emitFn (em P.base f) F.required F.defaults F.patterns F.body).1.b.graph.length).sum := fun F h =>
    le_sum (List.mem_map.2 ⟨F, h, rfl⟩)
  refine ⟨(emitLine (em P.base f) print vs.length body).b.graph.length + (P.fns.map fun F => (emitFn (em P.base f) F.required F.defaults F.patterns F.body).1.b.graph.length).sum, by omega, fun n => ?_⟩
  generalize hB : (emitLine (em P.base f) print vs.length body).b.graph.length + (P.fns.map fun F => (emitFn (em P.base f) F.required F.defaults F.patterns F.body).1.b.graph.length).sum = B
  have hB0 : 0 < B := by omega
  have hg := good hG hL hsz (B := B) (fun F h => by have := hmem F h; omega) hB0 (fun _ h => (hoks _ h).1) (fun _ h => (hoks _ h).2) n
  have hj0 : n = 0 → (n - 1) / B = 0 := by rintro rfl; simp
  have hd := line_out P hG n print body hok hb vs us s
  have hstep : (n - 1) / B + 1 ≥ n / B := by
    cases n with
    | zero => simp
    | succ n =>
      simp only [Nat.add_sub_cancel]
      rw [← Nat.add_div_right n hB0]
      exact Nat.div_le_div_right (by omega)
  cases hr : lineEnd P n print body vs s with
  | none =>
    rw [hr] at hd
    obtain ⟨l, ip', m', hl, hrun⟩ := Graph.long_code (Graph.emitted_block ph () _ pre locs) hwf hcd h0 hd
    obtain ⟨i, hi, hsteps⟩ := run_sim hL.fits hg hj0 hpre hrun []
    refine ⟨fun t h => (by cases h), fun _ => (Late.of_steps hsteps).le ?_⟩
    have : n < (l + 1) * B := Nat.lt_of_lt_of_le hl (Nat.mul_le_mul_left _ (by omega))
    have := (Nat.div_lt_iff_lt_mul hB0).2 this
    omega
  | some t =>
    rw [hr] at hd
    obtain ⟨es, hd⟩ := (Stmts.ends_iff (atomicF P f n) ph hwf pre locs hcd vs ⟨[], us, ([], s)⟩ _).2 hd
    have hf := halt_sim hL.fits hg hj0 hpre hd []
    refine ⟨fun t' h hne => ?_, fun h => ?_⟩
    · injection h with h
      subst h
      cases t with
      | ok vs w => exact hf
      | ret v w => exact hf
      | stop r w b => exact hf.1 fun hr => hne w b (by rw [hr])
    · rcases h with h | ⟨w, b, h⟩
      · cases h
      · injection h with h
        subst h
        exact (hf.2 rfl).le hstep

/-- One line: the machine stops as the rules say. -/
theorem line_iff (P : Prog Γ E S) {f} {G} (hG : Agrees P f G) (ph : Op (sig Γ)) (print : Γ.V) (body : Block (sig Γ)) (hok : body.ok none false) (hb : body.each G) (hoks : ∀ F ∈ P.fns, F.ok ∧ F.each G)
    {code : Code Γ} {starts : List (List Nat)} (hL : Laid P code starts f ph P.fns) (hsz : code.length < 2 ^ 31) (vs : List Γ.V) (us : List Int) (s : S) (pre : Code Γ) (locs : List Unit)
    (hpre : linear ph (emitLine (em P.base f) print vs.length body) pre locs <+: code) (r) (hr : ∀ w, r ≠ .err (.err P.diverge, w)) :
    Reaches P code starts (.run ⟨pre.length, ⟨vs, ⟨[], us, ([], s)⟩⟩, []⟩) (.stop r) ↔ ∃ n t, lineEnd P n print body vs s = some t ∧ r = stopOf us t := by
  obtain ⟨B, hB, key⟩ := line_key P hG ph print body hok hb hoks hL hsz vs us s pre locs hpre
  constructor
  · rintro ⟨N, hN⟩
    obtain ⟨k1, k2⟩ := key ((N + 1) * B)
    have late : ¬ Late P code starts ((N + 1) * B / B) (.run ⟨pre.length, ⟨vs, ⟨[], us, ([], s)⟩⟩, []⟩) := by
      rw [Nat.mul_div_cancel _ hB]
      rintro (⟨w, hw⟩ | hw)
      · exact hr w (reaches_det P ⟨N, hN⟩ hw)
      · obtain ⟨c, hc⟩ := hw N (by omega)
        rw [hN] at hc
        cases hc
    cases ht : lineEnd P ((N + 1) * B) print body vs s with
    | none => exact absurd (k2 (.inl ht)) late
    | some t =>
      by_cases hd : ∃ w b, t = .stop (.err P.diverge) w b
      · obtain ⟨w, b, rfl⟩ := hd
        exact absurd (k2 (.inr ⟨w, b, ht⟩)) late
      · exact ⟨_, t, ht, reaches_det P ⟨N, hN⟩ (k1 t ht fun w b h => hd ⟨w, b, h⟩)⟩
  · rintro ⟨n, t, ht, rfl⟩
    refine (key n).1 t ht fun w b h => ?_
    subst h
    exact hr _ rfl

/-- A line that ends has declared its variables. -/
theorem line_len (P : Prog Γ E S) (print : Γ.V) (body : Block (sig Γ)) (vs : List Γ.V) (s : S) (hok : body.ok none false) (hb : body.each Codegen.Expr.NoFieldCompose) {n vs' w} (h : lineEnd P n print body vs s = some (.ok vs' w)) :
    vs'.length = vs.length + declared body := by
  have h1 := Stmts.sim_line (atomicF P id n) (em P.base id) n vs.length body hok (q := emitLine (em P.base id) print vs.length body) (emitLine_grow _ _ _ _) vs rfl ⟨[], [], ([], s)⟩
  have hr := Full.runB_at [] [] (agrees_plain P n) n body hb vs ([], s)
  rw [show Stmts.runB (atomicF P id n).toLang n body vs ⟨[], [], ([], s)⟩ = _ from hr] at h1
  unfold lineEnd at h
  rcases hx : Stmts.runB (lang P n) n body vs ([], s) with _ | (⟨env, val, w'⟩ | _ | _ | _ | ⟨r, w', b⟩)
  all_goals rw [hx] at h1 h
  · cases h
  · have h2 : env.length = vs.length + declared body := by rw [h1.1, line_locals]
    cases val with
    | none =>
      injection h with h
      injection h with h _
      rw [← h, h2]
    | some v =>
      injection h with h
      unfold printed at h
      rcases hc : ((withCalls P (callFn P n)).prims env.length).call print [v] (⟨env, rfl⟩, w') with ⟨v', env', w''⟩ | ⟨r, env', w''⟩
      · rw [hc] at h
        injection h with h _
        rw [← h, env'.2, h2]
      · rw [hc] at h
        cases h
  all_goals cases h

/-! ## The code of a session -/

theorem add_code (ph : Op (sig Γ)) (P : Prog Γ E S) (f print) (I : Image Γ) (l : Line Γ) :
    linear ph (emitLine (em P.base f) print I.k l.body) I.code (List.replicate I.code.length ()) <+: (I.add ph (em P.base f) print l).1.code :=
  (linkFns_laid P f ph l.fns (Graph.emit ph () (emitLine (em P.base f) print I.k l.body).b.graph I.code (List.replicate I.code.length ())).1 (Graph.emit ph () (emitLine (em P.base f) print I.k l.body).b.graph I.code (List.replicate I.code.length ())).2.1).1

theorem add_prefix (ph : Op (sig Γ)) (P : Prog Γ E S) (f print) (I : Image Γ) (l : Line Γ) : I.code <+: (I.add ph (em P.base f) print l).1.code := by
  refine List.IsPrefix.trans ?_ (add_code ph P f print I l)
  unfold linear
  rw [Graph.emit_eq]
  exact List.prefix_append _ _

theorem all_prefix (ph : Op (sig Γ)) (P : Prog Γ E S) (f print) : ∀ (ls : List (Line Γ)) (I : Image Γ), I.code <+: (I.all ph (em P.base f) print ls).code
  | [], I => List.prefix_rfl
  | l :: ls, I => (add_prefix ph P f print I l).trans (all_prefix ph P f print ls _)

/-- The code of the functions is where calls enter. -/
theorem add_laid (ph : Op (sig Γ)) (P : Prog Γ E S) (f print) (I : Image Γ) (l : Line Γ) (h : Laid P I.code I.starts f ph I.fns) :
    Laid P (I.add ph (em P.base f) print l).1.code (I.add ph (em P.base f) print l).1.starts f ph (I.add ph (em P.base f) print l).1.fns := by
  have hp := add_prefix ph P f print I l
  obtain ⟨h1, h2⟩ := (linkFns_laid P f ph l.fns (Graph.emit ph () (emitLine (em P.base f) print I.k l.body).b.graph I.code (List.replicate I.code.length ())).1 (Graph.emit ph () (emitLine (em P.base f) print I.k l.body).b.graph I.code (List.replicate I.code.length ())).2.1).2
  refine ⟨by simp [Image.add, h.1, h1], fun fn F hF => ?_⟩
  simp only [Image.add] at hF ⊢
  by_cases hlt : fn < I.fns.length
  · rw [List.getElem?_append_left hlt] at hF
    rw [List.getElem?_append_left (by rw [h.1]; exact hlt)]
    obtain ⟨pre, locs, h3, h4⟩ := h.2 fn F hF
    exact ⟨pre, locs, h3.trans hp, h4⟩
  · rw [List.getElem?_append_right (by omega)] at hF
    rw [List.getElem?_append_right (by rw [h.1]; omega), h.1]
    exact h2 _ F hF

theorem agrees_here (P : Prog Γ E S) (fns) : Agrees (here P fns) id Codegen.Expr.NoFieldCompose := agrees_plain (here P fns)

/-- What the parser accepts, and no `->` composed (C36). -/
def Line.ok (l : Line Γ) : Prop := l.body.ok none false ∧ l.body.each Codegen.Expr.NoFieldCompose ∧ ∀ F ∈ l.fns, F.ok ∧ F.each Codegen.Expr.NoFieldCompose

theorem stops_iff (P : Prog Γ E S) (ph : Op (sig Γ)) (print : Γ.V) (I : Image Γ) (l : Line Γ) (hI : Laid P I.code I.starts id ph I.fns) (hfns : ∀ F ∈ I.fns, F.ok ∧ F.each Codegen.Expr.NoFieldCompose) (hl : l.ok)
    (hsz : (I.add ph (em P.base id) print l).1.code.length < 2 ^ 31) (vs : List Γ.V) (hk : vs.length = I.k) (us : List Int) (s : S) (r) (hr : ∀ w, r ≠ .err (.err P.diverge, w)) :
    Stops P (I.add ph (em P.base id) print l).1 (I.add ph (em P.base id) print l).2 vs us s r ↔ ∃ n t, lineEnd (here P (I.fns ++ l.fns)) n print l.body vs s = some t ∧ r = stopOf us t := by
  have hcode := add_code ph P id print I l
  rw [← hk] at hcode
  refine line_iff (here P (I.fns ++ l.fns)) (agrees_here P _) ph print l.body hl.1 hl.2.1 ?_ (add_laid ph P id print I l hI) hsz vs us s I.code _ hcode r hr
  intro F hF
  rcases List.mem_append.1 hF with h | h
  · exact hfns F h
  · exact hl.2.2 F h

theorem runs_says (P : Prog Γ E S) (ph : Op (sig Γ)) (print : Γ.V) (report : E → S → S) : ∀ (ls : List (Line Γ)) (I : Image Γ) (_ : Laid P I.code I.starts id ph I.fns) (_ : ∀ F ∈ I.fns, F.ok ∧ F.each Codegen.Expr.NoFieldCompose)
    (_ : ∀ l ∈ ls, l.ok) (_ : (I.all ph (em P.base id) print ls).code.length < 2 ^ 31) (vs : List Γ.V) (_ : vs.length = I.k) (us : List Int) (s : S),
    (∀ x, x ≠ .lost → Says P print report I.fns vs s ls x → Runs P ph print report I vs us s ls x) ∧
    (∀ x, Runs P ph print report I vs us s ls x → Says P print report I.fns vs s ls x ∨ Says P print report I.fns vs s ls .lost)
  | [], I, hI, hfns, hls, hsz, vs, hk, us, s => by
    refine ⟨fun x _ h => ?_, fun x h => ?_⟩
    · cases h; exact .done
    · cases h; exact .inl .done
  | l :: ls, I, hI, hfns, hls, hsz, vs, hk, us, s => by
    have hl := hls l (by simp)
    have hsz' : (I.add ph (em P.base id) print l).1.code.length < 2 ^ 31 := Nat.lt_of_le_of_lt (all_prefix ph P id print ls _).length_le hsz
    have key := stops_iff P ph print I l hI hfns hl hsz' vs hk us s
    have hI' := add_laid ph P id print I l hI
    have hfns' : ∀ F ∈ (I.add ph (em P.base id) print l).1.fns, F.ok ∧ F.each Codegen.Expr.NoFieldCompose := by
      intro F hF
      rcases List.mem_append.1 hF with h | h
      · exact hfns F h
      · exact hl.2.2 F h
    have hk' : (I.add ph (em P.base id) print l).1.k = vs.length + declared l.body := by rw [hk]; exact emitLine_locals P id print I.k l.body
    have ih := runs_says P ph print report ls (I.add ph (em P.base id) print l).1 hI' hfns' (fun l h => hls l (by simp [h])) hsz
    have hfe : (I.add ph (em P.base id) print l).1.fns = I.fns ++ l.fns := rfl
    have hlen : ∀ {n vs' w}, lineEnd (here P (I.fns ++ l.fns)) n print l.body vs s = some (.ok vs' w) → vs'.length = vs.length + declared l.body := line_len _ _ _ _ _ hl.1 hl.2.1
    rw [hfe] at ih
    refine ⟨fun x hx h => ?_, fun x h => ?_⟩
    · cases h with
      | next h1 h2 =>
        rename_i n vs' w
        have hlen' := hlen h1
        refine .next ((key _ (fun w h => by cases h)).2 ⟨n, _, h1, rfl⟩) ?_
        have e : vs'.take (I.add ph (em P.base id) print l).1.k = vs' := List.take_of_length_le (by rw [hk', hlen']; omega)
        rw [e]
        exact (ih vs' (by rw [hk', hlen']) us w.2).1 x hx h2
      | failed h1 he hw h2 =>
        rename_i n e w b
        refine .failed (vs' := b.take (I.add ph (em P.base id) print l).1.k) (us' := us) ((key _ (fun w h => by injection h with h; injection h with h; injection h with h; exact he h)).2 ⟨n, _, h1, rfl⟩) he (List.length_take_le _ _) List.prefix_rfl ?_
        rw [hk']
        exact (ih (b.take _) (by rw [hk', List.length_take]; have := hw.2; omega) us _).1 x hx h2
      | quit h1 => exact .quit ((key _ (fun w h => by injection h with h; injection h with h; cases h)).2 ⟨_, _, h1, rfl⟩)
      | panic h1 => exact .panic ((key _ (fun w h => by injection h with h; injection h with h; cases h)).2 ⟨_, _, h1, rfl⟩)
      | lost h1 he hw => exact absurd rfl hx
      | ret h1 => exact absurd rfl hx
    · cases h with
      | next h1 h2 =>
        rename_i st t
        obtain ⟨n, t', h3, h4⟩ := (key _ (fun w h => by cases h)).1 h1
        cases t' with
        | ok vs' w =>
          injection h4 with h4 h5
          subst h4 h5
          have hlen' := hlen h3
          have e : st.take (I.add ph (em P.base id) print l).1.k = st := List.take_of_length_le (by rw [hk', hlen']; omega)
          rw [e] at h2
          rcases (ih st (by rw [hk', hlen']) us w.2).2 x h2 with h | h
          · exact .inl (.next h3 h)
          · exact .inr (.next h3 h)
        | ret v w => cases h4
        | stop r w b => cases h4
      | failed h1 he hle hpre h2 =>
        rename_i e w b vs' us'
        obtain ⟨n, t', h3, h4⟩ := (key _ (fun w h => by injection h with h; injection h with h; injection h with h; exact he h)).1 h1
        cases t' with
        | ok vs' w => cases h4
        | ret v w => cases h4
        | stop r w b =>
          injection h4 with h4
          injection h4 with h4 h5
          injection h5 with h5 h6
          subst h4 h5 h6
          by_cases hw : Whole (here P (I.fns ++ l.fns)) n l.body vs s b
          · have hlb : (b.take (I.add ph (em P.base id) print l).1.k).length = (I.add ph (em P.base id) print l).1.k := by rw [hk', List.length_take]; have := hw.2; omega
            have e : b.take (I.add ph (em P.base id) print l).1.k = vs' := hpre.eq_of_length (by have := hpre.length_le; omega)
            rw [e] at hlb
            rw [hk'] at e
            rcases (ih vs' hlb us' _).2 x h2 with h | h
            · exact .inl (.failed h3 he hw (by rw [e]; exact h))
            · exact .inr (.failed h3 he hw (by rw [e]; exact h))
          · exact .inr (.lost h3 he hw)
      | quit h1 =>
        obtain ⟨n, t', h3, h4⟩ := (key _ (fun w h => by injection h with h; injection h with h; cases h)).1 h1
        cases t' with
        | ok vs' w => cases h4
        | ret v w => cases h4
        | stop r w b =>
          injection h4 with h4
          injection h4 with h4 h5
          injection h5 with h5 h6
          subst h4 h5 h6
          exact .inl (.quit h3)
      | panic h1 =>
        obtain ⟨n, t', h3, h4⟩ := (key _ (fun w h => by injection h with h; injection h with h; cases h)).1 h1
        cases t' with
        | ok vs' w => cases h4
        | ret v w => cases h4
        | stop r w b =>
          injection h4 with h4
          injection h4 with h4 h5
          injection h5 with h5 h6
          subst h4 h5 h6
          exact .inl (.panic h3)
      | ret h1 =>
        obtain ⟨n, t', h3, h4⟩ := (key _ (fun w h => by cases h)).1 h1
        cases t' with
        | ok vs' w => cases h4
        | ret v w => exact .inr (.ret h3)
        | stop r w b => cases h4
      | crash h1 =>
        obtain ⟨n, t', h3, h4⟩ := (key _ (fun w h => by cases h)).1 h1
        cases t' <;> cases h4

/-! ## C79 -/

/-- **C79** a session runs as the rules say: whatever lines are typed, if by the rules the session then waits for the next line, with given values of its variables (or has quit, or a native function has panicked), so it does on the machine;
and the machine does nothing else, unless the rules are silent. In particular each line uses the variables and functions of the lines before it, also those of lines that failed; the value of a line is printed; after an error, in whatever state the machine is, the session goes on; and it never crashes. Counters
that an error leaves behind do no harm.

Missing: what C76 misses; an error in a line before all variables that it declares have their values (`lost`; C48 shows what goes wrong then). -/
theorem C79_session_partial (P : Prog Γ E S) (ph : Op (sig Γ)) (print : Γ.V) (report : E → S → S) (ls : List (Line Γ)) (hls : ∀ l ∈ ls, l.ok) (hsz : (Image.empty.all ph (em P.base id) print ls).code.length < 2 ^ 31) (s : S) :
    (∀ x, x ≠ .lost → Says P print report [] [] s ls x → Runs P ph print report .empty [] [] s ls x) ∧
    (∀ x, Runs P ph print report .empty [] [] s ls x → Says P print report [] [] s ls x ∨ Says P print report [] [] s ls .lost) :=
  runs_says P ph print report ls .empty ⟨rfl, fun _ _ h => by simp [Image.empty] at h⟩ (fun F h => by simp [Image.empty] at h) hls hsz [] rfl [] s

/-- With a larger bound. -/
theorem runS_more (P : Prog Γ E S) (st : Stmts.Stmt (sig Γ)) (vs : List Γ.V) (w : World Γ.V S) {n m : Nat} (hnm : n ≤ m) {x} (h : Stmts.runS (lang P n) n st vs w = some x) (hx : ∀ w b, x ≠ .stop (.err P.diverge, w, b)) :
    Stmts.runS (lang P m) m st vs w = some x := by
  have h1 := Stmts.runS_ap (lang_ap P (callFn_mono P hnm)) n st vs w
  rw [show Stmts.runS (Full.langDoc (withCalls P (callFn P n))) n st vs w = _ from h] at h1
  rcases h1 with h1 | ⟨⟨q, w', b⟩, h1, hd⟩
  · exact Stmts.runS_le (lang P m) hnm st vs w x h1.symm
  · injection h1 with h1
    have hq : q = .err P.diverge := hd
    subst hq
    exact absurd h1 (hx w' b)

theorem runB_more (P : Prog Γ E S) (body : Block (sig Γ)) (vs : List Γ.V) (w : World Γ.V S) {n m : Nat} (hnm : n ≤ m) {x} (h : Stmts.runB (lang P n) n body vs w = some x) (hx : ∀ w b, x ≠ .stop (.err P.diverge, w, b)) :
    Stmts.runB (lang P m) m body vs w = some x := by
  have h1 := Stmts.runB_ap (lang_ap P (callFn_mono P hnm)) n body vs w
  rw [show Stmts.runB (Full.langDoc (withCalls P (callFn P n))) n body vs w = _ from h] at h1
  rcases h1 with h1 | ⟨⟨q, w', b⟩, h1, hd⟩
  · exact Stmts.runB_le (lang P m) hnm body vs w x h1.symm
  · injection h1 with h1
    have hq : q = .err P.diverge := hd
    subst hq
    exact absurd h1 (hx w' b)

theorem reached_more (P : Prog Γ E S) {n m : Nat} (hnm : n ≤ m) : ∀ (body : Block (sig Γ)) (vs : List Γ.V) (w : World Γ.V S) {x} (_ : Stmts.runB (lang P n) n body vs w = some x) (_ : ∀ w b, x ≠ .stop (.err P.diverge, w, b)),
    reached P m body vs w = reached P n body vs w
  | .nil, vs, w, x, h, hx => rfl
  | .cons st .nil, vs, w, x, h, hx => by
    rw [Stmts.runB] at h
    simp only [reached, h, runS_more P st vs w hnm h hx]
  | .cons st (.cons st' b), vs, w, x, h, hx => by
    rw [Stmts.runB] at h
    rcases hr : Stmts.runS (lang P n) n st vs w with _ | y
    · rw [hr] at h; cases h
    · rw [hr] at h
      have hy : ∀ w b, y ≠ .stop (.err P.diverge, w, b) := by
        rintro w b rfl
        injection h with h
        exact hx w b h.symm
      have h2 := runS_more P st vs w hnm hr hy
      rw [reached, reached, hr, h2]
      cases y with
      | normal env v w' => exact reached_more P hnm (.cons st' b) env w' h hx
      | brk _ _ => rfl
      | cont _ _ => rfl
      | ret _ _ => rfl
      | stop _ => rfl

theorem lineEnd_more (P : Prog Γ E S) (print : Γ.V) (body : Block (sig Γ)) (vs : List Γ.V) (s : S) {n m : Nat} (hnm : n ≤ m) {t} (h : lineEnd P n print body vs s = some t) (ht : ∀ w b, t ≠ .stop (.err P.diverge) w b) :
    lineEnd P m print body vs s = some t ∧ reached P m body vs ([], s) = reached P n body vs ([], s) := by
  cases hx : Stmts.runB (lang P n) n body vs ([], s) with
  | none => simp [lineEnd, hx] at h
  | some x =>
    have hd : ∀ w b, x ≠ .stop (.err P.diverge, w, b) := by
      rintro w b rfl
      simp only [lineEnd, hx, Option.some.injEq] at h
      exact ht w b h.symm
    refine ⟨?_, reached_more P hnm body vs ([], s) hx hd⟩
    have hx3 := runB_more P body vs ([], s) hnm hx hd
    unfold lineEnd at h ⊢
    rw [hx] at h
    rw [hx3]
    rcases x with ⟨env, val, w⟩ | _ | _ | _ | ⟨r, w, b⟩
    · cases val with
      | none => exact h
      | some v =>
        simp only at h ⊢
        injection h with h
        congr 1
        subst h
        have key : Codegen.Ap P.diverge (((withCalls P (callFn P n)).prims env.length).call print [v] (⟨env, rfl⟩, w)) (((withCalls P (callFn P m)).prims env.length).call print [v] (⟨env, rfl⟩, w)) :=
          back_ap _ _ (proc_ap (callFn_mono P hnm) _)
        unfold printed at ht ⊢
        rcases key with key | ⟨p, key⟩
        · rw [key]
        · rw [key] at ht
          exact absurd rfl (ht p.2 _)
    · cases h
    · cases h
    · exact h
    · exact h

theorem lineEnd_det (P : Prog Γ E S) (print : Γ.V) (body : Block (sig Γ)) (vs : List Γ.V) (s : S) {n m : Nat} {t t'} (h : lineEnd P n print body vs s = some t) (h' : lineEnd P m print body vs s = some t') (ht : ∀ w b, t ≠ .stop (.err P.diverge) w b)
    (ht' : ∀ w b, t' ≠ .stop (.err P.diverge) w b) : t = t' ∧ reached P n body vs ([], s) = reached P m body vs ([], s) := by
  obtain ⟨a1, a2⟩ := lineEnd_more P print body vs s (Nat.le_max_left n m) h ht
  obtain ⟨b1, b2⟩ := lineEnd_more P print body vs s (Nat.le_max_right n m) h' ht'
  exact ⟨by rw [a1] at b1; exact Option.some.inj b1, by rw [← a2, b2]⟩

/-- **C79** the rules are not ambiguous: at most one thing can come of a session. -/
theorem C79_rules (P : Prog Γ E S) (print : Γ.V) (report : E → S → S) {fns vs s ls x x'} (h : Says P print report fns vs s ls x) (h' : Says P print report fns vs s ls x') : x = x' := by
  have ne : ∀ {e : E}, e ≠ P.diverge → ∀ {w b} (w' : World Γ.V S) (b' : List Γ.V), (LineEnd.stop (.err e) w b : LineEnd Γ E S) ≠ .stop (.err P.diverge) w' b' := by
    intro e he w b w' b' h
    injection h with h
    injection h with h
    exact he h
  induction h generalizing x' with
  | done => cases h'; rfl
  | next h1 h2 ih =>
    cases h' with
    | next h3 h4 =>
      obtain ⟨e, _⟩ := lineEnd_det _ _ _ _ _ h1 h3 (fun w b h => by cases h) (fun w b h => by cases h)
      injection e with e1 e2
      subst e1 e2
      exact ih h4
    | failed h3 he => exact absurd (lineEnd_det _ _ _ _ _ h1 h3 (fun w b h => by cases h) (ne he)).1 (fun h => by cases h)
    | quit h3 => exact absurd (lineEnd_det _ _ _ _ _ h1 h3 (fun w b h => by cases h) (fun w b h => by injection h with h; cases h)).1 (fun h => by cases h)
    | panic h3 => exact absurd (lineEnd_det _ _ _ _ _ h1 h3 (fun w b h => by cases h) (fun w b h => by injection h with h; cases h)).1 (fun h => by cases h)
    | lost h3 he => exact absurd (lineEnd_det _ _ _ _ _ h1 h3 (fun w b h => by cases h) (ne he)).1 (fun h => by cases h)
    | ret h3 => exact absurd (lineEnd_det _ _ _ _ _ h1 h3 (fun w b h => by cases h) (fun w b h => by cases h)).1 (fun h => by cases h)
  | failed h1 he hw h2 ih =>
    cases h' with
    | next h3 h4 => exact absurd (lineEnd_det _ _ _ _ _ h1 h3 (ne he) (fun w b h => by cases h)).1 (fun h => by cases h)
    | failed h3 he' hw' h4 =>
      obtain ⟨e, _⟩ := lineEnd_det _ _ _ _ _ h1 h3 (ne he) (ne he')
      injection e with e1 e2 e3
      injection e1 with e1
      subst e1 e2 e3
      exact ih h4
    | quit h3 => exact absurd (lineEnd_det _ _ _ _ _ h1 h3 (ne he) (fun w b h => by injection h with h; cases h)).1 (fun h => by injection h with h; cases h)
    | panic h3 => exact absurd (lineEnd_det _ _ _ _ _ h1 h3 (ne he) (fun w b h => by injection h with h; cases h)).1 (fun h => by injection h with h; cases h)
    | lost h3 he' hw' =>
      obtain ⟨e, e'⟩ := lineEnd_det _ _ _ _ _ h1 h3 (ne he) (ne he')
      injection e with e1 e2 e3
      subst e3
      exact absurd (by unfold Whole at hw ⊢; rw [← e']; exact hw) hw'
    | ret h3 => exact absurd (lineEnd_det _ _ _ _ _ h1 h3 (ne he) (fun w b h => by cases h)).1 (fun h => by cases h)
  | quit h1 =>
    have n1 : ∀ {w b} (w' : World Γ.V S) (b' : List Γ.V), (LineEnd.stop .exit w b : LineEnd Γ E S) ≠ .stop (.err P.diverge) w' b' := fun w b h => by injection h with h; cases h
    cases h' with
    | next h3 h4 => exact absurd (lineEnd_det _ _ _ _ _ h1 h3 n1 (fun w b h => by cases h)).1 (fun h => by cases h)
    | failed h3 he => exact absurd (lineEnd_det _ _ _ _ _ h1 h3 n1 (ne he)).1 (fun h => by injection h with h; cases h)
    | quit h3 =>
      obtain ⟨e, _⟩ := lineEnd_det _ _ _ _ _ h1 h3 n1 n1
      injection e with e1 e2 e3
      rw [e2]
    | panic h3 => exact absurd (lineEnd_det _ _ _ _ _ h1 h3 n1 (fun w b h => by injection h with h; cases h)).1 (fun h => by injection h with h; cases h)
    | lost h3 he => exact absurd (lineEnd_det _ _ _ _ _ h1 h3 n1 (ne he)).1 (fun h => by injection h with h; cases h)
    | ret h3 => exact absurd (lineEnd_det _ _ _ _ _ h1 h3 n1 (fun w b h => by cases h)).1 (fun h => by cases h)
  | panic h1 =>
    have n1 : ∀ {w b} (w' : World Γ.V S) (b' : List Γ.V), (LineEnd.stop .panic w b : LineEnd Γ E S) ≠ .stop (.err P.diverge) w' b' := fun w b h => by injection h with h; cases h
    cases h' with
    | next h3 h4 => exact absurd (lineEnd_det _ _ _ _ _ h1 h3 n1 (fun w b h => by cases h)).1 (fun h => by cases h)
    | failed h3 he => exact absurd (lineEnd_det _ _ _ _ _ h1 h3 n1 (ne he)).1 (fun h => by injection h with h; cases h)
    | quit h3 => exact absurd (lineEnd_det _ _ _ _ _ h1 h3 n1 (fun w b h => by injection h with h; cases h)).1 (fun h => by injection h with h; cases h)
    | panic h3 => rfl
    | lost h3 he => exact absurd (lineEnd_det _ _ _ _ _ h1 h3 n1 (ne he)).1 (fun h => by injection h with h; cases h)
    | ret h3 => exact absurd (lineEnd_det _ _ _ _ _ h1 h3 n1 (fun w b h => by cases h)).1 (fun h => by cases h)
  | lost h1 he hw =>
    cases h' with
    | next h3 h4 => exact absurd (lineEnd_det _ _ _ _ _ h1 h3 (ne he) (fun w b h => by cases h)).1 (fun h => by cases h)
    | failed h3 he' hw' h4 =>
      obtain ⟨e, e'⟩ := lineEnd_det _ _ _ _ _ h1 h3 (ne he) (ne he')
      injection e with e1 e2 e3
      subst e3
      exact absurd (by unfold Whole at hw' ⊢; rw [e']; exact hw') hw
    | quit h3 => exact absurd (lineEnd_det _ _ _ _ _ h1 h3 (ne he) (fun w b h => by injection h with h; cases h)).1 (fun h => by injection h with h; cases h)
    | panic h3 => exact absurd (lineEnd_det _ _ _ _ _ h1 h3 (ne he) (fun w b h => by injection h with h; cases h)).1 (fun h => by injection h with h; cases h)
    | lost h3 he' hw' => rfl
    | ret h3 => rfl
  | ret h1 =>
    cases h' with
    | next h3 h4 => exact absurd (lineEnd_det _ _ _ _ _ h1 h3 (fun w b h => by cases h) (fun w b h => by cases h)).1 (fun h => by cases h)
    | failed h3 he => exact absurd (lineEnd_det _ _ _ _ _ h1 h3 (fun w b h => by cases h) (ne he)).1 (fun h => by cases h)
    | quit h3 => exact absurd (lineEnd_det _ _ _ _ _ h1 h3 (fun w b h => by cases h) (fun w b h => by injection h with h; cases h)).1 (fun h => by cases h)
    | panic h3 => exact absurd (lineEnd_det _ _ _ _ _ h1 h3 (fun w b h => by cases h) (fun w b h => by injection h with h; cases h)).1 (fun h => by cases h)
    | lost h3 he => rfl
    | ret h3 => rfl

/-- **C79** so a session that by the rules comes to something does exactly that on the machine. -/
theorem C79_session_exact_partial (P : Prog Γ E S) (ph : Op (sig Γ)) (print : Γ.V) (report : E → S → S) (ls : List (Line Γ)) (hls : ∀ l ∈ ls, l.ok) (hsz : (Image.empty.all ph (em P.base id) print ls).code.length < 2 ^ 31) (s : S)
    (x : End Γ S) (hx : x ≠ .lost) (h : Says P print report [] [] s ls x) : ∀ x', Runs P ph print report .empty [] [] s ls x' ↔ x' = x := by
  obtain ⟨h1, h2⟩ := C79_session_partial P ph print report ls hls hsz s
  refine fun x' => ⟨fun h' => ?_, ?_⟩
  · rcases h2 x' h' with h3 | h3
    · exact C79_rules P print report h3 h
    · exact absurd (C79_rules P print report h h3) hx
  · rintro rfl
    exact h1 x' hx h

namespace Example
open Cordy.Program.Example
open Cordy.Codegen (Expr Args)

/-- Typed are: `let t = 0`; `fn fact …` (which counts its calls in `t`); `fact(3)`; `let a = 5; t = 20; if 1 { let z = 7; fact(1, 2) }`, which fails; `t + a`; a line that declares nothing and fails in a function, after the function has changed `t`; `t`. -/
def lines : List (Line Γ₃) := [⟨[], blk [.letIn .named (n 0)]⟩, ⟨[⟨1, [], [], fact⟩], .nil⟩, ⟨[], blk [.expr (call (.fn 0) [n 3])]⟩,
  ⟨[], blk [.letIn .named (n 5), .expr (.assign (.var (.own 0)) (n 20)), .ite (n 1) (blk [.letIn .named (n 7), .expr (call (.fn 0) [n 1, n 2])]) .none]⟩,
  ⟨[], blk [.expr (.binary .add (x 0) (x 1) false)]⟩,
  ⟨[⟨0, [], [], blk [.expr (.assign (.var (.main 0)) (n 3)), .expr (call .map [])]⟩], blk [.expr (call .print [call (.fn 1) []])]⟩,
  ⟨[], blk [.expr (x 0)]⟩]

/-- An error is reported as 999. -/
def report (_ : Option String) (s : List Int) : List Int := s ++ [999]

theorem lines_ok : ∀ l ∈ lines, l.ok := by
  intro l h
  simp only [lines, List.mem_cons, List.not_mem_nil, or_false] at h
  rcases h with rfl | rfl | rfl | rfl | rfl | rfl | rfl
  all_goals simp [Line.ok, Fn.ok, Fn.each, fact, blk, n, x, call, Block.ok, Stmts.Stmt.ok, Stmts.Else.ok, Block.each, Stmts.Stmt.each, Stmts.Else.each, Stmts.Test.each, Expr.NoFieldCompose, Args.NoFieldCompose, Codegen.Chain.NoFieldCompose]

deriving instance DecidableEq for Codegen.Stop

instance {Γ : Codegen.Sig} {E S : Type} [DecidableEq Γ.V] [DecidableEq E] [DecidableEq S] : DecidableEq (LineEnd Γ E S)
  | .ok vs w, .ok vs' w' => decidable_of_iff (vs = vs' ∧ w = w') (by simp)
  | .ret v w, .ret v' w' => decidable_of_iff (v = v' ∧ w = w') (by simp)
  | .stop r w vs, .stop r' w' vs' => decidable_of_iff (r = r' ∧ w = w' ∧ vs = vs') (by simp)
  | .ok _ _, .ret _ _ => .isFalse (by simp)
  | .ok _ _, .stop _ _ _ => .isFalse (by simp)
  | .ret _ _, .ok _ _ => .isFalse (by simp)
  | .ret _ _, .stop _ _ _ => .isFalse (by simp)
  | .stop _ _ _, .ok _ _ => .isFalse (by simp)
  | .stop _ _ _, .ret _ _ => .isFalse (by simp)

instance : DecidableEq Γ₃.V := inferInstanceAs (DecidableEq Program.Example.Val)

/-- By the rules 6 is printed, an error reported, then 25, an error, 3; then `t` is 3 and `a` is 5. -/
theorem lines_say : Says P₃ .print report [] [] [] lines (.ready [Program.Example.Val.num 3, Program.Example.Val.num 5] [6, 999, 25, 999, 3]) := by
  refine .next (n := 9) (vs' := [Program.Example.Val.num 0]) (w := ([], [])) (by decide +kernel) ?_
  refine .next (n := 9) (vs' := [Program.Example.Val.num 0]) (w := ([], [])) (by decide +kernel) ?_
  refine .next (n := 9) (vs' := [Program.Example.Val.num 4]) (w := ([], [6])) (by decide +kernel) ?_
  refine .failed (n := 9) (e := some "wrong number of arguments") (w := ([[Program.Example.Val.num 20, Program.Example.Val.num 5, Program.Example.Val.num 7]], [6])) (vs' := [Program.Example.Val.num 20, Program.Example.Val.num 5, Program.Example.Val.num 7]) (by decide +kernel) (by decide) ⟨by decide +kernel, by decide⟩ ?_
  refine .next (n := 9) (vs' := [Program.Example.Val.num 20, Program.Example.Val.num 5]) (w := ([], [6, 999, 25])) (by decide +kernel) ?_
  refine .failed (n := 9) (e := some "bad call") (w := ([[], [Program.Example.Val.num 3, Program.Example.Val.num 5]], [6, 999, 25])) (vs' := [Program.Example.Val.num 3, Program.Example.Val.num 5]) (by decide +kernel) (by decide) ⟨by decide +kernel, by decide⟩ ?_
  refine .next (n := 9) (vs' := [Program.Example.Val.num 3, Program.Example.Val.num 5]) (w := ([], [6, 999, 25, 999, 3])) (by decide +kernel) ?_
  exact .done

/-- So does the machine, and nothing else. -/
example : ∀ e, Runs P₃ .nil .print report .empty [] [] [] lines e ↔ e = .ready [Program.Example.Val.num 3, Program.Example.Val.num 5] [6, 999, 25, 999, 3] :=
  C79_session_exact_partial P₃ .nil .print report lines lines_ok (by decide +kernel) [] _ (by simp) lines_say

end Example
end Cordy.Session
