import Verif.Lemmas.Program
import Verif.Lemmas.GraphSteps
import Verif.Lemmas.Defaults
/-!
# Programs with functions: the machine with frames follows the rules (for C76)
-/
namespace Cordy.Program
open Cordy.Codegen (Out Prims LitTy Ap)
open Cordy.Full (Runtime Vars sig St decode encode machine em langDoc)
open Cordy.Stmts (Block Op Br emitBody emitProgram callBody linear entry Ends)
open Cordy.Graph (Instr LRun LHalts LRunN lstep)
variable {Γ : Codegen.Sig} {E S : Type}

abbrev Code (Γ : Codegen.Sig) := List (Instr (Op (sig Γ)) (Br (sig Γ)))

section
variable {P : Prog Γ E S} {code : Code Γ} {starts : List (List Nat)}

/-- Once stopped, it stays so. -/
theorem run_before {i j : Nat} {x : State Γ E S} {c} (hij : i ≤ j) (h : steps P code starts j x = .run c) : ∃ c', steps P code starts i x = .run c' := by
  cases hx : steps P code starts i x with
  | run c' => exact ⟨c', rfl⟩
  | stop r =>
    obtain ⟨k, rfl⟩ : ∃ k, j = i + k := ⟨j - i, by omega⟩
    rw [steps_add, hx, steps_stop] at h
    cases h

variable (P code starts) in
/-- The machine takes at least `j` steps (or stops with the mark for missing fuel). -/
def Late (j : Nat) (x : State Γ E S) : Prop :=
  (∃ w, Reaches P code starts x (.stop (.err (.err P.diverge, w)))) ∨ ∀ i, i < j → ∃ c, steps P code starts i x = .run c

theorem Late.reach {j : Nat} {x y : State Γ E S} (h : Reaches P code starts x y) (hy : Late P code starts j y) : Late P code starts j x := by
  rcases hy with ⟨w, hy⟩ | hy
  · exact .inl ⟨w, h.trans hy⟩
  · obtain ⟨i, rfl⟩ := h
    refine .inr fun i' hi' => ?_
    by_cases hle : i ≤ i'
    · obtain ⟨k, rfl⟩ : ∃ k, i' = i + k := ⟨i' - i, by omega⟩
      rw [steps_add]
      exact hy k (by omega)
    · obtain ⟨c, hc⟩ := hy 0 (by omega)
      exact run_before (show i' ≤ i by omega) hc

theorem Late.step {j : Nat} {c : Config Γ E S} (h : Late P code starts j (step P code starts c)) : Late P code starts (j + 1) (.run c) := by
  rcases h with ⟨w, h⟩ | h
  · exact .inl ⟨w, (Reaches.step rfl).trans h⟩
  · refine .inr fun i hi => ?_
    cases i with
    | zero => exact ⟨c, rfl⟩
    | succ i => exact h i (by omega)

theorem Late.of_steps {i : Nat} {x : State Γ E S} {c} (h : steps P code starts i x = .run c) : Late P code starts (i + 1) x :=
  .inr fun _ hi => run_before (by omega) h

theorem Late.le {i j : Nat} {x : State Γ E S} (hij : i ≤ j) (h : Late P code starts j x) : Late P code starts i x := by
  rcases h with h | h
  · exact .inl h
  · exact .inr fun k hk => h k (by omega)

variable (P code starts) in
/-- From `x` the machine gets to what the outcome says; `good`: where it goes on with a result. -/
def Gets (j : Nat) (x : State Γ E S) (β : World Γ.V S → List Γ.V) (good : Γ.V → World Γ.V S → State Γ E S) : Out E (World Γ.V S) Γ.V → Prop
  | .ok v w => Reaches P code starts x (good v w)
  | .stop r w => (r ≠ .err P.diverge → Reaches P code starts x (.stop (.err (r, w, β w)))) ∧ (r = .err P.diverge → Late P code starts j x)

theorem Gets.reach {j : Nat} {x y : State Γ E S} {β} {good} {o : Out E (World Γ.V S) Γ.V} (h : Reaches P code starts x y) (hy : Gets P code starts j y β good o) : Gets P code starts j x β good o := by
  cases o with
  | ok v w => exact h.trans hy
  | stop r w => exact ⟨fun hr => h.trans (hy.1 hr), fun hr => (hy.2 hr).reach h⟩

theorem Gets.bind {j : Nat} {x : State Γ E S} {β} {k good} {o : Out E (World Γ.V S) Γ.V} {f : Γ.V → World Γ.V S → Out E (World Γ.V S) Γ.V} (h : Gets P code starts j x β k o)
    (hf : ∀ v w, Gets P code starts j (k v w) β good (f v w)) : Gets P code starts j x β good (o.bind f) := by
  cases o with
  | ok v w => exact (hf v w).reach h
  | stop r w => exact h

variable (P code starts) in
/-- The functions of the program, called with `n` levels, are realised by the machine. -/
def Good (n j : Nat) : Prop :=
  ∀ fn F ips ip args w fr frames lits us, P.fns[fn]? = some F → starts[fn]? = some ips → F.required ≤ args.length → ips[args.length - F.required]? = some ip →
    Gets P code starts j (.run ⟨ip, ⟨args, ⟨lits, us, w⟩⟩, fr :: frames⟩) (botOf P fr.k frames) (fun v w' => resume P starts v ⟨lits, us, w'⟩ (fr :: frames)) (callFn P n fn args w)

theorem good_zero : Good P code starts 0 0 := by
  intro fn F ips ip args w fr frames lits us _ _ _ _
  exact ⟨fun h => absurd rfl h, fun _ => .inr fun i hi => by omega⟩

variable (P starts) in
/-- There are entries for all functions and numbers of arguments. -/
def Fits : Prop := starts.length = P.fns.length ∧ ∀ (fn : Nat) F ips, P.fns[fn]? = some F → starts[fn]? = some ips → ips.length = F.defaults.length + 1

/-- Processes. -/
theorem proc_gets {n j : Nat} (hl : Fits P starts) (H : Good P code starts n j) (hj : n = 0 → j = 0) (ip k : Nat) (rest : List Γ.V) (lits) (us) (frames : List (Frame Γ E S)) :
    ∀ p : Proc Γ.V E (World Γ.V S), Gets P code starts j (proceed P starts ip k rest lits us frames p) (botOf P k frames) (fun v w => proceed P starts ip k rest lits us frames (.done (.ok v w))) (p.run (callFn P n))
  | .done (.ok v w) => .refl _
  | .done (.stop r w) => by
    refine ⟨fun _ => .refl _, fun hr => .inl ⟨(w, botOf P k frames w), ?_⟩⟩
    subst hr
    exact .refl _
  | .enter fn args w next => by
    simp only [Proc.run]
    have fail : (∀ m, callFn P (m + 1) fn args w = .stop .panic w) → proceed P starts ip k rest lits us frames (.enter fn args w next) = .stop (.err (.panic, w, botOf P k frames w)) →
        Gets P code starts j (proceed P starts ip k rest lits us frames (.enter fn args w next)) (botOf P k frames) (fun v w => proceed P starts ip k rest lits us frames (.done (.ok v w)))
          ((callFn P n fn args w).bind fun v s => (next v s).run (callFn P n)) := by
      intro h1 h2
      cases n with
      | zero => exact ⟨fun h => absurd rfl h, fun _ => .inr fun i hi => by have := hj rfl; omega⟩
      | succ m =>
        rw [h1 m, h2]
        exact ⟨fun _ => .refl _, fun h => by cases h⟩
    cases hf : P.fns[fn]? with
    | none => exact fail (fun m => by simp [callFn, hf]) (by simp [proceed, hf, bad])
    | some F =>
      obtain ⟨ips, hip⟩ : ∃ ips, starts[fn]? = some ips := by
        have : fn < starts.length := by
          rw [hl.1]
          by_contra hh
          rw [List.getElem?_eq_none (by omega)] at hf
          cases hf
        exact ⟨_, List.getElem?_eq_getElem this⟩
      have hi := hl.2 fn F ips hf hip
      by_cases hlen : F.required ≤ args.length
      · cases hip' : ips[args.length - F.required]? with
        | some ip' =>
          have hstart : proceed P starts ip k rest lits us frames (.enter fn args w next) = .run ⟨ip', ⟨args, ⟨lits, us, w⟩⟩, ⟨ip, k, rest, next⟩ :: frames⟩ := by
            simp [proceed, hf, hip, hlen, hip']
          rw [hstart]
          refine (H fn F ips ip' args w ⟨ip, k, rest, next⟩ frames lits us hf hip hlen hip').bind fun v w' => ?_
          exact proc_gets hl H hj ip k rest lits us frames (next v w')
        | none =>
          have : ¬ args.length ≤ F.required + F.defaults.length := by
            have := List.getElem?_eq_none_iff.1 hip'
            omega
          exact fail (fun m => by simp [callFn, hf, this]) (by simp [proceed, hf, hip, hlen, hip', bad])
      · exact fail (fun m => by simp [callFn, hf, hlen]) (by simp [proceed, hf, hip, hlen, bad])

theorem unwind_exit (P : Prog Γ E S) (frames : List (Frame Γ E S)) (st t) : unwind P frames (.exit st t) = .exit st t := by cases frames <;> rfl
theorem unwind_crash (P : Prog Γ E S) (frames : List (Frame Γ E S)) : unwind P frames .crash = .crash := by cases frames <;> rfl
/-- An error in a call. -/
theorem unwind_ask (P : Prog Γ E S) (frames : List (Frame Γ E S)) (k r w) : unwind P frames (.err (r, w, P.base.bot (nils k P.base.nil).1 w)) = .err (r, w, botOf P k frames w) := by cases frames <;> rfl

variable (P code starts) in
/-- How a run of the code of one function that ends with `r` goes on. -/
def Final (j : Nat) (x : State Γ E S) (frames : List (Frame Γ E S)) : Stmts.Stop (sig Γ) (St Γ (World Γ.V S)) (Full.Bad Γ.V E (World Γ.V S)) → Prop
  | .ret v t => Reaches P code starts x (resume P starts v t frames)
  | .err (r, w) => (r ≠ .err P.diverge → Reaches P code starts x (.stop (unwind P frames (.err (r, w))))) ∧ (r = .err P.diverge → Late P code starts j x)
  | r => Reaches P code starts x (.stop r)

theorem Final.of_stop {j : Nat} {x : State Γ E S} {frames} {r} (hr : ∀ v t, r ≠ .ret v t) (h : Reaches P code starts x (.stop (unwind P frames r))) : Final P code starts j x frames r := by
  cases r with
  | ret v t => exact absurd rfl (hr v t)
  | err q =>
    obtain ⟨q, w⟩ := q
    refine ⟨fun _ => h, fun hd => ?_⟩
    subst hd
    obtain ⟨w, b⟩ := w
    cases frames with
    | nil => exact .inl ⟨_, h⟩
    | cons fr frames => exact .inl ⟨_, h⟩
  | exit _ _ => rw [unwind_exit] at h; exact h
  | crash => rw [unwind_crash] at h; exact h

theorem Final.reach {j : Nat} {x y : State Γ E S} {frames} {r} (h : Reaches P code starts x y) (hy : Final P code starts j y frames r) : Final P code starts j x frames r := by
  cases r with
  | ret v t => exact h.trans hy
  | err q => exact ⟨fun hd => h.trans (hy.1 hd), fun hd => (hy.2 hd).reach h⟩
  | exit _ _ => exact h.trans hy
  | crash => exact h.trans hy

/-- Only `Return` returns. -/
theorem no_ret (Ρ : Runtime Γ E S) (o : Op (sig Γ)) (ho : o ≠ .ret) (m : Stmts.Mach (sig Γ) (St Γ S)) (v t) : Stmts.exec (machine Ρ id) o m ≠ .error (.ret v t) := by
  intro h
  cases o
  case ret => exact ho rfl
  case x p =>
    obtain ⟨k, o⟩ := p
    simp only [Stmts.exec, machine] at h
    split at h
    · split at h <;> cases h
    · cases h
  case xPop p =>
    obtain ⟨k, o⟩ := p
    simp only [Stmts.exec, machine] at h
    repeat' (first | (cases h; done) | split at h)
  all_goals
    simp only [Stmts.exec] at h
    repeat' (first | (cases h; done) | split at h)

theorem no_ret_test (Ρ : Runtime Γ E S) (o : Br (sig Γ)) (m : Stmts.Mach (sig Γ) (St Γ S)) (v t) : Stmts.test (machine Ρ id) o m ≠ .error (.ret v t) := by
  intro h
  cases o
  case x p =>
    obtain ⟨k, o⟩ := p
    simp only [Stmts.test, machine] at h
    split at h
    · split at h <;> cases h
    · cases h
  all_goals
    simp only [Stmts.test] at h
    repeat' (first | (cases h; done) | split at h)

/-- Opcodes of the running frame alone. -/
theorem own_sim (n : Nat) {cd : Code Γ} (hp : cd <+: code) (ip : Nat) (m) (frames : List (Frame Γ E S)) (j : Nat)
    (hstep : step P code starts ⟨ip, m, frames⟩ = ownStep P code ⟨ip, m, frames⟩)
    (hsame : lstep (Stmts.sem (atomic P n)) cd ip m = lstep (Stmts.sem (machine P.base id)) code ip m)
    (hret : ∀ e v t, lstep (Stmts.sem (machine P.base id)) code ip m ≠ some (e, .error (.ret v t)))
    (e) (r) (h : lstep (Stmts.sem (atomic P n)) cd ip m = some (e, r)) :
    (∀ (ip' : Nat) m', r = .ok ((ip' : Int), m') → ∃ i, 1 ≤ i ∧ steps P code starts i (.run ⟨ip, m, frames⟩) = .run ⟨ip', m', frames⟩) ∧
    (∀ x, r = .error x → Final P code starts j (.run ⟨ip, m, frames⟩) frames x) := by
  rw [hsame] at h
  constructor
  · intro ip' m' hr
    subst hr
    refine ⟨1, Nat.le_refl _, ?_⟩
    simp only [steps]
    rw [hstep]
    unfold ownStep
    rw [h]
  · intro x hr
    subst hr
    refine Final.of_stop (fun v t hx => hret e v t (by rw [← hx]; exact h)) (Reaches.step ?_)
    rw [hstep]
    unfold ownStep
    rw [h]

theorem step_sim {n j : Nat} (hl : Fits P starts) (H : Good P code starts n j) (hj : n = 0 → j = 0) {cd : Code Γ} (hp : cd <+: code) (ip : Nat) (m) (frames : List (Frame Γ E S))
    (e) (r) (h : lstep (Stmts.sem (atomic P n)) cd ip m = some (e, r)) :
    (∀ (ip' : Nat) m', r = .ok ((ip' : Int), m') → ∃ i, 1 ≤ i ∧ steps P code starts i (.run ⟨ip, m, frames⟩) = .run ⟨ip', m', frames⟩) ∧
    (∀ x, r = .error x → Final P code starts (j + 1) (.run ⟨ip, m, frames⟩) frames x) := by
  have hcode : ∀ x, cd[ip]? = some x → code[ip]? = some x := by
    intro x hx
    obtain ⟨t, rfl⟩ := hp
    have : ip < cd.length := by
      by_contra hh
      rw [List.getElem?_eq_none (by omega)] at hx
      cases hx
    rw [List.getElem?_append_left this, hx]
  cases hc : cd[ip]? with
  | none => simp [lstep, hc] at h
  | some ins =>
    have hc' := hcode _ hc
    have jump : ∀ off, ins = .jump off → lstep (Stmts.sem (atomic P n)) cd ip m = lstep (Stmts.sem (machine P.base id)) code ip m := by
      intro off ho; subst ho; simp only [lstep, hc, hc']
    cases ins with
    | jump off =>
      refine own_sim n hp ip m frames (j + 1) (by simp only [step, hc']) (jump off rfl) ?_ e r h
      intro e v t hh
      simp only [lstep, hc'] at hh
      cases hh
    | cjump ty off =>
      refine own_sim n hp ip m frames (j + 1) (by simp only [step, hc']) ?_ ?_ e r h
      · simp only [lstep, hc, hc', Stmts.sem, test_same]
      · intro e v t hh
        simp only [lstep, hc', Stmts.sem] at hh
        injection hh with hh
        injection hh with h1 h2
        cases ht : Stmts.test (machine P.base id) ty m with
        | ok q => rw [ht] at h2; cases h2
        | error x =>
          rw [ht] at h2
          injection h2 with h2
          subst h2
          exact no_ret_test _ _ _ _ _ ht
    | op o =>
      have own : o ≠ .ret → (∀ k x d, o = .x (k, x) → decode k m = some d → asks x d = none) → step P code starts ⟨ip, m, frames⟩ = ownStep P code ⟨ip, m, frames⟩ →
          (∀ (ip' : Nat) m', r = .ok ((ip' : Int), m') → ∃ i, 1 ≤ i ∧ steps P code starts i (.run ⟨ip, m, frames⟩) = .run ⟨ip', m', frames⟩) ∧
          (∀ x, r = .error x → Final P code starts (j + 1) (.run ⟨ip, m, frames⟩) frames x) := by
        intro h1 h2 h3
        refine own_sim n hp ip m frames (j + 1) h3 ?_ ?_ e r h
        · simp only [lstep, hc, hc', Stmts.sem, op_same P n o m h2]
        · intro e v t hh
          simp only [lstep, hc', Stmts.sem] at hh
          injection hh with hh
          injection hh with h1' h2'
          cases ht : Stmts.exec (machine P.base id) o m with
          | ok q => rw [ht] at h2'; cases h2'
          | error x =>
            rw [ht] at h2'
            injection h2' with h2'
            subst h2'
            exact no_ret _ _ h1 _ _ _ ht
      cases o
      case ret =>
        simp only [lstep, hc, Stmts.sem, Stmts.exec] at h
        injection h with h
        injection h with h1 h2
        cases hv : m.st.getLast? with
        | none =>
          rw [hv] at h2
          subst h2
          refine ⟨fun _ _ hr => (by cases hr), fun x hr => ?_⟩
          injection hr with hr
          subst hr
          exact Reaches.step (by simp only [step, hc', hv])
        | some v =>
          rw [hv] at h2
          subst h2
          refine ⟨fun _ _ hr => (by cases hr), fun x hr => ?_⟩
          injection hr with hr
          subst hr
          exact Reaches.step (by simp only [step, hc', hv])
      case x p =>
        obtain ⟨k, o⟩ := p
        cases hd : decode k m with
        | none => exact own (by simp) (fun k' x d' ho hd' => by cases ho; rw [hd] at hd'; cases hd') (by simp only [step, hc', hd])
        | some d =>
          cases ha : asks o d with
          | none => exact own (by simp) (fun k' x d' ho hd' => by cases ho; rw [hd] at hd'; cases hd'; exact ha) (by simp only [step, hc', hd, ha])
          | some q =>
            obtain ⟨a, st, us⟩ := q
            have hstep : step P code starts ⟨ip, m, frames⟩ = proceed P starts (ip + 1) k st.reverse m.s.lits us frames (P.ask a (d.s.1.1 :: d.s.2.1, d.s.2.2)) := by
              simp only [step, hc', hd, ha]
            have hlits : d.lits = m.s.lits := by
              unfold decode at hd
              split at hd
              · injection hd with hd; rw [← hd]
              · cases hd
            have hg := proc_gets hl H hj (ip + 1) k st.reverse m.s.lits us frames (P.ask a (d.s.1.1 :: d.s.2.1, d.s.2.2))
            have hex := exec_some P (callFn P n) o d a st us ha
            simp only [lstep, hc, Stmts.sem, Stmts.exec, machine, hd] at h
            rw [hex] at h
            injection h with h
            injection h with h1 h2
            cases ho : (P.ask a (d.s.1.1 :: d.s.2.1, d.s.2.2)).run (callFn P n) with
            | stop q w =>
              rw [ho] at h2 hg
              subst h2
              refine ⟨fun _ _ hr => (by cases hr), fun x hr => ?_⟩
              injection hr with hr
              subst hr
              refine ⟨fun hq => (Reaches.step hstep).trans (unwind_ask P frames k q w ▸ hg.1 hq), fun hq => ?_⟩
              have := hg.2 hq
              rw [← hstep] at this
              exact this.step
            | ok v w =>
              rw [ho] at h2 hg
              obtain ⟨ws, s⟩ := w
              have hpanic : (∃ w, proceed P starts (ip + 1) k st.reverse m.s.lits us frames (.done (.ok v (ws, s))) = .stop (.err (.panic, w, botOf P k frames w)) ∧ r = .error (.err (.panic, w, P.base.bot (nils k P.base.nil).1 w))) →
                  (∀ (ip' : Nat) m', r = .ok ((ip' : Int), m') → ∃ i, 1 ≤ i ∧ steps P code starts i (.run ⟨ip, m, frames⟩) = .run ⟨ip', m', frames⟩) ∧
                  (∀ x, r = .error x → Final P code starts (j + 1) (.run ⟨ip, m, frames⟩) frames x) := by
                rintro ⟨w, hw, rfl⟩
                refine ⟨fun _ _ hr => (by cases hr), fun x hr => ?_⟩
                injection hr with hr
                subst hr
                refine Final.of_stop (fun _ _ h => by cases h) ((Reaches.step hstep).trans ?_)
                rw [unwind_ask, ← hw]
                exact hg
              cases ws with
              | nil => exact hpanic ⟨_, rfl, h2.symm⟩
              | cons vs ws =>
                by_cases hk : vs.length = k
                · simp only [back, dif_pos hk, Codegen.pushOut, Except.map] at h2
                  subst h2
                  refine ⟨fun ip' m' hr => ?_, fun x hr => by cases hr⟩
                  injection hr with hr
                  injection hr with hr1 hr2
                  subst hr2
                  have hip : ip' = ip + 1 := by omega
                  subst hip
                  obtain ⟨i, hi⟩ := hg
                  refine ⟨i + 1, by omega, ?_⟩
                  simp only [steps]
                  rw [hstep, hi]
                  simp only [proceed, if_pos hk, encode, hlits, List.reverse_cons, List.append_assoc]
                · refine hpanic ⟨(vs :: ws, s), (by simp only [proceed, if_neg hk, bad]), ?_⟩
                  simp only [back, dif_neg hk, Codegen.pushOut, Except.map] at h2
                  exact h2.symm
      all_goals exact own (by simp) (fun k x d ho => by cases ho) (by simp only [step, hc'])

theorem run_sim {n j : Nat} (hl : Fits P starts) (H : Good P code starts n j) (hj : n = 0 → j = 0) {cd : Code Γ} (hp : cd <+: code) {l ip : Nat} {m} {ip' : Nat} {m'}
    (h : LRunN (Stmts.sem (atomic P n)) cd l ip m ip' m') (frames : List (Frame Γ E S)) : ∃ i, l ≤ i ∧ steps P code starts i (.run ⟨ip, m, frames⟩) = .run ⟨ip', m', frames⟩ := by
  induction h with
  | refl => exact ⟨0, Nat.le_refl _, rfl⟩
  | step hs _ ih =>
    obtain ⟨i, hi, h1⟩ := (step_sim hl H hj hp _ _ frames _ _ hs).1 _ _ rfl
    obtain ⟨i', hi', h2⟩ := ih
    exact ⟨i + i', by omega, by rw [steps_add, h1, h2]⟩

theorem halt_sim {n j : Nat} (hl : Fits P starts) (H : Good P code starts n j) (hj : n = 0 → j = 0) {cd : Code Γ} (hp : cd <+: code) {ip : Nat} {m} {es r}
    (h : LHalts (Stmts.sem (atomic P n)) cd ip m es r) (frames : List (Frame Γ E S)) : Final P code starts (j + 1) (.run ⟨ip, m, frames⟩) frames r := by
  obtain ⟨es1, ip', m', e, h1, h2, _⟩ := h
  obtain ⟨l, h1, _⟩ := h1.count
  obtain ⟨i, _, hi⟩ := run_sim hl H hj hp h1 frames
  exact ((step_sim hl H hj hp ip' m' frames e _ h2).2 r rfl).reach ⟨i, hi⟩

/-! ## The code of the functions -/

variable (P code starts) in
/-- The code of a function is where the program expects it. -/
def Laid (f : Codegen.Expr Γ → Codegen.Expr Γ) (ph : Op (sig Γ)) (fns : List (Fn Γ)) : Prop :=
  starts.length = fns.length ∧ ∀ (fn : Nat) (F : Fn Γ), fns[fn]? = some F →
    ∃ pre locs, linear ph (emitFn (em P.base f) F.required F.defaults F.patterns F.body).1 pre locs <+: code ∧
      starts[fn]? = some ((emitFn (em P.base f) F.required F.defaults F.patterns F.body).2.map fun i => (Graph.emit ph () (emitFn (em P.base f) F.required F.defaults F.patterns F.body).1.b.graph pre locs).2.2.getD i 0)

theorem Laid.fits {f} {ph : Op (sig Γ)} (h : Laid P code starts f ph P.fns) : Fits P starts := by
  refine ⟨h.1, fun fn F ips hF hs => ?_⟩
  obtain ⟨_, _, _, h2⟩ := h.2 fn F hF
  rw [hs] at h2
  injection h2 with h2
  rw [h2, List.length_map, fn_ids_length]

/-- The number of blocks of the functions is at most `B`. -/
def Blocks (P : Prog Γ E S) (f : Codegen.Expr Γ → Codegen.Expr Γ) (B : Nat) : Prop := ∀ F ∈ P.fns, (emitFn (em P.base f) F.required F.defaults F.patterns F.body).1.b.graph.length ≤ B

/-- The same machine; expressions mean what `f` makes of them. -/
abbrev atomicF (P : Prog Γ E S) (f : Codegen.Expr Γ → Codegen.Expr Γ) (n : Nat) := machine (withCalls P (callFn P n)) f

instance compiles (P : Prog Γ E S) (f) (n : Nat) : Stmts.Compiles (atomicF P f n) (em P.base f) := inferInstanceAs (Stmts.Compiles (atomicF P f n) (em (withCalls P (callFn P n)) f))

/-- The rules agree with what `f` makes of expressions, for those with property `G`. -/
def Agrees (P : Prog Γ E S) (f : Codegen.Expr Γ → Codegen.Expr Γ) (G : Codegen.Expr Γ → Prop) : Prop := ∀ n, Full.Same (lang P n) (Full.langCode (withCalls P (callFn P n)) f) G

theorem withDefaults_at {Ρ : Runtime Γ E S} {f f' : Codegen.Expr Γ → Codegen.Expr Γ} {fc fc'} {G : Codegen.Expr Γ → Prop} (hG : Full.Same (Full.lang Ρ f fc) (Full.lang Ρ f' fc') G) (l u) :
    ∀ (es : List (Codegen.Expr Γ)) (_ : ∀ e ∈ es, G e) (args : List Γ.V) (s : S),
      withDefaults (Full.lift (Full.lang Ρ f' fc')) es args ⟨l, u, s⟩ = (withDefaults (Full.lang Ρ f fc) es args s).map (fun r => (r.1, ⟨l, u, r.2⟩))
  | [], _, args, s => rfl
  | e :: es, he, args, s => by
    simp only [withDefaults]
    have h1 : (Full.lift (Full.lang Ρ f' fc')).eval e args ⟨l, u, s⟩ = match (Full.lang Ρ f' fc').eval e args s with | .ok (v, vs, s') => .ok (v, vs, ⟨l, u, s'⟩) | .error r => .error r := rfl
    rw [h1, hG e (he e (by simp)) args s]
    rcases (Full.lang Ρ f fc).eval e args s with r | ⟨v, vs, s'⟩
    · rfl
    · exact withDefaults_at hG l u es (fun e h => he e (by simp [h])) (vs ++ [v]) s'

theorem bindPatterns_at {Ρ : Runtime Γ E S} {f f' : Codegen.Expr Γ → Codegen.Expr Γ} {fc fc'} (l u) : ∀ (pats : List (Nat × Option (Nat × (sig Γ).P))) (vs : List Γ.V) (s : S),
    bindPatterns (Full.lift (Full.lang Ρ f' fc')) pats vs ⟨l, u, s⟩ = (bindPatterns (Full.lang Ρ f fc) pats vs s).map (fun r => (r.1, ⟨l, u, r.2⟩))
  | [], vs, s => rfl
  | (_, none) :: pats, vs, s => bindPatterns_at l u pats vs s
  | (i, some (_, p)) :: pats, vs, s => by
    simp only [bindPatterns]
    cases vs[i]? with
    | none => exact bindPatterns_at l u pats vs s
    | some v =>
      have h1 : (Full.lift (Full.lang Ρ f' fc')).destr p v vs ⟨l, u, s⟩ = match (Full.lang Ρ f fc).destr p v vs s with | .ok (vs, s') => .ok (vs, ⟨l, u, s'⟩) | .error r => .error r := rfl
      simp only
      rw [h1]
      rcases (Full.lang Ρ f fc).destr p v vs s with r | ⟨vs, s'⟩
      · rfl
      · exact bindPatterns_at l u pats vs s'

theorem callWith_at {Ρ : Runtime Γ E S} {f f' : Codegen.Expr Γ → Codegen.Expr Γ} {fc fc'} {G : Codegen.Expr Γ → Prop} (hG : Full.Same (Full.lang Ρ f fc) (Full.lang Ρ f' fc') G) (l u) (fuel : Nat)
    (es : List (Codegen.Expr Γ)) (he : ∀ e ∈ es, G e) (pats) (body : Block (sig Γ)) (hb : body.each G) (args : List Γ.V) (s : S) :
    callWith (Full.lift (Full.lang Ρ f' fc')) fuel es pats body args ⟨l, u, s⟩ = (callWith (Full.lang Ρ f fc) fuel es pats body args s).map (fun r => match r with | .ok (v, s) => .ok (v, ⟨l, u, s⟩) | .error r => .error r) := by
  unfold callWith
  rw [withDefaults_at hG l u es he args s]
  rcases withDefaults (Full.lang Ρ f fc) es args s with r | ⟨vs, s'⟩
  · rfl
  · simp only [Except.map]
    rw [show (Full.lift (Full.lang Ρ f' fc')).nil = (Full.lang Ρ f fc).nil from rfl, bindPatterns_at (f := f) (fc := fc) l u pats]
    rcases bindPatterns (Full.lang Ρ f fc) pats (vs ++ List.replicate (names pats) (Full.lang Ρ f fc).nil) s' with r | ⟨vs, s'⟩
    · rfl
    · exact Full.call_at hG l u fuel body hb vs s'

theorem good {f} {G} (hG : Agrees P f G) {ph : Op (sig Γ)} (hL : Laid P code starts f ph P.fns) (hsz : code.length < 2 ^ 31) {B : Nat} (hB : Blocks P f B) (hB0 : 0 < B) (hok : ∀ F ∈ P.fns, F.ok)
    (heach : ∀ F ∈ P.fns, F.each G) : ∀ n, Good P code starts n ((n - 1) / B) := by
  intro n
  induction n with
  | zero => simpa using good_zero
  | succ n ih =>
    intro fn F ips ip args w fr frames lits us hf hips hmin hip
    have hF : F ∈ P.fns := List.mem_of_getElem? hf
    obtain ⟨pre, locs, hpre, hst⟩ := hL.2 fn F hf
    rw [hips] at hst
    injection hst with hst
    generalize hj : args.length - F.required = j at *
    have hargs : args.length = F.required + j := by omega
    have hjle : j ≤ F.defaults.length := by
      have := (List.getElem?_eq_some_iff.1 hip).1
      rw [hst, List.length_map, fn_ids_length] at this
      omega
    have hid : (emitFn (em P.base f) F.required F.defaults F.patterns F.body).2[j]? = some ((emitFn (em P.base f) F.required F.defaults F.patterns F.body).2.getD j 0) := by
      rw [List.getD_eq_getElem?_getD, List.getElem?_eq_getElem (by rw [fn_ids_length]; omega)]
      rfl
    rw [hst, List.getElem?_map, hid] at hip
    simp only [Option.map_some, Option.some.injEq] at hip
    have hlt : (emitFn (em P.base f) F.required F.defaults F.patterns F.body).2.getD j 0 < (emitFn (em P.base f) F.required F.defaults F.patterns F.body).1.b.graph.length :=
      haveI := (compiles P f 0).toEmOk
      fn_ids (em P.base f) _ _ _ _ _ (List.mem_of_getElem? hid)
    have hj0 : n = 0 → (n - 1) / B = 0 := by rintro rfl; simp
    have hcd : (linear ph (emitFn (em P.base f) F.required F.defaults F.patterns F.body).1 pre locs).length < 2 ^ 31 := Nat.lt_of_le_of_lt hpre.length_le hsz
    have hd := fn_out (atomicF P f n) (em P.base f) n F.required F.defaults F.patterns F.body (hok _ hF).1 (hok _ hF).2 j hjle args hargs ⟨lits, us, w⟩
    have hc : callWith (atomicF P f n).toLang n (F.defaults.drop j) F.patterns F.body args ⟨lits, us, w⟩ = _ := callWith_at (hG n) lits us n (F.defaults.drop j) (fun e h => (heach F hF).1 e (List.mem_of_mem_drop h)) F.patterns F.body (heach F hF).2 args w
    rw [hc] at hd
    have hwf : Graph.WF (emitFn (em P.base f) F.required F.defaults F.patterns F.body).1.b.graph :=
      haveI := (compiles P f 0).toEmOk
      fn_wf _ _ _ _ _
    have hstep : (n - 1) / B + 1 ≥ n / B := by
      cases n with
      | zero => simp
      | succ n =>
        simp only [Nat.add_sub_cancel]
        rw [← Nat.add_div_right n hB0]
        exact Nat.div_le_div_right (by omega)
    have hcond : F.required ≤ args.length ∧ args.length ≤ F.required + F.defaults.length := ⟨hmin, by omega⟩
    simp only [callFn, hf, if_pos hcond, hj]
    cases hr : callWith (langDoc (withCalls P (callFn P n))) n (F.defaults.drop j) F.patterns F.body args w with
    | none =>
      rw [hr] at hd
      refine ⟨fun h => absurd rfl h, fun _ => ?_⟩
      obtain ⟨l, ip', m', hl, hrun⟩ := Graph.long_code (Graph.emitted_block ph () _ pre locs) hwf hcd hlt hd
      rw [← hip]
      obtain ⟨i, hi, hsteps⟩ := run_sim hL.fits ih hj0 hpre hrun (fr :: frames)
      refine (Late.of_steps hsteps).le ?_
      have : n < (l + 1) * B := Nat.lt_of_lt_of_le hl (Nat.mul_le_mul_left _ (hB _ hF))
      have := (Nat.div_lt_iff_lt_mul hB0).2 this
      simp only [Nat.add_sub_cancel]
      omega
    | some r =>
      rw [hr] at hd
      obtain ⟨es, hd⟩ := hd.halts
      have hd := (Graph.C33_graph_to_code _ ph () _ pre locs hwf hcd _ hlt _).2.1 es _ hd
      have := halt_sim hL.fits ih hj0 hpre hd (fr :: frames)
      rw [← hip]
      rcases r with ⟨q, w', b⟩ | ⟨v, w'⟩
      · exact ⟨this.1, fun hq => (this.2 hq).le (by simpa using hstep)⟩
      · exact this

end
end Cordy.Program
