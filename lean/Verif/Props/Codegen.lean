import Verif.Lemmas.CodegenBuilt
import Verif.Lemmas.CodegenMain
/-!
# C36, C37, C38, C45: the code of an expression

The evaluation rules are in `Spec/Eval.lean`.  `Prims` (operators, variables, objects, calls, and the state they work on) is arbitrary, so in
particular the state can be a log of everything that happens: equal final states mean the same effects in the same order.
-/
namespace Cordy.Codegen
open Cordy.Builder
open Cordy.Graph (GRun GHalts Place LEnds LHalts WF)
variable {Γ : Sig} {E S : Type} (P : Prims Γ E S)

/-- The linear code of an expression. -/
def code (e : Expr Γ) : List (Graph.Instr (Op Γ) (Br Γ)) := (Graph.emit .pop () (emitExpr (Target.own P) e ⟨[], []⟩).graph [] []).1

/-- Running the code from its beginning in state `m` reaches its end in state `m'`. -/
def Ends (e : Expr Γ) (m m' : Mach Γ S) : Prop := ∃ es, LEnds (sem P) (code P e) 0 m es m'
/-- Running the code from its beginning in state `m` stops before the end: with an error, or with `exit`. -/
def Stops (e : Expr Γ) (m : Mach Γ S) (r : Stop E) (s : S) : Prop := ∃ es, LHalts (sem P) (code P e) 0 m es (r, s)

/-- Running the code does what an outcome says: it ends with exactly one more value on the stack, or stops. -/
def Does (e : Expr Γ) (m : Mach Γ S) (o : Out E S Γ.V) : Prop :=
  match o with
  | .ok v s => Ends P e m { m with stack := v :: m.stack, s := s }
  | .stop r s => Stops P e m r s

/-- The graph of an expression is finished and its edges lead to blocks, so that C33 applies. -/
theorem graph_wf (e : Expr Γ) : WF (emitExpr (Target.own P) e ⟨[], []⟩).graph :=
  Graph.C33_builder _ (built_expr (Target.own P) e ⟨[], []⟩ [] Graph.Built.new)

mutual
theorem evalW_eq (fc fc' : Γ.V → Γ.V → S → Out E S Γ.V) : ∀ (e : Expr Γ), e.NoFieldCompose → ∀ s, evalW P fc e s = evalW P fc' e s
  | .const _, _, s | .exit, _, s | .error _, _, s | .function _ _, _, s | .load _, _, s => by simp only [evalW]
  | .call f args, h, s => by simp only [evalW, evalW_eq fc fc' f h.1, evalArgsW_eq fc fc' _ args h.2]
  | .compose a b, h, s | .sliceLit a b, h, s | .and a b, h, s | .or a b, h, s | .index a b, h, s | .setField a _ b, h, s => by
    simp only [evalW, evalW_eq fc fc' a h.1, evalW_eq fc fc' b h.2]
  | .binary _ a b _, h, s => by simp only [evalW, evalW_eq fc fc' a h.1, evalW_eq fc fc' b h.2]
  | .unary _ a, h, s | .getField a _, h, s => by simp only [evalW, evalW_eq fc fc' a h]
  | .assign x a, h, s => by cases x <;> simp only [evalW, evalW_eq fc fc' a h]
  | .compare l c, h, s => by simp only [evalW, evalW_eq fc fc' l h.1, evalChainW_eq fc fc' c h.2]
  | .literal _ args, h, s => by simp only [evalW, evalArgsW_eq fc fc' _ args h]
  | .sliceLit3 a b c, h, s | .slice a b c, h, s | .ite a b c, h, s | .arraySet a b c, h, s => by
    simp only [evalW, evalW_eq fc fc' a h.1, evalW_eq fc fc' b h.2.1, evalW_eq fc fc' c h.2.2]
  | .arrayOp a b op c, h, s => by
    simp only [evalW, evalW_eq fc fc' a h.1, evalW_eq fc fc' b h.2.1, evalW_eq fc fc' c h.2.2]
  | .sliceStep a b c d, h, s => by
    simp only [evalW, evalW_eq fc fc' a h.1, evalW_eq fc fc' b h.2.1, evalW_eq fc fc' c h.2.2.1, evalW_eq fc fc' d h.2.2.2]
  | .swapField a _ op b, h, s => by
    cases op with
    | none => exact absurd rfl h.1
    | some op => simp only [evalW, evalW_eq fc fc' a h.2.1, evalW_eq fc fc' b h.2.2]
  | .pattern ts _ r, h, s => by simp only [evalW, evalExprsW_eq fc fc' ts h.1, evalW_eq fc fc' r h.2]
theorem evalArgsW_eq (fc fc' : Γ.V → Γ.V → S → Out E S Γ.V) (sp : Γ.V → S → Out E S (List Γ.V)) : ∀ (e : Args Γ), e.NoFieldCompose → ∀ s, evalArgsW P fc sp e s = evalArgsW P fc' sp e s
  | .nil, _, s => by simp only [evalArgsW]
  | .plain e r, h, s => by simp only [evalArgsW, evalW_eq fc fc' e h.1, evalArgsW_eq fc fc' sp r h.2]
  | .unroll e r, h, s => by simp only [evalArgsW, evalW_eq fc fc' e h.1, evalArgsW_eq fc fc' sp r h.2]
theorem evalChainW_eq (fc fc' : Γ.V → Γ.V → S → Out E S Γ.V) : ∀ (e : Chain Γ), e.NoFieldCompose → ∀ l s, evalChainW P fc e l s = evalChainW P fc' e l s
  | .last _ e, h, l, s => by simp only [evalChainW, evalW_eq fc fc' e h]
  | .more _ e r, h, l, s => by simp only [evalChainW, evalW_eq fc fc' e h.1, evalChainW_eq fc fc' r h.2]
theorem evalExprsW_eq (fc fc' : Γ.V → Γ.V → S → Out E S Γ.V) : ∀ (e : Exprs Γ), e.NoFieldCompose → ∀ s, evalExprsW P fc e s = evalExprsW P fc' e s
  | .nil, _, s => by simp only [evalExprsW]
  | .cons e r, h, s => by simp only [evalExprsW, evalW_eq fc fc' e h.1, evalExprsW_eq fc fc' r h.2]
end

/-- Inside any program of any machine `H` that runs the opcodes of expressions as they are meant (`Host`): if the finished graph `g` has
the blocks emitted for `e` (its last one may go on), the machine that arrives at their beginning arrives at their end with exactly the
value of `e` pushed, and literals and spread arguments that are under construction as they were; or stops as `e` does. Here the field
assignment `a->x .= f` means what it is compiled to (`fcCode`). -/
theorem C36_in_context {O T M R : Type} {P : Prims Γ E S} (H : Host P O T M R) (g : GCode O T) (e : Expr Γ) (b : Bld O T)
    (h : Agree b.done.length (emitExpr H.em e b) g) (m : Mach Γ S) :
    match evalW P (fcCode P) e m.s with
    | .ok v s => ∃ es, GRun H.sm g (pl H b m) es (pl H (emitExpr H.em e b) { m with stack := v :: m.stack, s := s })
    | .stop r s => ∃ es, GHalts H.sm g (pl H b m) es (H.halt (r, s)) := by
  have := runs_expr (H := H) g e b m.stack m.lits m.unroll m.s h
  unfold Runs at this
  cases hev : evalW P (fcCode P) e m.s with
  | ok v s => rw [hev] at this; exact this
  | stop r s => rw [hev] at this; exact this

/-- The machine that runs expressions only. -/
def Host.own : Host P (Op Γ) (Br Γ) (Mach Γ S) (Halt E S) where
  em := Target.own P
  sm := sem P
  emb := id
  halt := id
  exec_eq := by intro o m; show exec P o m = _; cases exec P o m <;> rfl
  test_eq := by intro o m; show execTest P o m = _; cases execTest P o m <;> rfl
  ofCmp := rfl
  ne := rfl

/-- An expression on its own: running its linear code, with `a->x .= f` as it is compiled. -/
theorem C36_code (e : Expr Γ) (hsz : (code P e).length < 2 ^ 31) (m : Mach Γ S) : Does P e m (evalW P (fcCode P) e m.s) := by
  have hA : Agree (⟨[], []⟩ : Bld (Op Γ) (Br Γ)).done.length (emitExpr (Target.own P) e ⟨[], []⟩) (emitExpr (Target.own P) e ⟨[], []⟩).graph :=
    ⟨fun i _ hi => graph_get_lt _ _ hi, [], by simp [codeAt, graph_get_len]⟩
  have h := C36_in_context (Host.own P) _ e ⟨[], []⟩ hA m
  have hlen : 0 < (emitExpr (Target.own P) e ⟨[], []⟩).graph.length := by simp [Bld.graph]
  have hstart : (Graph.emit Op.pop () (emitExpr (Target.own P) e ⟨[], []⟩).graph [] []).2.2.getD 0 0 = 0 := by
    rw [Graph.emit_eq]
    cases hg : (emitExpr (Target.own P) e ⟨[], []⟩).graph with
    | nil => rw [hg] at hlen; simp at hlen
    | cons x xs => rfl
  have hc := Graph.C33_graph_to_code (sem P) .pop () _ [] [] (graph_wf P e) hsz 0 hlen m
  rw [hstart] at hc
  unfold Does
  cases hev : evalW P (fcCode P) e m.s with
  | ok v s =>
    rw [hev] at h
    obtain ⟨es, h⟩ := h
    refine ⟨es, hc.2.2 es _ ⟨_, h, ?_, rfl⟩⟩
    have hem : (Host.own P).em = Target.own P := rfl
    simp [Graph.gstep, pl, hem, graph_get_len]
  | stop r s =>
    rw [hev] at h
    obtain ⟨es, h⟩ := h
    exact ⟨es, hc.2.1 es _ h⟩

/-- **C36** running the code of an expression pushes exactly its value by the rules of the language, or stops as the rules say. Missing:
expressions that contain `a->x .= f`, which is compiled wrongly (`C36_violation_field_compose`). -/
theorem C36_value_partial (e : Expr Γ) (he : e.NoFieldCompose) (hsz : (code P e).length < 2 ^ 31) (m : Mach Γ S) : Does P e m (eval P e m.s) := by
  show Does P e m (evalW P (fcDoc P) e m.s)
  rw [evalW_eq P (fcDoc P) (fcCode P) e he]
  exact C36_code P e hsz m

/-- **C36, violated**: `a->x .= f` gets the code of `a->x != = f`: it compares the field with the function, and stores the boolean. -/
theorem C36_violation_field_compose (a f : Expr Γ) (fi : Nat) : code P (.swapField a fi none f) = code P (.swapField a fi (some P.ne) f) := by
  simp [code, emitExpr, Target.own]

/-! ## C37 -/

/-- **C37** `a and b` where evaluating `a` gives `v`: if `v` is false, `v` is the value and `b` has no effect at all; if it is true, `b`
is evaluated, once, after `a`. If `a` stops, so does the expression. -/
theorem C37_and (a b : Expr Γ) (hsz : (code P (.and a b)).length < 2 ^ 31) (m : Mach Γ S) :
    (∀ v s, evalW P (fcCode P) a m.s = .ok v s → P.truthy v s = false → Ends P (.and a b) m { m with stack := v :: m.stack, s := s }) ∧
    (∀ v s, evalW P (fcCode P) a m.s = .ok v s → P.truthy v s = true → Does P (.and a b) m (evalW P (fcCode P) b s)) ∧
    (∀ r s, evalW P (fcCode P) a m.s = .stop r s → Stops P (.and a b) m r s) := by
  have h := C36_code P _ hsz m
  rw [evalW] at h
  refine ⟨fun v s h1 h2 => ?_, fun v s h1 h2 => ?_, fun r s h1 => ?_⟩
  · rw [h1, Out.ok_bind, if_neg (by simp [h2])] at h; exact h
  · rw [h1, Out.ok_bind, if_pos h2] at h; exact h
  · rw [h1] at h; exact h

/-- **C37** `a or b`. -/
theorem C37_or (a b : Expr Γ) (hsz : (code P (.or a b)).length < 2 ^ 31) (m : Mach Γ S) :
    (∀ v s, evalW P (fcCode P) a m.s = .ok v s → P.truthy v s = true → Ends P (.or a b) m { m with stack := v :: m.stack, s := s }) ∧
    (∀ v s, evalW P (fcCode P) a m.s = .ok v s → P.truthy v s = false → Does P (.or a b) m (evalW P (fcCode P) b s)) ∧
    (∀ r s, evalW P (fcCode P) a m.s = .stop r s → Stops P (.or a b) m r s) := by
  have h := C36_code P _ hsz m
  rw [evalW] at h
  refine ⟨fun v s h1 h2 => ?_, fun v s h1 h2 => ?_, fun r s h1 => ?_⟩
  · rw [h1, Out.ok_bind, if_pos h2] at h; exact h
  · rw [h1, Out.ok_bind, if_neg (by simp [h2])] at h; exact h
  · rw [h1] at h; exact h

/-- **C37** `if c then t else e`: the condition is evaluated once, then exactly one of the two. -/
theorem C37_if (c t e : Expr Γ) (hsz : (code P (.ite c t e)).length < 2 ^ 31) (m : Mach Γ S) :
    (∀ v s, evalW P (fcCode P) c m.s = .ok v s → P.truthy v s = true → Does P (.ite c t e) m (evalW P (fcCode P) t s)) ∧
    (∀ v s, evalW P (fcCode P) c m.s = .ok v s → P.truthy v s = false → Does P (.ite c t e) m (evalW P (fcCode P) e s)) ∧
    (∀ r s, evalW P (fcCode P) c m.s = .stop r s → Stops P (.ite c t e) m r s) := by
  have h := C36_code P _ hsz m
  rw [evalW] at h
  refine ⟨fun v s h1 h2 => ?_, fun v s h1 h2 => ?_, fun r s h1 => ?_⟩
  · rw [h1, Out.ok_bind, if_pos h2] at h; exact h
  · rw [h1, Out.ok_bind, if_neg (by simp [h2])] at h; exact h
  · rw [h1] at h; exact h

/-! ## C38 -/

/-- `l op₁ e₁ op₂ e₂ …` -/
def chainOf (op : Γ.C) (e : Expr Γ) : List (Γ.C × Expr Γ) → Chain Γ
  | [] => .last op e
  | (op', e') :: rest => .more op e (chainOf op' e' rest)

/-- The operands after the first one (whose value is `l`), evaluated left to right in states `s`, …: the result is `true` when every
comparison of neighbours holds, and `false` right after the first that does not. -/
inductive ChainGives : Γ.V → List (Γ.C × Expr Γ) → S → Bool → S → Prop
  | all {l s} : ChainGives l [] s true s
  | holds {l op e rest s r s1 b s2} : evalW P (fcCode P) e s = .ok r s1 → P.cmp op l r s1 = true → ChainGives r rest s1 b s2 → ChainGives l ((op, e) :: rest) s b s2
  | fails {l op e rest s r s1} : evalW P (fcCode P) e s = .ok r s1 → P.cmp op l r s1 = false → ChainGives l ((op, e) :: rest) s false s1

/-- The operands until one stops, while all comparisons hold. -/
inductive ChainStops : Γ.V → List (Γ.C × Expr Γ) → S → Stop E → S → Prop
  | here {l op e rest s q s1} : evalW P (fcCode P) e s = .stop q s1 → ChainStops l ((op, e) :: rest) s q s1
  | later {l op e rest s r s1 q s2} : evalW P (fcCode P) e s = .ok r s1 → P.cmp op l r s1 = true → ChainStops r rest s1 q s2 → ChainStops l ((op, e) :: rest) s q s2

theorem evalChain_gives (rest : List (Γ.C × Expr Γ)) : ∀ (op : Γ.C) (e : Expr Γ) (l : Γ.V) (s : S) (b : Bool) (s' : S), ChainGives P l ((op, e) :: rest) s b s' →
    evalChainW P (fcCode P) (chainOf op e rest) l s = .ok (P.bool b) s' := by
  induction rest with
  | nil =>
    intro op e l s b s' h
    simp only [chainOf, evalChainW]
    cases h with
    | holds h1 h2 h3 => cases h3; rw [h1, Out.ok_bind, h2]
    | fails h1 h2 => rw [h1, Out.ok_bind, h2]
  | cons p rest ih =>
    intro op e l s b s' h
    simp only [chainOf, evalChainW]
    cases h with
    | holds h1 h2 h3 => rw [h1, Out.ok_bind, if_pos h2]; exact ih _ _ _ _ _ _ h3
    | fails h1 h2 => rw [h1, Out.ok_bind, if_neg (by simp [h2])]

theorem evalChain_stops (rest : List (Γ.C × Expr Γ)) : ∀ (op : Γ.C) (e : Expr Γ) (l : Γ.V) (s : S) (q : Stop E) (s' : S), ChainStops P l ((op, e) :: rest) s q s' →
    evalChainW P (fcCode P) (chainOf op e rest) l s = .stop q s' := by
  induction rest with
  | nil =>
    intro op e l s q s' h
    simp only [chainOf, evalChainW]
    cases h with
    | here h1 => rw [h1]; rfl
    | later h1 h2 h3 => cases h3
  | cons p rest ih =>
    intro op e l s q s' h
    simp only [chainOf, evalChainW]
    cases h with
    | here h1 => rw [h1]; rfl
    | later h1 h2 h3 => rw [h1, Out.ok_bind, if_pos h2]; exact ih _ _ _ _ _ _ h3

/-- Every chain either gives a boolean or stops. -/
theorem chain_total (ops : List (Γ.C × Expr Γ)) : ∀ (l : Γ.V) (s : S), (∃ b s', ChainGives P l ops s b s') ∨ (∃ q s', ChainStops P l ops s q s') := by
  induction ops with
  | nil => exact fun l s => .inl ⟨_, _, .all⟩
  | cons p ops ih =>
    obtain ⟨op, e⟩ := p
    intro l s
    cases h : evalW P (fcCode P) e s with
    | stop q s' => exact .inr ⟨_, _, .here h⟩
    | ok r s1 =>
      cases hc : P.cmp op l r s1 with
      | false => exact .inl ⟨_, _, .fails h hc⟩
      | true =>
        rcases ih r s1 with ⟨b, s', h'⟩ | ⟨q, s', h'⟩
        · exact .inl ⟨_, _, .holds h hc h'⟩
        · exact .inr ⟨_, _, .later h hc h'⟩

/-- **C38** a chain of comparisons of any length: each operand is evaluated at most once, left to right, up to the first comparison that
does not hold; exactly one boolean is left. Every chain does one of the two. -/
theorem C38_chain (l : Expr Γ) (op : Γ.C) (e : Expr Γ) (rest : List (Γ.C × Expr Γ))
    (hsz : (code P (.compare l (chainOf op e rest))).length < 2 ^ 31) (m : Mach Γ S) :
    (∀ r s, evalW P (fcCode P) l m.s = .stop r s → Stops P (.compare l (chainOf op e rest)) m r s) ∧
    (∀ v s, evalW P (fcCode P) l m.s = .ok v s →
      (∀ b s', ChainGives P v ((op, e) :: rest) s b s' → Ends P (.compare l (chainOf op e rest)) m { m with stack := P.bool b :: m.stack, s := s' }) ∧
      (∀ q s', ChainStops P v ((op, e) :: rest) s q s' → Stops P (.compare l (chainOf op e rest)) m q s') ∧
      ((∃ b s', ChainGives P v ((op, e) :: rest) s b s') ∨ (∃ q s', ChainStops P v ((op, e) :: rest) s q s'))) := by
  have h := C36_code P _ hsz m
  rw [evalW] at h
  refine ⟨fun r s h1 => by rw [h1] at h; exact h, fun v s h1 => ?_⟩
  rw [h1, Out.ok_bind] at h
  refine ⟨fun b s' h2 => ?_, fun q s' h2 => ?_, chain_total P _ _ _⟩
  · rw [evalChain_gives P _ _ _ _ _ _ _ h2] at h; exact h
  · rw [evalChain_stops P _ _ _ _ _ _ _ h2] at h; exact h

/-- The values of all operands, when all are evaluated. -/
inductive Operands : List (Γ.C × Expr Γ) → S → List Γ.V → S → Prop
  | nil {s} : Operands [] s [] s
  | cons {op e rest s v s1 vs s2} : evalW P (fcCode P) e s = .ok v s1 → Operands rest s1 vs s2 → Operands ((op, e) :: rest) s (v :: vs) s2

/-- All neighbours compare. -/
def AllHold (cmp : Γ.C → Γ.V → Γ.V → Bool) : Γ.V → List (Γ.C × Expr Γ) → List Γ.V → Prop
  | l, (op, _) :: rest, v :: vs => cmp op l v = true ∧ AllHold cmp v rest vs
  | _, _, _ => True

/-- **C38** a chain is true exactly when every comparison of neighbours is: where comparisons do not depend on the state and the operands
have the values `vs` (if all are evaluated). -/
theorem C38_true_iff (cmp : Γ.C → Γ.V → Γ.V → Bool) (hcmp : ∀ op a b s, P.cmp op a b s = cmp op a b) (ops : List (Γ.C × Expr Γ)) :
    ∀ (l : Γ.V) (s s' : S) (vs : List Γ.V) (b : Bool) (s'' : S), Operands P ops s vs s' → ChainGives P l ops s b s'' → (b = true ↔ AllHold cmp l ops vs) := by
  induction ops with
  | nil => intro l s s' vs b s'' h1 h2; cases h1; cases h2; simp [AllHold]
  | cons p ops ih =>
    intro l s s' vs b s'' h1 h2
    cases h1 with
    | cons he hr =>
      cases h2 with
      | holds h3 h4 h5 =>
        rw [he] at h3; cases h3
        simp only [AllHold]
        rw [hcmp] at h4
        rw [ih _ _ _ _ _ _ hr h5]
        simp [h4]
      | fails h3 h4 =>
        rw [he] at h3; cases h3
        rw [hcmp] at h4
        simp [AllHold, h4]

/-! ## C45 -/

/-- Arguments that are already values. -/
def Args.ofValues : List Γ.V → Args Γ
  | [] => .nil
  | v :: vs => .plain (.const v) (Args.ofValues vs)

/-- How written-out arguments come from arguments with spreads: an argument gives its value, a spread argument the elements of its value. -/
inductive Expands (spread : Γ.V → S → Out E S (List Γ.V)) : Args Γ → S → List Γ.V → S → Prop
  | nil {s} : Expands spread .nil s [] s
  | plain {e rest s v s1 vs s2} : evalW P (fcCode P) e s = .ok v s1 → Expands spread rest s1 vs s2 → Expands spread (.plain e rest) s (v :: vs) s2
  | unroll {e rest s v s1 xs s2 vs s3} : evalW P (fcCode P) e s = .ok v s1 → spread v s1 = .ok xs s2 → Expands spread rest s2 vs s3 →
      Expands spread (.unroll e rest) s (xs ++ vs) s3

theorem evalArgs_expands (spread : Γ.V → S → Out E S (List Γ.V)) (args : Args Γ) (s : S) (vs : List Γ.V) (s' : S) (h : Expands P spread args s vs s') :
    evalArgsW P (fcCode P) spread args s = .ok vs s' := by
  induction h with
  | nil => rw [evalArgsW]
  | plain h1 _ ih => rw [evalArgsW, h1, Out.ok_bind, ih]; rfl
  | unroll h1 h2 _ ih => rw [evalArgsW, h1, Out.ok_bind, h2, Out.ok_bind, ih]; rfl

theorem evalArgs_ofValues (spread : Γ.V → S → Out E S (List Γ.V)) (vs : List Γ.V) (s : S) : evalArgsW P (fcCode P) spread (Args.ofValues vs) s = .ok vs s := by
  induction vs with
  | nil => rw [Args.ofValues, evalArgsW]
  | cons v vs ih => rw [Args.ofValues, evalArgsW, evalW, Out.ok_bind, ih]; rfl

/-- **C45** a call whose arguments expand to the values `vs` does the same as the call with `vs` written out, wherever spreads occur and
whatever calls and spreads are inside of the arguments; both do the call of the function with `vs`. -/
theorem C45_call (f : Expr Γ) (args : Args Γ) (hsz : (code P (.call f args)).length < 2 ^ 31) (m : Mach Γ S)
    (fv : Γ.V) (s1 s2 : S) (vs : List Γ.V) (hf : evalW P (fcCode P) f m.s = .ok fv s1) (ha : Expands P P.iter args s1 vs s2)
    (hsz' : (code P (.call (.const fv) (Args.ofValues vs))).length < 2 ^ 31) :
    ∃ o, Does P (.call f args) m o ∧ Does P (.call (.const fv) (Args.ofValues vs)) { m with s := s2 } o ∧ o = P.call fv vs s2 := by
  refine ⟨P.call fv vs s2, ?_, ?_, rfl⟩
  · have h := C36_code P _ hsz m
    rw [evalW, hf, Out.ok_bind, evalArgs_expands P _ _ _ _ _ ha, Out.ok_bind] at h
    exact h
  · have h := C36_code P (.call (.const fv) (Args.ofValues vs)) hsz' { m with s := s2 }
    rw [evalW, evalW, Out.ok_bind, evalArgs_ofValues, Out.ok_bind] at h
    cases ho : P.call fv vs s2 with
    | ok v s => rw [ho] at h; exact h
    | stop r s => rw [ho] at h; exact h

/-- **C45** a literal whose elements expand to `vs` (in a dict, the elements spread from another are keys and values in turn) does the
same as the literal with `vs` written out. -/
theorem C45_literal (ty : LitTy) (args : Args Γ) (hsz : (code P (.literal ty args)).length < 2 ^ 31) (m : Mach Γ S)
    (s2 : S) (vs : List Γ.V) (ha : Expands P (P.spread ty) args m.s vs s2) (hsz' : (code P (.literal ty (Args.ofValues vs))).length < 2 ^ 31) :
    ∃ o, Does P (.literal ty args) m o ∧ Does P (.literal ty (Args.ofValues vs)) { m with s := s2 } o ∧ o = P.mkLit ty vs s2 := by
  refine ⟨P.mkLit ty vs s2, ?_, ?_, rfl⟩
  · have h := C36_code P _ hsz m
    rw [evalW, evalArgs_expands P _ _ _ _ _ ha, Out.ok_bind] at h
    exact h
  · have h := C36_code P (.literal ty (Args.ofValues vs)) hsz' { m with s := s2 }
    rw [evalW, evalArgs_ofValues, Out.ok_bind] at h
    cases ho : P.mkLit ty vs s2 with
    | ok v s => rw [ho] at h; exact h
    | stop r s => rw [ho] at h; exact h

/-! ## A concrete machine -/

namespace Example
/-- Values: numbers, lists, booleans. Functions are numbers: `0` logs its arguments and gives how many there are. -/
inductive Val where
  | num (n : Int)
  | list (xs : List Int)
  | bool (b : Bool)
  deriving DecidableEq, Repr

abbrev Γ₀ : Sig := ⟨Val, Unit, Unit, Unit, Nat, Unit, Unit, Unit⟩

def Val.toInt : Val → Int
  | .num n => n
  | _ => 0

/-- The state: the variables and a log. The binary operator `()` is `!=`; the comparison `()` is `<`. -/
def P₀ : Prims Γ₀ String ((Nat → Val) × List String) where
  bool := Val.bool
  raise _ := "compile error"
  truthy v _ := decide ((v : Val) ≠ Val.num 0 ∧ v ≠ Val.bool false)
  unary _ v s := .ok v s
  binary _ l r s := .ok (Val.bool (l.toInt < r.toInt)) s
  cmp _ l r _ := l.toInt < r.toInt
  ofCmp _ := ()
  ne := ()
  ofCmp_spec := fun _ _ _ _ => rfl
  load x s := .ok (s.1 x) s
  store x v s := .ok () (fun (y : Nat) => if y = (x : Nat) then v else s.1 y, s.2)
  toClosure v s := .ok v s
  capture _ v s := .ok v s
  iter v s := match v with | .list xs => .ok (xs.map Val.num) s | _ => .stop (.err "not iterable") s
  spread _ v s := match v with | .list xs => .ok (xs.map Val.num) s | _ => .stop (.err "not iterable") s
  mkLit _ vs s := .ok (Val.list (vs.map Val.toInt)) s
  slice2 a _ s := .ok a s
  slice3 a _ _ s := .ok a s
  index a _ s := .ok a s
  slice a _ _ s := .ok a s
  sliceStep a _ _ _ s := .ok a s
  getField a _ s := .ok a s
  setField _ _ v s := .ok v s
  bindMethod a _ s := .ok a s
  setIndex _ _ _ s := .ok () s
  pattern _ _ _ s := .ok () s
  call _ vs s := .ok (Val.num vs.length) (s.1, s.2 ++ [s!"call {vs.map Val.toInt}"])

def n (k : Int) : Expr Γ₀ := .const (Val.num k)
def m₀ : Mach Γ₀ ((Nat → Val) × List String) := ⟨[Val.num 99], [], [], (fun _ => Val.num 0, [])⟩

/-- `0(1, ...[2, 3], 4 < 5 < 2, ...[])` -/
def e₀ : Expr Γ₀ := .call (n 0) (.plain (n 1) (.unroll (.literal .list (.plain (n 2) (.plain (n 3) .nil))) (.plain (.compare (n 4) (.more () (n 5) (.last () (n 2))))
  (.unroll (.literal .list .nil) .nil))))

theorem e₀_ok : e₀.NoFieldCompose := by simp [e₀, n, Expr.NoFieldCompose, Args.NoFieldCompose, Chain.NoFieldCompose]
theorem e₀_small : (code P₀ e₀).length < 2 ^ 31 := by decide

example : ∃ s', eval P₀ e₀ m₀.s = .ok (Val.num 4) s' ∧ s'.2 = ["call [1, 2, 3, 0]"] := ⟨_, rfl, by decide⟩

example : ∃ s', s'.2 = ["call [1, 2, 3, 0]"] ∧ Ends P₀ e₀ m₀ ⟨[Val.num 4, Val.num 99], [], [], s'⟩ := by
  have h := C36_value_partial P₀ e₀ e₀_ok e₀_small m₀
  exact ⟨_, by decide, h⟩

/-- `0(1) and 0()` logs both calls: the first gives 1. `0() and 0(1)` logs only the first, which gives 0. -/
example : Ends P₀ (.and (.call (n 0) .nil) (.call (n 0) (.plain (n 1) .nil))) m₀ ⟨[Val.num 0, Val.num 99], [], [], (m₀.s.1, ["call []"])⟩ :=
  (C37_and P₀ _ _ (by decide) m₀).1 _ _ rfl (by decide)

/-- `a->x .= f` where the field is 5 and `f` gives the number of its arguments: it should store 1, and stores a boolean. -/
example : eval P₀ (.swapField (n 5) 0 none (n 7)) m₀.s = .ok (Val.num 1) (m₀.s.1, ["call [5]"]) ∧
    Ends P₀ (.swapField (n 5) 0 none (n 7)) m₀ ⟨[Val.bool true, Val.num 99], [], [], m₀.s⟩ := by
  refine ⟨rfl, ?_⟩
  have h := C36_value_partial P₀ (.swapField (n 5) 0 (some ()) (n 7)) (by simp [n, Expr.NoFieldCompose]) (by decide) m₀
  unfold Ends
  rw [C36_violation_field_compose]
  exact h
end Example

end Cordy.Codegen
