import Verif.Lemmas.ProgramOpt
/-! The layout of a program with and without the block optimiser. -/
namespace Cordy.Program
open Cordy.Full (sig em)
open Cordy.Stmts (Op Br emitProgram)
open Cordy.Graph (Instr fin finEnd startsOf endSize size End)
variable {Γ : Codegen.Sig} {E S : Type}

abbrev G (Γ : Codegen.Sig) := Graph.Code (Op (sig Γ)) (Br (sig Γ)) Unit

/-! ## Graphs, one after the other -/

def linkGs (ph : Op (sig Γ)) : List (G Γ) → Code Γ → List Unit → Code Γ × List (List Nat)
  | [], code, _ => (code, [])
  | g :: gs, code, locs =>
    let out := Graph.emit ph () g code locs
    let rest := linkGs ph gs out.1 out.2.1
    (rest.1, out.2.2 :: rest.2)

def finAll : Nat → List (G Γ) → Code Γ
  | _, [] => []
  | pos, g :: gs => fin (startsOf 0 pos g) 0 pos g ++ finAll (pos + (fin (startsOf 0 pos g) 0 pos g).length) gs

def startsAll : Nat → List (G Γ) → List (List Nat)
  | _, [] => []
  | pos, g :: gs => startsOf 0 pos g :: startsAll (pos + (fin (startsOf 0 pos g) 0 pos g).length) gs

theorem linkGs_eq (ph : Op (sig Γ)) : ∀ (gs : List (G Γ)) (code : Code Γ) (locs), linkGs ph gs code locs = (code ++ finAll code.length gs, startsAll code.length gs)
  | [], code, locs => by simp [linkGs, finAll, startsAll]
  | g :: gs, code, locs => by
    simp only [linkGs, Graph.emit_eq, linkGs_eq ph gs, finAll, startsAll, List.length_append, List.append_assoc]

def entries (emit : Stmts.Em (sig Γ)) (F : Fn Γ) (st : List Nat) : List Nat := (emitFn emit F.required F.defaults F.patterns F.body).2.map fun i => st.getD i 0
def graphOf (emit : Stmts.Em (sig Γ)) (F : Fn Γ) : G Γ := (emitFn emit F.required F.defaults F.patterns F.body).1.b.graph

theorem linkFns_eq (ph : Op (sig Γ)) (emit : Stmts.Em (sig Γ)) : ∀ (fns : List (Fn Γ)) (code : Code Γ) (locs),
    linkFns ph emit fns code locs = ((linkGs ph (fns.map (graphOf emit)) code locs).1, List.zipWith (entries emit) fns (linkGs ph (fns.map (graphOf emit)) code locs).2)
  | [], code, locs => rfl
  | F :: fs, code, locs => by
    simp only [linkFns, linkFns_eq ph emit fs, List.map_cons, linkGs, List.zipWith_cons_cons]
    rfl

theorem linkFnsOpt_eq [DecidableEq Γ.X] (A : Access Γ) (ph : Op (sig Γ)) (emit : Stmts.Em (sig Γ)) : ∀ (fns : List (Fn Γ)) (code : Code Γ) (locs),
    linkFnsOpt A ph emit fns code locs = ((linkGs ph (fns.map fun F => optGraph A (graphOf emit F)) code locs).1, List.zipWith (entries emit) fns (linkGs ph (fns.map fun F => optGraph A (graphOf emit F)) code locs).2)
  | [], code, locs => rfl
  | F :: fs, code, locs => by
    simp only [linkFnsOpt, linkFnsOpt_eq A ph emit fs, List.map_cons, linkGs, List.zipWith_cons_cons]
    rfl

/-! ## Sizes -/

theorem starts_le (starts : List Nat) : ∀ (bs : G Γ) (id pos j st : Nat), (startsOf id pos bs)[j]? = some st → st ≤ pos + (fin starts id pos bs).length
  | [], id, pos, j, st, h => by simp [startsOf] at h
  | b :: bs, id, pos, 0, st, h => by simp [startsOf] at h; omega
  | b :: bs, id, pos, j + 1, st, h => by
    simp only [startsOf, List.getElem?_cons_succ] at h
    have := starts_le starts bs (id + 1) (pos + size id b) j st h
    simp only [fin, List.length_append, List.length_map, Graph.finEnd_length, size] at this ⊢
    omega

section
variable {P : Prog Γ E S} {f : List (Unit × Op (sig Γ)) → List (Unit × Op (sig Γ))} (hf : ∀ c, Seg P (ops c) (ops (f c)))

abbrev opt' (f : List (Unit × Op (sig Γ)) → List (Unit × Op (sig Γ))) (g : G Γ) : G Γ := g.map fun b => { b with code := f b.code }

include hf
theorem f_length (c : List (Unit × Op (sig Γ))) : (f c).length ≤ c.length := by
  have := (hf c).length
  simpa [ops] using this

theorem fin_le (starts starts' : List Nat) : ∀ (bs : G Γ) (id pos pos' : Nat), (fin starts' id pos' (opt' f bs)).length ≤ (fin starts id pos bs).length
  | [], id, pos, pos' => by simp [fin]
  | b :: bs, id, pos, pos' => by
    have ih := fin_le starts starts' bs (id + 1) (pos + size id b) (pos' + size id { b with code := f b.code })
    have := f_length hf b.code
    simp only [opt', List.map_cons, fin, List.length_append, List.length_map, Graph.finEnd_length] at ih ⊢
    omega

omit hf in
theorem patch_at (start index : Nat) (h1 : start < 2 ^ 31) (h2 : index < 2 ^ 31) : (index : Int) + 1 + Graph.i32 (Graph.i32 (Graph.i32 start - Graph.i32 index) - 1) = start := by
  rw [Graph.patchInstr_off start index h1 h2]; omega

omit hf in
/-- The end of a block. -/
theorem end_seg {T : Nat → Nat → Prop} {starts starts' : List Nat} (hb : ∀ n, starts.getD n 0 < 2 ^ 31) (hb' : ∀ n, starts'.getD n 0 < 2 ^ 31) (id : Nat) (e : End (Br (sig Γ)))
    (hT : ∀ n ∈ (match e with | .exit => [] | .next n => [n] | .branch _ d b => [d, b]), T (starts.getD n 0) (starts'.getD n 0))
    {pos pos' : Nat} {c d : Code Γ} (hp : pos + endSize id e < 2 ^ 31) (hp' : pos' + endSize id e < 2 ^ 31) (h : SegI P T (pos + endSize id e) (pos' + endSize id e) c d) :
    SegI P T pos pos' (finEnd starts id pos e ++ c) (finEnd starts' id pos' e ++ d) := by
  cases e with
  | exit => exact h
  | next n =>
    simp only [finEnd, endSize] at h hp hp' ⊢
    split
    · rename_i hn
      simp only [hn, if_true, ne_eq, not_false_eq_true] at h hp hp'
      exact .jump (patch_at _ _ (hb n) (by omega)) (patch_at _ _ (hb' n) (by omega)) (hT n (by simp)) h
    · rename_i hn
      simp only [hn, if_false] at h
      exact h
  | branch ty dd b =>
    simp only [finEnd, endSize] at h hp hp' ⊢
    refine .cjump (patch_at _ _ (hb b) (by split at hp <;> omega)) (patch_at _ _ (hb' b) (by split at hp' <;> omega)) (hT b (by simp)) ?_
    split
    · rename_i hn
      simp only [hn, if_true, ne_eq, not_false_eq_true] at h hp hp'
      exact .jump (patch_at _ _ (hb dd) (by omega)) (patch_at _ _ (hb' dd) (by omega)) (hT dd (by simp)) h
    · rename_i hn
      simp only [hn, if_false] at h
      exact h

/-- The blocks of a graph. -/
theorem fin_seg {T : Nat → Nat → Prop} {starts starts' : List Nat} (hb : ∀ n, starts.getD n 0 < 2 ^ 31) (hb' : ∀ n, starts'.getD n 0 < 2 ^ 31) {c d : Code Γ} :
    ∀ (bs : G Γ) (id : Nat) (pre pre' : Code Γ),
    (∀ b ∈ bs, ∀ n ∈ (match b.fin with | .exit => [] | .next n => [n] | .branch _ d b => [d, b]), T (starts.getD n 0) (starts'.getD n 0)) →
    pre.length + (fin starts id pre.length bs).length < 2 ^ 31 → pre'.length ≤ pre.length →
    SegI P T (pre.length + (fin starts id pre.length bs).length) (pre'.length + (fin starts' id pre'.length (opt' f bs)).length) c d →
    SegI P T pre.length pre'.length (fin starts id pre.length bs ++ c) (fin starts' id pre'.length (opt' f bs) ++ d) ∧
    ∀ (j st st' : Nat), (startsOf id pre.length bs)[j]? = some st → (startsOf id pre'.length (opt' f bs))[j]? = some st' →
      At P T (pre ++ (fin starts id pre.length bs ++ c)) (pre' ++ (fin starts' id pre'.length (opt' f bs) ++ d)) st st'
  | [], id, pre, pre', _, _, _, h => ⟨h, fun j st st' h => by simp [startsOf] at h⟩
  | b :: bs, id, pre, pre', hT, hp, hle, h => by
    have hl := f_length hf b.code
    have e1 : (pre ++ (b.code.map (fun p : Unit × Op (sig Γ) => Instr.op p.2) ++ finEnd starts id (pre.length + b.code.length) b.fin)).length = pre.length + size id b := by
      simp [size, Graph.finEnd_length]
    have e2 : (pre' ++ ((f b.code).map (fun p : Unit × Op (sig Γ) => Instr.op p.2) ++ finEnd starts' id (pre'.length + (f b.code).length) b.fin)).length = pre'.length + size id { b with code := f b.code } := by
      simp [size, Graph.finEnd_length]
    have hsz : size id { b with code := f b.code } ≤ size id b := by simp only [size]; omega
    simp only [opt', List.map_cons, fin, List.length_append, List.length_map, Graph.finEnd_length] at h hp
    have ih := fin_seg hb hb' bs (id + 1) (pre ++ (b.code.map (fun p : Unit × Op (sig Γ) => Instr.op p.2) ++ finEnd starts id (pre.length + b.code.length) b.fin))
      (pre' ++ ((f b.code).map (fun p : Unit × Op (sig Γ) => Instr.op p.2) ++ finEnd starts' id (pre'.length + (f b.code).length) b.fin)) (fun b' hb' => hT b' (by simp [hb']))
      (by rw [e1]; simp only [size] at hp ⊢; omega) (by rw [e1, e2]; omega)
      (by
        rw [e1, e2]
        simp only [size] at h ⊢
        simpa only [Nat.add_assoc] using h)
    rw [e1, e2] at ih
    have main : SegI P T pre.length pre'.length (fin starts id pre.length (b :: bs) ++ c) (fin starts' id pre'.length (opt' f (b :: bs)) ++ d) := by
      simp only [opt', List.map_cons, fin, List.append_assoc]
      have hs := hf b.code
      have key := SegI.seg (T := T) hs (i := pre.length) (i' := pre'.length) (c := finEnd starts id (pre.length + b.code.length) b.fin ++ (fin starts (id + 1) (pre.length + size id b) bs ++ c))
        (d := finEnd starts' id (pre'.length + (f b.code).length) b.fin ++ (fin starts' (id + 1) (pre'.length + size id { b with code := f b.code }) (opt' f bs) ++ d))
      simp only [ops, List.length_map, List.map_map] at key
      refine key (end_seg hb hb' id b.fin (hT b (by simp)) ?_ ?_ ?_)
      · simp only [size] at hp; omega
      · simp only [size] at hp; omega
      · have := ih.1
        simp only [size] at this ⊢
        simpa only [Nat.add_assoc] using this
    refine ⟨main, ?_⟩
    intro j st st' h1 h2
    cases j with
    | zero =>
      simp only [startsOf, opt', List.map_cons, List.getElem?_cons_zero, Option.some.injEq] at h1 h2
      subst h1 h2
      unfold At
      rw [List.drop_left, List.drop_left]
      exact main
    | succ j =>
      simp only [startsOf, opt', List.map_cons, List.getElem?_cons_succ] at h1 h2
      have := ih.2 j st st' h1 h2
      simp only [opt', List.map_cons, fin, List.append_assoc] at this ⊢
      exact this

/-- The pair of starts of block `j` of graph `n`. -/
def Pair (ss ss' : List (List Nat)) (st st' : Nat) : Prop := ∃ (n j : Nat) (sts sts' : List Nat), ss[n]? = some sts ∧ ss'[n]? = some sts' ∧ sts[j]? = some st ∧ sts'[j]? = some st'

omit hf in
theorem getD_small {sts : List Nat} (h : ∀ (j st : Nat), sts[j]? = some st → st < 2 ^ 31) (n : Nat) : sts.getD n 0 < 2 ^ 31 := by
  rw [List.getD_eq_getElem?_getD]
  cases hn : sts[n]? with
  | none => simp
  | some st => exact h n st hn

theorem finAll_le : ∀ (gs : List (G Γ)) (pos pos' : Nat), (finAll pos' (gs.map (opt' f))).length ≤ (finAll pos gs).length
  | [], _, _ => by simp [finAll]
  | g :: gs, pos, pos' => by
    have h1 := fin_le hf (startsOf 0 pos g) (startsOf 0 pos' (opt' f g)) g 0 pos pos'
    have h2 := finAll_le gs (pos + (fin (startsOf 0 pos g) 0 pos g).length) (pos' + (fin (startsOf 0 pos' (opt' f g)) 0 pos' (opt' f g)).length)
    simp only [List.map_cons, finAll, List.length_append]
    omega

/-- All graphs. -/
theorem all_seg {T : Nat → Nat → Prop} : ∀ (gs : List (G Γ)) (pre pre' : Code Γ), (∀ g ∈ gs, Graph.WF g) → pre.length + (finAll pre.length gs).length < 2 ^ 31 → pre'.length ≤ pre.length →
    (∀ st st', Pair (startsAll pre.length gs) (startsAll pre'.length (gs.map (opt' f))) st st' → T st st') →
    SegI P T pre.length pre'.length (finAll pre.length gs) (finAll pre'.length (gs.map (opt' f))) ∧
    ∀ st st', Pair (startsAll pre.length gs) (startsAll pre'.length (gs.map (opt' f))) st st' → At P T (pre ++ finAll pre.length gs) (pre' ++ finAll pre'.length (gs.map (opt' f))) st st'
  | [], pre, pre', _, _, _, _ => ⟨.nil, by rintro st st' ⟨n, j, sts, sts', h, _⟩; simp [startsAll] at h⟩
  | g :: gs, pre, pre', hw, hp, hle, hT => by
    simp only [List.map_cons, finAll, List.length_append, startsAll] at hp hT ⊢
    have hl := fin_le hf (startsOf 0 pre.length g) (startsOf 0 pre'.length (opt' f g)) g 0 pre.length pre'.length
    have e1 : (pre ++ fin (startsOf 0 pre.length g) 0 pre.length g).length = pre.length + (fin (startsOf 0 pre.length g) 0 pre.length g).length := by simp
    have e2 : (pre' ++ fin (startsOf 0 pre'.length (opt' f g)) 0 pre'.length (opt' f g)).length = pre'.length + (fin (startsOf 0 pre'.length (opt' f g)) 0 pre'.length (opt' f g)).length := by simp
    have ih := all_seg gs (pre ++ fin (startsOf 0 pre.length g) 0 pre.length g) (pre' ++ fin (startsOf 0 pre'.length (opt' f g)) 0 pre'.length (opt' f g))
      (fun g h => hw g (by simp [h])) (by rw [e1]; omega) (by rw [e1, e2]; omega)
      (by
        rw [e1, e2]
        rintro st st' ⟨n, j, sts, sts', h1, h2, h3, h4⟩
        exact hT st st' ⟨n + 1, j, sts, sts', h1, h2, h3, h4⟩)
    rw [e1, e2] at ih
    have hT0 : ∀ n, n < g.length → T ((startsOf 0 pre.length g).getD n 0) ((startsOf 0 pre'.length (opt' f g)).getD n 0) := by
      intro n hn
      have l1 : n < (startsOf 0 pre.length g).length := by rw [Graph.startsOf_length]; exact hn
      have l2 : n < (startsOf 0 pre'.length (opt' f g)).length := by rw [Graph.startsOf_length]; simpa [opt'] using hn
      refine hT _ _ ⟨0, n, _, _, rfl, rfl, ?_, ?_⟩
      · rw [List.getD_eq_getElem?_getD, List.getElem?_eq_getElem l1]; rfl
      · rw [List.getD_eq_getElem?_getD, List.getElem?_eq_getElem l2]; rfl
    have hg := hw g (by simp)
    obtain ⟨h1, h2⟩ := fin_seg hf (T := T) (starts := startsOf 0 pre.length g) (starts' := startsOf 0 pre'.length (opt' f g))
      (getD_small fun j st h => by have := starts_le (startsOf 0 pre.length g) g 0 _ j st h; omega)
      (getD_small fun j st h => by have := starts_le (startsOf 0 pre'.length (opt' f g)) (opt' f g) 0 _ j st h; omega)
      g 0 pre pre'
      (by
        intro b hb n hn
        obtain ⟨i, hi⟩ := List.getElem?_of_mem hb
        cases he : b.fin with
        | exit => rw [he] at hn; simp at hn
        | next m =>
          rw [he] at hn
          simp only [List.mem_singleton] at hn
          subst hn
          exact hT0 n (hg.next i b n hi he)
        | branch ty d m =>
          rw [he] at hn
          simp only [List.mem_cons, List.not_mem_nil, or_false] at hn
          have := hg.branch i b ty d m hi he
          rcases hn with rfl | rfl
          · exact hT0 _ this.1
          · exact hT0 _ this.2)
      (by omega) hle ih.1
    refine ⟨h1, ?_⟩
    rintro st st' ⟨n, j, sts, sts', h3, h4, h5, h6⟩
    cases n with
    | zero =>
      simp only [List.getElem?_cons_zero, Option.some.injEq] at h3 h4
      subst h3 h4
      exact h2 j st st' h5 h6
    | succ n =>
      simp only [List.getElem?_cons_succ] at h3 h4
      have := ih.2 st st' ⟨n, j, sts, sts', h3, h4, h5, h6⟩
      simpa only [List.append_assoc] using this
end

section
variable [DecidableEq Γ.X] {A : Access Γ} {P : Prog Γ E S}

theorem startsAll_get (pos : Nat) : ∀ (gs : List (G Γ)) (n : Nat), (startsAll pos gs)[n]? = none ∧ gs[n]? = none ∨ ∃ sts g, (startsAll pos gs)[n]? = some sts ∧ gs[n]? = some g ∧ sts.length = g.length := by
  intro gs
  induction gs generalizing pos with
  | nil => intro n; exact .inl (by simp [startsAll])
  | cons g gs ih =>
    intro n
    cases n with
    | zero => exact .inr ⟨_, g, rfl, rfl, Graph.startsOf_length _ _ _⟩
    | succ n => simpa [startsAll] using ih _ n

/-- With the block optimiser the program stops exactly as without. -/
theorem stops_opt (hA : AccessLaws A P) (ph : Op (sig Γ)) (emit : Stmts.Em (sig Γ)) [Stmts.EmOk emit] (main : Stmts.Block (sig Γ)) (pre : Code Γ) (locs : List Unit) (s : S)
    (hsz : (link ph emit P.fns main pre locs).code.length < 2 ^ 31) (hc : ¬ Stops P (link ph emit P.fns main pre locs) s .crash) (r : MStop Γ E S) :
    Stops P (linkOpt A ph emit P.fns main pre locs) s r ↔ Stops P (link ph emit P.fns main pre locs) s r := by
  have hf := seg_block (L := Unit) hA
  have hw : ∀ g ∈ (emitProgram emit main).b.graph :: P.fns.map (graphOf emit), Graph.WF g := by
    intro g hg
    rcases List.mem_cons.1 hg with rfl | hg
    · exact Stmts.program_wf _ _
    · obtain ⟨F, _, rfl⟩ := List.mem_map.1 hg
      exact fn_wf _ _ _ _ _
  have e1 : link ph emit P.fns main pre locs = ⟨pre ++ finAll pre.length ((emitProgram emit main).b.graph :: P.fns.map (graphOf emit)),
      ((startsAll pre.length ((emitProgram emit main).b.graph :: P.fns.map (graphOf emit))).getD 0 []).getD 0 0,
      List.zipWith (entries emit) P.fns (startsAll pre.length ((emitProgram emit main).b.graph :: P.fns.map (graphOf emit))).tail⟩ := by
    have h := linkGs_eq ph ((emitProgram emit main).b.graph :: P.fns.map (graphOf emit)) pre locs
    simp only [linkGs] at h
    injection h with h1 h2
    simp only [link, linkFns_eq]
    rw [← h1, ← h2]
    rfl
  have e2 : linkOpt A ph emit P.fns main pre locs = ⟨pre ++ finAll pre.length (((emitProgram emit main).b.graph :: P.fns.map (graphOf emit)).map (opt' (optBlock A))),
      ((startsAll pre.length (((emitProgram emit main).b.graph :: P.fns.map (graphOf emit)).map (opt' (optBlock A)))).getD 0 []).getD 0 0,
      List.zipWith (entries emit) P.fns (startsAll pre.length (((emitProgram emit main).b.graph :: P.fns.map (graphOf emit)).map (opt' (optBlock A)))).tail⟩ := by
    have h := linkGs_eq ph (((emitProgram emit main).b.graph :: P.fns.map (graphOf emit)).map (opt' (optBlock A))) pre locs
    simp only [List.map_cons, List.map_map, linkGs] at h
    injection h with h1 h2
    simp only [linkOpt, linkFnsOpt_eq, List.map_cons, List.map_map]
    rw [← h1, ← h2]
    rfl
  generalize hgs : (emitProgram emit main).b.graph :: P.fns.map (graphOf emit) = gs at hw e1 e2
  rw [e1] at hsz hc ⊢
  rw [e2]
  have hsz' : pre.length + (finAll pre.length gs).length < 2 ^ 31 := by simpa using hsz
  obtain ⟨h1, h2⟩ := all_seg hf (T := Pair (startsAll pre.length gs) (startsAll pre.length (gs.map (opt' (optBlock A))))) gs pre pre hw hsz' (Nat.le_refl _) (fun _ _ h => h)
  have pair : ∀ (n : Nat) (g : G Γ), gs[n]? = some g → ∃ sts sts', (startsAll pre.length gs)[n]? = some sts ∧ (startsAll pre.length (gs.map (opt' (optBlock A))))[n]? = some sts' ∧
      ∀ i, i < g.length → Pair (startsAll pre.length gs) (startsAll pre.length (gs.map (opt' (optBlock A)))) (sts.getD i 0) (sts'.getD i 0) := by
    intro n g hg
    rcases startsAll_get pre.length gs n with ⟨_, h⟩ | ⟨sts, g1, h3, h4, h5⟩
    · rw [hg] at h; cases h
    rcases startsAll_get pre.length (gs.map (opt' (optBlock A))) n with ⟨_, h⟩ | ⟨sts', g2, h6, h7, h8⟩
    · simp [hg] at h
    rw [hg] at h4; injection h4 with h4; subst h4
    simp only [List.getElem?_map, hg, Option.map_some, Option.some.injEq] at h7
    subst h7
    refine ⟨sts, sts', h3, h6, fun i hi => ⟨n, i, sts, sts', h3, h6, ?_, ?_⟩⟩
    · rw [List.getD_eq_getElem?_getD, List.getElem?_eq_getElem (by omega)]; rfl
    · rw [List.getD_eq_getElem?_getD, List.getElem?_eq_getElem (by rw [h8]; simpa [opt'] using hi)]; rfl
  refine (stops_same P (R := At P _ _ _) (starts := List.zipWith (entries emit) P.fns (startsAll pre.length gs).tail) (starts' := List.zipWith (entries emit) P.fns (startsAll pre.length (gs.map (opt' (optBlock A)))).tail)
    ?_ rfl h2 (.run ?_ .nil) (fun n hn => hc ⟨n, hn⟩) r).symm
  · intro fn
    cases hF : P.fns[fn]? with
    | none =>
      refine .inl ⟨?_, ?_⟩ <;> simp [List.getElem?_zipWith, hF]
    | some F =>
      obtain ⟨sts, sts', h3, h4, h5⟩ := pair (fn + 1) (graphOf emit F) (by rw [← hgs]; simp [hF])
      have t1 : (startsAll pre.length gs).tail[fn]? = some sts := by simpa using h3
      have t2 : (startsAll pre.length (gs.map (opt' (optBlock A)))).tail[fn]? = some sts' := by simpa using h4
      refine .inr ⟨entries emit F sts, entries emit F sts', by simp [List.getElem?_zipWith, hF, t1], by simp [List.getElem?_zipWith, hF, t2], fun j => ?_⟩
      simp only [entries, List.getElem?_map]
      cases hj : (emitFn emit F.required F.defaults F.patterns F.body).2[j]? with
      | none => exact .inl ⟨rfl, rfl⟩
      | some i =>
        have hi : i < (graphOf emit F).length := fn_ids emit _ _ _ _ i (List.mem_of_getElem? hj)
        exact .inr ⟨_, _, rfl, rfl, h2 _ _ (h5 i hi)⟩
  · obtain ⟨sts, sts', h3, h4, h5⟩ := pair 0 (emitProgram emit main).b.graph (by rw [← hgs]; rfl)
    have h0 : 0 < (emitProgram emit main).b.graph.length := by simp [Builder.Bld.graph]
    simp only [List.getD_eq_getElem?_getD, h3, h4, Option.getD_some] at h5 ⊢
    exact h2 _ _ (h5 0 h0)
end

end Cordy.Program
