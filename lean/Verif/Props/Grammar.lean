import Verif.Lemmas.Grammar4
/-!
# C57: operator precedence and associativity

The parser accepts exactly the phrases of the documented grammar (`Spec/Grammar.lean`), with the tree that the grammar gives, and this tree is unique.
-/
namespace Cordy.Grammar

/-- The tokens `ts` are an expression with tree `e`, according to the parser. -/
def Parses (ts : List T) (e : E) : Prop := ∃ n, pExpr n ts = some (e, [])

/-- C57: the parser accepts a list of tokens with a tree exactly if the grammar with the table of precedences does. -/
theorem C57_parse (ts : List T) (e : E) : Parses ts e ↔ ∃ o, G .expr o (.e e) ts := by
  constructor
  · rintro ⟨n, h⟩
    obtain ⟨_, o, t1, rfl, hg⟩ := (sound n).expr _ _ _ h
    exact ⟨o, by simpa using hg⟩
  · rintro ⟨o, h⟩
    obtain ⟨N, hN⟩ := claim h [] stopE_nil
    exact ⟨N, by simpa using hN N (Nat.le_refl _)⟩

/-- C57: the grammar is not ambiguous: an expression has one tree. -/
theorem C57_unique {ts : List T} {e e' : E} {o o' : Bool} (h : G .expr o (.e e) ts) (h' : G .expr o' (.e e') ts) : e = e' := by
  obtain ⟨N, hN⟩ := claim h [] stopE_nil
  obtain ⟨N', hN'⟩ := claim h' [] stopE_nil
  have h1 := hN (N + N') (by omega)
  have h2 := hN' (N + N') (by omega)
  simp only at h1 h2
  rw [h1] at h2
  simpa using h2

/-- Operands of the following theorems: what comes before any binary operator, and does not start with `not` (which would continue `is`). -/
def Operand (x : E) (ts : List T) : Prop := G (.lvl 2) false (.e x) ts ∧ peek ts ≠ some .kNot

theorem lift_to {j k : Nat} {o : Bool} {x : E} {ts : List T} (h : G (.lvl j) o (.e x) ts) (h2 : 2 ≤ j) (hjk : j ≤ k) (h9 : k ≤ 9) : G (.lvl k) o (.e x) ts := by
  induction k with
  | zero => omega
  | succ k ih =>
    by_cases e : j = k + 1
    · subst e; exact h
    · exact .lift (by omega) (by omega) (ih (by omega) (by omega))

/-- C57: `x a y b z` is `(x a y) b z` if `a` has the same or a higher precedence (a lower or the same level in the table), and `x a (y b z)` if it has a lower one. In particular every operator is associative to the left. -/
theorem C57_two_operators {x y z : E} {tx ty tz ta tb : List T} (hx : Operand x tx) (hy : Operand y ty) (hz : Operand z tz) (a b : Infix)
    (ha : ta.map (·.2) = spell a) (hb : tb.map (·.2) = spell b) :
    Parses (tx ++ ta ++ ty ++ tb ++ tz) (if level a ≤ level b then .bin b (.bin a x y) z else .bin a x (.bin b y z)) := by
  have la := level_range a
  have lb := level_range b
  split
  · rename_i hab
    have g1 : G (.lvl (level a)) false (.e (.bin a x y)) (tx ++ ta ++ ty) :=
      .bin a (lift_to hx.1 (by omega) (by omega) (by omega)) (lift_to hy.1 (by omega) (by omega) (by omega)) ha (fun _ => hy.2)
    have g2 : G (.lvl (level b)) false (.e (.bin b (.bin a x y) z)) (tx ++ ta ++ ty ++ tb ++ tz) :=
      .bin b (lift_to g1 (by omega) hab (by omega)) (lift_to hz.1 (by omega) (by omega) (by omega)) hb (fun _ => hz.2)
    exact (C57_parse _ _).mpr ⟨false, .ofLvl (lift_to g2 (by omega) (by omega) (by omega))⟩
  · rename_i hab
    have g1 : G (.lvl (level b)) false (.e (.bin b y z)) (ty ++ tb ++ tz) :=
      .bin b (lift_to hy.1 (by omega) (by omega) (by omega)) (lift_to hz.1 (by omega) (by omega) (by omega)) hb (fun _ => hz.2)
    have hp : peek (ty ++ tb ++ tz) ≠ some .kNot := by
      obtain ⟨t, ht, _⟩ := (hy.1.starts rfl).peek
      rw [List.append_assoc, peek_append ht, ← ht]; exact hy.2
    have g2 : G (.lvl (level a)) false (.e (.bin a x (.bin b y z))) (tx ++ ta ++ (ty ++ tb ++ tz)) :=
      .bin a (lift_to hx.1 (by omega) (by omega) (by omega)) (lift_to g1 (by omega) (by omega) (by omega)) ha (fun _ => hp)
    refine (C57_parse _ _).mpr ⟨false, .ofLvl (lift_to (k := 9) ?_ (by omega) la.2.1 (by omega))⟩
    simpa using g2

/-- C57: a comparison takes the operators up to level 7 into its operands, and `and`, `or` take comparisons. -/
theorem C57_comparison {x y z : E} {tx ty tz ta : List T} (hx : Operand x tx) (hy : Operand y ty) (hz : Operand z tz) (a : Infix)
    (ha : ta.map (·.2) = spell a) (c : Cmp) (b : Bool) :
    Parses (tx ++ ta ++ ty ++ (b, .cmp c) :: tz) (if level a < 8 then .compare (.bin a x y) [(c, z)] else .bin a x (.compare y [(c, z)])) ∧
    Parses (tx ++ (b, .cmp c) :: ty ++ ta ++ tz) (if level a < 8 then .compare x [(c, .bin a y z)] else .bin a (.compare x [(c, y)]) z) := by
  have la := level_range a
  have up : ∀ {k : Nat} {x : E} {ts : List T}, G (.lvl 2) false (.e x) ts → 2 ≤ k → k ≤ 9 → G (.lvl k) false (.e x) ts := fun h h2 h9 => lift_to h (by omega) h2 h9
  constructor
  · split
    · rename_i h8
      have g1 : G (.lvl (level a)) false (.e (.bin a x y)) (tx ++ ta ++ ty) := .bin a (up hx.1 (by omega) (by omega)) (up hy.1 (by omega) (by omega)) ha (fun _ => hy.2)
      have g2 : G (.lvl 8) false (.e (.compare (.bin a x y) [(c, z)])) (tx ++ ta ++ ty ++ (b, .cmp c) :: tz) :=
        .compare (lift_to g1 (by omega) (by omega) (by omega)) (.cmp1 b c (up hz.1 (by omega) (by omega)))
      exact (C57_parse _ _).mpr ⟨false, .ofLvl (lift_to g2 (by omega) (by omega) (by omega))⟩
    · rename_i h8
      have h9 : level a = 9 := by omega
      have g1 : G (.lvl 8) false (.e (.compare y [(c, z)])) (ty ++ (b, .cmp c) :: tz) :=
        .compare (up hy.1 (by omega) (by omega)) (.cmp1 b c (up hz.1 (by omega) (by omega)))
      have g2 : G (.lvl (level a)) false (.e (.bin a x (.compare y [(c, z)]))) (tx ++ ta ++ (ty ++ (b, .cmp c) :: tz)) :=
        .bin a (up hx.1 (by omega) (by omega)) (by rw [h9]; exact g1) ha (fun e => by subst e; simp [level] at h9)
      refine (C57_parse _ _).mpr ⟨false, .ofLvl (lift_to (k := 9) ?_ (by omega) la.2.1 (by omega))⟩
      simpa using g2
  · split
    · rename_i h8
      have g1 : G (.lvl (level a)) false (.e (.bin a y z)) (ty ++ ta ++ tz) := .bin a (up hy.1 (by omega) (by omega)) (up hz.1 (by omega) (by omega)) ha (fun _ => hz.2)
      have g2 : G (.lvl 8) false (.e (.compare x [(c, .bin a y z)])) (tx ++ (b, .cmp c) :: (ty ++ ta ++ tz)) :=
        .compare (up hx.1 (by omega) (by omega)) (.cmp1 b c (lift_to g1 (by omega) (by omega) (by omega)))
      refine (C57_parse _ _).mpr ⟨false, .ofLvl (lift_to (k := 9) ?_ (by omega) (show 8 ≤ 9 by omega) (by omega))⟩
      simpa using g2
    · rename_i h8
      have h9 : level a = 9 := by omega
      have g1 : G (.lvl 8) false (.e (.compare x [(c, y)])) (tx ++ (b, .cmp c) :: ty) :=
        .compare (up hx.1 (by omega) (by omega)) (.cmp1 b c (up hy.1 (by omega) (by omega)))
      have g2 : G (.lvl (level a)) false (.e (.bin a (.compare x [(c, y)]) z)) (tx ++ (b, .cmp c) :: ty ++ ta ++ tz) :=
        .bin a (by rw [h9]; exact .lift (by omega) (by omega) g1) (by rw [h9]; exact up hz.1 (by omega) (by omega)) ha (fun _ => hz.2)
      refine (C57_parse _ _).mpr ⟨false, .ofLvl (lift_to (k := 9) g2 (by omega) la.2.1 (by omega))⟩

/-- C57: a prefix operator takes only its operand, and the calls, indexes and fields after it belong to the operand. -/
theorem C57_prefix {x y : E} {tx ty ta : List T} (hx : Operand x tx) (hy : Operand y ty) (b : Bool) (p : Prefix) (a : Infix) (ha : ta.map (·.2) = spell a) (b1 b2 : Bool) (s : String) :
    Parses ((b, spellPrefix p) :: tx ++ ta ++ ty) (.bin a (.unary p x) y) ∧
    Parses ((b, spellPrefix p) :: [(b, .ident s), (b1, .arrow), (b2, .ident s)]) (.unary p (.field (.var s) s)) := by
  have la := level_range a
  constructor
  · have g2 : G (.lvl (level a)) false (.e (.bin a (.unary p x) y)) ((b, spellPrefix p) :: tx ++ ta ++ ty) :=
      .bin a (lift_to (.unary b p hx.1) (by omega) (by omega) (by omega)) (lift_to hy.1 (by omega) (by omega) (by omega)) ha (fun _ => hy.2)
    exact (C57_parse _ _).mpr ⟨false, .ofLvl (lift_to g2 (by omega) (by omega) (by omega))⟩
  · have g : G .suf false (.e (.field (.var s) s)) ([(b, .ident s)] ++ [(b1, .arrow), (b2, .ident s)]) := .field b1 b2 s (.ofTerm (.var b s))
    exact (C57_parse _ _).mpr ⟨false, .ofLvl (lift_to (.unary b p (.ofSuf g)) (by omega) (by omega) (by omega))⟩

/-- C57: assignments are associative to the right: `x a y b z` is `x a (y b z)`, for variables `x`, `y`. -/
theorem C57_assign_right {z : E} {o : Bool} {tz ta tb : List T} (hz : G .expr o (.e z) tz) (a b : Asg) (ha : ta.map (·.2) = spellAsg a) (hb : tb.map (·.2) = spellAsg b)
    (s t : String) (n1 n2 : Bool) : Parses ([(n1, .ident s)] ++ ta ++ ([(n2, .ident t)] ++ tb ++ tz)) (.assign a (.var s) (.assign b (.var t) z)) := by
  have g : ∀ s n, G (.lvl 9) false (.e (.var s)) [(n, .ident s)] := fun s n => lift_to (.ofSuf (.ofTerm (.var n s))) (by omega) (by omega) (by omega)
  exact (C57_parse _ _).mpr ⟨o, .assign a (g s n1) rfl ha (.assign b (g t n2) rfl hb hz)⟩

/-! ## Full parentheses -/

mutual
/-- A tree of operators, without parentheses. -/
inductive Tree where
  | lit (l : Lit)
  | var (s : String)
  | list (as : Args)
  | set (as : Args)
  | dict (ps : Pairs)
  | ite (c t f : Tree)
  | call (f : Tree) (as : Args)
  | index (a i : Tree)
  | slice (a i j : Tree)
  | sliceStep (a i j k : Tree)
  | field (a : Tree) (f : String)
  | unary (op : Prefix) (e : Tree)
  | bin (op : Infix) (l r : Tree)
  | compare (l : Tree) (ops : Chain)
  | assign (op : Asg) (s : String) (r : Tree)
  | assignIndex (op : Asg) (a i r : Tree)
inductive Args where
  | nil
  | cons (a : Tree) (as : Args)
inductive Pairs where
  | one (k v : Tree)
  | more (k v : Tree) (ps : Pairs)
inductive Chain where
  | one (c : Cmp) (r : Tree)
  | more (c : Cmp) (r : Tree) (ops : Chain)
end

def onLine (ts : List Tok) : List T := ts.map fun t => (false, t)

mutual
/-- Written with parentheses around each part. -/
def print : Tree → List T
  | .lit n => onLine [.lit n]
  | .var s => onLine [.ident s]
  | .list as => onLine [.lsq] ++ printArgs as ++ onLine [.rsq]
  | .set as => onLine [.word .lbrace] ++ printArgs as ++ onLine [.word .rbrace]
  | .dict ps => onLine [.word .lbrace] ++ printPairs ps ++ onLine [.word .rbrace]
  | .ite c t f => onLine [.kIf, .lparen] ++ print c ++ onLine [.rparen, .kThen, .lparen] ++ print t ++ onLine [.rparen, .kElse, .lparen] ++ print f ++ onLine [.rparen]
  | .call f as => onLine [.lparen] ++ print f ++ onLine [.rparen, .lparen] ++ printArgs as ++ onLine [.rparen]
  | .index a i => onLine [.lparen] ++ print a ++ onLine [.rparen, .lsq, .lparen] ++ print i ++ onLine [.rparen, .rsq]
  | .slice a i j => onLine [.lparen] ++ print a ++ onLine [.rparen, .lsq, .lparen] ++ print i ++ onLine [.rparen, .word .colon, .lparen] ++ print j ++ onLine [.rparen, .rsq]
  | .sliceStep a i j k => onLine [.lparen] ++ print a ++ onLine [.rparen, .lsq, .lparen] ++ print i ++ onLine [.rparen, .word .colon, .lparen] ++ print j ++ onLine [.rparen, .word .colon, .lparen] ++ print k ++ onLine [.rparen, .rsq]
  | .field a f => onLine [.lparen] ++ print a ++ onLine [.rparen, .arrow, .ident f]
  | .unary p e => onLine [spellPrefix p, .lparen] ++ print e ++ onLine [.rparen]
  | .bin op l r => onLine [.lparen] ++ print l ++ onLine [.rparen] ++ onLine (spell op) ++ onLine [.lparen] ++ print r ++ onLine [.rparen]
  | .compare l ops => onLine [.lparen] ++ print l ++ onLine [.rparen] ++ printChain ops
  | .assign a s r => onLine [.ident s] ++ onLine (spellAsg a) ++ onLine [.lparen] ++ print r ++ onLine [.rparen]
  | .assignIndex op a i r => onLine [.lparen] ++ print a ++ onLine [.rparen, .lsq, .lparen] ++ print i ++ onLine [.rparen, .rsq] ++ onLine (spellAsg op) ++ onLine [.lparen] ++ print r ++ onLine [.rparen]
def printArgs : Args → List T
  | .nil => []
  | .cons a .nil => onLine [.lparen] ++ print a ++ onLine [.rparen]
  | .cons a as => onLine [.lparen] ++ print a ++ onLine [.rparen, .comma] ++ printArgs as
def printPairs : Pairs → List T
  | .one k v => onLine [.lparen] ++ print k ++ onLine [.rparen, .word .colon, .lparen] ++ print v ++ onLine [.rparen]
  | .more k v ps => onLine [.lparen] ++ print k ++ onLine [.rparen, .word .colon, .lparen] ++ print v ++ onLine [.rparen, .comma] ++ printPairs ps
def printChain : Chain → List T
  | .one c r => onLine [.cmp c, .lparen] ++ print r ++ onLine [.rparen]
  | .more c r ops => onLine [.cmp c, .lparen] ++ print r ++ onLine [.rparen] ++ printChain ops
end

/-- An expression in parentheses. -/
def par (e : E) : E := .comma [e] false

mutual
/-- The tree, with each part in parentheses. -/
def Tree.withParens : Tree → E
  | .lit n => .lit n
  | .var s => .var s
  | .list as => .list as.withParens
  | .set as => .set as.withParens
  | .dict ps => .dict ps.withParens
  | .ite c t f => .ite (par c.withParens) (par t.withParens) (par f.withParens)
  | .call f as => .call (par f.withParens) as.withParens
  | .index a i => .index (par a.withParens) (par i.withParens)
  | .slice a i j => .slice (par a.withParens) (par i.withParens) (par j.withParens)
  | .sliceStep a i j k => .sliceStep (par a.withParens) (par i.withParens) (par j.withParens) (par k.withParens)
  | .field a f => .field (par a.withParens) f
  | .unary p e => .unary p (par e.withParens)
  | .bin op l r => .bin op (par l.withParens) (par r.withParens)
  | .compare l ops => .compare (par l.withParens) ops.withParens
  | .assign a s r => .assign a (.var s) (par r.withParens)
  | .assignIndex op a i r => .assign op (.index (par a.withParens) (par i.withParens)) (par r.withParens)
def Args.withParens : Args → List E
  | .nil => []
  | .cons a as => par a.withParens :: as.withParens
def Pairs.withParens : Pairs → List E
  | .one k v => [par k.withParens, par v.withParens]
  | .more k v ps => par k.withParens :: par v.withParens :: ps.withParens
def Chain.withParens : Chain → List (Cmp × E)
  | .one c r => [(c, par r.withParens)]
  | .more c r ops => (c, par r.withParens) :: ops.withParens
end

theorem onLine_map (ts : List Tok) : (onLine ts).map (·.2) = ts := by
  induction ts with
  | nil => rfl
  | cons a ts ih => simp only [onLine, List.map_cons] at ih ⊢; rw [ih]

/-- An expression in parentheses is a terminal. -/
theorem G.par {o : Bool} {x : E} {ts : List T} (h : G .expr o (.e x) ts) : G .term false (.e (par x)) (onLine [.lparen] ++ ts ++ onLine [.rparen]) :=
  .paren false false (.args1 (.argExpr _ h))

theorem G.term_lvl {o : Bool} {x : E} {ts : List T} (h : G .term o (.e x) ts) {k : Nat} (h2 : 2 ≤ k) (h9 : k ≤ 9) : G (.lvl k) o (.e x) ts :=
  lift_to (.ofSuf (.ofTerm h)) (by omega) h2 h9

theorem G.term_expr {o : Bool} {x : E} {ts : List T} (h : G .term o (.e x) ts) : G .expr o (.e x) ts := .ofLvl (h.term_lvl (by omega) (by omega))

theorem G.suf_expr {o : Bool} {x : E} {ts : List T} (h : G .suf o (.e x) ts) : G .expr o (.e x) ts :=
  .ofLvl (lift_to (.ofSuf h) (by omega) (by omega) (by omega))

mutual
theorem G.print : (t : Tree) → ∃ o, G .expr o (.e t.withParens) (print t)
  | .lit n => ⟨false, (G.lit false n).term_expr⟩
  | .var s => ⟨false, (G.var false s).term_expr⟩
  | .list .nil => ⟨false, (G.list0 false false).term_expr⟩
  | .list (.cons a as) => by
    have h := G.printArgs (.cons a as) (by simp) .rsq
    exact ⟨false, (G.list false false h).term_expr⟩
  | .set .nil => ⟨false, (G.set0 false false).term_expr⟩
  | .set (.cons a as) => by
    have h := G.printArgs (.cons a as) (by simp) (.word .rbrace)
    exact ⟨false, (G.set false false h).term_expr⟩
  | .dict ps => ⟨false, (G.dict false false (G.printPairs ps)).term_expr⟩
  | .ite c t f => by
    obtain ⟨_, hc⟩ := G.print c
    obtain ⟨_, ht⟩ := G.print t
    obtain ⟨_, hf⟩ := G.print f
    have := (G.ite false (G.condElse false false hc.par.term_expr ht.par.term_expr hf.par.term_expr)).term_expr
    exact ⟨true, by simpa [Grammar.print, Tree.withParens, onLine] using this⟩
  | .call f .nil => by
    obtain ⟨_, hf⟩ := G.print f
    have := (G.call0 false (.ofTerm hf.par)).suf_expr
    exact ⟨false, by simpa [Grammar.print, Tree.withParens, Args.withParens, Grammar.printArgs, onLine] using this⟩
  | .call f (.cons a as) => by
    obtain ⟨_, hf⟩ := G.print f
    have := (G.call false (.ofTerm hf.par) (G.printArgs (.cons a as) (by simp) .rparen)).suf_expr
    exact ⟨false, by simpa [Grammar.print, Tree.withParens, onLine] using this⟩
  | .index a i => by
    obtain ⟨_, ha⟩ := G.print a
    obtain ⟨_, hi⟩ := G.print i
    have := (G.index false (.ofTerm ha.par) hi.par.term_expr).suf_expr
    exact ⟨false, by simpa [Grammar.print, Tree.withParens, onLine] using this⟩
  | .slice a i j => by
    obtain ⟨_, ha⟩ := G.print a
    obtain ⟨_, hi⟩ := G.print i
    obtain ⟨_, hj⟩ := G.print j
    have := (G.slice false false (.ofTerm ha.par) (.bound hi.par.term_expr) (.bound hj.par.term_expr)).suf_expr
    exact ⟨false, by simpa [Grammar.print, Tree.withParens, onLine] using this⟩
  | .sliceStep a i j k => by
    obtain ⟨_, ha⟩ := G.print a
    obtain ⟨_, hi⟩ := G.print i
    obtain ⟨_, hj⟩ := G.print j
    obtain ⟨_, hk⟩ := G.print k
    have := (G.sliceStep false false false (.ofTerm ha.par) (.bound hi.par.term_expr) (.bound hj.par.term_expr) (.bound hk.par.term_expr)).suf_expr
    exact ⟨false, by simpa [Grammar.print, Tree.withParens, onLine] using this⟩
  | .field a f => by
    obtain ⟨_, ha⟩ := G.print a
    have := (G.field false false f (.ofTerm ha.par)).suf_expr
    exact ⟨false, by simpa [Grammar.print, Tree.withParens, onLine] using this⟩
  | .unary p e => by
    obtain ⟨_, he⟩ := G.print e
    have := G.ofLvl (lift_to (G.unary false p (he.par.term_lvl (k := 2) (by omega) (by omega))) (by omega) (by omega) (by omega))
    exact ⟨false, by simpa [Grammar.print, Tree.withParens, onLine] using this⟩
  | .bin op l r => by
    obtain ⟨_, hl⟩ := G.print l
    obtain ⟨_, hr⟩ := G.print r
    have lo := level_range op
    have := G.ofLvl (lift_to (G.bin op (hl.par.term_lvl (by omega) (by omega)) (hr.par.term_lvl (k := level op - 1) (by omega) (by omega)) (onLine_map _)
      (fun _ => by simp [onLine, peek])) (by omega) lo.2.1 (by omega))
    exact ⟨false, by simpa [Grammar.print, Tree.withParens] using this⟩
  | .compare l ops => by
    obtain ⟨_, hl⟩ := G.print l
    have := G.ofLvl (lift_to (G.compare (hl.par.term_lvl (by omega) (by omega)) (G.printChain ops)) (by omega) (by omega) (by omega))
    exact ⟨false, by simpa [Grammar.print, Tree.withParens] using this⟩
  | .assign a s r => by
    obtain ⟨_, hr⟩ := G.print r
    have := G.assign a ((G.var false s).term_lvl (k := 9) (by omega) (by omega)) rfl (onLine_map _) hr.par.term_expr
    exact ⟨false, by simpa [Grammar.print, Tree.withParens, onLine] using this⟩
  | .assignIndex op a i r => by
    obtain ⟨_, ha⟩ := G.print a
    obtain ⟨_, hi⟩ := G.print i
    obtain ⟨_, hr⟩ := G.print r
    have hx := lift_to (k := 9) (.ofSuf (G.index false (.ofTerm ha.par) hi.par.term_expr)) (by omega) (by omega) (by omega)
    have := G.assign op hx rfl (onLine_map _) hr.par.term_expr
    exact ⟨false, by simpa [Grammar.print, Tree.withParens, onLine] using this⟩
theorem G.printArgs : (as : Args) → as ≠ .nil → ∀ close, G (.args close) false (.es as.withParens false) (printArgs as)
  | .nil, h, _ => absurd rfl h
  | .cons a .nil, _, close => by
    obtain ⟨_, ha⟩ := G.print a
    exact .args1 (.argExpr _ ha.par.term_expr)
  | .cons a (.cons a' as), _, close => by
    obtain ⟨_, ha⟩ := G.print a
    have := G.argsMore (close := close) false (.argExpr _ ha.par.term_expr) (G.printArgs (.cons a' as) (by simp) close)
    simpa [Grammar.printArgs, Args.withParens, onLine] using this
theorem G.printPairs : (ps : Pairs) → G .entries false (.es ps.withParens true) (printPairs ps)
  | .one k v => by
    obtain ⟨_, hk⟩ := G.print k
    obtain ⟨_, hv⟩ := G.print v
    have := G.ent1 (.entPair false (.argExpr _ hk.par.term_expr) rfl (.argExpr _ hv.par.term_expr))
    simpa [Grammar.printPairs, Pairs.withParens, onLine] using this
  | .more k v ps => by
    obtain ⟨_, hk⟩ := G.print k
    obtain ⟨_, hv⟩ := G.print v
    have := G.entMore false (.entPair false (.argExpr _ hk.par.term_expr) rfl (.argExpr _ hv.par.term_expr)) (G.printPairs ps)
    simpa [Grammar.printPairs, Pairs.withParens, onLine] using this
theorem G.printChain : (ops : Chain) → G .chain false (.ch ops.withParens) (printChain ops)
  | .one c r => by
    obtain ⟨_, hr⟩ := G.print r
    have := G.cmp1 false c (hr.par.term_lvl (k := 7) (by omega) (by omega))
    simpa [Grammar.printChain, Chain.withParens, onLine] using this
  | .more c r ops => by
    obtain ⟨_, hr⟩ := G.print r
    have := G.cmpMore false c (hr.par.term_lvl (k := 7) (by omega) (by omega)) (G.printChain ops)
    simpa [Grammar.printChain, Chain.withParens, onLine] using this
end

/-- C57: each tree, written with full parentheses, is parsed to that tree with the parentheses. -/
theorem C57_full_parens (t : Tree) : Parses (print t) t.withParens :=
  (C57_parse _ _).mpr (G.print t)

mutual
theorem withParens_inj : (t t' : Tree) → t.withParens = t'.withParens → t = t'
  | t, t' => by
    cases t <;> cases t' <;> simp only [Tree.withParens, par, reduceCtorEq, false_implies, E.lit.injEq, E.var.injEq, E.list.injEq, E.set.injEq, E.dict.injEq, E.slice.injEq, E.sliceStep.injEq, E.ite.injEq, E.call.injEq, E.index.injEq, E.field.injEq, E.unary.injEq, E.bin.injEq,
      E.compare.injEq, E.assign.injEq, E.comma.injEq, List.cons.injEq, and_true, and_false, false_and]
    case lit.lit => rintro rfl; rfl
    case var.var => rintro rfl; rfl
    case list.list as as' => intro h; rw [args_inj as as' h]
    case set.set as as' => intro h; rw [args_inj as as' h]
    case dict.dict ps ps' => intro h; rw [pairs_inj ps ps' h]
    case slice.slice a i j a' i' j' => rintro ⟨h1, h2, h3⟩; rw [withParens_inj a a' h1, withParens_inj i i' h2, withParens_inj j j' h3]
    case sliceStep.sliceStep a i j k a' i' j' k' => rintro ⟨h1, h2, h3, h4⟩; rw [withParens_inj a a' h1, withParens_inj i i' h2, withParens_inj j j' h3, withParens_inj k k' h4]
    case ite.ite c t f c' t' f' => rintro ⟨h1, h2, h3⟩; rw [withParens_inj c c' h1, withParens_inj t t' h2, withParens_inj f f' h3]
    case call.call f as f' as' => rintro ⟨h1, h2⟩; rw [withParens_inj f f' h1, args_inj as as' h2]
    case index.index a i a' i' => rintro ⟨h1, h2⟩; rw [withParens_inj a a' h1, withParens_inj i i' h2]
    case field.field a f a' f' => rintro ⟨h1, rfl⟩; rw [withParens_inj a a' h1]
    case unary.unary p e p' e' => rintro ⟨rfl, h1⟩; rw [withParens_inj e e' h1]
    case bin.bin op l r op' l' r' => rintro ⟨rfl, h1, h2⟩; rw [withParens_inj l l' h1, withParens_inj r r' h2]
    case compare.compare l ops l' ops' => rintro ⟨h1, h2⟩; rw [withParens_inj l l' h1, chain_inj ops ops' h2]
    case assign.assign a s r a' s' r' => rintro ⟨rfl, rfl, h1⟩; rw [withParens_inj r r' h1]
    case assignIndex.assignIndex op a i r op' a' i' r' => rintro ⟨rfl, ⟨h1, h2⟩, h3⟩; rw [withParens_inj a a' h1, withParens_inj i i' h2, withParens_inj r r' h3]
theorem args_inj : (as as' : Args) → as.withParens = as'.withParens → as = as'
  | .nil, .nil, _ => rfl
  | .nil, .cons _ _, h => by simp [Args.withParens] at h
  | .cons _ _, .nil, h => by simp [Args.withParens] at h
  | .cons a as, .cons a' as', h => by
    simp only [Args.withParens, par, List.cons.injEq, E.comma.injEq, and_true] at h
    rw [withParens_inj a a' h.1, args_inj as as' h.2]
theorem pairs_inj : (ps ps' : Pairs) → ps.withParens = ps'.withParens → ps = ps'
  | .one k v, .one k' v', h => by
    simp only [Pairs.withParens, par, List.cons.injEq, E.comma.injEq, and_true] at h
    rw [withParens_inj k k' h.1, withParens_inj v v' h.2]
  | .one k v, .more k' v' ps, h => by
    cases ps <;> simp [Pairs.withParens] at h
  | .more k v ps, .one k' v', h => by
    cases ps <;> simp [Pairs.withParens] at h
  | .more k v ps, .more k' v' ps', h => by
    simp only [Pairs.withParens, par, List.cons.injEq, E.comma.injEq, and_true] at h
    rw [withParens_inj k k' h.1, withParens_inj v v' h.2.1, pairs_inj ps ps' h.2.2]
theorem chain_inj : (c c' : Chain) → c.withParens = c'.withParens → c = c'
  | .one c r, .one c' r', h => by
    simp only [Chain.withParens, par, List.cons.injEq, E.comma.injEq, Prod.mk.injEq, and_true] at h
    rw [h.1, withParens_inj r r' h.2]
  | .one c r, .more c' r' .., h => by
    rename_i ops
    cases ops <;> simp [Chain.withParens] at h
  | .more c r .., .one c' r', h => by
    rename_i ops
    cases ops <;> simp [Chain.withParens] at h
  | .more c r ops, .more c' r' ops', h => by
    simp only [Chain.withParens, par, List.cons.injEq, E.comma.injEq, Prod.mk.injEq, and_true] at h
    rw [h.1.1, withParens_inj r r' h.1.2, chain_inj ops ops' h.2]
end

/-- C57: full parentheses determine the tree. -/
theorem C57_full_determines (t t' : Tree) (h : print t = print t') : t = t' := by
  obtain ⟨o, h1⟩ := G.print t
  obtain ⟨o', h2⟩ := G.print t'
  rw [h] at h1
  exact withParens_inj t t' (C57_unique h1 h2)

/-! ## Examples -/

/-- Parsing never needs more than a few steps per token here. -/
def run (ts : List Tok) : Option (E × List T) := pExpr 60 (onLine ts)

def va : E := .var "a"
def vb : E := .var "b"
def vc : E := .var "c"

-- `a + b * c`, `a * b + c`, `a - b - c`
example : run [.ident "a", .plus, .ident "b", .star, .ident "c"] = some (.bin .add va (.bin .mul vb vc), []) := rfl
example : run [.ident "a", .star, .ident "b", .plus, .ident "c"] = some (.bin .add (.bin .mul va vb) vc, []) := rfl
example : run [.ident "a", .minus, .ident "b", .minus, .ident "c"] = some (.bin .sub (.bin .sub va vb) vc, []) := rfl
-- `a < b == c and a` is a chain, then `and`
example : run [.ident "a", .cmp .lt, .ident "b", .cmp .eq, .ident "c", .kAnd, .ident "a"] = some (.bin .land (.compare va [(.lt, vb), (.eq, vc)]) va, []) := rfl
-- `a is not b`, `not a in b`
example : run [.ident "a", .kIs, .kNot, .ident "b"] = some (.bin .isNot va vb, []) := rfl
example : run [.kNot, .ident "a", .kIn, .ident "b"] = some (.bin .isIn (.unary .lnot va) vb, []) := rfl
-- `if a then b else c + a`: the branch extends to the right
example : run [.kIf, .ident "a", .kThen, .ident "b", .kElse, .ident "c", .plus, .ident "a"] = some (.ite va vb (.bin .add vc va), []) := rfl
-- `a = b += c`
example : run [.ident "a", .eq, .ident "b", .asg .add, .ident "c"] = some (.assign .eq va (.assign (.op .add) vb vc), []) := rfl
-- `(a +)`, `(+ a)`, `(-)`; `[a +]` is an error
example : run [.lparen, .ident "a", .plus, .rparen] = some (.comma [.secR (.inf .add) va] false, []) := rfl
example : run [.lparen, .plus, .ident "a", .rparen] = some (.comma [.secL (.inf .add) va] false, []) := rfl
example : run [.lparen, .minus, .rparen] = some (.comma [.opRefU .neg] false, []) := rfl
example : run [.lsq, .ident "a", .plus, .rsq] = none := rfl
-- slices: `a[b:c]`, `a[::b]`, `a[:]`; `a[]` is an error
example : run [.ident "a", .lsq, .ident "b", .word .colon, .ident "c", .rsq] = some (.slice va vb vc, []) := rfl
example : run [.ident "a", .lsq, .word .colon, .word .colon, .ident "b", .rsq] = some (.sliceStep va (.lit .nil) (.lit .nil) vb, []) := rfl
example : run [.ident "a", .lsq, .word .colon, .rsq] = some (.slice va (.lit .nil) (.lit .nil), []) := rfl
example : run [.ident "a", .lsq, .rsq] = none := rfl
-- `{}` and `{a, ...b}` are sets, `{...a, b: c}` is a dict, `{a, b: c}` and `{a: b, c}` are errors
example : run [.word .lbrace, .word .rbrace] = some (.set [], []) := rfl
example : run [.word .lbrace, .ident "a", .comma, .ellipsis, .ident "b", .word .rbrace] = some (.set [va, .unroll vb], []) := rfl
example : run [.word .lbrace, .ellipsis, .ident "a", .comma, .ident "b", .word .colon, .ident "c", .word .rbrace] = some (.dict [.unroll va, vb, vc], []) := rfl
example : run [.word .lbrace, .ident "a", .comma, .ident "b", .word .colon, .ident "c", .word .rbrace] = none := rfl
example : run [.word .lbrace, .ident "a", .word .colon, .ident "b", .comma, .ident "c", .word .rbrace] = none := rfl
-- the hypotheses of the theorems above hold for variables
example : Operand va [(false, .ident "a")] := ⟨.ofSuf (.ofTerm (.var _ _)), by simp [peek]⟩
example : Parses (onLine [.ident "a", .starstar, .ident "b", .starstar, .ident "c"]) (.bin .pow (.bin .pow va vb) vc) :=
  C57_two_operators (tx := [(false, .ident "a")]) (ty := [(false, .ident "b")]) (tz := [(false, .ident "c")]) (ta := [(false, .starstar)]) (tb := [(false, .starstar)])
    ⟨.ofSuf (.ofTerm (.var _ _)), by simp [peek]⟩ ⟨.ofSuf (.ofTerm (.var _ _)), by simp [peek]⟩ ⟨.ofSuf (.ofTerm (.var _ _)), by simp [peek]⟩ .pow .pow rfl rfl
example : print (.bin .mul (.bin .add (.var "a") (.var "b")) (.lit 2)) =
    onLine [.lparen, .lparen, .ident "a", .rparen, .plus, .lparen, .ident "b", .rparen, .rparen, .star, .lparen, .lit 2, .rparen] := rfl

end Cordy.Grammar
