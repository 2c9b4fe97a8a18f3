import Verif.Model.Stmt
/-!
# The rules of statements

The specification for C64: what statements do, without code or a stack. `env`: the variables in scope, oldest first; in the body of a `for` loop the iterator is a variable without a name, after those of the loop. A run that does not end is a run that needs more than any number of turns of its loops: `fuel` bounds the turns of every loop, and there is no result (`none`) if it is used up.
-/
namespace Cordy.Stmts
variable {Γ : Sig} {S R : Type}

/-- What a statement does: it ends, with the value of an expression statement; or it leaves to the end or the top of the loop around it; or the function returns; or there is an error. -/
inductive Res (Γ : Sig) (S R : Type) where
  | normal (env : List Γ.V) (val : Option Γ.V) (s : S)
  | brk (env : List Γ.V) (s : S)
  | cont (env : List Γ.V) (s : S)
  | ret (v : Γ.V) (s : S)
  | stop (r : R)

/-- The variables declared since there were `n` of them go out of scope. The value of a block is not used. -/
def Res.leave (n : Nat) : Res Γ S R → Res Γ S R
  | .normal env _ s => .normal (env.take n) none s
  | .brk env s => .brk (env.take n) s
  | .cont env s => .cont (env.take n) s
  | r => r

/-- Evaluate an expression, and go on. -/
def withVal {α : Type} (Λ : Lang Γ S R) (e : Γ.X) (env : List Γ.V) (s : S) (err : R → α) (k : Γ.V → List Γ.V → S → α) : α :=
  match Λ.eval e env s with
  | .ok (v, env, s) => k v env s
  | .error r => err r

def optVal {α : Type} (Λ : Lang Γ S R) (e : Option Γ.X) (env : List Γ.V) (s : S) (err : R → α) (k : Γ.V → List Γ.V → S → α) : α :=
  match e with
  | some e => withVal Λ e env s err k
  | none => k Λ.nil env s

/-- Assign to the variables from number `i` on. -/
def assign {α : Type} (Λ : Lang Γ S R) (l : LV Γ) (i : Nat) (v : Γ.V) (env : List Γ.V) (s : S) (err : R → α) (k : List Γ.V → S → α) : α :=
  match l with
  | .named => k (env.set i v) s
  | .empty => k env s
  | .terms _ p =>
    match Λ.destr p v env s with
    | .ok (env, s) => k env s
    | .error r => err r

/-- One turn of a loop: there is another one, or the loop is done. -/
inductive Turn (Γ : Sig) (S R : Type) where
  | again (env : List Γ.V) (s : S)
  | done (r : Res Γ S R)

/-- Turns, until the loop is done. -/
def loopN : Nat → (List Γ.V → S → Option (Turn Γ S R)) → List Γ.V → S → Option (Res Γ S R)
  | 0, _, _, _ => none
  | n + 1, turn, env, s =>
    match turn env s with
    | none => none
    | some (.done r) => some r
    | some (.again env s) => loopN n turn env s

/-- After the body: the next turn, unless it left the loop. -/
def afterBody : Res Γ S R → Turn Γ S R
  | .normal env _ s => .again env s
  | .cont env s => .again env s
  | .brk env s => .done (.normal env none s)
  | r => .done r

/-- After the `else` clause: the loop is done, unless it starts the loop again (with `back`, what the loop still needs). -/
def afterElse (back : List Γ.V) : Res Γ S R → Turn Γ S R
  | .normal env _ s => .done (.normal env none s)
  | .cont env s => .again (env ++ back) s
  | .brk env s => .done (.normal env none s)
  | r => .done r

/-- An error in a turn. -/
def failTurn (r : R) : Option (Turn Γ S R) := some (.done (.stop r))

/-- An error in a statement. -/
def fail (r : R) : Option (Res Γ S R) := some (.stop r)

/-- One turn of `while c { body } else { els }`. -/
def whileTurn (Λ : Lang Γ S R) (c : Γ.X) (body els : List Γ.V → S → Option (Res Γ S R)) (env : List Γ.V) (s : S) : Option (Turn Γ S R) :=
  withVal Λ c env s failTurn fun v env s => if Λ.truthy v s then (body env s).map afterBody else (els env s).map (afterElse [])

/-- One turn of `do { body } while c else { els }`; without a condition there is one turn only. `continue` goes to the top. -/
def doTurn (Λ : Lang Γ S R) (c : Option Γ.X) (body els : List Γ.V → S → Option (Res Γ S R)) (env : List Γ.V) (s : S) : Option (Turn Γ S R) :=
  match body env s with
  | some (.normal env _ s) =>
    match c with
    | some c => withVal Λ c env s failTurn fun v env s => if Λ.truthy v s then some (.again env s) else (els env s).map (afterElse [])
    | none => (els env s).map (afterElse [])
  | r => r.map afterBody

/-- One turn of a `for` loop: `n` variables outside, those of `l`, the iterator. -/
def forTurn (Λ : Lang Γ S R) (l : LV Γ) (n : Nat) (body els : List Γ.V → S → Option (Res Γ S R)) (env : List Γ.V) (s : S) : Option (Turn Γ S R) :=
  match env.getLast? with
  | none => none
  | some it =>
    match Λ.next it s with
    | some (it, v) => assign Λ l n v (env.dropLast ++ [it]) s failTurn fun env s => (body env s).map afterBody
    | none => (els (env.take n) s).map (afterElse (env.drop n))

/-- `assert`: what is tested, and the message of a failed comparison. -/
def testVal {α : Type} (Λ : Lang Γ S R) (t : Test Γ) (env : List Γ.V) (s : S) (err : R → α) (k : Bool → Γ.V → List Γ.V → S → α) : α :=
  match t with
  | .val e => withVal Λ e env s err fun v env s => k (Λ.truthy v s) Λ.nil env s
  | .cmp c l r false => withVal Λ l env s err fun lv env s => withVal Λ r env s err fun rv env s => k (Λ.cmp c lv rv s) (Λ.cmpMsg c lv rv s) env s
  | .cmp c l r true => withVal Λ r env s err fun rv env s => withVal Λ l env s err fun lv env s => k (Λ.cmp c lv rv s) (Λ.cmpMsg c lv rv s) env s

/-- A block is a scope. -/
def inScope (f : List Γ.V → S → Option (Res Γ S R)) (env : List Γ.V) (s : S) : Option (Res Γ S R) := (f env s).map (Res.leave env.length)

mutual
def runS (Λ : Lang Γ S R) (fuel : Nat) : Stmt Γ → List Γ.V → S → Option (Res Γ S R)
  | .expr e, env, s => withVal Λ e env s fail fun v env s => some (.normal env (some v) s)
  | .semi, env, s => some (.normal env none s)
  | .letIn l e, env, s =>
    withVal Λ e env s fail fun v env s =>
      match l with
      | .named => some (.normal (env ++ [v]) none s)
      | l => assign Λ l env.length v (env ++ List.replicate l.vars Λ.nil) s fail fun env s => some (.normal env none s)
  | .decl n, env, s => some (.normal (env ++ List.replicate n Λ.nil) none s)
  | .ite c t els, env, s =>
    withVal Λ c env s fail fun v env s => if Λ.truthy v s then inScope (runB Λ fuel t) env s else runElse Λ fuel els env s
  | .while c body els, env, s => loopN fuel (whileTurn Λ c (inScope (runB Λ fuel body)) (inScope (runB Λ fuel els))) env s
  | .doW body c els, env, s => loopN fuel (doTurn Λ c (inScope (runB Λ fuel body)) (inScope (runB Λ fuel els))) env s
  | .loop body, env, s => loopN fuel (fun env s => (inScope (runB Λ fuel body) env s).map afterBody) env s
  | .for l e body els, env, s =>
    withVal Λ e env s fail fun v env' s =>
      match Λ.iter v (env' ++ List.replicate l.vars Λ.nil) s with
      | .ok (it, s) =>
        (loopN fuel (forTurn Λ l env.length (inScope (runB Λ fuel body)) (inScope (runB Λ fuel els))) (env' ++ List.replicate l.vars Λ.nil ++ [it]) s).map (Res.leave env.length)
      | .error r => fail r
  | .brk, env, s => some (.brk env s)
  | .cont, env, s => some (.cont env s)
  | .ret e, env, s => optVal Λ e env s fail fun v _ s => some (.ret v s)
  | .assert t msg, env, s =>
    testVal Λ t env s fail fun ok m env s => if ok then some (.normal env none s) else optVal Λ msg env s fail fun v env s => some (.stop (Λ.failed v m env s))
/-- Statements one after the other; the value is that of the last one. -/
def runB (Λ : Lang Γ S R) (fuel : Nat) : Block Γ → List Γ.V → S → Option (Res Γ S R)
  | .nil, env, s => some (.normal env none s)
  | .cons st .nil, env, s => runS Λ fuel st env s
  | .cons st (.cons st' b), env, s =>
    match runS Λ fuel st env s with
    | some (.normal env _ s) => runB Λ fuel (.cons st' b) env s
    | r => r
def runElse (Λ : Lang Γ S R) (fuel : Nat) : Else Γ → List Γ.V → S → Option (Res Γ S R)
  | .none, env, s => some (.normal env none s)
  | .els b, env, s => inScope (runB Λ fuel b) env s
  | .elif c t els, env, s =>
    withVal Λ c env s fail fun v env s => if Λ.truthy v s then inScope (runB Λ fuel t) env s else runElse Λ fuel els env s
  -- the value of `elif c then a else b` is not used
  | .elifThen e, env, s => withVal Λ e env s fail fun _ env s => some (.normal env none s)
end

/-! ## Programs that do what they should -/

def Stmt.isExpr : Stmt Γ → Bool
  | .expr _ => true
  | _ => false

mutual
/-- Programs for which C64 holds. `lp`: in a loop (`break` can be used), where `continue` can be used; `after`: directly after an expression statement. Excluded are `break` and `continue` outside of loops, which do not compile; `continue` in the `else` clause of a `for` loop; `do` directly after an expression statement, without a `;`; and `elif c then a else b`. -/
def Stmt.ok (lp : Option Bool) (after : Bool) : Stmt Γ → Prop
  | .ite _ t els => t.ok lp false ∧ els.ok lp
  | .while _ body els => body.ok (some true) false ∧ els.ok (some true) false
  | .doW body _ els => after = false ∧ body.ok (some true) false ∧ els.ok (some true) false
  | .loop body => body.ok (some true) false
  | .for _ _ body els => body.ok (some true) false ∧ els.ok (some false) false
  | .brk => lp ≠ none
  | .cont => lp = some true
  | _ => True
def Block.ok (lp : Option Bool) (after : Bool) : Block Γ → Prop
  | .nil => True
  | .cons s b => s.ok lp after ∧ b.ok lp s.isExpr
def Else.ok (lp : Option Bool) : Else Γ → Prop
  | .none => True
  | .els b => b.ok lp false
  | .elif _ t els => t.ok lp false ∧ els.ok lp
  | .elifThen _ => False
end

def Test.each (G : Γ.X → Prop) : Test Γ → Prop
  | .val e => G e
  | .cmp _ l r _ => G l ∧ G r

mutual
/-- All expressions in it are such that `G`. -/
def Stmt.each (G : Γ.X → Prop) : Stmt Γ → Prop
  | .expr e | .letIn _ e => G e
  | .ite c t els => G c ∧ t.each G ∧ els.each G
  | .while c body els => G c ∧ body.each G ∧ els.each G
  | .doW body c els => (∀ e, c = some e → G e) ∧ body.each G ∧ els.each G
  | .loop body => body.each G
  | .for _ e body els => G e ∧ body.each G ∧ els.each G
  | .ret e => ∀ x, e = some x → G x
  | .assert t msg => t.each G ∧ ∀ x, msg = some x → G x
  | .semi | .decl _ | .brk | .cont => True
def Block.each (G : Γ.X → Prop) : Block Γ → Prop
  | .nil => True
  | .cons s b => s.each G ∧ b.each G
def Else.each (G : Γ.X → Prop) : Else Γ → Prop
  | .none => True
  | .els b => b.each G
  | .elif c t els => G c ∧ t.each G ∧ els.each G
  | .elifThen e => G e
end

/-- A call of a function: the value that is returned, or that of the last statement. -/
def callBody (Λ : Lang Γ S R) (fuel : Nat) (body : Block Γ) (args : List Γ.V) (s : S) : Option (Except R (Γ.V × S)) :=
  match runB Λ fuel body args s with
  | some (.normal _ v s) => some (.ok (v.getD Λ.nil, s))
  | some (.ret v s) => some (.ok (v, s))
  | some (.stop r) => some (.error r)
  | _ => none

end Cordy.Stmts
