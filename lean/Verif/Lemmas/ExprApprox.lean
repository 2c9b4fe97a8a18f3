import Verif.Spec.Eval
/-! Expressions when calls and indexing have more results: what ends without the marker of the missing ones ends the same (C76). -/
namespace Cordy.Codegen
variable {Γ : Sig} {E S α β : Type} {d : E}

/-- The same, or `o` is the marker. -/
def Ap (d : E) (o o' : Out E S α) : Prop := o = o' ∨ ∃ s, o = .stop (.err d) s

theorem Ap.refl (o : Out E S α) : Ap d o o := .inl rfl

theorem Ap.bind {o o' : Out E S α} (h : Ap d o o') {f f' : α → S → Out E S β} (hf : ∀ a s, Ap d (f a s) (f' a s)) : Ap d (o.bind f) (o'.bind f') := by
  rcases h with rfl | ⟨s, rfl⟩
  · cases o with
    | ok a s => exact hf a s
    | stop r s => exact .inl rfl
  · exact .inr ⟨s, rfl⟩

theorem Ap.bind_l {o o' : Out E S α} (h : Ap d o o') (f : α → S → Out E S β) : Ap d (o.bind f) (o'.bind f) := h.bind fun _ _ => .refl _


/-- The operations, with other calls and indexing. -/
abbrev Prims.withCalls (Q : Prims Γ E S) (c : Γ.V → List Γ.V → S → Out E S Γ.V) (i : Γ.V → Γ.V → S → Out E S Γ.V) : Prims Γ E S := { Q with call := c, index := i }

section
variable {Q : Prims Γ E S} {c c' : Γ.V → List Γ.V → S → Out E S Γ.V} {i i' : Γ.V → Γ.V → S → Out E S Γ.V}


theorem captureAll_same : ∀ (qs : List Γ.Q) v s, captureAll (Q.withCalls c i) qs v s = captureAll (Q.withCalls c' i') qs v s
  | [], _, _ => rfl
  | q :: qs, v, s => by
    simp only [captureAll]
    congr 1
    funext v s
    exact captureAll_same qs v s

theorem evalLVal_same (x : LVal Γ) (s : S) : evalLVal (Q.withCalls c i) x s = evalLVal (Q.withCalls c' i') x s := by cases x <;> rfl

mutual
theorem evalW_ap (hc : ∀ f args s, Ap d (c f args s) (c' f args s)) (hi : ∀ a j s, Ap d (i a j s) (i' a j s)) : ∀ (e : Expr Γ) s, Ap d (evalW (Q.withCalls c i) (fcDoc (Q.withCalls c i)) e s) (evalW (Q.withCalls c' i') (fcDoc (Q.withCalls c' i')) e s)
  | .const v, s => by simp only [evalW]; exact .refl _
  | .exit, s => by simp only [evalW]; exact .refl _
  | .error f, s => by simp only [evalW]; exact .refl _
  | .function v caps, s => by
    simp only [evalW]
    split
    · exact .refl _
    · exact (Ap.refl _).bind fun v s => .inl (captureAll_same _ _ _)
  | .call f args, s => by
    simp only [evalW]
    exact (evalW_ap hc hi f s).bind fun _ s => (evalArgsW_ap hc hi _ args s).bind fun _ s => hc _ _ _
  | .compose x f, s => by
    simp only [evalW]
    exact (evalW_ap hc hi x s).bind fun _ s => (evalW_ap hc hi f s).bind fun _ s => hc _ _ _
  | .load x, s => by simp only [evalW]; exact .inl (evalLVal_same x s)
  | .unary op a, s => by simp only [evalW]; exact (evalW_ap hc hi a s).bind_l _
  | .binary op l r swap, s => by
    simp only [evalW]
    split
    · exact (evalW_ap hc hi r s).bind fun _ s => (evalW_ap hc hi l s).bind_l _
    · exact (evalW_ap hc hi l s).bind fun _ s => (evalW_ap hc hi r s).bind_l _
  | .compare l ch, s => by simp only [evalW]; exact (evalW_ap hc hi l s).bind fun _ s => evalChainW_ap hc hi ch _ s
  | .literal ty args, s => by simp only [evalW]; exact (evalArgsW_ap hc hi _ args s).bind_l _
  | .sliceLit a b, s => by simp only [evalW]; exact (evalW_ap hc hi a s).bind fun _ s => (evalW_ap hc hi b s).bind_l _
  | .sliceLit3 a b e, s => by
    simp only [evalW]
    exact (evalW_ap hc hi a s).bind fun _ s => (evalW_ap hc hi b s).bind fun _ s => (evalW_ap hc hi e s).bind_l _
  | .and a b, s => by
    simp only [evalW]
    refine (evalW_ap hc hi a s).bind fun v s => ?_
    split
    · exact evalW_ap hc hi b s
    · exact .refl _
  | .or a b, s => by
    simp only [evalW]
    refine (evalW_ap hc hi a s).bind fun v s => ?_
    split
    · exact .refl _
    · exact evalW_ap hc hi b s
  | .index a j, s => by simp only [evalW]; exact (evalW_ap hc hi a s).bind fun _ s => (evalW_ap hc hi j s).bind fun _ s => hi _ _ _
  | .slice a b e, s => by
    simp only [evalW]
    exact (evalW_ap hc hi a s).bind fun _ s => (evalW_ap hc hi b s).bind fun _ s => (evalW_ap hc hi e s).bind_l _
  | .sliceStep a b e f, s => by
    simp only [evalW]
    exact (evalW_ap hc hi a s).bind fun _ s => (evalW_ap hc hi b s).bind fun _ s => (evalW_ap hc hi e s).bind fun _ s => (evalW_ap hc hi f s).bind_l _
  | .ite a t e, s => by
    simp only [evalW]
    refine (evalW_ap hc hi a s).bind fun v s => ?_
    split
    · exact evalW_ap hc hi t s
    · exact evalW_ap hc hi e s
  | .getField a fi, s => by simp only [evalW]; exact (evalW_ap hc hi a s).bind_l _
  | .setField a fi r, s => by simp only [evalW]; exact (evalW_ap hc hi a s).bind fun _ s => (evalW_ap hc hi r s).bind_l _
  | .swapField a fi op r, s => by
    simp only [evalW]
    refine (evalW_ap hc hi a s).bind fun _ s => (Ap.refl _).bind fun _ s => (evalW_ap hc hi r s).bind fun _ s => Ap.bind_l ?_ _
    cases op with
    | some op => exact .refl _
    | none => exact hc _ _ _
  | .assign x r, s => by
    cases x with
    | var x => simp only [evalW]; exact (evalW_ap hc hi r s).bind_l _
    | thisField x fi => simp only [evalW]; exact (Ap.refl _).bind fun _ s => (evalW_ap hc hi r s).bind_l _
    | thisMethod x m => simp only [evalW]; exact evalW_ap hc hi r s
  | .pattern ts p r, s => by simp only [evalW]; exact (evalExprsW_ap hc hi ts s).bind fun _ s => (evalW_ap hc hi r s).bind_l _
  | .arraySet a j r, s => by
    simp only [evalW]
    exact (evalW_ap hc hi a s).bind fun _ s => (evalW_ap hc hi j s).bind fun _ s => (evalW_ap hc hi r s).bind_l _
  | .arrayOp a j op r, s => by
    simp only [evalW]
    refine (evalW_ap hc hi a s).bind fun _ s => (evalW_ap hc hi j s).bind fun _ s => (hi _ _ _).bind fun _ s => (evalW_ap hc hi r s).bind fun _ s => Ap.bind_l ?_ _
    cases op with
    | some op => exact .refl _
    | none => exact hc _ _ _
theorem evalArgsW_ap (hc : ∀ f args s, Ap d (c f args s) (c' f args s)) (hi : ∀ a j s, Ap d (i a j s) (i' a j s)) (spread : Γ.V → S → Out E S (List Γ.V)) :
    ∀ (as : Args Γ) s, Ap d (evalArgsW (Q.withCalls c i) (fcDoc (Q.withCalls c i)) spread as s) (evalArgsW (Q.withCalls c' i') (fcDoc (Q.withCalls c' i')) spread as s)
  | .nil, s => by simp only [evalArgsW]; exact .refl _
  | .plain e rest, s => by simp only [evalArgsW]; exact (evalW_ap hc hi e s).bind fun _ s => (evalArgsW_ap hc hi spread rest s).bind_l _
  | .unroll e rest, s => by
    simp only [evalArgsW]
    exact (evalW_ap hc hi e s).bind fun _ s => (Ap.refl _).bind fun _ s => (evalArgsW_ap hc hi spread rest s).bind_l _
theorem evalChainW_ap (hc : ∀ f args s, Ap d (c f args s) (c' f args s)) (hi : ∀ a j s, Ap d (i a j s) (i' a j s)) :
    ∀ (ch : Chain Γ) l s, Ap d (evalChainW (Q.withCalls c i) (fcDoc (Q.withCalls c i)) ch l s) (evalChainW (Q.withCalls c' i') (fcDoc (Q.withCalls c' i')) ch l s)
  | .last op e, l, s => by simp only [evalChainW]; exact (evalW_ap hc hi e s).bind_l _
  | .more op e rest, l, s => by
    simp only [evalChainW]
    refine (evalW_ap hc hi e s).bind fun v s => ?_
    split
    · exact evalChainW_ap hc hi rest _ s
    · exact .refl _
theorem evalExprsW_ap (hc : ∀ f args s, Ap d (c f args s) (c' f args s)) (hi : ∀ a j s, Ap d (i a j s) (i' a j s)) :
    ∀ (es : Exprs Γ) s, Ap d (evalExprsW (Q.withCalls c i) (fcDoc (Q.withCalls c i)) es s) (evalExprsW (Q.withCalls c' i') (fcDoc (Q.withCalls c' i')) es s)
  | .nil, s => by simp only [evalExprsW]; exact .refl _
  | .cons e rest, s => by simp only [evalExprsW]; exact (evalW_ap hc hi e s).bind fun _ s => (evalExprsW_ap hc hi rest s).bind_l _
end
end

end Cordy.Codegen
