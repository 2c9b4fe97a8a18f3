import Verif.Lemmas.ExprOpt
/-! When two expressions may be evaluated in the other order. -/
namespace Cordy.Codegen
variable {Γ : Sig} {E S : Type} {c : Consts Γ} {P : Prims Γ E S}

/-- Gives the same immutable value, without effect, in all states that evaluation can lead to; or never gives a value. -/
def Steady (L : Laws c P) (f : S → Out E S Γ.V) (s : S) : Prop :=
  (∃ v, L.Imm v ∧ ∀ s', After P s s' → f s' = .ok v s') ∨ ∀ s', After P s s' → ∃ r t, f s' = .stop r t
def SteadyArgs (L : Laws c P) (f : S → Out E S (List Γ.V)) (s : S) : Prop :=
  (∃ vs, (∀ v ∈ vs, L.Imm v) ∧ ∀ s', After P s s' → f s' = .ok vs s') ∨ ∀ s', After P s s' → ∃ r t, f s' = .stop r t

theorem Steady.of_fixed (L : Laws c P) {f : S → Out E S Γ.V} (h : Fixed L.Imm f) (s : S) : Steady L f s := by
  rcases h with ⟨v, hv, h⟩ | h
  · exact .inl ⟨v, hv, fun s' _ => h s'⟩
  · exact .inr fun s' _ => h s'

theorem Steady.bind (L : Laws c P) {f : S → Out E S Γ.V} {k : Γ.V → S → Out E S Γ.V} {s : S} (h : Steady L f s) (hk : ∀ v, L.Imm v → Steady L (k v) s) :
    Steady L (fun s => (f s).bind k) s := by
  rcases h with ⟨v, hv, h⟩ | h
  · rcases hk v hv with ⟨w, hw, h'⟩ | h'
    · exact .inl ⟨w, hw, fun s' ha => by simp only [h s' ha, Out.ok_bind, h' s' ha]⟩
    · exact .inr fun s' ha => by simpa only [h s' ha, Out.ok_bind] using h' s' ha
  · refine .inr fun s' ha => ?_
    obtain ⟨r, t, hh⟩ := h s' ha
    exact ⟨r, t, by simp only [hh]; rfl⟩

theorem Steady.ite (L : Laws c P) {v : Γ.V} (hv : L.Imm v) {f g : S → Out E S Γ.V} {s : S} (hf : Steady L f s) (hg : Steady L g s) :
    Steady L (fun s => if P.truthy v s then f s else g s) s := by
  by_cases ht : P.truthy v s = true
  · have : ∀ s', P.truthy v s' = true := fun s' => by rw [L.imm_truthy v s' s hv]; exact ht
    simpa only [this, if_true] using hf
  · have : ∀ s', P.truthy v s' = false := fun s' => by rw [L.imm_truthy v s' s hv]; simpa using ht
    simpa only [this, Bool.false_eq_true, if_false] using hg

theorem Steady.ok (L : Laws c P) {v : Γ.V} (hv : L.Imm v) (s : S) : Steady L (fun s => .ok v s) s := .inl ⟨v, hv, fun _ _ => rfl⟩

theorem ReadOnly.bind {f : S → Out E S Γ.V} {k : Γ.V → S → Out E S Γ.V} (h : ReadOnly f) (hk : ∀ v, ReadOnly (k v)) : ReadOnly (Γ := Γ) fun s => (f s).bind k := by
  intro s
  rcases h s with ⟨v, hv⟩ | ⟨r, t, hv⟩
  · rcases hk v s with ⟨w, hw⟩ | ⟨r, t, hw⟩
    · exact .inl ⟨w, by simp only [hv, Out.ok_bind, hw]⟩
    · exact .inr ⟨r, t, by simp only [hv, Out.ok_bind, hw]⟩
  · exact .inr ⟨r, t, by simp only [hv]; rfl⟩
theorem ReadOnly.ok (v : Γ.V) : ReadOnly (Γ := Γ) (E := E) fun (s : S) => .ok v s := fun _ => .inl ⟨v, rfl⟩
theorem ReadOnly.ite (v : Γ.V) {f g : S → Out E S Γ.V} (hf : ReadOnly (Γ := Γ) f) (hg : ReadOnly (Γ := Γ) g) :
    ReadOnly (Γ := Γ) fun s => if P.truthy v s then f s else g s := by
  intro s
  by_cases ht : P.truthy v s = true
  · simpa only [ht, if_true] using hf s
  · simpa only [ht, Bool.false_eq_true, if_false] using hg s

variable (L : Laws c P)
include L

theorem partial_readOnly (v : Γ.V) (vs : List Γ.V) (h : vs.length < c.minNargs v) : ReadOnly (P.call v vs) := by
  obtain ⟨p, hp⟩ := L.partial_call v vs h
  exact fun s => .inl ⟨p, (hp s).1⟩

theorem isPartial_const {f : Expr Γ} {n : Nat} (h : isPartial c f n = true) : ∃ v, f = .const v ∧ n < c.minNargs v := by
  cases f <;> simp_all [isPartial]

mutual
theorem strong_steady : ∀ (e : Expr Γ), 2 ≤ purity c false e → ∀ s, Steady L (fun s => eval P e s) s
  | .const v, h, s => by
    simp only [purity] at h
    have := Steady.ok L (L.imm_const v h) s
    simpa only [eval, evalW] using this
  | .exit, _, s => .inr fun s' _ => ⟨_, _, by simp only [eval, evalW]; rfl⟩
  | .function v caps, _, s => .inl (L.function v caps s)
  | .unary op a, h, s => by
    simp only [purity] at h
    have := (strong_steady a h s).bind L (k := fun v s => P.unary op v s) fun v hv => .of_fixed L (L.imm_unary op v hv) s
    simpa only [eval, evalW] using this
  | .binary op l r swap, h, s => by
    simp only [purity] at h
    have hl := strong_steady l (by omega) s
    have hr := strong_steady r (by omega) s
    cases swap
    · have := hl.bind L (k := fun lv s => (eval P r s).bind fun rv s => P.binary op lv rv s) fun lv hlv =>
        hr.bind L fun rv hrv => .of_fixed L (L.imm_binary op lv rv hlv hrv) s
      simpa only [eval, evalW, Bool.false_eq_true, if_false] using this
    · have := hr.bind L (k := fun rv s => (eval P l s).bind fun lv s => P.binary op lv rv s) fun rv hrv =>
        hl.bind L fun lv hlv => .of_fixed L (L.imm_binary op lv rv hlv hrv) s
      simpa only [eval, evalW, if_true] using this
  | .or l r, h, s => by
    simp only [purity] at h
    have := (strong_steady l (by omega) s).bind L (k := fun v s => if P.truthy v s then .ok v s else eval P r s)
      fun v hv => .ite L hv (.ok L hv s) (strong_steady r (by omega) s)
    simpa only [eval, evalW] using this
  | .and l r, h, s => by
    simp only [purity] at h
    have := (strong_steady l (by omega) s).bind L (k := fun v s => if P.truthy v s then eval P r s else .ok v s)
      fun v hv => .ite L hv (strong_steady r (by omega) s) (.ok L hv s)
    simpa only [eval, evalW] using this
  | .ite a t e, h, s => by
    simp only [purity] at h
    have := (strong_steady a (by omega) s).bind L (k := fun v s => if P.truthy v s then eval P t s else eval P e s)
      fun v hv => .ite L hv (strong_steady t (by omega) s) (strong_steady e (by omega) s)
    simpa only [eval, evalW] using this
  | .call f args, h, s => by
    simp only [purity] at h
    split at h
    · omega
    · rename_i hu
      split at h
      · rename_i hp
        obtain ⟨v, rfl, hn⟩ := isPartial_const L hp
        simp only [purity] at h
        have hv : L.Imm v := L.imm_const v (by omega)
        rcases strong_args P.iter args (by omega) (by simpa using hu) s with ⟨vs, hvs, ha⟩ | ha
        · have hl := evalArgs_length P.iter args s vs s (by simpa using hu) (ha s .refl)
          obtain ⟨p, hp, hc⟩ := L.imm_partial v vs hv hvs (by omega)
          exact .inl ⟨p, hp, fun s' h' => by simp only [eval, evalW, Out.ok_bind, ha s' h', hc]⟩
        · refine .inr fun s' h' => ?_
          obtain ⟨r, t, hh⟩ := ha s' h'
          exact ⟨r, t, by simp only [eval, evalW, Out.ok_bind, hh]; rfl⟩
      · omega
  | .compose a f, h, s => by
    simp only [purity] at h
    split at h
    · rename_i hp
      obtain ⟨v, rfl, hn⟩ := isPartial_const L hp
      simp only [purity] at h
      have hv : L.Imm v := L.imm_const v (by omega)
      have := (strong_steady a (by omega) s).bind L (k := fun xv s => P.call v [xv] s) fun xv hx => by
        obtain ⟨p, hp, hc⟩ := L.imm_partial v [xv] hv (by simpa using hx) (by simpa using hn)
        exact .inl ⟨p, hp, fun s' _ => hc s'⟩
      simpa only [eval, evalW, Out.ok_bind] using this
    · omega
  | .literal ty args, h, s => by
    simp only [purity, Bool.false_eq_true, if_false] at h
    split at h <;> omega
  | .error _, h, s | .load _, h, s | .compare _ _, h, s | .sliceLit _ _, h, s | .sliceLit3 _ _ _, h, s | .index _ _, h, s | .slice _ _ _, h, s
  | .sliceStep _ _ _ _, h, s | .getField _ _, h, s | .setField _ _ _, h, s | .swapField _ _ _ _, h, s | .assign _ _, h, s | .pattern _ _ _, h, s
  | .arraySet _ _ _, h, s | .arrayOp _ _ _ _, h, s => by simp only [purity] at h; omega
theorem strong_args (sp : Γ.V → S → Out E S (List Γ.V)) : ∀ (a : Args Γ), 2 ≤ purityArgs c false a → a.anyUnroll = false → ∀ s, SteadyArgs L (evalArgsW P (fcDoc P) sp a) s
  | .nil, _, _, s => .inl ⟨[], by simp, fun s' _ => by simp only [evalArgsW]⟩
  | .plain e r, h, hu, s => by
    simp only [purityArgs] at h
    rcases strong_steady e (by omega) s with ⟨v, hv, h1⟩ | h1
    · rcases strong_args sp r (by omega) (by simpa [Args.anyUnroll] using hu) s with ⟨vs, hvs, h2⟩ | h2
      · refine .inl ⟨v :: vs, ?_, fun s' ha => ?_⟩
        · intro w hw
          rcases List.mem_cons.1 hw with rfl | hw
          · exact hv
          · exact hvs w hw
        · have h1 := h1 s' ha
          simp only [eval] at h1
          simp only [evalArgsW, h1, Out.ok_bind, h2 s' ha]
      · refine .inr fun s' ha => ?_
        obtain ⟨x, t, hh⟩ := h2 s' ha
        have h1 := h1 s' ha
        simp only [eval] at h1
        exact ⟨x, t, by simp only [evalArgsW, h1, Out.ok_bind, hh]; rfl⟩
    · refine .inr fun s' ha => ?_
      obtain ⟨x, t, hh⟩ := h1 s' ha
      simp only [eval] at hh
      exact ⟨x, t, by simp only [evalArgsW, hh]; rfl⟩
  | .unroll _ _, _, hu, _ => by simp [Args.anyUnroll] at hu
end

/-- Lists of values are evaluated without effect. -/
def ReadOnlyArgs (f : S → Out E S (List Γ.V)) : Prop := ∀ s, (∃ v, f s = .ok v s) ∨ ∃ r t, f s = .stop r t

mutual
theorem weak_readOnly : ∀ (e : Expr Γ), 1 ≤ purity c false e → ReadOnly (Γ := Γ) (fun s => eval P e s)
  | .const v, h => by simpa only [eval, evalW] using ReadOnly.ok (E := E) (S := S) v
  | .exit, _ => fun s => .inr ⟨.exit, s, by simp only [eval, evalW]⟩
  | .function v caps, _ => fun s => by
    obtain ⟨w, _, h⟩ := L.function v caps s
    exact .inl ⟨w, h s .refl⟩
  | .load x, _ => by
    cases x with
    | var x => simpa only [eval, evalW, evalLVal] using L.load x
    | thisField x fi => simpa only [eval, evalW, evalLVal] using (L.load x).bind fun v => L.getField v fi
    | thisMethod x m => simpa only [eval, evalW, evalLVal] using (L.load x).bind fun v => L.bindMethod v m
  | .unary op a, h => by
    simp only [purity] at h
    simpa only [eval, evalW] using (weak_readOnly a h).bind fun v => L.unary op v
  | .binary op l r swap, h => by
    simp only [purity] at h
    have hl := weak_readOnly l (by omega)
    have hr := weak_readOnly r (by omega)
    cases swap
    · have := hl.bind (k := fun lv s => (eval P r s).bind fun rv s => P.binary op lv rv s) fun lv => hr.bind fun rv => L.binary op lv rv
      simpa only [eval, evalW, Bool.false_eq_true, if_false] using this
    · have := hr.bind (k := fun rv s => (eval P l s).bind fun lv s => P.binary op lv rv s) fun rv => hl.bind fun lv => L.binary op lv rv
      simpa only [eval, evalW, if_true] using this
  | .or l r, h => by
    simp only [purity] at h
    have := (weak_readOnly l (by omega)).bind (k := fun v s => if P.truthy v s then .ok v s else eval P r s) fun v => .ite v (.ok v) (weak_readOnly r (by omega))
    simpa only [eval, evalW] using this
  | .and l r, h => by
    simp only [purity] at h
    have := (weak_readOnly l (by omega)).bind (k := fun v s => if P.truthy v s then eval P r s else .ok v s) fun v => .ite v (weak_readOnly r (by omega)) (.ok v)
    simpa only [eval, evalW] using this
  | .ite a t e, h => by
    simp only [purity] at h
    have := (weak_readOnly a (by omega)).bind (k := fun v s => if P.truthy v s then eval P t s else eval P e s)
      fun v => .ite v (weak_readOnly t (by omega)) (weak_readOnly e (by omega))
    simpa only [eval, evalW] using this
  | .call f args, h => by
    simp only [purity] at h
    split at h
    · omega
    · rename_i hu
      split at h
      · rename_i hp
        obtain ⟨v, rfl, hn⟩ := isPartial_const L hp
        intro s
        rcases weak_args P.iter args (by omega) (by simpa using hu) s with ⟨vs, ha⟩ | ⟨r, t, ha⟩
        · have hl := evalArgs_length P.iter args s vs s (by simpa using hu) ha
          obtain ⟨p, hp⟩ := L.partial_call v vs (by omega)
          exact .inl ⟨p, by simp only [eval, evalW, Out.ok_bind, ha, (hp _).1]⟩
        · exact .inr ⟨r, t, by simp only [eval, evalW, Out.ok_bind, ha]; rfl⟩
      · omega
  | .compose a f, h => by
    simp only [purity] at h
    split at h
    · rename_i hp
      obtain ⟨v, rfl, hn⟩ := isPartial_const L hp
      have := (weak_readOnly a (by omega)).bind (k := fun xv s => P.call v [xv] s) fun xv => partial_readOnly L v [xv] (by simpa using hn)
      simpa only [eval, evalW, Out.ok_bind] using this
    · omega
  | .literal ty args, h => by
    simp only [purity, Bool.false_eq_true, if_false] at h
    split at h
    · omega
    · rename_i hu
      intro s
      rcases weak_args (P.spread ty) args (by omega) (by simpa using hu) s with ⟨vs, ha⟩ | ⟨r, t, ha⟩
      · rcases L.mkLit ty vs s with ⟨v, hv⟩ | ⟨r, t, hv⟩
        · exact .inl ⟨v, by simp only [eval, evalW, ha, Out.ok_bind, hv]⟩
        · exact .inr ⟨r, t, by simp only [eval, evalW, ha, Out.ok_bind, hv]⟩
      · exact .inr ⟨r, t, by simp only [eval, evalW, ha]; rfl⟩
  | .error _, h | .compare _ _, h | .sliceLit _ _, h | .sliceLit3 _ _ _, h | .index _ _, h | .slice _ _ _, h
  | .sliceStep _ _ _ _, h | .getField _ _, h | .setField _ _ _, h | .swapField _ _ _ _, h | .assign _ _, h | .pattern _ _ _, h
  | .arraySet _ _ _, h | .arrayOp _ _ _ _, h => by simp only [purity] at h; omega
theorem weak_args (sp : Γ.V → S → Out E S (List Γ.V)) : ∀ (a : Args Γ), 1 ≤ purityArgs c false a → a.anyUnroll = false → ReadOnlyArgs (evalArgsW P (fcDoc P) sp a)
  | .nil, _, _ => fun s => .inl ⟨[], by simp only [evalArgsW]⟩
  | .plain e r, h, hu => by
    simp only [purityArgs] at h
    intro s
    rcases weak_readOnly e (by omega) s with ⟨v, h1⟩ | ⟨x, t, h1⟩
    · simp only [eval] at h1
      rcases weak_args sp r (by omega) (by simpa [Args.anyUnroll] using hu) s with ⟨vs, h2⟩ | ⟨x, t, h2⟩
      · exact .inl ⟨v :: vs, by simp only [evalArgsW, h1, Out.ok_bind, h2]⟩
      · exact .inr ⟨x, t, by simp only [evalArgsW, h1, Out.ok_bind, h2]; rfl⟩
    · simp only [eval] at h1
      exact .inr ⟨x, t, by simp only [evalArgsW, h1]; rfl⟩
  | .unroll _ _, _, hu => by simp [Args.anyUnroll] at hu
end

theorem reorder_steady (a b : Expr Γ) (s : S) (h0 : Steady L (fun s => eval P a s) s) (K : Γ.V → Γ.V → S → Out E S Γ.V) :
    Same ((eval P a s).bind fun va s => (eval P b s).bind fun vb s => K va vb s) ((eval P b s).bind fun vb s => (eval P a s).bind fun va s => K va vb s) := by
  have h : (∃ v, L.Imm v ∧ ∀ s', After P s s' → eval P a s' = .ok v s') ∨ ∀ s', After P s s' → ∃ r t, eval P a s' = .stop r t := h0
  rcases h with ⟨v, _, h⟩ | h
  · rw [h s .refl, Out.ok_bind]
    cases hb : eval P b s with
    | stop r t => exact Same.rfl' _
    | ok w s' => rw [Out.ok_bind, Out.ok_bind, h s' (.eval hb), Out.ok_bind]; exact Same.rfl' _
  · obtain ⟨r, t, hh⟩ := h s .refl
    rw [hh]
    cases hb : eval P b s with
    | stop r t => exact trivial
    | ok w s' =>
      obtain ⟨r', t', hh'⟩ := h s' (.eval hb)
      rw [Out.ok_bind, hh']; exact trivial

theorem reorder_readOnly (a b : Expr Γ) (s : S) (ha : ReadOnly (Γ := Γ) fun s => eval P a s) (hb : ReadOnly (Γ := Γ) fun s => eval P b s) (K : Γ.V → Γ.V → S → Out E S Γ.V) :
    Same ((eval P a s).bind fun va s => (eval P b s).bind fun vb s => K va vb s) ((eval P b s).bind fun vb s => (eval P a s).bind fun va s => K va vb s) := by
  rcases ha s with ⟨v, ha⟩ | ⟨r, t, ha⟩ <;> rcases hb s with ⟨w, hb⟩ | ⟨r', t', hb⟩ <;> simp only [ha, hb, Out.ok_bind, Out.stop_bind]
  · exact Same.rfl' _
  all_goals exact trivial

theorem good_safe : Good c P (safe c) (fun {_} => Same) where
  rel := Rel.same
  noBug := rfl
  slice := fun _ => L.slice_call
  slice3 := fun _ => L.slice3_call
  stops := fun _ _ _ _ _ => trivial
  reorder := by
    intro a b h s K
    simp only [safe, canReorder] at h
    split at h
    · rename_i h2
      exact reorder_steady L a b s (strong_steady L a (by omega) s) K
    · rename_i h1
      exact reorder_readOnly L a b s (weak_readOnly L a (by omega)) (weak_readOnly L b (by simp at h; omega)) K
    · simp only [beq_iff_eq] at h
      exact Same.symm (reorder_steady L b a s (strong_steady L b (by omega) s) fun vb va s => K va vb s)

omit L in
theorem reorder_value (a b : Expr Γ) (s : S) (h : ∃ v, ∀ s', After P s s' → eval P a s' = .ok v s') (K : Γ.V → Γ.V → S → Out E S Γ.V) :
    ((eval P a s).bind fun va s => (eval P b s).bind fun vb s => K va vb s) = ((eval P b s).bind fun vb s => (eval P a s).bind fun va s => K va vb s) := by
  obtain ⟨v, h⟩ := h
  rw [h s .refl, Out.ok_bind]
  cases hb : eval P b s with
  | stop r t => rfl
  | ok w s' => rw [Out.ok_bind, Out.ok_bind, h s' (.eval hb), Out.ok_bind]

theorem isValue_ok (a : Expr Γ) (h : isValue a = true) (s : S) : ∃ v, ∀ s', After P s s' → eval P a s' = .ok v s' := by
  cases a <;> simp only [isValue, Bool.false_eq_true] at h
  · rename_i v; exact ⟨v, fun s' _ => by simp only [eval, evalW]⟩
  · rename_i v caps
    obtain ⟨w, _, hw⟩ := L.function v caps s
    exact ⟨w, hw⟩

mutual
theorem noStop_ok : ∀ (e : Expr Γ), noStop c e = true → ∀ s, ∃ v, eval P e s = .ok v s
  | .const v, _, s => ⟨v, by simp only [eval, evalW]⟩
  | .function v caps, _, s => by
    obtain ⟨w, _, hw⟩ := L.function v caps s
    exact ⟨w, hw s .refl⟩
  | .load (.var x), h, s => by
    simp only [noStop] at h
    simpa only [eval, evalW, evalLVal] using L.load_total x s h
  | .load (.thisField _ _), h, s | .load (.thisMethod _ _), h, s => by simp [noStop] at h
  | .call f args, h, s => by
    simp only [noStop, Bool.and_eq_true] at h
    obtain ⟨v, rfl, hn⟩ := isPartial_const L h.1
    obtain ⟨vs, ha, hl⟩ := noStopArgs_ok P.iter args h.2 s
    obtain ⟨p, hp⟩ := L.partial_call v vs (by omega)
    exact ⟨p, by simp only [eval, evalW, Out.ok_bind, ha, (hp _).1]⟩
  | .literal .list args, h, s => by
    simp only [noStop] at h
    obtain ⟨vs, ha, _⟩ := noStopArgs_ok (P.spread .list) args h s
    obtain ⟨v, hv⟩ := L.mkList vs s
    exact ⟨v, by simp only [eval, evalW, ha, Out.ok_bind, hv]⟩
  | .literal .vector _, h, s | .literal .set _, h, s | .literal .dict _, h, s => by simp [noStop] at h
  | .exit, h, s | .unary _ _, h, s | .binary _ _ _ _, h, s | .or _ _, h, s | .and _ _, h, s | .ite _ _ _, h, s | .compose _ _, h, s
  | .error _, h, s | .compare _ _, h, s | .sliceLit _ _, h, s | .sliceLit3 _ _ _, h, s | .index _ _, h, s | .slice _ _ _, h, s
  | .sliceStep _ _ _ _, h, s | .getField _ _, h, s | .setField _ _ _, h, s | .swapField _ _ _ _, h, s | .assign _ _, h, s | .pattern _ _ _, h, s
  | .arraySet _ _ _, h, s | .arrayOp _ _ _ _, h, s => by simp [noStop] at h
theorem noStopArgs_ok (sp : Γ.V → S → Out E S (List Γ.V)) : ∀ (a : Args Γ), noStopArgs c a = true → ∀ s, ∃ vs, evalArgsW P (fcDoc P) sp a s = .ok vs s ∧ vs.length = a.length
  | .nil, _, s => ⟨[], by simp only [evalArgsW], rfl⟩
  | .plain e r, h, s => by
    simp only [noStopArgs, Bool.and_eq_true] at h
    obtain ⟨v, hv⟩ := noStop_ok e h.1 s
    obtain ⟨vs, hvs, hl⟩ := noStopArgs_ok sp r h.2 s
    simp only [eval] at hv
    exact ⟨v :: vs, by simp only [evalArgsW, hv, Out.ok_bind, hvs], by simp [Args.length, hl]⟩
  | .unroll _ _, h, s => by simp [noStopArgs] at h
end

theorem good_exact : Good c P (exact c) (fun {_} a b => a = b) where
  rel := Rel.eq
  noBug := rfl
  slice := fun h => by simp [exact] at h
  slice3 := fun h => by simp [exact] at h
  stops := fun h => by simp [exact] at h
  reorder := by
    intro a b h s K
    simp only [exact, Bool.or_eq_true, Bool.and_eq_true, bne_iff_ne, ne_eq] at h
    rcases h with (h | h) | ⟨⟨ha, hb⟩, h⟩
    · exact reorder_value a b s (isValue_ok L a h s) K
    · exact (reorder_value b a s (isValue_ok L b h s) fun vb va s => K va vb s).symm
    · have ha := weak_readOnly L a (by omega)
      have hb := weak_readOnly L b (by omega)
      rcases h with h | h
      · obtain ⟨v, hv⟩ := noStop_ok L a h s
        rcases hb s with ⟨w, hw⟩ | ⟨r', t', hw⟩ <;> simp only [hv, hw, Out.ok_bind, Out.stop_bind]
      · obtain ⟨w, hw⟩ := noStop_ok L b h s
        rcases ha s with ⟨v, hv⟩ | ⟨r', t', hv⟩ <;> simp only [hv, hw, Out.ok_bind, Out.stop_bind]

end Cordy.Codegen
