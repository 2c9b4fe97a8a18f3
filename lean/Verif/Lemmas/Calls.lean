import Verif.Model.Calls
/-! Lemmas about calls. -/
namespace Cordy.Calls
variable {V S N : Type}

theorem splice_append (a b : List V) : splice (a ++ b) b.length = (a, b) := by
  simp [splice]

theorem splice_call (base args : List V) (f : V) : splice (base ++ f :: args) args.length = (base ++ [f], args) := by
  have := splice_append (base ++ [f]) args
  simpa using this

theorem insert_append (a b args : List V) : insert (a ++ b) args b.length = a ++ args ++ b := by
  simp [insert]

/-- A variadic function has a parameter. -/
def Func.Wf (f : Func) : Prop := f.variadic = true → 0 < f.nparams

/-- All functions of the machine come from parameter lists. -/
def Machine.Wf (M : Machine V S N) : Prop :=
  (∀ v f, M.callee v = .user f → f.Wf) ∧ (∀ v fv f args, M.callee v = .part fv f args → f.Wf)

theorem numVarArgs_le {f : Func} (h : f.Wf) {n k : Nat} (hk : f.numVarArgs n = some k) : k ≤ n := by
  unfold Func.numVarArgs at hk
  split at hk
  · rename_i hc
    simp at hc
    have := h hc.1
    simp [Func.max] at hk hc
    omega
  · simp at hk

theorem callFunction_shape (M : Machine V S N) (ip : Nat) (base args : List V) (f : V) (va : Option Nat)
    (h : ∀ k, va = some k → k ≤ args.length) :
    (callFunction M ip (base ++ f :: args) args.length va).1 = ⟨ip, base.length + 1⟩ ∧
    ∃ win, (callFunction M ip (base ++ f :: args) args.length va).2 = base ++ f :: win := by
  refine ⟨by simp [callFunction]; omega, ?_⟩
  cases va with
  | none => exact ⟨args, by simp [callFunction]⟩
  | some k =>
    have hk := h k rfl
    refine ⟨args.take (args.length - k) ++ [M.vector (args.drop (args.length - k))], ?_⟩
    have e : (base ++ f :: args).length - k = base.length + 1 + (args.length - k) := by simp; omega
    have e2 : base ++ f :: args = (base ++ [f]) ++ args := by simp
    have e3 : (base ++ [f]).length = base.length + 1 := by simp
    simp only [callFunction, splice, e]
    rw [e2, ← e3, List.take_length_add_append, List.drop_length_add_append]
    simp

/-- What `invoke` leaves, in each of its outcomes. -/
theorem invoke_shape (M : Machine V S N) (hM : M.Wf) (ip : Nat) (s : S) (base args : List V) (f : V) :
    match invoke M ip s (base ++ f :: args) args.length with
    | .user _ fr st => fr = ⟨ip, base.length + 1⟩ ∧ ∃ g win, st = base ++ g :: win
    | .done st _ => ∃ v, st = base ++ [v]
    | .native keeps _ st => st = if keeps then base ++ [f] else base
    | _ => True := by
  unfold invoke
  simp only [splice_call]
  simp only [List.getLast?_append, List.getLast?_singleton, Option.some_or]
  cases hc : M.callee f with
  | user fn =>
    simp only [invokeUser, splice_call]
    have sh := callFunction_shape M ip base args f (fn.numVarArgs args.length) (fun k hk => numVarArgs_le (hM.1 _ _ hc) hk)
    by_cases hr : fn.inRange args.length = true
    · simp only [hr, if_true, enter]
      cases fn.jumpOffset args.length with
      | none => trivial
      | some j => exact ⟨sh.1, f, sh.2⟩
    · simp only [hr]
      by_cases hl : args.length < fn.min
      · simp only [hl, if_true]
        by_cases h0 : 0 < args.length
        · simp [h0]
        · have : args = [] := by cases args <;> simp_all
          subst this
          simp
      · simp [hl]
  | part fv fn pargs =>
    simp only [invokePartial, splice_call]
    by_cases hl : pargs.length + args.length < fn.min
    · simp [hl]
    · simp only [hl, if_false]
      by_cases hr : fn.inRange (pargs.length + args.length) = true
      · simp only [hr, if_true, enter]
        have e : insert ((base ++ f :: args).set ((base ++ f :: args).length - args.length - 1) fv) pargs args.length =
            base ++ fv :: (pargs ++ args) := by
          have h1 : (base ++ f :: args).length - args.length - 1 = base.length := by simp; omega
          rw [h1]
          have h2 : (base ++ f :: args).set base.length fv = (base ++ [fv]) ++ args := by simp
          rw [h2, insert_append]
          simp
        rw [e]
        have hlen : pargs.length + args.length = (pargs ++ args).length := by simp
        have sh := callFunction_shape M ip base (pargs ++ args) fv (fn.numVarArgs args.length)
          (fun k hk => by have := numVarArgs_le (hM.2 _ _ _ _ hc) hk; simp; omega)
        rw [hlen]
        cases fn.jumpOffset (pargs ++ args).length with
        | none => trivial
        | some j => exact ⟨sh.1, fv, sh.2⟩
      · simp [hr]
  | native keeps start => cases keeps <;> simp
  | prim run =>
    simp only
    cases run args s with
    | none => trivial
    | some p => simp

/-! ## The control stack above a caller -/

/-- The activations and frames above those of a caller (`H`, `F`) whose call is made with `L` values below the function, to return to `r`. The third index is the height of the stack
that belongs to what is below the topmost frame or native function; the fourth the instruction pointer while a native function runs. -/
inductive Above (H : List (Host N)) (F : List Frame) (L r : Nat) : List (Host N) → List Frame → Nat → Option Nat → Prop where
  | user : Above H F L r H (⟨r, L + 1⟩ :: F) (L + 1) none
  | native (k n) : Above H F L r (.native k false n :: H) F (if k then L + 1 else L) (some r)
  | callUser {hs fs m m'} (r') : Above H F L r hs fs m none → m + 1 ≤ m' → Above H F L r hs (⟨r', m'⟩ :: fs) m' none
  | callNative {hs fs m m'} (k n r') : Above H F L r hs fs m none → m + 1 ≤ m' →
      Above H F L r (.native k false n :: hs) fs (if k then m' else m' - 1) (some r')
  | cbUser {hs fs m i k n} : Above H F L r (.native k false n :: hs) fs m (some i) →
      Above H F L r (.loop fs.length :: .native k false n :: hs) (⟨i, m + 1⟩ :: fs) (m + 1) none
  | cbNative {hs fs m i k n} (k' n') : Above H F L r (.native k false n :: hs) fs m (some i) →
      Above H F L r (.native k' false n' :: .native k false n :: hs) fs (if k' then m + 1 else m) (some i)
  | eval {hs fs m i n} : Above H F L r (.native true false n :: hs) fs m (some i) →
      Above H F L r (.loop fs.length :: .native true true n :: hs) (⟨i, m⟩ :: fs) m none

theorem Above.top {H : List (Host N)} {F : List Frame} {L r : Nat} {d : Nat} {H₀ : List (Host N)} (hH : H = .loop d :: H₀) (hd : d < F.length)
    {hs fs m o} (h : Above H F L r hs fs m o) :
    L ≤ m ∧ (match o with
      | none => L + 1 ≤ m ∧ (∃ d' hs', hs = .loop d' :: hs' ∧ d' < fs.length) ∧ ∃ r' fs', fs = ⟨r', m⟩ :: fs'
      | some _ => ∃ k n hs', hs = .native k false n :: hs' ∧ (k = true → L + 1 ≤ m)) := by
  induction h with
  | user => exact ⟨by omega, by omega, ⟨d, H₀, hH, by simp; omega⟩, r, F, rfl⟩
  | native k n => cases k <;> simp
  | callUser r' h hm ih =>
    obtain ⟨a, b, ⟨d', hs', c1, c2⟩, _⟩ := ih
    exact ⟨by omega, by omega, ⟨d', hs', c1, by simp; omega⟩, r', _, rfl⟩
  | callNative k n r' h hm ih =>
    obtain ⟨a, b, _⟩ := ih
    cases k <;> simp <;> omega
  | @cbUser hs fs m i k n h ih =>
    exact ⟨by omega, by omega, ⟨fs.length, _, rfl, by simp⟩, i, fs, rfl⟩
  | cbNative k' n' h ih =>
    obtain ⟨a, _⟩ := ih
    cases k' <;> simp <;> omega
  | @eval hs fs m i n h ih =>
    obtain ⟨a, k, n, hs', h1, h2⟩ := ih
    simp at h1
    have : L + 1 ≤ m := h2 (by rw [← h1.1.1])
    exact ⟨by omega, by omega, ⟨fs.length, _, rfl, by simp⟩, i, fs, rfl⟩

theorem Above.longerAux {H : List (Host N)} {F : List Frame} {L r : Nat} {hs fs m o} (h : Above H F L r hs fs m o) :
    H.length ≤ hs.length := by
  induction h <;> simp_all <;> omega

theorem Above.longer {H : List (Host N)} {F : List Frame} {L r : Nat} {hs fs m o} (h : Above H F L r hs fs m o) :
    H <:+ hs ∧ F <:+ fs ∧ H.length + F.length < hs.length + fs.length := by
  induction h with
  | user => exact ⟨List.suffix_refl _, List.suffix_cons _ _, by simp⟩
  | native k n => exact ⟨List.suffix_cons _ _, List.suffix_refl _, by simp⟩
  | callUser r' h hm ih => exact ⟨ih.1, ih.2.1.trans (List.suffix_cons _ _), by have := ih.2.2; simp; omega⟩
  | callNative k n r' h hm ih => exact ⟨ih.1.trans (List.suffix_cons _ _), ih.2.1, by have := ih.2.2; simp; omega⟩
  | cbUser h ih => exact ⟨ih.1.trans (List.suffix_cons _ _), ih.2.1.trans (List.suffix_cons _ _), by have := ih.2.2; simp at *; omega⟩
  | cbNative k' n' h ih => exact ⟨ih.1.trans (List.suffix_cons _ _), ih.2.1, by have := ih.2.2; simp at *; omega⟩
  | @eval hs fs m i n h ih =>
    refine ⟨?_, ih.2.1.trans (List.suffix_cons _ _), by have := ih.2.2; simp at *; omega⟩
    have h1 := ih.1
    obtain ⟨pre, hpre⟩ := h1
    cases pre with
    | nil =>
      -- the native function is not the caller itself
      exfalso
      simp at hpre
      cases h with
      | native k n => simp at hpre
      | callNative k n r' h' hm =>
        have := Above.longerAux h'
        simp_all
        omega
      | cbNative k' n' h' =>
        have := Above.longerAux h'
        simp_all
        omega
    | cons x pre =>
      simp at hpre
      exact ⟨.loop fs.length :: .native true true n :: pre, by simp [hpre.2]⟩

theorem Above.change {H : List (Host N)} {F : List Frame} {L r : Nat} {k n hs fs m i} (n' : N) (hH : ∃ d H₀, H = .loop d :: H₀)
    (h : Above H F L r (.native k false n :: hs) fs m (some i)) : Above H F L r (.native k false n' :: hs) fs m (some i) := by
  cases h with
  | native => exact .native _ _
  | callNative _ _ _ h hm => exact .callNative _ _ _ h hm
  | cbNative _ _ h => exact .cbNative _ _ h

/-! ## One step inside of a call -/

/-- The slots of the caller that were not written are as before. -/
def Agree (base : List V) (ws : List Nat) (stack : List V) : Prop :=
  base.length ≤ stack.length ∧ ∀ j, j < base.length → j ∉ ws → stack[j]? = base[j]?

/-- The call has not returned yet. -/
def Inside (H : List (Host N)) (F : List Frame) (r : Nat) (base : List V) (ws : List Nat) (c : Cfg V S N) : Prop :=
  Agree base ws c.stack ∧ ∃ m o, Above H F base.length r c.hosts c.frames m o ∧
    match o with
    | none => m ≤ c.stack.length
    | some i => c.ip = i ∧ c.stack.length = m

/-- The call has just returned. -/
def Back (H : List (Host N)) (F : List Frame) (r : Nat) (base : List V) (ws : List Nat) (c : Cfg V S N) : Prop :=
  c.hosts = H ∧ c.frames = F ∧ c.ip = r ∧ c.stack.length = base.length + 1 ∧ Agree base ws c.stack

theorem writeAll_length (ws : List (Nat × V)) (l : List V) : (writeAll l ws).length = l.length := by
  unfold writeAll
  induction ws generalizing l with
  | nil => rfl
  | cons w ws ih => simp [ih]

theorem writeAll_get (ws : List (Nat × V)) (l : List V) (j : Nat) (h : j ∉ ws.map (·.1)) : (writeAll l ws)[j]? = l[j]? := by
  unfold writeAll
  induction ws generalizing l with
  | nil => rfl
  | cons w ws ih =>
    simp only [List.map_cons, List.mem_cons, not_or] at h
    simp only [List.foldl_cons]
    rw [ih _ h.2, List.getElem?_set_ne (fun e => h.1 e.symm)]

theorem Agree.mono {base ws ws' : List _} {st st' : List V} (h : Agree base ws st) (hl : base.length ≤ st'.length)
    (hw : ∀ j, j ∈ ws → j ∈ ws') (hs : ∀ j, j < base.length → j ∉ ws' → st'[j]? = st[j]?) : Agree base ws' st' := by
  refine ⟨hl, fun j hj hjw => ?_⟩
  rw [hs j hj hjw]
  exact h.2 j hj (fun hm => hjw (hw j hm))

theorem popFrame_spec {st st' : List V} {fp : Nat} (h : popFrame st fp = some st') :
    st'.length = fp ∧ 0 < fp ∧ ∀ j, j < fp - 1 → st'[j]? = st[j]? := by
  unfold popFrame at h
  cases hg : st.getLast? with
  | none => simp [hg] at h
  | some v =>
    simp only [hg] at h
    split at h
    · rename_i hc
      simp only [Option.some.injEq] at h
      subst h
      refine ⟨by simp; omega, hc.1, fun j hj => ?_⟩
      rw [List.getElem?_take, if_pos (by omega), List.getElem?_set_ne (by omega), List.dropLast_eq_take, List.getElem?_take, if_pos (by omega)]
    · simp at h

theorem split_call (st : List V) (n : Nat) (h : n + 1 ≤ st.length) :
    ∃ base f args, st = base ++ f :: args ∧ args.length = n ∧ base.length = st.length - n - 1 := by
  have h1 : st.length - n - 1 < st.length := by omega
  refine ⟨st.take (st.length - n - 1), st[st.length - n - 1], st.drop (st.length - n - 1 + 1), ?_, by simp; omega, by simp; omega⟩
  rw [List.getElem_cons_drop h1, List.take_append_drop]

theorem take_get (a b : List V) (j : Nat) (h : j < a.length) : (a ++ b)[j]? = a[j]? := by
  rw [List.getElem?_append_left h]

theorem dropLast_get (a : List V) (j : Nat) (h : j < a.length - 1) : a.dropLast[j]? = a[j]? := by
  rw [List.dropLast_eq_take, List.getElem?_take, if_pos h]

theorem step_inside (M : Machine V S N) (hM : M.Wf) {H : List (Host N)} {F : List Frame} {r d : Nat} {H₀ : List (Host N)}
    (hH : H = .loop d :: H₀) (hd : d < F.length) {base : List V} {ws w : List Nat} {c c' : Cfg V S N}
    (h : Inside H F r base ws c) (hs : step M c = some (w, c')) :
    Inside H F r base (ws ++ w) c' ∨ Back H F r base (ws ++ w) c' := by
  obtain ⟨hag, m, o, hab, ho⟩ := h
  obtain ⟨hLm, htop⟩ := hab.top hH hd
  cases o with
  | none =>
    simp only at ho htop
    obtain ⟨hL1, ⟨d', hs', hhosts, hd'⟩, r', fs', hfr⟩ := htop
    have hab2 := hab
    rw [hhosts, hfr] at hab2
    unfold step at hs
    simp only [hhosts, hfr] at hs
    cases hcode : M.code c.st c.ip with
    | none => simp [hcode] at hs
    | some ins =>
    cases ins with
    | op run =>
      simp only [hcode] at hs
      cases hrun : run c.ip (c.stack.take m) (c.stack.drop m) c.st with
      | none => simp [hrun] at hs
      | some q =>
        obtain ⟨ip, win, wr, s⟩ := q
        simp only [hrun, Option.some.injEq, Prod.mk.injEq] at hs
        obtain ⟨rfl, rfl⟩ := hs
        refine Or.inl ⟨?_, m, none, ?_, ?_⟩
        · have hlen : (writeAll (c.stack.take m) wr).length = m := by rw [writeAll_length]; simp; omega
          refine hag.mono (by simp [hlen]; omega) (fun j hj => List.mem_append_left _ hj) (fun j hj hjw => ?_)
          simp only
          rw [take_get _ _ _ (by omega), writeAll_get _ _ _ (fun hm => hjw (List.mem_append_right _ hm)), List.getElem?_take, if_pos (by omega)]
        · exact hab2
        · simp only
          simp [writeAll_length]; omega
    | call n =>
      simp only [hcode] at hs
      by_cases hg : m + n c.st + 1 ≤ c.stack.length
      · rw [if_pos hg] at hs
        obtain ⟨b2, f, args, hst, hn, hb2⟩ := split_call c.stack (n c.st) (by omega)
        have sh := invoke_shape M hM (c.ip + 1) c.st b2 args f
        rw [hst, ← hn] at hs
        have hb2m : m ≤ b2.length := by omega
        have hagree : ∀ g win, Agree base (ws ++ []) (b2 ++ g :: win) := fun g win =>
          hag.mono (by simp; omega) (fun j hj => List.mem_append_left _ hj)
            (fun j hj _ => by rw [hst, take_get _ _ _ (by omega), take_get _ _ _ (by omega)])
        cases hinv : invoke M (c.ip + 1) c.st (b2 ++ f :: args) args.length with
        | user ip' fr st =>
          rw [hinv] at sh hs
          simp only at sh
          obtain ⟨rfl, g, win, rfl⟩ := sh
          simp [afterInvoke] at hs
          obtain ⟨rfl, rfl⟩ := hs
          exact Or.inl ⟨hagree g win, b2.length + 1, none, .callUser _ hab2 (show m + 1 ≤ b2.length + 1 by omega), by simp⟩
        | done st s' =>
          rw [hinv] at sh hs
          simp only at sh
          obtain ⟨v, rfl⟩ := sh
          simp [afterInvoke, deliver, hhosts] at hs
          obtain ⟨rfl, rfl⟩ := hs
          exact Or.inl ⟨hagree v [], m, none, by simpa [← hhosts, ← hfr] using hab, by simp; omega⟩
        | native keeps n' st =>
          rw [hinv] at sh hs
          simp only at sh
          subst sh
          simp [afterInvoke] at hs
          obtain ⟨rfl, rfl⟩ := hs
          refine Or.inl ⟨?_, _, _, .callNative keeps n' (c.ip + 1) hab2 (show m + 1 ≤ b2.length + 1 by omega), by cases keeps <;> simp⟩
          cases keeps with
          | true => exact hagree f []
          | false =>
            refine hag.mono (by simp; omega) (fun j hj => List.mem_append_left _ hj) (fun j hj _ => ?_)
            simp only
            rw [hst, take_get _ _ _ (by omega)]
            simp
        | arity _ => rw [hinv] at hs; simp [afterInvoke] at hs
        | error => rw [hinv] at hs; simp [afterInvoke] at hs
        | panic => rw [hinv] at hs; simp [afterInvoke] at hs
      · rw [if_neg hg] at hs; simp at hs
    | ret =>
      simp only [hcode] at hs
      cases hpop : popFrame c.stack m with
      | none => simp [hpop] at hs
      | some st =>
        simp only [hpop] at hs
        obtain ⟨hsl, hsp, hsg⟩ := popFrame_spec hpop
        have hagst : Agree base (ws ++ []) st :=
          hag.mono (by omega) (fun j hj => List.mem_append_left _ hj) (fun j hj _ => hsg j (by omega))
        rw [hfr, hhosts] at hab
        generalize hHs : (Host.loop d' :: hs' : List (Host N)) = HS at hab
        generalize hFS : (⟨r', m⟩ :: fs' : List Frame) = FS at hab
        generalize hO : (none : Option Nat) = O at hab
        cases hab with
        | user =>
          simp only [List.cons.injEq, Frame.mk.injEq] at hFS
          obtain ⟨⟨rfl, hm⟩, rfl⟩ := hFS
          rw [hH] at hHs
          simp only [List.cons.injEq, Host.loop.injEq] at hHs
          obtain ⟨rfl, rfl⟩ := hHs
          rw [if_neg (by omega)] at hs
          simp only [Option.some.injEq, Prod.mk.injEq] at hs
          obtain ⟨rfl, rfl⟩ := hs
          exact Or.inr ⟨by simp [hhosts, hH], rfl, rfl, by simpa using hsl, by simpa using hagst⟩
        | @callUser _ _ m0 _ r'' hab' hm' =>
          simp only [List.cons.injEq, Frame.mk.injEq] at hFS
          obtain ⟨⟨rfl, -⟩, rfl⟩ := hFS
          obtain ⟨q1, q2, ⟨d'', hs'', q3, q4⟩, _⟩ := hab'.top hH hd
          rw [q3] at hHs
          simp only [List.cons.injEq, Host.loop.injEq] at hHs
          obtain ⟨rfl, rfl⟩ := hHs
          rw [if_neg (by omega)] at hs
          simp only [Option.some.injEq, Prod.mk.injEq] at hs
          obtain ⟨rfl, rfl⟩ := hs
          refine Or.inl ⟨hagst, m0, none, ?_, ?_⟩
          · rw [q3] at hab'; exact hab'
          · simp only; omega
        | cbUser hab' =>
          simp only [List.cons.injEq, Frame.mk.injEq] at hFS
          obtain ⟨⟨rfl, hm⟩, rfl⟩ := hFS
          simp only [List.cons.injEq, Host.loop.injEq] at hHs
          obtain ⟨rfl, rfl⟩ := hHs
          rw [if_pos rfl] at hs
          cases hgl : st.getLast? with
          | none => simp [deliver, hgl] at hs
          | some v =>
            simp [deliver, hgl] at hs
            obtain ⟨rfl, rfl⟩ := hs
            have := (hab'.top hH hd).1
            refine Or.inl ⟨?_, _, _, hab'.change _ ⟨d, H₀, hH⟩, ?_⟩
            · exact hagst.mono (by simp; omega) (fun j hj => by simpa using hj) (fun j hj _ => dropLast_get _ _ (by omega))
            · exact ⟨rfl, by simp [hsl]⟩
        | eval hab' =>
          simp only [List.cons.injEq, Frame.mk.injEq] at hFS
          obtain ⟨⟨rfl, hm⟩, rfl⟩ := hFS
          simp only [List.cons.injEq, Host.loop.injEq] at hHs
          obtain ⟨rfl, rfl⟩ := hHs
          rw [if_pos rfl] at hs
          cases hgl : st.getLast? with
          | none => simp [deliver, hgl] at hs
          | some v =>
            simp [deliver, hgl] at hs
            obtain ⟨rfl, rfl⟩ := hs
            refine Or.inl ⟨?_, _, _, hab'.change _ ⟨d, H₀, hH⟩, ?_⟩
            · refine hagst.mono (by simp; omega) (fun j hj => by simpa using hj) (fun j hj _ => ?_)
              simp only
              rw [take_get _ _ _ (by simp; omega), dropLast_get _ _ (by omega)]
            · exact ⟨rfl, by simp [hsl]; omega⟩
        | native => simp at hO
        | callNative => simp at hO
        | cbNative => simp at hO
  | some i =>
    simp only at ho htop
    obtain ⟨hip, hlen⟩ := ho
    obtain ⟨k, n, hs', hhosts, hk⟩ := htop
    unfold step at hs
    simp only [hhosts] at hs
    rw [hhosts] at hab
    cases hact : M.act n c.st with
    | fail => simp [hact] at hs
    | tau n' s =>
      simp only [hact, Option.some.injEq, Prod.mk.injEq] at hs
      obtain ⟨rfl, rfl⟩ := hs
      exact Or.inl ⟨by simpa using hag, m, some i, hab.change _ ⟨d, H₀, hH⟩, hip, hlen⟩
    | done v =>
      simp only [hact] at hs
      have hpre : ∀ j, j < base.length → ((if k = true then c.stack.dropLast else c.stack) ++ [v])[j]? = c.stack[j]? := by
        intro j hj
        cases k with
        | true =>
          have := hk rfl
          simp only [if_true]
          rw [take_get _ _ _ (by simp; omega), dropLast_get _ _ (by omega)]
        | false => simp only [Bool.false_eq_true, if_false]; rw [take_get _ _ _ (by omega)]
      have hlen' : ((if k = true then c.stack.dropLast else c.stack) ++ [v]).length = (if k = true then m - 1 else m) + 1 := by
        cases k <;> simp <;> omega
      have hagst : Agree base (ws ++ []) ((if k = true then c.stack.dropLast else c.stack) ++ [v]) :=
        hag.mono (by rw [hlen']; cases k with
          | true => have := hk rfl; simp only [if_true]; omega
          | false => simp only [Bool.false_eq_true, if_false]; omega)
          (fun j hj => List.mem_append_left _ hj) (fun j hj _ => hpre j hj)
      generalize hHs : (Host.native k false n :: hs' : List (Host N)) = HS at hab
      generalize hO : (some i : Option Nat) = O at hab
      generalize hFS : c.frames = FS at hab
      cases hab with
      | native k0 n0 =>
        simp only [List.cons.injEq, Host.native.injEq] at hHs
        obtain ⟨⟨rfl, -, rfl⟩, rfl⟩ := hHs
        simp only [Option.some.injEq] at hO
        simp [deliver, hH] at hs
        obtain ⟨rfl, rfl⟩ := hs
        refine Or.inr ⟨hH.symm, by simpa using hFS, by rw [hip, hO], ?_, by simpa using hagst⟩
        simp only
        rw [hlen']
        cases k with
        | true => simp
        | false => simp
      | callNative k0 n0 r0 hab' hm' =>
        simp only [List.cons.injEq, Host.native.injEq] at hHs
        obtain ⟨⟨rfl, -, rfl⟩, rfl⟩ := hHs
        obtain ⟨q1, q2, ⟨d'', hs'', q3, q4⟩, _⟩ := hab'.top hH hd
        simp [deliver, q3] at hs
        obtain ⟨rfl, rfl⟩ := hs
        refine Or.inl ⟨by simpa using hagst, _, none, by rw [q3] at hab'; simpa [hFS] using hab', ?_⟩
        simp only
        rw [hlen']
        cases k with
        | true => simp; omega
        | false => simp; omega
      | @cbNative hs2 fs2 m2 i2 k2 n2 k0 n0 hab' =>
        simp only [List.cons.injEq, Host.native.injEq] at hHs
        obtain ⟨⟨rfl, -, rfl⟩, rfl⟩ := hHs
        simp only [Option.some.injEq] at hO
        have := (hab'.top hH hd).1
        simp only [deliver, List.getLast?_append, List.getLast?_singleton, Option.some_or, Option.map_some, Option.some.injEq,
          Prod.mk.injEq, List.dropLast_concat] at hs
        obtain ⟨rfl, rfl⟩ := hs
        refine Or.inl ⟨?_, _, _, by simp only [hFS]; exact hab'.change _ ⟨d, H₀, hH⟩, ?_⟩
        · refine hag.mono ?_ (fun j hj => List.mem_append_left _ hj) (fun j hj _ => ?_)
          · cases k with
            | true => simp; simp at hlen; omega
            | false => simp; simp at hlen; omega
          · cases k with
            | true => have := hk rfl; simp only [if_true]; simp at hlen; simp; rw [dropLast_get _ _ (by omega)]
            | false => simp
        · cases k with
          | true => simp at hlen; simp; exact ⟨by rw [hip, hO], by omega⟩
          | false => simp at hlen; simp; exact ⟨by rw [hip, hO], by omega⟩
      | user => simp at hO
      | callUser => simp at hO
      | cbUser => simp at hO
      | eval => simp at hO
    | callback f args =>
      simp only [hact] at hs
      have sh := invoke_shape M hM c.ip c.st c.stack args f
      cases hinv : invoke M c.ip c.st (c.stack ++ f :: args) args.length with
      | user ip' fr st =>
        rw [hinv] at sh hs
        simp only at sh
        obtain ⟨rfl, g, win, rfl⟩ := sh
        simp only [afterInvoke, Option.map_some, Option.some.injEq, Prod.mk.injEq] at hs
        obtain ⟨rfl, rfl⟩ := hs
        refine Or.inl ⟨?_, m + 1, none, ?_, by simp; omega⟩
        · exact hag.mono (by simp; omega) (fun j hj => List.mem_append_left _ hj) (fun j hj _ => take_get _ _ _ (by omega))
        · simp only [if_true, hhosts, hlen, hip]
          exact hab.cbUser
      | done st s' =>
        rw [hinv] at sh hs
        simp only at sh
        obtain ⟨v, rfl⟩ := sh
        simp [afterInvoke, deliver, hhosts] at hs
        obtain ⟨rfl, rfl⟩ := hs
        exact Or.inl ⟨by simpa using hag, m, some i, hab.change _ ⟨d, H₀, hH⟩, hip, hlen⟩
      | native keeps n' st =>
        rw [hinv] at sh hs
        simp only at sh
        subst sh
        simp only [afterInvoke, Option.map_some, Option.some.injEq, Prod.mk.injEq] at hs
        obtain ⟨rfl, rfl⟩ := hs
        refine Or.inl ⟨?_, if keeps then m + 1 else m, some i, ?_, ?_⟩
        rotate_left
        · simp only [hhosts]
          exact hab.cbNative keeps n'
        · refine ⟨hip, ?_⟩
          cases keeps <;> simp [hlen]
        · cases keeps with
          | true => exact hag.mono (by simp; omega) (fun j hj => List.mem_append_left _ hj) (fun j hj _ => take_get _ _ _ (by omega))
          | false => simpa using hag
      | arity _ => rw [hinv] at hs; simp [afterInvoke] at hs
      | error => rw [hinv] at hs; simp [afterInvoke] at hs
      | panic => rw [hinv] at hs; simp [afterInvoke] at hs
    | eval head =>
      simp only [hact] at hs
      by_cases hkk : k = true
      · subst hkk
        simp only [if_true, Option.some.injEq, Prod.mk.injEq] at hs
        obtain ⟨rfl, rfl⟩ := hs
        refine Or.inl ⟨by simpa using hag, m, none, ?_, by simp; omega⟩
        simp only [hlen, hip]
        exact hab.eval
      · simp [hkk] at hs

end Cordy.Calls
