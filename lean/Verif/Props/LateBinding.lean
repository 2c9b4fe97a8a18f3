import Verif.Lemmas.LateFine
/-!
# C65: names may be declared after the functions that use them

`Cordy.Late.compile h` is the front end run on the history `h` (`Model/LateBinding.lean`): what it emits, uses and declares, in the order
of the text.  `LateSpec.means h` is what a name means in the program, whatever the order of its declarations, and `LateSpec.blockCode h f b`
is block `b` of function `f` with every name compiled as what it means (`Spec/LateBinding.lean`).
-/
namespace Cordy.Late
open Cordy.LateSpec

variable {O : Type}

/-! ## The code of a block -/

/-- C65 (the full property is that this holds without `Regular`; the violations below show which blocks it fails for).  In a regular block
of a program that compiles, every name is compiled as what it means, in the place where it is written. -/
theorem C65_block_partial (h : List (Ev O)) (hw : WellFormed h) (f b : Nat) (hr : Regular h f b) (c : Code O) (hc : compile h = some c)
    (code : List (Op O)) (hcode : blockCode h f b = some code) : Block.ops ((c.fns.getD f []).getD b []) = code := by
  have single : Single (lateOf 0 (items h f b)) := by
    intro e he
    obtain ⟨l, u, r, h1, rfl⟩ := mem_lateOf _ _ e he
    obtain ⟨h4, o, h5⟩ := hr.settled u (by rw [h1]; simp)
    exact ⟨o, by show u.settled = _; rw [h4, h5]⟩
  obtain ⟨t, p1, p2, p3⟩ := compile_block h hw f b single c hc
  have h1 := block_final (items h f b) t p1 p2 single (by
    intro l₁ u₁ l₂ u₂ l₃ he hl
    have := hr.order l₁ u₁ l₂ u₂ l₃ he hl
    rw [(hr.settled u₁ (by rw [he]; simp)).1, (hr.settled u₂ (by rw [he]; simp)).1]
    exact this) hr.last
  rw [← flat_blockCode h f b h [] 0 code (fun u hu => (hr.settled u hu).1) hcode]
  show Block.ops (blk c f b) = _
  rw [p3, h1]
  rfl

/-- C65: names that are used early do not change which functions and blocks there are. -/
theorem C65_shape (h : List (Ev O)) (hw : WellFormed h) (c : Code O) (hc : compile h = some c) :
    c.fns.length = h.countP isOpen ∧ ∀ f, f < c.fns.length → (c.fns.getD f []).length = 1 + h.countP (isBranch f) := by
  unfold compile at hc
  cases hr : run init h with
  | none => rw [hr] at hc; cases hc
  | some s =>
    rw [hr] at hc
    obtain ⟨o, sh⟩ := run_shape h [] 0 0 init s hw.order ⟨rfl, rfl, fun f hf => by omega, fun f _ => rfl⟩ hr
    have sh2 := resolveRemaining_shape _ _ _ hc
    simp only [List.nil_append] at sh
    refine ⟨by rw [sh2.1, sh.fns, sh.count], ?_⟩
    intro f hf
    rw [sh2.1, sh.fns] at hf
    have := sh2.2 f
    unfold nblocks at this
    rw [this]
    exact sh.blocks f hf

/-! ## Errors -/

/-- C65: a name that is used and nowhere declared is reported. -/
theorem C65_undeclared (h a b : List (Ev O)) (f : Nat) (store : Bool) (name : String) (mod : Option Nat) (this : This)
    (hh : h = a ++ .use f store name mod this :: b) (hd : DistinctGlobals h) (hn : ∀ e ∈ h, declares name e = none) (c : Code O)
    (hc : compile h = some c) : .undeclaredIdentifier name ∈ c.errors := by
  unfold compile at hc
  cases hr : run init h with
  | none => rw [hr] at hc; cases hc
  | some s =>
    rw [hr] at hc
    rw [hh, run_append] at hr
    cases ha : run init a with
    | none => rw [ha] at hr; cases hr
    | some s1 =>
      rw [ha] at hr
      simp only [Option.bind_some] at hr
      unfold run at hr
      simp only [step] at hr
      have hda : DistinctGlobals a := by rw [hh] at hd; exact DistinctGlobals.left hd
      have ht := run_tables a [] init s1 tables_nil (by simpa using hda) ha
      simp only [List.nil_append] at ht
      have hla := isLate_of_undeclared (mod := mod) (past := a) (name := name) (fun e he => hn e (by rw [hh]; simp [he]))
      obtain ⟨β, hβ, e1, e2⟩ := use_adds ht f store name mod this hla.1
      have hβ' := run_late b _ s hr β hβ (fun e he => by rw [e1]; exact hn e (by rw [hh]; simp [he]))
      have := (resolveRemaining_errors s.late s.code c hc).2 β hβ' (by rw [e2, hla.2]; cases mod <;> rfl)
      rw [e1] at this
      exact this

/-- C65 (partial, as in `C65_block_partial`: the declaration that settles a late use need not be what the name means).  A program is accepted
if what settles each of its uses can be used that way, and the late targets of its pattern assignments are globals. -/
theorem C65_accepted_partial (h : List (Ev O)) (hd : DistinctGlobals h)
    (huse : ∀ a f store name mod this b, h = a ++ .use f store name mod this :: b →
      (useCode (O := O) store this (if isLate a mod name then settledBy a b mod name else means h mod name)).isSome)
    (hpat : ∀ a names mod this b, h = a ++ .pattern names mod this :: b →
      ∀ n ∈ names, isLate a mod n = true → ∃ i, b.findSome? (declares n) = some (.global i))
    (c : Code O) (hc : compile h = some c) : c.errors = [] := by
  unfold compile at hc
  cases hr : run init h with
  | none => rw [hr] at hc; cases hc
  | some s =>
    rw [hr] at hc
    obtain ⟨a, b⟩ := run_noError h [] init s tables_nil (by simpa using hd) (by intro β hβ; cases hβ)
      (by intro a f store name mod this b hh; simpa using huse a f store name mod this b hh)
      (by intro a names mod this b hh; simpa using hpat a names mod this b hh) hr
    rw [resolveRemaining_noError _ _ _ b hc, a]
    rfl

/-- C65: a use of something that cannot be used that way (a method assigned to, an instance method without `self`, an undeclared name) is
reported. -/
theorem C65_rejected (h a b : List (Ev O)) (f : Nat) (store : Bool) (name : String) (mod : Option Nat) (this : This)
    (hh : h = a ++ .use f store name mod this :: b) (hd : DistinctGlobals h)
    (hu : useCode (O := O) store this (if isLate a mod name then settledBy a b mod name else means h mod name) = none)
    (c : Code O) (hc : compile h = some c) : c.errors ≠ [] := by
  unfold compile at hc
  cases hr : run init h with
  | none => rw [hr] at hc; cases hc
  | some s =>
    rw [hr] at hc
    rw [hh] at hu
    rw [hh, run_append] at hr
    cases ha : run init a with
    | none => rw [ha] at hr; cases hr
    | some s1 =>
      rw [ha] at hr
      simp only [Option.bind_some] at hr
      unfold run at hr
      simp only [step] at hr
      have hda : DistinctGlobals a := by rw [hh] at hd; exact DistinctGlobals.left hd
      have ht := run_tables a [] init s1 tables_nil (by simpa using hda) ha
      simp only [List.nil_append] at ht
      exact resolveRemaining_bad s c (run_bad b _ s (use_bad ht hda f store name mod this hu) hr) hc

/-- C65 (partial: without the hypothesis the compiler may panic, see below).  The compiler does not panic. -/
theorem C65_no_panic_partial (h : List (Ev O)) (hd : DistinctGlobals h)
    (hpat : ∀ a names mod this b, h = a ++ .pattern names mod this :: b → TargetsFine a b mod names) : compile h ≠ none := by
  obtain ⟨s, e1, e2⟩ := run_some h [] init tables_nil (by simpa using hd) (by intro β hβ; cases hβ)
    (by intro a names mod this b hh; simpa using hpat a names mod this b hh)
  obtain ⟨c, e3⟩ := resolveRemaining_some s.late s.code e2
  unfold compile
  rw [e1]
  simp [e3]

/-! ## Pattern assignments -/

/-- C65 (partial: a late target must be settled by the global it means).  The targets of a pattern assignment are stored to what they mean,
in order, whether they are declared before it or after it. -/
theorem C65_pattern_partial (h a b : List (Ev O)) (names : List String) (mod : Option Nat) (this : This) (hh : h = a ++ .pattern names mod this :: b)
    (hd : DistinctGlobals h) (g : String → Nat) (hm : ∀ n ∈ names, means h mod n = some (.global (g n)))
    (hl : ∀ n ∈ names, isLate a mod n = true → b.findSome? (declares n) = some (.global (g n))) (c : Code O) (hc : compile h = some c) :
    c.patterns[a.countP isPattern]? = some (names.map (fun n => .bound (g n))) := by
  unfold compile at hc
  cases hr : run init h with
  | none => rw [hr] at hc; cases hc
  | some s =>
    rw [hr] at hc
    rw [hh, run_append] at hr
    cases ha : run init a with
    | none => rw [ha] at hr; cases hr
    | some s1 =>
      rw [ha] at hr
      simp only [Option.bind_some] at hr
      unfold run at hr
      simp only [step] at hr
      have hda : DistinctGlobals a := by rw [hh] at hd; exact DistinctGlobals.left hd
      have ht := run_tables a [] init s1 tables_nil (by simpa using hda) ha
      simp only [List.nil_append] at ht
      have hu := Unique.run a init s1 unique_init ha
      cases h1 : s1.pattern names mod this with
      | none => rw [h1] at hr; cases hr
      | some s2 =>
        rw [h1] at hr
        simp only at hr
        have hu2 : Unique s2 := hu.step (e := .pattern names mod this) h1
        unfold State.pattern at h1
        cases h2 : s1.targets s1.code.patterns.length mod this names with
        | none => rw [h2] at h1; cases h1
        | some x =>
          rw [h2] at h1
          cases h1
          obtain ⟨a1, _⟩ := targets_spec _ _ _ _ _ _ _ h2
          obtain ⟨b1, b2⟩ := targets_bindings g _ mod this a (.pattern names mod this :: b) hda names s1 x.1 x.2 ht h2
          have hnp := run_npatterns a init s1 ha
          have hnp' : s1.code.patterns.length = a.countP isPattern := by rw [hnp]; simp [init]
          have hks := run_kinds a init s1 ha (by intro β hβ; cases hβ)
          obtain ⟨l', k1, k2, k3⟩ := run_pattern g s1.code.patterns.length names b
            { x.1 with code := { x.1.code with patterns := x.1.code.patterns ++ [x.2] } } s x.2 hu2 hr
            (by show (x.1.code.patterns ++ [x.2])[s1.code.patterns.length]? = _; rw [a1]; simp)
            (b2 (by rw [← hh]; exact hm))
            (by
              intro β hβ hk
              rcases b1 β hβ with h3 | ⟨_, h4, h5⟩
              · have := hks β h3 _ hk; omega
              · exact hl β.name h4 h5)
          rw [resolveRemaining_patterns _ _ _ hc, ← hnp', k1, stores_final k2 k3]

/-! ## A check of regularity -/

def lateRun : List (Item O) → List (LateUse O)
  | .late u :: r => u :: lateRun r
  | _ => []

def orderB [DecidableEq O] : List (Item O) → Bool
  | [] => true
  | .op _ :: r => orderB r
  | .late u :: r => (lateRun r).all (fun v => decide (u.wanted = v.wanted ∨ u.when < v.when)) && orderB r

def isLateItem : Item O → Bool
  | .late _ => true
  | .op _ => false

/-- a late use at the end is the only one -/
def lastB : List (Item O) → Bool
  | [] => true
  | [_] => true
  | i :: r => (!(isLateItem i && r.getLast?.any isLateItem)) && lastB r

def settledB [DecidableEq O] : Item O → Bool
  | .op _ => true
  | .late u => decide (u.settled = u.wanted) && (match u.wanted with | some [_] => true | _ => false)

theorem mem_lateRun (l : List (Item O)) (hl : ∀ o, .op o ∉ l) (u : LateUse O) (r : List (Item O)) : u ∈ lateRun (l ++ .late u :: r) := by
  induction l with
  | nil => simp [lateRun]
  | cons i l ih =>
    cases i with
    | op o => exact absurd (by simp) (hl o)
    | late v => simp only [List.cons_append, lateRun, List.mem_cons]; right; exact ih (fun o ho => hl o (by simp [ho]))

theorem orderB_sound [DecidableEq O] : ∀ (its : List (Item O)), orderB its = true → ∀ l₁ u₁ l₂ u₂ l₃, its = l₁ ++ .late u₁ :: l₂ ++ .late u₂ :: l₃ →
    (∀ o, .op o ∉ l₂) → u₁.wanted = u₂.wanted ∨ u₁.when < u₂.when := by
  intro its h l₁
  induction l₁ generalizing its with
  | nil =>
    rintro u₁ l₂ u₂ l₃ rfl hl
    simp only [List.nil_append, List.cons_append, orderB, Bool.and_eq_true, List.all_eq_true, decide_eq_true_eq] at h
    exact h.1 u₂ (mem_lateRun l₂ hl u₂ l₃)
  | cons i l₁ ih =>
    rintro u₁ l₂ u₂ l₃ rfl hl
    refine ih (l₁ ++ .late u₁ :: l₂ ++ .late u₂ :: l₃) ?_ u₁ l₂ u₂ l₃ rfl hl
    cases i with
    | op o => simpa [orderB] using h
    | late v =>
      simp only [List.cons_append, orderB, Bool.and_eq_true] at h
      exact h.2

theorem lastB_sound : ∀ (its : List (Item O)), lastB its = true → ∀ l u, its = l ++ [.late u] → ∀ v, .late v ∉ l := by
  intro its h l
  induction l generalizing its with
  | nil => intro u _ v hv; cases hv
  | cons i l ih =>
    rintro u rfl v hv
    have hne : ∃ j r, l ++ [Item.late u] = j :: r := by cases l <;> simp
    obtain ⟨j, r, hj⟩ := hne
    have h2 : lastB (i :: (l ++ [.late u])) = ((!(isLateItem i && (l ++ [Item.late u]).getLast?.any isLateItem)) && lastB (l ++ [.late u])) := by
      rw [hj]; rfl
    have h' : lastB (i :: (l ++ [.late u])) = true := h
    rw [h2] at h'
    simp [isLateItem] at h'
    rcases List.mem_cons.1 hv with rfl | hv
    · simp [isLateItem] at h'
    · exact ih (l ++ [.late u]) h'.2 u rfl v hv

theorem settledB_sound [DecidableEq O] (its : List (Item O)) (h : its.all settledB = true) : ∀ u, .late u ∈ its → u.settled = u.wanted ∧ ∃ o, u.wanted = some [o] := by
  intro u hu
  rw [List.all_eq_true] at h
  have := h _ hu
  simp only [settledB, Bool.and_eq_true, decide_eq_true_eq] at this
  refine ⟨this.1, ?_⟩
  have h2 := this.2
  split at h2
  · rename_i o ho; exact ⟨o, ho⟩
  · cases h2

theorem regular_of_check [DecidableEq O] (h : List (Ev O)) (f b : Nat)
    (hc : ((items h f b).all settledB && orderB (items h f b) && lastB (items h f b)) = true) : Regular h f b := by
  simp only [Bool.and_eq_true] at hc
  exact ⟨settledB_sound _ hc.1.1, orderB_sound _ hc.1.2, lastB_sound _ hc.2⟩

/-! ## Programs that meet the hypotheses -/

/-- What the compiled functions are. -/
def compiled (h : List (Ev O)) : Option (List (List (List (Op O)))) := (compile h).map (fun c => c.fns.map (fun bs => bs.map Block.ops))

/-- `fn foo() { x + 1 - bar(y) ; if x then y = bar(x) }  let x ; module M { fn sz(self) }  fn bar ; let y` -/
def fooBar : List (Ev String) :=
  [.global "foo" 0, .initialised "foo", .openFn,
    .use 0 false "x" none .invalid, .emit 0 "Int 1", .emit 0 "Add", .use 0 false "bar" none .invalid, .use 0 false "y" none .invalid, .emit 0 "Call 1",
    .emit 0 "Sub", .emit 0 "Pop", .use 0 false "x" none .invalid, .emit 0 "Nop", .branch 0,
    .use 0 false "bar" none .invalid, .emit 0 "Dup", .use 0 false "foo" none .invalid, .emit 0 "Call 1", .use 0 true "y" none .invalid, .emit 0 "Pop", .branch 0,
    .emit 0 "Return",
    .global "x" 1, .initialised "x", .openFn, .use 1 false "len" (some 7) (.local 0), .emit 1 "Return", .method 7 "sz" 4 true,
    .global "bar" 2, .initialised "bar", .openFn, .use 2 false "x" none .invalid, .emit 2 "Return", .global "len" 4, .global "y" 3, .initialised "y"]

instance : DecidablePred (DistinctGlobals (O := O)) := fun h => inferInstanceAs (Decidable (List.Nodup _))

theorem fooBar_wf : WellFormed fooBar := ⟨by simp [fooBar, WellFormedFrom], by decide +kernel⟩

example : Regular fooBar 0 0 := regular_of_check _ _ _ (by decide +kernel)
example : Regular fooBar 0 1 := regular_of_check _ _ _ (by decide +kernel)
example : Regular fooBar 1 0 := regular_of_check _ _ _ (by decide +kernel)
example : blockCode fooBar 0 0 = some [.pushGlobal 1, .op "Int 1", .op "Add", .pushGlobal 2, .pushGlobal 3, .op "Call 1", .op "Sub", .op "Pop", .pushGlobal 1, .op "Nop"] := by decide +kernel
example : blockCode fooBar 0 1 = some [.pushGlobal 2, .op "Dup", .pushGlobal 0, .op "Call 1", .storeGlobal 3, .op "Pop"] := by decide +kernel
example : compiled fooBar = some
    [[[.pushGlobal 1, .op "Int 1", .op "Add", .pushGlobal 2, .pushGlobal 3, .op "Call 1", .op "Sub", .op "Pop", .pushGlobal 1, .op "Nop"],
      [.pushGlobal 2, .op "Dup", .pushGlobal 0, .op "Call 1", .storeGlobal 3, .op "Pop"], [.op "Return"]],
     [[.pushGlobal 4, .op "Return"]], [[.pushGlobal 1, .op "Return"]]] := by decide +kernel

/-- `fn foo() { a, b = (1, 2) }  let a, b` and in a module with `b` first -/
def patterns : List (Ev String) :=
  [.openFn, .pattern ["a", "b"] none .invalid, .emit 0 "Pattern 0", .emit 0 "Return", .openFn, .pattern ["b", "c"] (some 3) .invalid, .emit 1 "Pattern 1",
    .emit 1 "Return", .method 3 "f" 9 false, .global "b" 5, .initialised "b", .openFn, .pattern ["b", "a"] none .invalid, .emit 2 "Pattern 2", .emit 2 "Return",
    .global "a" 6, .global "c" 7]

example : (compile patterns).map Code.patterns = some [[.bound 6, .bound 5], [.bound 5, .bound 7], [.bound 5, .bound 6]] := by decide +kernel
example : ∀ n ∈ ["b", "a"], means patterns none n = some (.global (if n = "b" then 5 else 6)) := by decide +kernel
example : (compile (patterns ++ [.openFn, .use 3 false "z" none .invalid])).map Code.errors = some [.undeclaredIdentifier "z"] := by decide +kernel

example : (compile (O := String) [.openFn, .use 0 false "m" (some 2) .invalid, .emit 0 "Return", .method 2 "m" 5 true]).map Code.errors = some [.undeclaredSelf] := by decide +kernel
example : (compile (O := String) [.openFn, .use 0 true "m" (some 2) .invalid, .emit 0 "Return", .method 2 "m" 5 false]).map Code.errors = some [.assignmentTargetInvalid] := by decide +kernel

/-! ## Violations -/

/-- C65, violated: `fn f() -> g - h  let h = 1  let g = 2` computes `h - g`: two late names with no opcode in between end up in the order of
their declarations. -/
theorem C65_violation_order : compiled (O := String)
    [.openFn, .use 0 false "g" none .invalid, .use 0 false "h" none .invalid, .emit 0 "Sub", .emit 0 "Return", .global "h" 0, .initialised "h", .global "g" 1, .initialised "g"]
      = some [[[.pushGlobal 0, .pushGlobal 1, .op "Sub", .op "Return"]]] ∧
    blockCode (O := String)
    [.openFn, .use 0 false "g" none .invalid, .use 0 false "h" none .invalid, .emit 0 "Sub", .emit 0 "Return", .global "h" 0, .initialised "h", .global "g" 1, .initialised "g"]
      0 0 = some [.pushGlobal 1, .pushGlobal 0, .op "Sub", .op "Return"] := by decide +kernel

/-- C65, violated: even if both names are declared before a method that uses them.  In a method every global is late, and resolving another
late name (here `k`, of an earlier method) moves the last outstanding name to the front: `g - h` becomes `h - g`. -/
theorem C65_violation_swap : compiled (O := String)
    [.global "g" 0, .initialised "g", .global "h" 1, .initialised "h",
     .openFn, .use 0 false "k" (some 0) .invalid, .emit 0 "Return", .openFn, .use 1 false "g" (some 0) .invalid, .use 1 false "h" (some 0) .invalid,
     .emit 1 "Sub", .emit 1 "Return", .method 0 "k" 5 false]
      = some [[[.constant 5, .op "Return"]], [[.pushGlobal 1, .pushGlobal 0, .op "Sub", .op "Return"]]] ∧
    blockCode (O := String)
    [.global "g" 0, .initialised "g", .global "h" 1, .initialised "h",
     .openFn, .use 0 false "k" (some 0) .invalid, .emit 0 "Return", .openFn, .use 1 false "g" (some 0) .invalid, .use 1 false "h" (some 0) .invalid,
     .emit 1 "Sub", .emit 1 "Return", .method 0 "k" 5 false] 1 0 = some [.pushGlobal 0, .pushGlobal 1, .op "Sub", .op "Return"] := by decide +kernel

/-- C65, violated: a late name at the end of a block is placed in front of a late name inserted before it, because the anchor of the end of the
block is the id that the first inserted opcode gets.  `if c then g() else h` as one branch with `g() ; h`: the block `[g, Call, Pop, h]`
becomes `[h, g, Call, Pop]`. -/
theorem C65_violation_end : compiled (O := String)
    [.openFn, .use 0 false "g" none .invalid, .emit 0 "Call 0", .emit 0 "Pop", .use 0 false "h" none .invalid, .branch 0, .emit 0 "Return",
     .global "g" 0, .initialised "g", .global "h" 1, .initialised "h"]
      = some [[[.pushGlobal 1, .pushGlobal 0, .op "Call 0", .op "Pop"], [.op "Return"]]] ∧
    blockCode (O := String)
    [.openFn, .use 0 false "g" none .invalid, .emit 0 "Call 0", .emit 0 "Pop", .use 0 false "h" none .invalid, .branch 0, .emit 0 "Return",
     .global "g" 0, .initialised "g", .global "h" 1, .initialised "h"] 0 0 = some [.pushGlobal 0, .op "Call 0", .op "Pop", .pushGlobal 1] := by decide +kernel

/-- C65, violated: a `self` method that is used before it is declared is loaded before `self` is. -/
theorem C65_violation_self : compiled (O := String)
    [.openFn, .use 0 false "size" (some 0) (.local 0), .emit 0 "Call 0", .emit 0 "Return", .method 0 "size" 3 true]
      = some [[[.getMethod 3, .pushLocal 0, .op "Call 0", .op "Return"]]] ∧
    blockCode (O := String)
    [.openFn, .use 0 false "size" (some 0) (.local 0), .emit 0 "Call 0", .emit 0 "Return", .method 0 "size" 3 true] 0 0
      = some [.pushLocal 0, .getMethod 3, .op "Call 0", .op "Return"] := by decide +kernel

/-- C65, violated: `print(x) ; x = x`, with `x` declared later, stores before it loads: resolving the first use moves the last one (the store)
in front of the second, and load and store have no opcode in between. -/
theorem C65_violation_store : compiled (O := String)
    [.openFn, .emit 0 "print", .use 0 false "x" none .invalid, .emit 0 "Call 1", .emit 0 "Pop", .use 0 false "x" none .invalid, .use 0 true "x" none .invalid,
     .emit 0 "Pop", .emit 0 "Return", .global "x" 0]
      = some [[[.op "print", .pushGlobal 0, .op "Call 1", .op "Pop", .storeGlobal 0, .pushGlobal 0, .op "Pop", .op "Return"]]] := by decide +kernel

/-- C65, violated: the compiler panics when the target of a pattern assignment is later declared as a method (of any module). -/
theorem C65_violation_panic_method : compiled (O := String)
    [.openFn, .pattern ["a", "b"] none .invalid, .emit 0 "Pattern 0", .emit 0 "Return", .global "a" 0, .initialised "a", .openFn, .emit 1 "Return", .method 0 "b" 3 false, .global "b" 1]
      = none := by decide +kernel

/-- C65, violated: the compiler panics on a pattern assignment in a method to globals that are declared already. -/
theorem C65_violation_panic_global : compiled (O := String)
    [.global "a" 0, .initialised "a", .global "b" 1, .initialised "b", .openFn, .pattern ["a", "b"] (some 0) .invalid, .emit 0 "Pattern 0", .emit 0 "Return", .method 0 "swap" 3 false]
      = none := by decide +kernel

/-- C65, violated: `fn foo() { bar() }  module M { fn bar() {} }  fn bar() {}`: a name used outside modules becomes a method of whichever module
declares a method of that name next. -/
theorem C65_violation_captured : compiled (O := String)
    [.global "foo" 0, .initialised "foo", .openFn, .use 0 false "bar" none .invalid, .emit 0 "Call 0", .emit 0 "Return",
     .openFn, .emit 1 "Return", .method 0 "bar" 8 false, .global "bar" 1, .initialised "bar", .openFn, .emit 2 "Return"]
      = some [[[.constant 8, .op "Call 0", .op "Return"]], [[.op "Return"]], [[.op "Return"]]] ∧
    means (O := String) [.global "foo" 0, .initialised "foo", .openFn, .use 0 false "bar" none .invalid, .emit 0 "Call 0", .emit 0 "Return",
     .openFn, .emit 1 "Return", .method 0 "bar" 8 false, .global "bar" 1, .initialised "bar", .openFn, .emit 2 "Return"] none "bar" = some (.global 1) := by decide +kernel

/-- C65, violated: `let f = fn() -> f()`: a global that is used in a function of its own initialiser is reported as undeclared. -/
theorem C65_violation_initialiser : (compile (O := String)
    [.global "f" 0, .openFn, .use 0 false "f" none .invalid, .emit 0 "Call 0", .emit 0 "Return", .initialised "f"]).map Code.errors = some [.undeclaredIdentifier "f"] := by decide +kernel

end Cordy.Late
