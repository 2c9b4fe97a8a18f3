import Verif.Lemmas.Resolve
/-!
# C44: names resolve to the innermost visible declaration
-/
namespace Cordy.Resolve

/-- After any history of declarations, blocks and functions, the table of the function being parsed lists what the scopes say: the open blocks, innermost first, with the names, and which of them are visible. Here is also: what is refused, what a block declares once, what the end of a block forgets. -/
theorem C44_scopes (native : String → Bool) (ops : List Op) (p : Spec) (hp : specRun native ops = some p) :
    ((run false native ops).cur :: (run false native ops).encl).map (fun f => f.locals.reverse.map (fun l => (⟨l.name, l.id, l.initialized⟩ : Decl)))
      = p.env.map List.flatten := by
  have h := (run_rel (fix := false) hp).fns
  generalize (run false native ops).next = nx at h
  generalize (run false native ops).cur :: (run false native ops).encl = fs at h
  generalize p.env = e at h
  induction fs generalizing e with
  | nil => cases e with
    | nil => rfl
    | cons => exact h.elim
  | cons f fs ih =>
    cases e with
    | nil => exact h.elim
    | cons bs e =>
      simp only [List.map_cons]
      rw [ih e h.2, ← h.1.flat]
      rfl

/-- Missing: variables two or more functions out. For every history: a name that is declared in the function itself or in the function around it, or whose declaration is a global, or that is not declared, is resolved as the scopes say. -/
theorem C44_resolves_partial (native : String → Bool) (ops : List Op) (p : Spec) (hp : specRun native ops = some p) (nm : Ref) (hs : nm ≠ .synthetic)
    (hc : lookup (p.env.take 2) nm ≠ none ∨ lookup (withoutGlobals p.env) nm = none) :
    Right native p.env nm (resolve false native (run false native ops) nm).1 (resolve false native (run false native ops) nm).2 :=
  resolve_right (run_rel hp) (noNative_run hp) nm hs (by tauto)

/-- Missing: as above. Any name, any number of functions out, if the upvalues that the enclosing functions took over from functions around them sit at the place of their index; in particular if there are none yet. -/
theorem C44_aligned_partial (native : String → Bool) (ops : List Op) (p : Spec) (hp : specRun native ops = some p) (nm : Ref) (hs : nm ≠ .synthetic)
    (ha : ∀ f ∈ (run false native ops).encl, ∀ p j : Nat, f.ups[p]? = some ⟨false, j⟩ → p = j) :
    Right native p.env nm (resolve false native (run false native ops) nm).1 (resolve false native (run false native ops) nm).2 :=
  resolve_right (run_rel hp) (noNative_run hp) nm hs (Or.inr (Or.inl ha))

/-- With the one change `fix` in `resolve_upvalue` (use the position of the entry that is found), every name is resolved right after every history. So that line is the only reason why the code does not have the property. -/
theorem C44_fixed (native : String → Bool) (ops : List Op) (p : Spec) (hp : specRun native ops = some p) (nm : Ref) (hs : nm ≠ .synthetic) :
    Right native p.env nm (resolve true native (run true native ops) nm).1 (resolve true native (run true native ops) nm).2 :=
  resolve_right (run_rel hp) (noNative_run hp) nm hs (Or.inl rfl)

/-- What an upvalue means does not change while its function is parsed, whatever comes after the reference: `later` may open and close blocks and functions inside. When the function ends, its closure is made from the same tables. -/
theorem C44_upvalue_stable (fix : Bool) (native : String → Bool) (s : St) (later : List Op) (i id : Nat) (h : meaning s (.upvalue i) = some id)
    (hin : ∀ pre suf, later = pre ++ suf → s.encl.length ≤ (pre.foldl (step fix native) s).encl.length) :
    let s' := later.foldl (step fix native) s
    chain (s'.encl.drop (s'.encl.length - s.encl.length)) i = some id := by
  have hg := run_grows (fix := fix) (native := native) later s (k := s.encl.length) hin
  have : outermost s.encl.length s.encl = s.encl := by simp [outermost]
  rw [this] at hg
  exact hg.chain h

/-! ## A program that is compiled wrong -/

/-- `fn a() { let y; fn b() { let z; fn c() { z; y; y ...` -/
def violation : List Op :=
  [.declare "a" true, .openFn, .openBlock, .declare "y" false, .init 1,
   .declare "b" true, .openFn, .openBlock, .declare "z" false, .init 3,
   .declare "c" true, .openFn, .openBlock, .ref (.named "z"), .ref (.named "y")]

/-- The second `y` reads `z` (declaration 3), not `y` (declaration 1): in the table of `b`, entry 1 is the upvalue with index 0 that stands for `y`, and the code takes the index 0 for its position. -/
theorem C44_violation_deep :
    let s := run false (fun _ => false) violation
    specRun (fun _ => false) violation ≠ none ∧
    (∀ p, specRun (fun _ => false) violation = some p → lookup p.env (.named "y") = some 1 ∧ lookup p.env (.named "z") = some 3) ∧
    (resolve false (fun _ => false) s (.named "y")).2 = .upvalue 0 ∧
    meaning (resolve false (fun _ => false) s (.named "y")).1 (.upvalue 0) = some 3 := by
  refine ⟨by decide +kernel, ?_, by decide +kernel, by decide +kernel⟩
  intro p hp
  have : specRun (fun _ => false) violation = some
    { env := [[[], []], [[⟨.named "c", 4, true⟩, ⟨.named "z", 3, true⟩], []], [[⟨.named "b", 2, true⟩, ⟨.named "y", 1, true⟩], []], [[⟨.named "a", 0, true⟩]]], next := 5 } := by
    decide +kernel
  rw [this] at hp
  cases hp
  decide +kernel

/-- The value of a default argument is parsed in the function around (mod.rs:512-600), but its code runs in the function that is called (mod.rs:621-625). In `fn foo() { let x; fn bar(b, a = x) ...`, the `x` of the default value is resolved to the local 0 of `foo`, which is `x` (declaration 1); in `bar`, where the code runs, local 0 is the parameter `b` (declaration 3). -/
theorem C44_violation_default :
    let s := run false (fun _ => false) [.declare "foo" true, .openFn, .openBlock, .declare "x" false, .init 1]
    let s' := [Op.declare "bar" true, .openFn, .declare "b" false, .init 3, .declare "a" false, .init 4].foldl (step false (fun _ => false)) s
    (resolve false (fun _ => false) s (.named "x")).2 = .loc 0 ∧ meaning s (.loc 0) = some 1 ∧ meaning s' (.loc 0) = some 3 := by
  decide +kernel

/-! ## The hypotheses are met -/

/-- The first reference to `y` in the same program is resolved right, two functions out. -/
example : (resolve false (fun _ => false) (run false (fun _ => false) violation.dropLast) (.named "y")).2 = .upvalue 1 ∧
    meaning (resolve false (fun _ => false) (run false (fun _ => false) violation.dropLast) (.named "y")).1 (.upvalue 1) = some 1 := by
  decide +kernel

example : ∀ f ∈ (run false (fun _ => false) violation.dropLast).encl, ∀ p j : Nat, f.ups[p]? = some ⟨false, j⟩ → p = j := by
  have : (run false (fun _ => false) violation.dropLast).encl.map (·.ups) = [[⟨true, 0⟩], [], []] := by decide +kernel
  intro f hf p j hp
  have hm : f.ups ∈ (run false (fun _ => false) violation.dropLast).encl.map (·.ups) := List.mem_map.2 ⟨f, hf, rfl⟩
  rw [this] at hm
  simp only [List.mem_cons, List.not_mem_nil, or_false] at hm
  rcases hm with hm | hm | hm
  · rw [hm] at hp
    cases p <;> simp at hp
  · rw [hm] at hp; simp at hp
  · rw [hm] at hp; simp at hp

/-- Shadowing, and a variable that is not visible in its own initial value: `let x; { let x = x` refers to the outer one. -/
example : ∃ p, specRun (fun _ => false) [.declare "x" false, .init 0, .openBlock, .declare "x" false] = some p ∧
    lookup p.env (.named "x") = some 0 ∧ lookup (p.env.take 2) (.named "x") ≠ none :=
  ⟨{ env := [[[⟨.named "x", 1, false⟩], [⟨.named "x", 0, true⟩]]], next := 2 }, by decide +kernel, by decide +kernel, by decide +kernel⟩

/-- A history inside the function, as in `C44_upvalue_stable`. -/
example : ∀ pre suf, [Op.openBlock, .ref (.named "y"), .closeBlock, .openFn, .ref (.named "z"), .closeFn] = pre ++ suf →
    (run false (fun _ => false) violation).encl.length ≤ (pre.foldl (step false (fun _ => false)) (run false (fun _ => false) violation)).encl.length := by
  intro pre suf h
  have : pre = List.take pre.length [Op.openBlock, .ref (.named "y"), .closeBlock, .openFn, .ref (.named "z"), .closeFn] := by rw [h]; simp
  have hlen : pre.length ≤ 6 := by have := congrArg List.length h; simp at this; omega
  have all : ∀ n : Fin 7, (run false (fun _ => false) violation).encl.length ≤
      ((List.take n.val [Op.openBlock, .ref (.named "y"), .closeBlock, .openFn, .ref (.named "z"), .closeFn]).foldl (step false (fun _ => false))
        (run false (fun _ => false) violation)).encl.length := by decide +kernel
  rw [this]
  exact all ⟨pre.length, by omega⟩

end Cordy.Resolve
