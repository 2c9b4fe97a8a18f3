import Verif.Model.Listing
import Verif.Props.Reporting
import Verif.Props.Peephole
/-!
# C88: What the listing of `-d` shows
-/
namespace Cordy.Listing
open Cordy.Scan (Loc)
open Cordy.VM Cordy.Graph

variable {O : Type}

/-- An opcode that loads or stores a variable of the program or of a function. -/
def isVar : Instr (Op O) Branch → Bool
  | .op (.storeGlobal _ _) | .op (.storeLocal _ _) | .op (.pushGlobal _) | .op (.pushLocal _) => true
  | _ => false

/-- The nearest line of the source that an opcode before `i` has. -/
def lineBefore (lineno : Loc → Option Nat) (code : List (Entry O)) (i : Nat) : Option Nat := (code.take i).reverse.findSome? fun e => lineno e.2.1

/-- How many opcodes of variables are before `i`. -/
def varsBefore (code : List (Entry O)) (i : Nat) : Nat := (code.take i).countP fun e => isVar e.1

/-- The text of opcode `i` when its variable is called `name`. -/
def asm (shw : O → Word) (i : Nat) (op : Instr (Op O) Branch) (name : Option Word) : Word :=
  match name with
  | some n => plainText shw i op ++ " -> ".toList ++ n
  | none => plainText shw i op

/-- Line `i` of the listing, when the variable of opcode `i` is called `name`. -/
def lineOf (shw : O → Word) (lineno : Loc → Option Nat) (w : Nat) (numbers : Bool) (code : List (Entry O)) (i : Nat) (e : Entry O) (name : Option Word) : Word :=
  (match lineno e.2.1 with
    | some l => if lineBefore lineno code i = some l then List.replicate (w + 3) ' ' else 'L' :: pad w (dec (l + 1)) ++ [':', ' ']
    | none => List.replicate (w + 3) ' ') ++
  (if numbers then pad 4 (dec (i % 10000)) else []) ++ ' ' :: asm shw i e.1 name

theorem disassembly_eq (shw : O → Word) (ip : Nat) (names : List Word) (i : Instr (Op O) Branch) :
    disassembly shw ip names i = if isVar i then (asm shw ip i names.head?, names.tail) else (asm shw ip i none, names) := by
  cases i with
  | op o =>
    cases o with
    | storeGlobal a b => cases b <;> cases names <;> rfl
    | storeLocal a b => cases b <;> cases names <;> rfl
    | pushGlobal a => cases names <;> rfl
    | pushLocal a => cases names <;> rfl
    | pop => rfl
    | popN n => rfl
    | pushUp n => rfl
    | storeUp n => rfl
    | other o => rfl
  | jump o => rfl
  | cjump t o => rfl

theorem label_eq (w : Nat) (line last : Option Nat) : label w line last =
    (match line with
      | some l => if last = some l then List.replicate (w + 3) ' ' else 'L' :: pad w (dec (l + 1)) ++ [':', ' ']
      | none => List.replicate (w + 3) ' ') := by
  cases line with
  | none => rfl
  | some l =>
    by_cases h : last = some l
    · subst h; simp [label]
    · have h2 : some l ≠ last := fun e => h e.symm
      rw [label, if_pos h2]
      simp only [if_neg h]
      rfl

theorem loop_get (shw : O → Word) (lineno : Loc → Option Nat) (w : Nat) (numbers : Bool) : ∀ (post pre : List (Entry O)) (names : List Word) (i : Nat),
    (loop shw lineno w numbers pre.length (lineBefore lineno (pre ++ post) pre.length) (names.drop (varsBefore (pre ++ post) pre.length)) post)[i]? =
      post[i]?.map fun e => lineOf shw lineno w numbers (pre ++ post) (pre.length + i) e (if isVar e.1 then names[varsBefore (pre ++ post) (pre.length + i)]? else none) := by
  intro post
  induction post with
  | nil => intro pre names i; rfl
  | cons e es ih =>
    intro pre names i
    obtain ⟨op, loc, nm⟩ := e
    have h := ih (pre ++ [(op, loc, nm)]) names
    have e1 : (pre ++ [(op, loc, nm)]) ++ es = pre ++ (op, loc, nm) :: es := by simp
    have t0 : (pre ++ (op, loc, nm) :: es).take pre.length = pre := by simp
    have t1 : (pre ++ (op, loc, nm) :: es).take (pre.length + 1) = pre ++ [(op, loc, nm)] := by
      rw [List.take_append]; simp
    have l1 : lineBefore lineno (pre ++ (op, loc, nm) :: es) (pre.length + 1) = (lineno loc).or (lineBefore lineno (pre ++ (op, loc, nm) :: es) pre.length) := by
      unfold lineBefore
      rw [t0, t1, List.reverse_append]
      simp only [List.reverse_cons, List.reverse_nil, List.nil_append, List.singleton_append, List.findSome?_cons]
      cases lineno loc <;> rfl
    have v1 : varsBefore (pre ++ (op, loc, nm) :: es) (pre.length + 1) = varsBefore (pre ++ (op, loc, nm) :: es) pre.length + (if isVar op then 1 else 0) := by
      unfold varsBefore
      rw [t0, t1, List.countP_append, List.countP_singleton]
    rw [e1, List.length_append, List.length_singleton, l1, v1] at h
    rw [loop, disassembly_eq]
    cases i with
    | zero =>
      simp only [List.getElem?_cons_zero, Option.map_some, Nat.add_zero, lineOf, label_eq]
      cases hv : isVar op
      · rfl
      · rw [if_pos rfl, if_pos rfl, List.head?_drop]
    | succ i =>
      simp only [List.getElem?_cons_succ]
      have e2 : pre.length + (i + 1) = pre.length + 1 + i := by omega
      rw [e2, ← h]
      cases hv : isVar op
      · simp [hv]
      · simp [hv, List.tail_drop]

/-- The listing has one line per opcode, in order: the label with the line of the source where it differs from that of the nearest
opcode before which has one, the number of the opcode, and the opcode. The `k`-th opcode of a variable gets the `k`-th name. -/
theorem C88_lines (shw : O → Word) (text : List Char) (numbers : Bool) (code : List (Entry O)) : (disassemble shw text numbers code).length = code.length ∧
    ∀ i, (disassemble shw text numbers code)[i]? = code[i]?.map fun e =>
      lineOf shw (Report.lineno text) (width (Report.lines text).length) numbers code i e (if isVar e.1 then (namesOf code)[varsBefore code i]? else none) := by
  have h := loop_get shw (Report.lineno text) (width (Report.lines text).length) numbers code [] (namesOf code)
  simp only [List.nil_append, List.length_nil, Nat.zero_add] at h
  refine ⟨?_, h⟩
  have : ∀ (es : List (Entry O)) (w ip : Nat) (last : Option Nat) (ns : List Word), (loop shw (Report.lineno text) w numbers ip last ns es).length = es.length := by
    intro es
    induction es with
    | nil => intros; rfl
    | cons e es ih => intros; rw [loop, List.length_cons, ih, List.length_cons]
  exact this _ _ _ _ _

/-- The opcodes of variables, and no others, have a name recorded. -/
def Named (code : List (Entry O)) : Prop := ∀ e ∈ code, e.2.2.isSome = isVar e.1

theorem names_get : ∀ (code : List (Entry O)) (_ : Named code) (i : Nat) (e : Entry O), code[i]? = some e → isVar e.1 = true →
    (namesOf code)[varsBefore code i]? = e.2.2 := by
  intro code
  induction code with
  | nil => intro _ i e h; cases h
  | cons d ds ih =>
    intro hn i e h hv
    have hd := hn d List.mem_cons_self
    cases i with
    | zero =>
      cases h
      rw [hv] at hd
      obtain ⟨n, e1⟩ := Option.isSome_iff_exists.mp hd
      simp [namesOf, e1, varsBefore]
    | succ i =>
      have h1 := ih (fun x hx => hn x (List.mem_cons_of_mem _ hx)) i e h hv
      have v1 : varsBefore (d :: ds) (i + 1) = varsBefore ds i + (if isVar d.1 then 1 else 0) := by
        unfold varsBefore
        rw [List.take_succ_cons, List.countP_cons]
      rw [v1, ← h1]
      cases hdv : isVar d.1
      · rw [hdv] at hd
        have e1 : d.2.2 = none := by cases h2 : d.2.2 <;> simp_all
        simp [namesOf, e1]
      · rw [hdv] at hd
        obtain ⟨n, e1⟩ := Option.isSome_iff_exists.mp hd
        simp [namesOf, e1]

/-- If a name is recorded for every opcode of a variable, every line shows the name of its own variable. -/
theorem C88_names_partial (shw : O → Word) (text : List Char) (numbers : Bool) (code : List (Entry O)) (h : Named code) (i : Nat) :
    (disassemble shw text numbers code)[i]? = code[i]?.map fun e =>
      lineOf shw (Report.lineno text) (width (Report.lines text).length) numbers code i e e.2.2 := by
  rw [(C88_lines shw text numbers code).2 i]
  cases he : code[i]? with
  | none => rfl
  | some e =>
    have hm := List.mem_of_getElem? he
    have hs := h e hm
    simp only [Option.map_some]
    cases hv : isVar e.1
    · rw [hv] at hs
      have e1 : e.2.2 = none := by cases h2 : e.2.2 <;> simp_all
      simp [e1]
    · rw [names_get code h i e he hv]; rfl


/-! ## The code that the compiler makes -/

/-- The opcodes of variables in a block, and no others, have a name recorded. -/
def NamedOps (b : List ((Loc × Option Word) × Op O)) : Prop := ∀ p ∈ b, p.1.2.isSome = isVar (.op p.2)

theorem NamedOps.cons {p : (Loc × Option Word) × Op O} {b : List ((Loc × Option Word) × Op O)} : NamedOps (p :: b) ↔ p.1.2.isSome = isVar (.op p.2) ∧ NamedOps b := by
  simp [NamedOps]

theorem pass1_named (b : List ((Loc × Option Word) × Op O)) (h : NamedOps b) : NamedOps (mergeStorePopLoad b) := by
  fun_induction mergeStorePopLoad b <;> simp_all [NamedOps.cons]

theorem pass2_named (b : List ((Loc × Option Word) × Op O)) (h : NamedOps b) : NamedOps (mergeStorePop b) := by
  fun_induction mergeStorePop b <;> simp_all [NamedOps.cons, isVar]

theorem takePops_named (b : List ((Loc × Option Word) × Op O)) (h : NamedOps b) : NamedOps (takePops b).2 := by
  fun_induction takePops b <;> simp_all [NamedOps.cons]

theorem pass3_named (b : List ((Loc × Option Word) × Op O)) (h : NamedOps b) : NamedOps (mergePops b) := by
  fun_induction mergePops b with
  | case1 l rest h1 h2 ih => 
    rw [NamedOps.cons] at h ⊢
    exact ⟨h.1, ih (takePops_named _ h.2)⟩
  | case2 l rest h1 h2 ih => 
    rw [NamedOps.cons] at h ⊢
    exact ⟨h.1, ih h.2⟩
  | case3 x rest h1 ih =>
    rw [NamedOps.cons] at h ⊢
    exact ⟨h.1, ih h.2⟩
  | case4 => exact h

/-- Opcodes and their locations side by side. -/
def Both (code : List (Instr (Op O) Branch)) (locs : List (Loc × Option Word)) : Prop :=
  code.length = locs.length ∧ ∀ (i : Nat) op l, code[i]? = some op → locs[i]? = some l → l.2.isSome = isVar op

theorem Both.append {c c' : List (Instr (Op O) Branch)} {l l' : List (Loc × Option Word)} (h : Both c l) (h' : Both c' l') : Both (c ++ c') (l ++ l') := by
  refine ⟨by simp [h.1, h'.1], fun i op x h1 h2 => ?_⟩
  by_cases hi : i < c.length
  · rw [List.getElem?_append_left hi] at h1
    rw [List.getElem?_append_left (h.1 ▸ hi)] at h2
    exact h.2 i op x h1 h2
  · rw [List.getElem?_append_right (by omega)] at h1
    rw [List.getElem?_append_right (by have := h.1; omega), ← h.1] at h2
    exact h'.2 _ op x h1 h2

theorem both_ops (b : List ((Loc × Option Word) × Op O)) (h : NamedOps b) : Both (b.map fun p => (.op p.2 : Instr (Op O) Branch)) (b.map Prod.fst) := by
  refine ⟨by simp, fun i op l h1 h2 => ?_⟩
  rw [List.getElem?_map, Option.map_eq_some_iff] at h1 h2
  obtain ⟨p, hp, rfl⟩ := h1
  obtain ⟨q, hq, rfl⟩ := h2
  rw [hp] at hq
  cases hq
  exact h p (List.mem_of_getElem? hp)

/-- What holds of the code while it is emitted: where a branch is to be filled in, there is no name. -/
def Inv (e : Emit (Op O) Branch (Loc × Option Word)) : Prop :=
  Both e.code e.locs ∧ ∀ b ∈ e.branches, b.1 < e.locs.length ∧ ∀ l, e.locs[b.1]? = some l → l.2 = none

theorem inv_hole (ph : Op O) (hph : isVar (.op ph) = false) (loc : Loc) (e : Emit (Op O) Branch (Loc × Option Word)) (t : Nat) (ty : BranchType Branch) (h : Inv e) :
    Inv (hole ph (loc, none) e t ty) := by
  refine ⟨h.1.append ⟨rfl, fun i op l h1 h2 => ?_⟩, fun b hb => ?_⟩
  · cases i with
    | zero => cases h1; cases h2; exact hph.symm
    | succ i => cases h1
  · simp only [hole, List.mem_append, List.mem_singleton, List.length_append, List.length_singleton] at hb ⊢
    rcases hb with hb | rfl
    · obtain ⟨h1, h2⟩ := h.2 b hb
      refine ⟨by omega, fun l hl => h2 l ?_⟩
      rwa [List.getElem?_append_left h1] at hl
    · have := h.1.1
      refine ⟨by simp [this], fun l hl => ?_⟩
      rw [this, List.getElem?_append_right (Nat.le_refl _)] at hl
      simp only [Nat.sub_self, List.getElem?_cons_zero, Option.some.injEq] at hl
      rw [← hl]

theorem inv_ops (e : Emit (Op O) Branch (Loc × Option Word)) (b : Block (Op O) Branch (Loc × Option Word)) (hb : NamedOps b.code) (h : Inv e) : Inv (emitOps e b) := by
  refine ⟨h.1.append (both_ops _ hb), fun p hp => ?_⟩
  obtain ⟨h1, h2⟩ := h.2 p hp
  simp only [emitOps, List.length_append]
  refine ⟨by omega, fun l hl => h2 l ?_⟩
  rwa [List.getElem?_append_left h1] at hl

theorem inv_blocks (ph : Op O) (hph : isVar (.op ph) = false) (loc : Loc) : ∀ (g : Code (Op O) Branch (Loc × Option Word)) (id : Nat)
    (e : Emit (Op O) Branch (Loc × Option Word)), (∀ b ∈ g, NamedOps b.code) → Inv e → Inv (emitBlocks ph (loc, none) id e g) := by
  intro g
  induction g with
  | nil => intro _ _ _ h; exact h
  | cons b bs ih =>
    intro id e hg h
    rw [emitBlocks]
    refine ih _ _ (fun x hx => hg x (List.mem_cons_of_mem _ hx)) ?_
    have h1 := inv_ops e b (hg b List.mem_cons_self) h
    unfold emitEnd
    split
    · exact h1
    · split
      · exact inv_hole ph hph loc _ _ _ h1
      · exact h1
    · dsimp only
      split
      · exact inv_hole ph hph loc _ _ _ (inv_hole ph hph loc _ _ _ h1)
      · exact inv_hole ph hph loc _ _ _ h1

theorem patch_both (starts : List Nat) (locs : List (Loc × Option Word)) : ∀ (bs : List (Nat × Nat × BranchType Branch)) (code : List (Instr (Op O) Branch)),
    Both code locs → (∀ b ∈ bs, ∀ l, locs[b.1]? = some l → l.2 = none) → Both (patch starts bs code) locs := by
  intro bs
  induction bs with
  | nil => intro _ h _; exact h
  | cons b bs ih =>
    obtain ⟨index, tgt, ty⟩ := b
    intro code h hb
    rw [patch]
    refine ih _ ⟨by simp [h.1], fun i op l h1 h2 => ?_⟩ (fun b hb' => hb b (List.mem_cons_of_mem _ hb'))
    rw [List.getElem?_set] at h1
    split at h1
    · rename_i hi
      subst hi
      split at h1
      · cases h1
        rw [hb _ List.mem_cons_self l h2]
        cases ty <;> rfl
      · cases h1
    · exact h.2 i op l h1 h2

/-- Emitting code of which every opcode of a variable has its name, after the optimiser or not, behind other such code, gives such code:
every line of the listing shows the name of its own variable. -/
theorem C88_compiled (ph : Op O) (hph : isVar (.op ph) = false) (loc : Loc) (g : Code (Op O) Branch (Loc × Option Word)) (hg : ∀ b ∈ g, NamedOps b.code)
    (code : List (Instr (Op O) Branch)) (locs : List (Loc × Option Word)) (hc : Both code locs) :
    (let r := emit ph (loc, none) g code locs; Both r.1 r.2.1 ∧ Named (r.1.zip r.2.1)) ∧
    (let r := emit ph (loc, none) (optimize g) code locs; Both r.1 r.2.1 ∧ Named (r.1.zip r.2.1)) := by
  have named : ∀ (c : List (Instr (Op O) Branch)) (l : List (Loc × Option Word)), Both c l → Named (c.zip l) := by
    intro c l h e he
    obtain ⟨i, hi⟩ := List.getElem?_of_mem he
    rw [List.getElem?_zip_eq_some] at hi
    exact h.2 i _ _ hi.1 hi.2
  have key : ∀ g : Code (Op O) Branch (Loc × Option Word), (∀ b ∈ g, NamedOps b.code) → Both (emit ph (loc, none) g code locs).1 (emit ph (loc, none) g code locs).2.1 := by
    intro g hg
    have h := inv_blocks ph hph loc g 0 ⟨code, locs, [], []⟩ hg ⟨hc, fun b hb => by cases hb⟩
    exact patch_both _ _ _ _ h.1 (fun b hb => (h.2 b hb).2)
  refine ⟨⟨key g hg, named _ _ (key g hg)⟩, ?_⟩
  have hg' : ∀ b ∈ optimize g, NamedOps b.code := by
    intro b hb
    rw [optimize, List.mem_map] at hb
    obtain ⟨b', hb', rfl⟩ := hb
    exact pass3_named _ (pass2_named _ (pass1_named _ (hg b' hb')))
  exact ⟨key _ hg', named _ _ (key _ hg')⟩


/-! ## Numbers -/

theorem width_pos (n : Nat) (h : 0 < n) : width n = width (n / 10) + 1 := by
  cases n with
  | zero => omega
  | succ n => rw [width]

theorem dec_length (n : Nat) (h : 0 < n) : (dec n).length = width n := by
  induction n using Nat.strongRecOn with
  | ind n ih =>
    rw [dec, width_pos n h]
    split
    · rename_i h1
      rw [Nat.div_eq_of_lt h1]; simp [width]
    · rw [List.length_append, ih (n / 10) (by omega) (by omega)]; rfl

theorem width_mono (m : Nat) : ∀ n, n ≤ m → width n ≤ width m := by
  induction m using Nat.strongRecOn with
  | ind m ih =>
    intro n h
    cases n with
    | zero => rw [width]; exact Nat.zero_le _
    | succ n =>
      rw [width_pos m (by omega), width]
      have := ih (m / 10) (by omega) ((n + 1) / 10) (by omega)
      omega

theorem startsFrom_last (s : Nat) (ls : List (List Char)) : s + (ls.map (fun l => byteLen l + 1)).sum ∈ Report.startsFrom s ls := by
  induction ls generalizing s with
  | nil => simp [Report.startsFrom]
  | cons l ls ih =>
    rw [Report.startsFrom]
    refine List.mem_cons_of_mem _ ?_
    have := ih (s + byteLen l + 1)
    rw [List.map_cons, List.sum_cons]
    have e : s + (byteLen l + 1 + (ls.map (fun l => byteLen l + 1)).sum) = s + byteLen l + 1 + (ls.map (fun l => byteLen l + 1)).sum := by omega
    rw [e]; exact this

theorem lineno_lt (text : List Char) (loc : Loc) (h : loc.start ≤ byteLen text) (l : Nat) (hl : Report.lineno text loc = some l) : l < (Report.lines text).length := by
  unfold Report.lineno at hl
  split at hl
  · cases hl
  · cases hl
    have hm : byteLen text + 1 ∈ Report.starts text := by
      have := startsFrom_last 0 (Report.splitNl text)
      rw [Report.splitNl_bytes, Nat.zero_add] at this
      exact this
    have hlen : (Report.starts text).length = (Report.lines text).length + 1 := by
      rw [Report.starts, Report.startsFrom_length, Report.lines, List.length_map]
    have hle := (List.takeWhile_prefix (fun u => decide (u ≤ loc.start)) (l := Report.starts text)).length_le
    have hne : (Report.starts text).takeWhile (fun u => decide (u ≤ loc.start)) ≠ Report.starts text := by
      intro e
      rw [← e] at hm
      have := List.all_eq_true.mp List.all_takeWhile _ hm
      simp at this
      omega
    have hlt : ((Report.starts text).takeWhile (fun u => decide (u ≤ loc.start))).length ≠ (Report.starts text).length := by
      intro e
      exact hne ((List.takeWhile_prefix _).eq_of_length e)
    have hpos : 0 < (Report.lines text).length := by
      rw [Report.lines, List.length_map]
      exact List.length_pos_iff.mpr (Report.splitNl_ne text)
    omega

/-- Opcodes are below one another: whatever is before the number takes the same room on every line. -/
theorem C88_aligned (shw : O → Word) (text : List Char) (numbers : Bool) (code : List (Entry O)) (i : Nat) (e : Entry O) (h : e.2.1.start ≤ byteLen text) (name : Option Word) :
    ∃ lab, lab.length = width (Report.lines text).length + 3 ∧
      lineOf shw (Report.lineno text) (width (Report.lines text).length) numbers code i e name = lab ++ ((if numbers then pad 4 (dec (i % 10000)) else []) ++ ' ' :: asm shw i e.1 name) := by
  refine ⟨_, ?_, List.append_assoc _ _ _⟩
  cases hl : Report.lineno text e.2.1 with
  | none => simp
  | some l =>
    have h1 := lineno_lt text _ h l hl
    have h2 := width_mono _ (l + 1) h1
    have h3 := dec_length (l + 1) (by omega)
    dsimp only
    split
    · simp
    · simp [pad, h3]; omega

/-- How the branch is called. -/
def branchName : BranchType Branch → Option Word
  | none => some "Jump".toList
  | some .ifTrue => some "JumpIfTrue".toList
  | some .ifFalse => some "JumpIfFalse".toList
  | some .ifTruePop => some "JumpIfTruePop".toList
  | some .ifFalsePop => some "JumpIfFalsePop".toList
  | some .testIterable => some "TestIterable".toList
  | some (.compare op) => some (op ++ "Compare".toList)
  | some .assertTest | some (.assertCompare _) => none

/-- A branch is shown with the number of the opcode to which it goes, unless it is that of an `assert`. -/
theorem C88_jump_partial (shw : O → Word) (start index : Nat) (h1 : start < 2 ^ 31) (h2 : index < 2 ^ 31) (ty : BranchType Branch) (name : Word) (hn : branchName ty = some name) :
    plainText shw index (patchInstr start index ty) = name ++ '(' :: dec start ++ [')'] := by
  have ht : target index (i32 (i32 (i32 start - i32 index) - 1)) = dec start := by
    have e1 : i32 (start : Int) = start := by unfold i32; omega
    have e2 : i32 (index : Int) = index := by unfold i32; omega
    have e3 : i32 ((start : Int) - index) = start - index := by unfold i32; omega
    have e4 : i32 ((start : Int) - index - 1) = start - index - 1 := by unfold i32; omega
    have e5 : (index : Int) + ((start : Int) - index - 1 + 1) = start := by omega
    have e6 : ((start : Int) % 2 ^ 64).toNat = start := by omega
    rw [e1, e2, e3, e4, target, e5, e6]
  cases ty with
  | none => cases hn; simp [patchInstr, plainText, app, ht]
  | some t => cases t <;> cases hn <;> simp [patchInstr, plainText, app, ht]

/-! ## What the code gets wrong -/

/-- The branches of `assert` are shown with their offset, not with where they go: from 3 to 7. -/
theorem C88_violation_assert (shw : O → Word) : plainText shw 3 (patchInstr 7 3 (some .assertTest)) = "AssertTest(3)".toList ∧
    plainText shw 3 (patchInstr 7 3 (some (.assertCompare "Equal".toList))) = "AssertCompare(Equal, 3)".toList := by
  have e : i32 (i32 (i32 (7 : Nat) - i32 (3 : Nat)) - 1) = 3 := by decide
  constructor <;> simp only [patchInstr, e, plainText] <;> decide +kernel

/-- `fn f() -> x`, `fn g(a) -> a`, `let x = 1`: the code of `f` and `g` in the listing. The load of `x`, inserted when `x` is declared
(graph.rs:122-128), has no name recorded, and is shown with the name of `a`. -/
def late : List (Entry Unit) :=
  [(.op (.pushGlobal 2), ⟨0, 1⟩, none), (.op (.other ()), ⟨0, 1⟩, none), (.op (.pushLocal 0), ⟨0, 1⟩, some ['a']), (.op (.other ()), ⟨0, 1⟩, none)]

theorem C88_violation_late : disassemble (fun _ => "Return".toList) ['x'] true late =
    ["L1: 0000 PushGlobal(2) -> a".toList, "    0001 Return".toList, "    0002 PushLocal(0)".toList, "    0003 Return".toList] := by decide +kernel

/-- Opcodes 10000 apart are shown with the same number. -/
theorem C88_violation_number : (disassemble (fun _ : Unit => []) [] true (List.replicate 10002 (.op .pop, ⟨0, 0⟩, none)))[10001]? =
    (disassemble (fun _ : Unit => []) [] true (List.replicate 10002 (.op .pop, ⟨0, 0⟩, none)))[1]? := by
  have hn : Named (List.replicate 10002 ((.op .pop, ⟨0, 0⟩, none) : Entry Unit)) := by
    intro e he
    rw [List.eq_of_mem_replicate he]; rfl
  rw [C88_names_partial _ _ _ _ hn, C88_names_partial _ _ _ _ hn, List.getElem?_replicate, List.getElem?_replicate, if_pos (by decide), if_pos (by decide)]
  have hl : Report.lineno [] ⟨0, 0⟩ = none := rfl
  generalize List.replicate 10002 _ = code
  have e1 : 10001 % 10000 = 1 % 10000 := rfl
  simp only [Option.map_some, lineOf, hl, e1]
  rfl

/-! ## Examples -/

/-- A block: `let x = 1`, `x = 2`, in lines 9 and 10 of 12, then a jump back. -/
def block : List ((Loc × Option Word) × Op Unit) :=
  [((⟨8, 1⟩, none), .other ()), ((⟨9, 1⟩, none), .other ()), ((⟨9, 1⟩, some ['x']), .storeGlobal 0 false), ((⟨0, 0⟩, none), .pop),
    ((⟨9, 1⟩, some ['y']), .storeLocal 3 false), ((⟨9, 1⟩, none), .pop), ((⟨9, 1⟩, some ['x']), .pushGlobal 0)]

example : NamedOps block := by simp [NamedOps, block, isVar]
example : isVar (O := Unit) (.op (.other ())) = false := rfl
/-- The listing of the block, optimised: the label changes with the line, names are those of the variables. -/
example : (let r := emit (.other ()) (⟨0, 0⟩, none) (optimize [⟨block, .branch (.compare "LessThan".toList) 1 0⟩, ⟨[], .exit⟩]) ([] : List (Instr (Op Unit) Branch)) []
    disassemble (fun _ => "Const".toList) (List.replicate 11 '\n') true (r.1.zip r.2.1)) =
    ["L09: 0000 Const".toList, "L10: 0001 Const".toList, "     0002 StoreGlobalPop(0) -> x".toList, "     0003 StoreLocalPop(3) -> y".toList,
      "     0004 PushGlobal(0) -> x".toList, "     0005 LessThanCompare(0)".toList] := by decide +kernel
/-- All kinds of lines, without numbers. -/
example : disassemble (fun _ : Unit => []) [] false
    [(.op (.pushLocal 12), ⟨0, 0⟩, some ['p']), (.op (.storeLocal 1 false), ⟨0, 0⟩, some ['q']), (.op (.storeGlobal 1 false), ⟨0, 1⟩, some ['r']), (.op (.popN 2), ⟨0, 1⟩, none),
      (.op (.pushUp 4), ⟨0, 0⟩, none), (.op (.storeUp 5), ⟨0, 1⟩, none), (.jump (-3), ⟨0, 0⟩, none)] =
    ["     PushLocal(12) -> p".toList, "     StoreLocal(1) -> q".toList, "L1:  StoreGlobal(1) -> r".toList, "     PopN(2)".toList,
      "     PushUpValue(4)".toList, "     StoreUpValue(5)".toList, "     Jump(4)".toList] := by decide +kernel

end Cordy.Listing
