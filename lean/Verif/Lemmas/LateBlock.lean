import Verif.Spec.LateBinding
import Mathlib.Data.List.Perm.Basic
import Mathlib.Tactic.Ring
import Mathlib.Data.List.Induction
/-!
# One block: where insertions end up
-/
namespace Cordy.Late
open Cordy.LateSpec

variable {O : Type}

theorem insert_split (pre post : Block O) (id : Nat) (p o : Op O) (h : ∀ e ∈ pre, e.1 ≠ id) :
    Block.insert (pre ++ (id, p) :: post) id o = pre ++ ((pre ++ (id, p) :: post).length, o) :: (id, p) :: post := by
  unfold Block.insert
  have : (pre ++ (id, p) :: post).findIdx? (fun e => e.1 == id) = some pre.length := by
    rw [List.findIdx?_append]
    rw [List.findIdx?_eq_none_iff.2 (by simpa using h)]
    simp [List.findIdx?_cons]
  rw [this]
  simp only
  have : ∀ (pre post : Block O) (x : Nat × Op O), (pre ++ post).insertIdx pre.length x = pre ++ x :: post := by
    intro pre
    induction pre with
    | nil => intro post x; rfl
    | cons e pre ih => intro post x; simp [ih]
  rw [this]

theorem insert_absent (b : Block O) (id : Nat) (o : Op O) (h : ∀ e ∈ b, e.1 ≠ id) : b.insert id o = b ++ [(0, o)] := by
  unfold Block.insert
  rw [List.findIdx?_eq_none_iff.2 (by simpa using h)]

/-- opcodes pushed one by one, from id `k` -/
def plainFrom : Nat → List (Op O) → Block O
  | _, [] => []
  | k, p :: ps => (k, p) :: plainFrom (k + 1) ps

theorem plainFrom_length (ps : List (Op O)) : ∀ k, (plainFrom k ps).length = ps.length := by
  induction ps with
  | nil => intro k; rfl
  | cons p ps ih => intro k; simp [plainFrom, ih]

theorem plainFrom_push (ps : List (Op O)) (o : Op O) : ∀ k, plainFrom k (ps ++ [o]) = plainFrom k ps ++ [(k + ps.length, o)] := by
  induction ps with
  | nil => intro k; rfl
  | cons p ps ih => intro k; simp [plainFrom, ih]; ring

theorem plainFrom_ops (ps : List (Op O)) : ∀ k, (plainFrom k ps).ops = ps := by
  induction ps with
  | nil => intro k; rfl
  | cons p ps ih => intro k; simpa [plainFrom, Block.ops] using ih (k + 1)

theorem plainFrom_ids (ps : List (Op O)) : ∀ k, ∀ e ∈ plainFrom k ps, k ≤ e.1 ∧ e.1 < k + ps.length := by
  induction ps with
  | nil => intro k e he; simp [plainFrom] at he
  | cons p ps ih =>
    intro k e he
    simp only [plainFrom, List.mem_cons] at he
    rcases he with rfl | he
    · simp
    · have := ih (k + 1) e he; simp; omega

theorem push_plain (ps : List (Op O)) (o : Op O) : Block.push (plainFrom 0 ps) o = plainFrom 0 (ps ++ [o]) := by
  simp [Block.push, plainFrom_push, plainFrom_length]

/-- The block with `g a` inserted before opcode `a`. -/
def layBlock (g : Nat → Block O) : Nat → List (Op O) → Block O
  | _, [] => []
  | k, p :: ps => g k ++ (k, p) :: layBlock g (k + 1) ps

theorem layBlock_nil (ps : List (Op O)) : ∀ k, layBlock (fun _ => []) k ps = plainFrom k ps := by
  induction ps with
  | nil => intro k; rfl
  | cons p ps ih => intro k; simp [layBlock, plainFrom, ih]

theorem layBlock_congr (g g' : Nat → Block O) (ps : List (Op O)) : ∀ k, (∀ i, k ≤ i → i < k + ps.length → g i = g' i) →
    layBlock g k ps = layBlock g' k ps := by
  induction ps with
  | nil => intro k _; rfl
  | cons p ps ih =>
    intro k h
    simp only [layBlock]
    rw [h k (le_refl _) (by simp), ih (k + 1) (fun i hi hi' => h i (by omega) (by simp; omega))]

/-- inserting before opcode `a` in the middle of the layout -/
theorem layBlock_split (g : Nat → Block O) (a : Nat) (x : Nat × Op O) (L : Nat) (hg : ∀ i, ∀ e ∈ g i, L ≤ e.1) (ha : a < L) :
    ∀ (ps : List (Op O)) (k : Nat), k ≤ a → a < k + ps.length →
    ∃ pre p post, layBlock g k ps = pre ++ (a, p) :: post ∧ (∀ e ∈ pre, e.1 ≠ a) ∧
      layBlock (Function.update g a (g a ++ [x])) k ps = pre ++ x :: (a, p) :: post := by
  intro ps
  induction ps with
  | nil => intro k h1 h2; simp at h2; omega
  | cons p ps ih =>
    intro k h1 h2
    by_cases hk : k = a
    · subst hk
      refine ⟨g k, p, layBlock g (k + 1) ps, rfl, ?_, ?_⟩
      · intro e he; have := hg k e he; omega
      · simp only [layBlock, Function.update_self]
        rw [layBlock_congr (Function.update g k (g k ++ [x])) g ps (k + 1)
          (fun i hi _ => Function.update_of_ne (by omega) _ _)]
        simp
    · obtain ⟨pre, q, post, e1, e2, e3⟩ := ih (k + 1) (by omega) (by simp at h2; omega)
      refine ⟨g k ++ (k, p) :: pre, q, post, ?_, ?_, ?_⟩
      · simp [layBlock, e1]
      · intro e he
        simp only [List.mem_append, List.mem_cons] at he
        rcases he with he | rfl | he
        · have := hg k e he; omega
        · simpa using hk
        · exact e2 e he
      · simp only [layBlock, Function.update_of_ne hk, e3]; simp

/-- insertions `(anchor, opcode)`, one after the other -/
def insertAll (b : Block O) (seq : List (Nat × Op O)) : Block O := seq.foldl (fun b e => b.insert e.1 e.2) b

/-- The opcodes with those of `seq` before their anchors, in the order of `seq`. -/
def lay (seq : List (Nat × Op O)) : Nat → List (Op O) → List (Op O)
  | _, [] => []
  | k, p :: ps => ((seq.filter (fun e => e.1 = k)).map Prod.snd) ++ p :: lay seq (k + 1) ps

theorem insertAll_lay (ps : List (Op O)) : ∀ (seq : List (Nat × Op O)), (∀ e ∈ seq, e.1 < ps.length) →
    ∃ g : Nat → Block O, (∀ i, ∀ e ∈ g i, ps.length ≤ e.1) ∧ insertAll (plainFrom 0 ps) seq = layBlock g 0 ps ∧
      ps.length ≤ (insertAll (plainFrom 0 ps) seq).length ∧
      ∀ i, (g i).map Prod.snd = (seq.filter (fun e => e.1 = i)).map Prod.snd := by
  intro seq
  induction seq using List.reverseRecOn with
  | nil =>
    intro _
    exact ⟨fun _ => [], by simp, by simp [insertAll, layBlock_nil], by simp [insertAll, plainFrom_length], by simp⟩
  | append_singleton seq x ih =>
    intro h
    obtain ⟨g, g1, g2, g3, g4⟩ := ih (fun e he => h e (by simp [he]))
    have hx := h x (by simp)
    have hs : insertAll (plainFrom 0 ps) (seq ++ [x]) = (insertAll (plainFrom 0 ps) seq).insert x.1 x.2 := by simp [insertAll]
    obtain ⟨pre, p, post, e1, e2, e3⟩ := layBlock_split g x.1 ((insertAll (plainFrom 0 ps) seq).length, x.2) ps.length g1 hx ps 0
      (by omega) (by omega)
    refine ⟨Function.update g x.1 (g x.1 ++ [((insertAll (plainFrom 0 ps) seq).length, x.2)]), ?_, ?_, ?_, ?_⟩
    · intro i e he
      by_cases hi : i = x.1
      · subst hi
        rw [Function.update_self] at he
        simp only [List.mem_append, List.mem_singleton] at he
        rcases he with he | rfl
        · exact g1 _ _ he
        · exact g3
      · rw [Function.update_of_ne hi] at he; exact g1 i e he
    · rw [hs, e3, g2, e1, insert_split _ _ _ _ _ e2]
    · rw [hs, g2, e1, insert_split _ _ _ _ _ e2]
      rw [g2, e1] at g3
      simp at g3 ⊢; omega
    · intro i
      by_cases hi : i = x.1
      · subst hi; simp [Function.update_self, g4]
      · rw [Function.update_of_ne hi, g4]
        rw [List.filter_append]
        have : List.filter (fun e : Nat × Op O => e.1 = i) [x] = [] := by simp; exact fun h => hi h.symm
        rw [this]; simp

theorem layBlock_ops (g : Nat → Block O) (seq : List (Nat × Op O))
    (h : ∀ i, (g i).map Prod.snd = (seq.filter (fun e => e.1 = i)).map Prod.snd) (ps : List (Op O)) :
    ∀ k, (layBlock g k ps).ops = lay seq k ps := by
  induction ps with
  | nil => intro k; rfl
  | cons p ps ih =>
    intro k
    have := ih (k + 1)
    unfold Block.ops at this ⊢
    simp [layBlock, lay, h, this]

theorem insertAll_ops (ps : List (Op O)) (seq : List (Nat × Op O)) (h : ∀ e ∈ seq, e.1 < ps.length) :
    (insertAll (plainFrom 0 ps) seq).ops = lay seq 0 ps := by
  obtain ⟨g, _, g2, _, g4⟩ := insertAll_lay ps seq h
  rw [g2, layBlock_ops g seq g4]

/-! ## Two orders of the same insertions -/

/-- An insertion: where, what, and when. -/
structure Entry (O : Type) where
  anchor : Nat
  code : Option (List (Op O))
  when : Nat

/-- If the entries in the order of time are those in the order of the text, and in the text different ones follow in the order of time, the
two sequences of opcodes are the same. -/
theorem same_codes {α : Type} (c : α → Option (List (Op O))) (w : α → Nat) : ∀ (R T : List α), T.Perm R →
    T.Pairwise (fun a b => w a ≤ w b) → R.Pairwise (fun a b => c a = c b ∨ w a < w b) → T.map c = R.map c := by
  intro R
  induction R with
  | nil => intro T h _ _; rw [h.eq_nil]
  | cons r R ih =>
    intro T hp hs hR
    have hr : r ∈ T := hp.symm.subset (by simp)
    obtain ⟨T1, T2, rfl⟩ := List.append_of_mem hr
    have hp' : (T1 ++ T2).Perm R := (List.perm_cons r).1 ((List.perm_middle.symm).trans hp)
    rw [List.pairwise_cons] at hR
    have hs' : (T1 ++ T2).Pairwise (fun a b => w a ≤ w b) :=
      hs.sublist (List.Sublist.append (List.Sublist.refl T1) (List.sublist_cons_self r T2))
    have hih := ih _ hp' hs' hR.2
    have h1 : ∀ x ∈ T1, c x = c r := by
      intro x hx
      have hxr : w x ≤ w r := by
        have := List.pairwise_append.1 hs
        exact this.2.2 x hx r (by simp)
      have hxR : x ∈ R := hp'.subset (by simp [hx])
      rcases hR.1 x hxR with h | h
      · exact h.symm
      · omega
    rw [List.map_append, List.map_cons] at *
    have h2 : ∀ (T1 : List α), (∀ x ∈ T1, c x = c r) → T1.map c ++ c r :: T2.map c = c r :: (T1.map c ++ T2.map c) := by
      intro T1
      induction T1 with
      | nil => intro _; rfl
      | cons t T1 iht =>
        intro h
        simp only [List.map_cons, List.cons_append]
        rw [iht (fun x hx => h x (by simp [hx])), h t (by simp)]
    rw [h2 T1 h1, hih]; rfl

/-! ## A block as it is written -/

def opsOf : List (Item O) → List (Op O)
  | [] => []
  | .op o :: r => o :: opsOf r
  | .late _ :: r => opsOf r

/-- the late uses, with the number of opcodes before them -/
def lateOf : Nat → List (Item O) → List (Entry O)
  | _, [] => []
  | n, .op _ :: r => lateOf (n + 1) r
  | n, .late u :: r => ⟨n, u.settled, u.when⟩ :: lateOf n r

/-- the block with every late use in its place -/
def flat : List (Item O) → List (Op O)
  | [] => []
  | .op o :: r => o :: flat r
  | .late u :: r => (u.settled.getD []) ++ flat r

theorem opsOf_append (l r : List (Item O)) : opsOf (l ++ r) = opsOf l ++ opsOf r := by
  induction l with
  | nil => rfl
  | cons i l ih => cases i <;> simp [opsOf, ih]

theorem lateOf_append (l r : List (Item O)) : ∀ n, lateOf n (l ++ r) = lateOf n l ++ lateOf (n + (opsOf l).length) r := by
  induction l with
  | nil => intro n; rfl
  | cons i l ih => intro n; cases i <;> simp [opsOf, lateOf, ih, Nat.add_assoc, Nat.add_comm 1]

theorem opsOf_ops (l : List (Op O)) : opsOf (l.map .op) = l := by
  induction l with
  | nil => rfl
  | cons o l ih => simp [opsOf, ih]

theorem lateOf_ops (l : List (Op O)) : ∀ n, lateOf n (l.map .op) = [] := by
  induction l with
  | nil => intro n; rfl
  | cons o l ih => intro n; simp [lateOf, ih]

theorem mem_lateOf (its : List (Item O)) : ∀ n, ∀ e ∈ lateOf n its, ∃ l u r, its = l ++ .late u :: r ∧
    e = ⟨n + (opsOf l).length, u.settled, u.when⟩ := by
  induction its with
  | nil => intro n e he; simp [lateOf] at he
  | cons i its ih =>
    intro n e he
    cases i with
    | op o =>
      obtain ⟨l, u, r, h1, h2⟩ := ih (n + 1) e he
      refine ⟨.op o :: l, u, r, by simp [h1], ?_⟩
      rw [h2]; simp [opsOf]; omega
    | late u =>
      simp only [lateOf, List.mem_cons] at he
      rcases he with rfl | he
      · exact ⟨[], u, its, rfl, by simp [opsOf]⟩
      · obtain ⟨l, v, r, h1, h2⟩ := ih n e he
        exact ⟨.late u :: l, v, r, by simp [h1], by rw [h2]; simp [opsOf]⟩

theorem opsOf_eq_nil {l : List (Item O)} : opsOf l = [] ↔ ∀ o, .op o ∉ l := by
  induction l with
  | nil => simp [opsOf]
  | cons i l ih =>
    cases i with
    | op o => simp only [opsOf]; exact ⟨fun h => (by cases h), fun h => absurd (List.mem_cons_self ..) (h o)⟩
    | late u => simp [opsOf, ih]

/-- the insertions, as `insertAll` takes them -/
def seqOf (t : List (Entry O)) : List (Nat × Op O) :=
  t.filterMap (fun e => match e.code with | some [o] => some (e.anchor, o) | _ => none)

/-- every late use is one opcode -/
def Single (t : List (Entry O)) : Prop := ∀ e ∈ t, ∃ o, e.code = some [o]

theorem lay_shift (s s' : List (Nat × Op O)) (ps : List (Op O)) : ∀ k, (∀ i, k ≤ i → s.filter (fun e => e.1 = i) = s'.filter (fun e => e.1 = i)) →
    lay s k ps = lay s' k ps := by
  induction ps with
  | nil => intro k _; rfl
  | cons p ps ih => intro k h; simp only [lay]; rw [h k (le_refl _), ih (k + 1) (fun i hi => h i (by omega))]

theorem lateOf_anchor (its : List (Item O)) (n : Nat) : ∀ e ∈ lateOf n its, n ≤ e.anchor := by
  intro e he
  obtain ⟨l, u, r, _, rfl⟩ := mem_lateOf its n e he
  simp

theorem mem_seqOf {t : List (Entry O)} {x : Nat × Op O} (h : x ∈ seqOf t) : ∃ e ∈ t, e.anchor = x.1 ∧ e.code = some [x.2] := by
  unfold seqOf at h
  rw [List.mem_filterMap] at h
  obtain ⟨e, he, h⟩ := h
  refine ⟨e, he, ?_⟩
  split at h
  · rename_i o ho; cases h; exact ⟨rfl, ho⟩
  · cases h

theorem lay_lateOf : ∀ (its : List (Item O)) (n : Nat), Single (lateOf n its) → (∀ e ∈ lateOf n its, e.anchor < n + (opsOf its).length) →
    lay (seqOf (lateOf n its)) n (opsOf its) = flat its := by
  intro its
  induction its with
  | nil => intro n _ _; rfl
  | cons i its ih =>
    intro n hs ha
    cases i with
    | op o =>
      simp only [opsOf, lateOf, lay, flat]
      have h0 : (seqOf (lateOf (n + 1) its)).filter (fun e => e.1 = n) = [] := by
        rw [List.filter_eq_nil_iff]
        intro x hx
        obtain ⟨e, he, h1, _⟩ := mem_seqOf hx
        have := lateOf_anchor its (n + 1) e he
        simp; omega
      rw [h0, ih (n + 1) hs (by intro e he; have := ha e he; simp [opsOf] at this; omega)]
      rfl
    | late u =>
      have hsu := hs ⟨n, u.settled, u.when⟩ (by simp [lateOf])
      obtain ⟨o, ho⟩ := hsu
      simp only at ho
      have hs' : Single (lateOf n its) := fun e he => hs e (by simp [lateOf, he])
      have ha' : ∀ e ∈ lateOf n its, e.anchor < n + (opsOf its).length := by
        intro e he; have := ha e (by simp [lateOf, he]); simpa [opsOf] using this
      have hn : n < n + (opsOf its).length := by
        have := ha ⟨n, u.settled, u.when⟩ (by simp [lateOf]); simpa [opsOf] using this
      have hih := ih n hs' ha'
      simp only [opsOf, lateOf, flat]
      have hseq : seqOf (⟨n, u.settled, u.when⟩ :: lateOf n its) = (n, o) :: seqOf (lateOf n its) := by
        simp [seqOf, ho]
      rw [hseq, ho, ← hih]
      cases hps : opsOf its with
      | nil => simp [hps] at hn
      | cons p ps =>
        simp only [lay]
        rw [lay_shift ((n, o) :: seqOf (lateOf n its)) (seqOf (lateOf n its)) ps (n + 1) (fun i hi => by
          rw [List.filter_cons]; simp; omega)]
        simp

/-- the entries of one anchor -/
theorem order_entries : ∀ (its : List (Item O)) (n : Nat),
    (∀ l₁ u₁ l₂ u₂ l₃, its = l₁ ++ .late u₁ :: l₂ ++ .late u₂ :: l₃ → (∀ o, .op o ∉ l₂) → u₁.settled = u₂.settled ∨ u₁.when < u₂.when) →
    (lateOf n its).Pairwise (fun a b => a.anchor = b.anchor → a.code = b.code ∨ a.when < b.when) := by
  intro its
  induction its with
  | nil => intro n _; exact List.Pairwise.nil
  | cons i its ih =>
    intro n h
    have h' : ∀ l₁ u₁ l₂ u₂ l₃, its = l₁ ++ .late u₁ :: l₂ ++ .late u₂ :: l₃ → (∀ o, .op o ∉ l₂) → u₁.settled = u₂.settled ∨ u₁.when < u₂.when := by
      intro l₁ u₁ l₂ u₂ l₃ he hl
      exact h (i :: l₁) u₁ l₂ u₂ l₃ (by simp [he]) hl
    cases i with
    | op o => exact ih (n + 1) h'
    | late u =>
      simp only [lateOf, List.pairwise_cons]
      refine ⟨?_, ih n h'⟩
      intro e he hn
      obtain ⟨l, v, r, h1, rfl⟩ := mem_lateOf its n e he
      simp only at hn
      have hl : opsOf l = [] := List.eq_nil_of_length_eq_zero (by omega)
      exact h [] u l v r (by simp [h1]) (opsOf_eq_nil.1 hl)

theorem seqOf_filter (t : List (Entry O)) (hs : Single t) (i : Nat) :
    ((seqOf t).filter (fun e => e.1 = i)).map (fun e => some [e.2]) = (t.filter (fun e => e.anchor = i)).map Entry.code := by
  induction t with
  | nil => rfl
  | cons e t ih =>
    obtain ⟨o, ho⟩ := hs e (by simp)
    have hih := ih (fun e he => hs e (by simp [he]))
    have hseq : seqOf (e :: t) = (e.anchor, o) :: seqOf t := by simp [seqOf, ho]
    rw [hseq, List.filter_cons, List.filter_cons]
    by_cases h : e.anchor = i
    · simp [h, hih, ho]
    · simp [h, hih]

/-- The final code of a block: `t` are the insertions in the order of time. -/
theorem block_final (its : List (Item O)) (t : List (Entry O)) (hp : t.Perm (lateOf 0 its)) (hsorted : t.Pairwise (fun a b => a.when ≤ b.when))
    (hs : Single (lateOf 0 its))
    (order : ∀ l₁ u₁ l₂ u₂ l₃, its = l₁ ++ .late u₁ :: l₂ ++ .late u₂ :: l₃ → (∀ o, .op o ∉ l₂) → u₁.settled = u₂.settled ∨ u₁.when < u₂.when)
    (last : ∀ l u, its = l ++ [.late u] → ∀ v, .late v ∉ l) :
    (insertAll (plainFrom 0 (opsOf its)) (seqOf t)).ops = flat its := by
  by_cases hend : ∃ l u, its = l ++ [.late u]
  · obtain ⟨l, u, rfl⟩ := hend
    have hl := last l u rfl
    have hlops : ∀ (l : List (Item O)), (∀ v, .late v ∉ l) → ∃ ps : List (Op O), l = ps.map .op := by
      intro l
      induction l with
      | nil => intro _; exact ⟨[], rfl⟩
      | cons i l ih =>
        intro h
        obtain ⟨ps, rfl⟩ := ih (fun v hv => h v (by simp [hv]))
        cases i with
        | op o => exact ⟨o :: ps, rfl⟩
        | late v => exact absurd (List.mem_cons_self ..) (h v)
    obtain ⟨ps, rfl⟩ := hlops l hl
    rw [lateOf_append, lateOf_ops] at hp hs
    simp only [opsOf_ops, List.nil_append, lateOf] at hp hs
    obtain ⟨o, ho⟩ := hs ⟨0 + ps.length, u.settled, u.when⟩ (by simp)
    simp only at ho
    rw [List.perm_singleton] at hp
    subst hp
    have hseq : seqOf [(⟨0 + ps.length, u.settled, u.when⟩ : Entry O)] = [(ps.length, o)] := by simp [seqOf, ho]
    rw [hseq, opsOf_append, opsOf_ops]
    simp only [opsOf, List.append_nil, insertAll, List.foldl_cons, List.foldl_nil]
    rw [insert_absent _ _ _ (by intro e he; have := plainFrom_ids ps 0 e he; omega)]
    have hflat : ∀ ps : List (Op O), flat (ps.map Item.op ++ [.late u]) = ps ++ [o] := by
      intro ps
      induction ps with
      | nil => simp [flat, ho]
      | cons p ps ih => simp [flat, ih]
    rw [hflat]
    have := plainFrom_ops ps 0
    unfold Block.ops at this ⊢
    simp [this]
  · have ha : ∀ e ∈ lateOf 0 its, e.anchor < 0 + (opsOf its).length := by
      intro e he
      obtain ⟨l, u, r, rfl, rfl⟩ := mem_lateOf its 0 e he
      rw [opsOf_append]
      simp only [opsOf, List.length_append]
      have : opsOf r ≠ [] := by
        intro h0
        apply hend
        rcases List.eq_nil_or_concat r with rfl | ⟨r', x, rfl⟩
        · exact ⟨l, u, rfl⟩
        · cases x with
          | op o => exact absurd (by simp) ((opsOf_eq_nil.1 h0) o)
          | late v => exact ⟨l ++ .late u :: r', v, by simp⟩
      have := List.length_pos_iff.2 this
      omega
    rw [insertAll_ops]
    · rw [← lay_lateOf its 0 hs ha]
      have hst : Single t := fun e he => hs e (hp.subset he)
      have hkey : ∀ i, ((seqOf t).filter (fun e => e.1 = i)).map Prod.snd = ((seqOf (lateOf 0 its)).filter (fun e => e.1 = i)).map Prod.snd := by
        intro i
        have hsame := same_codes (O := O) Entry.code Entry.when ((lateOf 0 its).filter (fun e => e.anchor = i)) (t.filter (fun e => e.anchor = i))
          (hp.filter _) (hsorted.filter _) (by
            have := (order_entries its 0 order).filter (fun e => decide (e.anchor = i))
            refine this.imp_of_mem ?_
            intro a b ha hb h
            rw [List.mem_filter] at ha hb
            simp only [decide_eq_true_eq] at ha hb
            exact h (ha.2.trans hb.2.symm))
        rw [← seqOf_filter t hst i, ← seqOf_filter _ hs i] at hsame
        have := congrArg (List.map (fun c : Option (List (Op O)) => ((c.getD []).head?))) hsame
        simp only [List.map_map] at this
        have h2 := congrArg (List.filterMap id) this
        simpa [List.filterMap_map, Function.comp_def] using h2
      have : ∀ (ps : List (Op O)) k, lay (seqOf t) k ps = lay (seqOf (lateOf 0 its)) k ps := by
        intro ps
        induction ps with
        | nil => intro k; rfl
        | cons p ps ih => intro k; simp only [lay]; rw [hkey k, ih]
      exact this _ _
    · intro x hx
      obtain ⟨e, he, h1, _⟩ := mem_seqOf hx
      have := ha e (hp.subset he)
      omega

end Cordy.Late
