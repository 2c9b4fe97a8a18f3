import Verif.Model.Bld
import Verif.Props.Graph
/-! The graph under construction: C36, C64. -/
namespace Cordy.Builder
open Cordy.Graph (Place gstep Code Built GRun GHalts)
variable {O T : Type}

/-! ## The builder is that of the graph -/

theorem modify_append_last {α : Type} (xs : List α) (x : α) (f : α → α) : List.modify (xs ++ [x]) xs.length f = xs ++ [f x] := by
  induction xs with
  | nil => rfl
  | cons a xs ih => simp [List.modify_succ_cons, ih]

theorem graph_length (b : Bld O T) : b.graph.length = b.done.length + 1 := by simp [Bld.graph]

theorem setEnd_last (b : Bld O T) (e : Graph.End T) : Graph.setEnd b.graph b.done.length e = b.done ++ [⟨b.cur, e⟩] := by
  simp only [Graph.setEnd, Bld.graph]
  rw [modify_append_last]

theorem push_graph (b : Bld O T) (o : O) : (b.push o).graph = Graph.push b.graph () o := by
  simp only [Bld.push, Bld.graph, Graph.push, List.length_append, List.length_singleton, Nat.add_sub_cancel]
  rw [modify_append_last]

theorem branchForward_graph (b : Bld O T) : Graph.branchForward b.graph = (b.branchForward.graph, b.done.length) := by
  simp [Bld.graph, Bld.branchForward, Graph.branchForward]

theorem joinForward_graph (b : Bld O T) (i : Nat) (ty : Graph.BranchType T) : (b.joinForward i ty).graph = Graph.joinForward b.graph i ty := by
  simp only [Graph.joinForward, graph_length, Nat.add_sub_cancel, setEnd_last]
  simp [Bld.joinForward, Bld.graph]

theorem branchReverse_graph (b : Bld O T) : Graph.branchReverse b.graph = (b.branchReverse.graph, b.done.length + 1) := by
  simp only [Graph.branchReverse, graph_length, Nat.add_sub_cancel, setEnd_last]
  simp [Bld.branchReverse, Bld.graph]

theorem joinReverse_graph (b : Bld O T) (i : Nat) (ty : Graph.BranchType T) : (b.joinReverse i ty).graph = Graph.joinReverse b.graph i ty := by
  simp only [Graph.joinReverse, graph_length, Nat.add_sub_cancel, setEnd_last]
  simp [Bld.joinReverse, Bld.graph]

theorem empty_graph : (Bld.empty : Bld O T).graph = Graph.new := rfl

theorem built_push {b : Bld O T} {op : List Nat} (h : Built b.graph op) (o : O) : Built (b.push o).graph op := by
  rw [push_graph]; exact .push _ _ h
theorem built_branchForward {b : Bld O T} {op : List Nat} (h : Built b.graph op) : Built b.branchForward.graph (b.done.length :: op) := by
  have := Built.branchForward h
  rw [branchForward_graph] at this
  exact this
theorem built_joinForward {b : Bld O T} {op : List Nat} (h : Built b.graph op) (i : Nat) (ty) (hi : i ∈ op) : Built (b.joinForward i ty).graph (op.erase i) := by
  rw [joinForward_graph]; exact .joinForward i ty h hi
theorem built_branchReverse {b : Bld O T} {op : List Nat} (h : Built b.graph op) : Built b.branchReverse.graph op := by
  have := Built.branchReverse h
  rw [branchReverse_graph] at this
  exact this
theorem built_joinReverse {b : Bld O T} {op : List Nat} (h : Built b.graph op) (i : Nat) (ty) (hi : i ≤ b.done.length) : Built (b.joinReverse i ty).graph op := by
  rw [joinReverse_graph]; exact .joinReverse i ty h (by rw [graph_length]; omega)

/-! ## Growing -/

/-- The code of a block. -/
def codeAt (g : Code O T Unit) (i : Nat) : Option (List (Unit × O)) := g[i]?.map (·.code)

/-- Nothing that is finished changes, and the current block goes on. -/
structure Grow (b b' : Bld O T) : Prop where
  le : b.done.length ≤ b'.done.length
  keep : ∀ (i : Nat), i < b.done.length → b'.done[i]? = b.done[i]?
  cur : ∃ r, codeAt b'.graph b.done.length = some (b.cur ++ r)

theorem Grow.refl (b : Bld O T) : Grow b b := ⟨Nat.le_refl _, fun _ _ => rfl, [], by simp [codeAt, Bld.graph]⟩

theorem graph_get_lt (b : Bld O T) (i : Nat) (h : i < b.done.length) : b.graph[i]? = b.done[i]? := by
  simp [Bld.graph, List.getElem?_append_left h]
theorem graph_get_len (b : Bld O T) : b.graph[b.done.length]? = some ⟨b.cur, .exit⟩ := by simp [Bld.graph]

theorem Grow.trans {a b c : Bld O T} (h : Grow a b) (h' : Grow b c) : Grow a c := by
  refine ⟨Nat.le_trans h.le h'.le, fun i hi => ?_, ?_⟩
  · rw [h'.keep i (Nat.lt_of_lt_of_le hi h.le), h.keep i hi]
  · obtain ⟨r, hr⟩ := h.cur
    rcases Nat.lt_or_eq_of_le h.le with hl | hl
    · refine ⟨r, ?_⟩
      rw [codeAt, graph_get_lt _ _ (Nat.lt_of_lt_of_le hl h'.le), h'.keep _ hl, ← graph_get_lt _ _ hl]
      exact hr
    · obtain ⟨r', hr'⟩ := h'.cur
      rw [hl, codeAt, graph_get_len] at hr
      simp at hr
      exact ⟨r ++ r', by rw [hl, hr', hr]; simp⟩

theorem Grow.push {a b : Bld O T} (h : Grow a b) (o : O) : Grow a (b.push o) :=
  h.trans ⟨Nat.le_refl _, fun _ _ => rfl, [((), o)], by rw [show b.done.length = (b.push o).done.length from rfl, codeAt, graph_get_len]; rfl⟩

theorem Grow.append {a b : Bld O T} (h : Grow a b) (e : Graph.End T) : Grow a ⟨b.done ++ [⟨b.cur, e⟩], []⟩ :=
  h.trans ⟨by simp, fun i hi => List.getElem?_append_left hi, [], by rw [codeAt, graph_get_lt _ _ (by simp)]; simp⟩

theorem Grow.branchForward {a b : Bld O T} (h : Grow a b) : Grow a b.branchForward := h.append _
theorem Grow.branchReverse {a b : Bld O T} (h : Grow a b) : Grow a b.branchReverse := h.append _
theorem Grow.joinReverse {a b : Bld O T} (h : Grow a b) (i : Nat) (ty) : Grow a (b.joinReverse i ty) := h.append _

theorem branchForward_len (b : Bld O T) : b.branchForward.done.length = b.done.length + 1 := by simp [Bld.branchForward]
theorem branchReverse_len (b : Bld O T) : b.branchReverse.done.length = b.done.length + 1 := by simp [Bld.branchReverse]
theorem joinReverse_len (b : Bld O T) (i : Nat) (ty) : (b.joinReverse i ty).done.length = b.done.length + 1 := by simp [Bld.joinReverse]
theorem joinForward_len (b : Bld O T) (i : Nat) (ty) : (b.joinForward i ty).done.length = b.done.length + 1 := by
  simp [Bld.joinForward, Graph.setEnd_length]
theorem push_len (b : Bld O T) (o : O) : (b.push o).done.length = b.done.length := rfl

theorem joinForward_get (b : Bld O T) (i : Nat) (ty : Graph.BranchType T) (j : Nat) (hj : j < b.done.length) (hne : j ≠ i) :
    (b.joinForward i ty).done[j]? = b.done[j]? := by
  simp [Bld.joinForward, Graph.setEnd, List.getElem?_modify, Ne.symm hne, List.getElem?_append_left hj]

theorem joinForward_get_i (b : Bld O T) (i : Nat) (ty : Graph.BranchType T) (hi : i < b.done.length) (x : Graph.Block O T Unit) (hx : b.done[i]? = some x) :
    (b.joinForward i ty).done[i]? = some ⟨x.code, Graph.mkBranch ty (i + 1) (b.done.length + 1)⟩ := by
  simp [Bld.joinForward, Graph.setEnd, List.getElem?_modify, List.getElem?_append_left hi, hx]

theorem joinForward_get_len (b : Bld O T) (i : Nat) (ty : Graph.BranchType T) (hi : i < b.done.length) :
    (b.joinForward i ty).done[b.done.length]? = some ⟨b.cur, .next (b.done.length + 1)⟩ := by
  simp [Bld.joinForward, Graph.setEnd, List.getElem?_modify, Nat.ne_of_lt hi]

theorem Grow.joinForward {a b : Bld O T} (h : Grow a b) (i : Nat) (ty : Graph.BranchType T) (hi : a.done.length ≤ i) (hi' : i < b.done.length) :
    Grow a (b.joinForward i ty) := by
  refine ⟨by rw [joinForward_len]; have := h.le; omega, fun j hj => ?_, ?_⟩
  · rw [joinForward_get _ _ _ _ (by have := h.le; omega) (by omega), h.keep j hj]
  · obtain ⟨r, hr⟩ := h.cur
    refine ⟨r, ?_⟩
    have hal : a.done.length < b.done.length := by omega
    rw [codeAt, graph_get_lt _ _ hal] at hr
    rw [codeAt, graph_get_lt _ _ (by rw [joinForward_len]; omega)]
    obtain ⟨x, hx⟩ : ∃ x, b.done[a.done.length]? = some x := ⟨_, List.getElem?_eq_getElem hal⟩
    by_cases hai : a.done.length = i
    · subst hai
      rw [joinForward_get_i _ _ _ hal x hx]
      rw [hx] at hr; simpa using hr
    · rw [joinForward_get _ _ _ _ hal hai]; exact hr

theorem Grow.push' (b : Bld O T) (o : O) : Grow b (b.push o) := (Grow.refl b).push o

end Cordy.Builder
