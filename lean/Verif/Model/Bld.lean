import Verif.Model.Graph
/-!
# A graph under construction

The parser adds code at the end of the graph of `Model/Graph.lean`. Here the graph is kept as the blocks before the last one, and the opcodes of the last one, which has no end yet. `Lemmas/Bld.lean` shows that each operation is that of `Model/Graph.lean`.
-/
namespace Cordy.Builder

/-- The graph under construction: the finished blocks and the code of the last one; see `push_graph` and so on in `Lemmas/Bld.lean`. -/
structure Bld (O T : Type) where
  done : Graph.Code O T Unit
  cur : List (Unit × O)

namespace Bld
variable {O T : Type}
def graph (b : Bld O T) : Graph.Code O T Unit := b.done ++ [⟨b.cur, .exit⟩]
def empty : Bld O T := ⟨[], []⟩
/-- models: graph.rs:217-225. -/
def push (b : Bld O T) (o : O) : Bld O T := { b with cur := b.cur ++ [((), o)] }
/-- models: graph.rs:234-238; the id of the branch is `b.done.length`. -/
def branchForward (b : Bld O T) : Bld O T := ⟨b.done ++ [⟨b.cur, .exit⟩], []⟩
/-- models: graph.rs:241-248. -/
def joinForward (b : Bld O T) (i : Nat) (ty : Graph.BranchType T) : Bld O T :=
  ⟨Graph.setEnd (b.done ++ [⟨b.cur, .next (b.done.length + 1)⟩]) i (Graph.mkBranch ty (i + 1) (b.done.length + 1)), []⟩
/-- models: graph.rs:256-261; the id of the branch is `b.done.length + 1`. -/
def branchReverse (b : Bld O T) : Bld O T := ⟨b.done ++ [⟨b.cur, .next (b.done.length + 1)⟩], []⟩
/-- models: graph.rs:264-270. -/
def joinReverse (b : Bld O T) (i : Nat) (ty : Graph.BranchType T) : Bld O T :=
  ⟨b.done ++ [⟨b.cur, Graph.mkBranch ty (b.done.length + 1) i⟩], []⟩
end Bld

end Cordy.Builder
