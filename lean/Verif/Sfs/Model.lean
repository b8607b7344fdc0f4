/-
Model of the functions that turn a block into a specification, first part:
  src/parser/utils_parser.py                  (detect_unused_instructions, compute_dependency_graph, dfs,
                                               replace_pos_instrsid, delete_unsued_instructions_from_deps)
  src/analysis/instruction_dependencies.py    (simplify_dependences)
-/
import Verif.SymExec.Model
import Verif.Common.Graph
import Mathlib.Data.List.Dedup
namespace Grey.Sfs
open Grey.SymExec (UInstr Var)

/-- `var2id` (src/parser/utils_parser.py:243): a dict comprehension, so the last producer wins. -/
def var2id (instrs : List UInstr) (v : Var) : Option String :=
  (instrs.reverse.find? fun u => decide (v ∈ u.outpt)).map (·.id)

/-- The successors of a node of `compute_dependency_graph` (src/parser/utils_parser.py:207-224): the producers of
the inputs of every instruction with that id. -/
def depSucc (instrs : List UInstr) (i : String) : List String :=
  (instrs.filter fun u => u.id == i).flatMap fun u => u.inpt.filterMap (var2id instrs)

/-- `ids_to_consider` (src/parser/utils_parser.py:246-248). -/
def roots (instrs : List UInstr) (finalStack : List Var) : List String :=
  finalStack.filterMap (var2id instrs) ++ (instrs.filter (·.storage)).map (·.id)

/-- `detect_unused_instructions` (src/parser/utils_parser.py:238-256): the nodes that the searches from the roots
(`dfs`, lines 227-235) do not reach. The fuel is larger than the number of nodes, hence than the recursion depth. -/
def detectUnused (instrs : List UInstr) (finalStack : List Var) : List String :=
  let reachable := Graph.dfsAll (depSucc instrs) (instrs.length + 1) (roots instrs finalStack) []
  (instrs.map (·.id)).filter fun i => decide (i ∉ reachable)

/-- `filtered_uninter_functions` (src/parser/cfg_block.py:572). -/
def keepUsed (instrs : List UInstr) (finalStack : List Var) : List UInstr :=
  instrs.filter fun u => decide (u.id ∉ detectUnused instrs finalStack)

/-- Successors of a position in a dependence list. -/
def posSucc (deps : List (Nat × Nat)) (i : Nat) : List Nat :=
  (deps.filter fun d => d.1 == i).map (·.2)

/-- The largest end point. -/
def maxPos (deps : List (Nat × Nat)) : Nat := deps.foldr (fun d m => max d.2 m) 0

/-- The nodes that can be reached from `v` through one or more dependences (`nx.dfs_edges` in
`nx.transitive_reduction`). The fuel bounds the length of paths; positions increase along dependences. -/
def descendants (deps : List (Nat × Nat)) : Nat → Nat → List Nat
  | 0, _ => []
  | f + 1, v => posSucc deps v ++ (posSucc deps v).flatMap (descendants deps f)

/-- The neighbours of `u` kept by `nx.transitive_reduction` (networkx, `algorithms/dag.py`):
`u_nbrs = set(G[u]); for v in G[u]: if v in u_nbrs: u_nbrs -= descendants[v]`. -/
def reduceNbrs (deps : List (Nat × Nat)) (u : Nat) : List Nat :=
  (posSucc deps u).foldl
    (fun cur v => if v ∈ cur then cur.filter fun x => decide (x ∉ descendants deps (maxPos deps) v) else cur)
    (posSucc deps u)

/-- `simplify_dependences` (src/analysis/instruction_dependencies.py:266-269) through `nx.transitive_reduction`. The
order of the resulting edges is not modelled (it has no effect). -/
def simplify (deps : List (Nat × Nat)) : List (Nat × Nat) :=
  (deps.map (·.1)).dedup.flatMap fun u => (reduceNbrs deps u).dedup.map fun v => (u, v)

/-- `replace_pos_instrsid` (src/parser/utils_parser.py:139-146); the dict maps positions to ids. `none`: the
assertion fails. -/
def replacePos (m : Nat → Option String) : List (Nat × Nat) → Option (List (String × String))
  | [] => some []
  | (i, j) :: ds => (m i).bind fun a => (m j).bind fun b => (replacePos m ds).map ((a, b) :: ·)

/-- `delete_unsued_instructions_from_deps` (src/parser/utils_parser.py:258-263), on one of the four lists. -/
def dropUnused (unused : List String) (deps : List (String × String)) : List (String × String) :=
  deps.filter fun d => decide (d.1 ∉ unused) && decide (d.2 ∉ unused)

end Grey.Sfs
