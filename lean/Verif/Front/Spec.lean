/-
Specification for C63: the objects which the front end can handle, as they come from the parser.
-/
import Verif.Lower.Spec
import Verif.Prep.Pipeline
namespace Grey.Front
open List Grey.Cfg Grey.Inline Grey.Prep Grey.Lower

/-- A source object: it is well-formed as in C60 (strict single assignment, coherent graphs, calls with the right numbers of arguments and
results; tidy graphs), and
- all blocks can be reached, and blocks without successors are not empty;
- the kind of a block says how it ends, and no block is the first half of another one;
- phi functions have an argument for each predecessor;
- operations that end the execution are at the ends of blocks without successors;
- a call ends a block without successors exactly if the function never returns;
- `invalid` is not used (see the findings in DESIGN.md), nor operations which the compiler introduces;
- functions are not called like operations. -/
structure Compilable (names : List String) (O : Obj) : Prop where
  nodup : names.Nodup
  fns : ∀ f, f ∈ names ↔ ∃ F, O.fns f = some F
  source : SourceOk O
  tidy : ∀ c C, O.comp c = some C → Tidy C.body
  reach : ∀ c C, O.comp c = some C → ∀ s, C.body.start = some s → ∀ x X, C.body.get x = some X → Graph.Reach C.body.succ s x
  full : ∀ c C, O.comp c = some C → ∀ x X, C.body.get x = some X → X.succs = [] → X.instrs ≠ []
  kinds : ∀ c C, O.comp c = some C → ∀ x X, C.body.get x = some X → KindOk O c.isNone X ∧ X.jumpType ≠ "sub_block"
  phiEntries : ∀ c C, O.comp c = some C → ∀ x X, C.body.get x = some X → phis X ≠ [] → ∀ p ∈ X.comesFrom, p ∈ X.entries
  ends : ∀ c C, O.comp c = some C → ∀ x X, C.body.get x = some X → ∀ l i l', X.instrs = l ++ i :: l' → i.op ∈ haltOps → l' = [] ∧ X.succs = []
  tails : ∀ c C, O.comp c = some C → ∀ x X, C.body.get x = some X → ∀ l i l' F, X.instrs = l ++ i :: l' → O.fns i.op = some F →
    (¬ Returns F ↔ l' = [] ∧ X.succs = [])
  ops : ∀ c C, O.comp c = some C → ∀ x X, C.body.get x = some X → ∀ i ∈ X.instrs, i.op ∉ ["JUMP", "JUMPI", "PUSH [tag]", "invalid"]
  names : ∀ f ∈ names, f ∉ ["PhiFunction", "functionReturn", "JUMP", "JUMPI", "PUSH [tag]"] ++ haltOps

end Grey.Front
