/-
Model of the driver of the layout generation, src/liveness/layout_generation.py (LayoutGeneration), and of
src/liveness/stack_layout_methods.py (unification_block_dict). Python exceptions are the values of `LErr`.

Parameters instead of models: the dominance tree (its paths and the level of every block) and the loop forest, which come
from networkx or from src/graphs/cfg.py, and the liveness and depth information (Verif/Liveness).
-/
import Verif.Layout.Model
import Verif.Common.Graph
namespace Grey.Layout

/-- The fields of a block that the driver reads (src/parser/cfg_block.py). `finalElems` is `final_stack_elements`,
`splitArgs` are the arguments of the split instruction, if there is one. -/
structure LBlock where
  id : String
  comesFrom : List String
  entries : List String
  phis : List Phi
  jumpTo : Option String
  fallsTo : Option String
  jumpType : String
  previousType : String
  finalElems : List String
  splitArgs : List String
  deriving DecidableEq, Repr

/-- The successors, as listed at src/liveness/layout_generation.py:368-370. -/
def LBlock.succs (b : LBlock) : List String := b.jumpTo.toList ++ b.fallsTo.toList

/-- `block.entries if block.entries else comes_from` (src/liveness/stack_layout_methods.py:90). -/
def LBlock.preds (b : LBlock) : List String := if b.entries = [] then b.comesFrom else b.entries

/-- What the constructor of `LayoutGeneration` stores (src/liveness/layout_generation.py:73-126). `inputs` is
`function_inputs[block_list.name]`, `depth` is `variable_order[block].get(x, (-1,))`, `level` is `block_depth` (`none`:
`KeyError`), `domPath a b` is the shortest path in the dominance tree, if there is one. -/
structure Component where
  blocks : List LBlock
  start : String
  inputs : List String
  main : Bool
  junk : Bool
  inLoop : String → Bool
  liveIn : String → List String
  liveOut : String → List String
  depth : String → String → List Int
  level : String → Option Nat
  domPath : String → String → Option (List String)

/-- The ways the driver can fail: a missing key or index, the assertion of `unify_stacks_dominant`, and (only in the model)
too small a number of iterations. -/
inductive LErr where
  | key
  | assertion
  | fuel
  deriving DecidableEq, Repr

/-- A value or a `KeyError`. -/
def orKey {A : Type} : Option A → Except LErr A
  | some a => .ok a
  | none => .error .key

/-- The local variables of `_construct_code_from_block_list` (src/liveness/layout_generation.py:343-349), dictionaries with
the newest binding first; `specs` holds for every block the input and the output stack that its specification is built from.
`extra` are the pairs of a block and a value in its `extra_values` (always the same for the in and the out state,
lines 332-333). -/
structure DState where
  inStacks : List (String × List String)
  outStacks : List (String × List String)
  extra : List (String × String)
  traversed : List String
  heap : List (Nat × Nat × String)
  specs : List (String × List String × List String)
  deriving DecidableEq, Repr

/-- `live_vars.union(extra_values)` (src/liveness/liveness_state.py:43-49). -/
def DState.vars (st : DState) (live : String → List String) (b : String) : List String :=
  live b ++ (((st.extra.filter fun e => e.1 == b).map (·.2)).filter fun x => decide (x ∉ live b)).dedup

/-- `_can_have_junk` (src/liveness/layout_generation.py:128-129). -/
def Component.canJunk (c : Component) (b : String) : Bool := c.main && !c.inLoop b && c.junk

/-- `unification_block_dict` (src/liveness/stack_layout_methods.py:76-95), at the key `b`: later joins overwrite. -/
def Component.unif (c : Component) (b : String) : Option LBlock :=
  c.blocks.reverse.find? fun j => decide (1 < j.comesFrom.length) && decide (b ∈ j.comesFrom)

/-- The block with an id. -/
def Component.block (c : Component) (n : String) : Option LBlock := c.blocks.find? fun b => b.id == n

/-- The successors of a block in the graph, each once. -/
def Component.cfgSuccs (c : Component) (n : String) : List String := ((c.block n).map (·.succs.dedup)).getD []

/-- The predecessors of a block in the graph. -/
def Component.cfgPreds (c : Component) (n : String) : List String :=
  (c.blocks.filter fun b => decide (n ∈ b.succs)).map (·.id)

/-- `_preserve_junk_dominance` (src/liveness/layout_generation.py:250-278). -/
def Component.junkPath (c : Component) (a b : String) : Option (List String) :=
  (c.domPath a b).bind fun path =>
    if path.length < 6 then some path
    else if 3 < (((path.drop 1).dropLast).flatMap c.cfgSuccs).countP (fun s => !c.canJunk s) then none
    else some path

/-- `values_to_propagate` (src/liveness/stack_layout_methods.py:408-414). -/
def valuesToPropagate (dict : String → List (String × String)) (preds : List String) (original : String) : List String :=
  (preds.filter fun p => decide (p ≠ original)).flatMap fun p =>
    ((dict p).filter fun q => q.2 == "bottom").filterMap fun q => lookup (dict original) q.1

/-- `preserve_stack_dominant_path` (src/liveness/layout_generation.py:300-336). The explicit stack of the search is replaced
by recursion: the set of blocks found is the same. -/
def preservePath (c : Component) (st : DState) (path outLast toPropagate : List String) : Except LErr DState :=
  match path.head?, path.getLast? with
  | some first, some last =>
    let values := toPropagate ++ outLast.filter fun x => decide (x ∉ st.vars c.liveOut last)
    if values = [] then .ok st
    else
      let found := (Graph.dfs c.cfgPreds (c.blocks.length + 1) [first] last).filter fun b => decide (b ≠ first)
      .ok { st with extra := found.flatMap (fun b => values.map fun v => (b, v)) ++ st.extra }
  | _, _ => .error .key

/-- The input stack (src/liveness/layout_generation.py:146-160). -/
def inputStack (c : Component) (st : DState) (b : LBlock) : Except LErr (List String) :=
  if b.comesFrom ≠ [] then
    if 1 < (b.comesFrom.filter fun p => (st.outStacks.lookup p).isSome).length then orKey (st.inStacks.lookup b.id)
    else orKey (b.comesFrom.head?.bind fun p => st.outStacks.lookup p)
  else .ok c.inputs

/-- The unification of the stacks before the join `j` (src/liveness/layout_generation.py:180-219), started from the block `b`
with input stack `input`. -/
def unifyAt (c : Component) (st : DState) (b : LBlock) (input : List String) (j : LBlock) : Except LErr DState :=
  let live := fun x => if x = j.id then st.vars c.liveIn j.id else st.vars c.liveOut x
  let path := match j.preds with
    | [p, q] => c.junkPath p q
    | _ => none
  let finish (u : Unified) (st : DState) : DState :=
    { st with outStacks := u.stacks ++ st.outStacks, inStacks := (j.id, u.combined) :: st.inStacks }
  match path with
  | some path =>
    match unifyDominant j.id j.preds live j.phis (c.depth j.id) b.id input (c.canJunk b.id) with
    | some u =>
      match (path.getLast?).bind fun p => u.stacks.lookup p with
      | some s =>
        (preservePath c st path s (valuesToPropagate (phiFunc j.id j.preds live j.phis) j.preds b.id)).map (finish u)
      | none => .error .key
    | none => .error .assertion
  | none => .ok (finish (unifyBrothers j.id j.preds live j.phis (c.depth j.id) b.id input (c.canJunk b.id)) st)

/-- The output stack of a block that precedes no join (src/liveness/layout_generation.py:221-241), and how much of it is
stored. `propagateOutput` never fails (`terminal_layout`). -/
def ownOutput (c : Component) (st : DState) (b : LBlock) (input : List String) : Except LErr (List String × Nat) :=
  if b.jumpType ∈ ["terminal", "mainExit"] ∨ b.previousType ∈ ["terminal", "mainExit"] then
    (orKey (propagateOutput input b.finalElems (st.vars c.liveIn b.id) (st.vars c.liveOut b.id) (c.depth b.id)
      b.splitArgs)).map fun o => (o, o.length)
  else
    let r := outputLayout input b.finalElems (st.vars c.liveOut b.id) (c.depth b.id) (c.canJunk b.id)
    .ok (names r.1, r.2)

/-- The part of `_construct_code_from_block` after the input stack is known: the state and the output stack
(src/liveness/layout_generation.py:166-241). -/
def outputStack (c : Component) (st : DState) (b : LBlock) (input : List String) : Except LErr (DState × List String) :=
  let own : Except LErr (DState × List String) := (ownOutput c st b input).map fun r =>
    ({ st with outStacks := (b.id, r.1.take r.2) :: st.outStacks }, r.1)
  match c.unif b.id with
  | none => own
  | some j =>
    if 1 < j.preds.length then
      match st.outStacks.lookup b.id with
      | some o => .ok (st, o)
      | none => (unifyAt c st b input j).bind fun st1 => (orKey (st1.outStacks.lookup b.id)).map fun o => (st1, o)
    else own

/-- `_construct_code_from_block` (src/liveness/layout_generation.py:131-248). The specification is built from
`substDuplicates` of the input stack and from the output stack (Verif/Sfs/BuildModel.lean). -/
def constructBlock (c : Component) (st : DState) (b : LBlock) : Except LErr DState :=
  (inputStack c st b).bind fun input0 =>
    let input := if c.canJunk b.id then forgetValues input0 (st.vars c.liveIn b.id) else input0
    (outputStack c { st with inStacks := (b.id, input) :: st.inStacks } b input).map fun r =>
      { r.1 with specs := (b.id, input, r.2) :: r.1.specs }

/-- The order of the heap: tuples of level, depth and name. -/
def heapLe (a b : Nat × Nat × String) : Bool :=
  decide (a.1 < b.1) || (decide (a.1 = b.1) && (decide (a.2.1 < b.2.1) || (decide (a.2.1 = b.2.1) && decide (a.2.2 ≤ b.2.2))))

/-- The least element of a list. -/
def heapMin : List (Nat × Nat × String) → Option (Nat × Nat × String)
  | [] => none
  | a :: l => match heapMin l with
    | none => some a
    | some b => some (if heapLe a b then a else b)

/-- Pushing the successors (src/liveness/layout_generation.py:372-374). -/
def pushSuccs (c : Component) (traversed : List String) (depth : Nat) : List String → List (Nat × Nat × String) →
    Except LErr (List (Nat × Nat × String))
  | [], h => .ok h
  | s :: ss, h =>
    if s ∈ traversed then pushSuccs c traversed depth ss h
    else (orKey (c.level s)).bind fun l => pushSuccs c traversed depth ss ((l, depth + 1, s) :: h)

/-- The loop of `_construct_code_from_block_list` (src/liveness/layout_generation.py:351-374). -/
def driveLoop (c : Component) : Nat → DState → Except LErr DState
  | 0, _ => .error .fuel
  | f + 1, st =>
    match heapMin st.heap with
    | none => .ok st
    | some e =>
      let heap := st.heap.erase e
      if e.2.2 ∈ st.traversed then driveLoop c f { st with heap := heap }
      else
        (orKey (c.block e.2.2)).bind fun b =>
          (constructBlock c { st with heap := heap, traversed := e.2.2 :: st.traversed } b).bind fun st1 =>
            (pushSuccs c st1.traversed e.2.1 b.succs st1.heap).bind fun h => driveLoop c f { st1 with heap := h }

/-- The state at the beginning (src/liveness/layout_generation.py:343-349). -/
def DState.init (c : Component) : DState := ⟨[], [], [], [], [(0, 0, c.start)], []⟩

/-- `_construct_code_from_block_list` (src/liveness/layout_generation.py:338-376). Every block is constructed at most once and
pushes at most two others, which bounds the iterations (`layouts_fail_only_at_assertion`). -/
def drive (c : Component) : Except LErr DState := driveLoop c (2 * c.blocks.length + 2) (DState.init c)

end Grey.Layout
