/-
Control-flow graphs and the actions on them: splitting (src/cfg_methods/cfg_block_actions/split_block.py), merging
(merge_blocks.py), the helpers of both (utils.py), the block list (src/parser/cfg_block_list.py), removal of unreachable
blocks and successive merges (src/cfg_methods/sub_block_generation.py:171-244).

Exceptions (KeyError, failed assertions, ValueError) are `none`.
-/
import Verif.Common.Graph
namespace Grey.Cfg

/-- src/parser/cfg_instruction.py: the operation and its input and output variables. -/
structure Instr where
  op : String
  ins : List String
  outs : List String
  deriving DecidableEq, Repr

/-- src/parser/cfg_block.py:74-114. Only the fields which the actions read or write; the specification, liveness and
layout fields are set later in the pipeline. -/
structure Block where
  id : String
  instrs : List Instr
  jumpType : String
  jumpTo : Option String := none
  fallsTo : Option String := none
  cond : Option String := none
  comesFrom : List String := []
  entries : List String := []
  deriving DecidableEq, Repr

/-- src/parser/cfg_block.py:219-221 -/
def Block.succs (b : Block) : List String := b.jumpTo.toList ++ b.fallsTo.toList

/-- src/parser/cfg_block_list.py:21-29. The dictionary `blocks` is the list of its values in order: the key of a block is its
`block_id` in every place where the dictionary is written (lines 53-72, 97-100). -/
structure BlockList where
  blocks : List Block
  start : Option String
  terminals : List String := []
  returns : List String := []
  deriving DecidableEq, Repr

/-- src/parser/cfg_block_list.py:74-75 (`none` for the KeyError) -/
def BlockList.get (G : BlockList) (b : String) : Option Block := G.blocks.find? fun x => x.id == b

/-- Writing fields of the block with the given id (Python mutates the object). -/
def BlockList.modify (G : BlockList) (b : String) (f : Block → Block) : BlockList :=
  { G with blocks := G.blocks.map fun x => if x.id = b then f x else x }

/-- src/parser/cfg_block_list.py:47-72. `self.blocks[block_id] = block` replaces in place or appends. -/
def BlockList.addBlock (G : BlockList) (b : Block) (isStart : Bool := false) : Option BlockList :=
  if (G.blocks.isEmpty || isStart) && G.start.isSome then none else
  some { blocks := if G.blocks.any (fun x => x.id == b.id) then G.blocks.map (fun x => if x.id = b.id then b else x)
                   else G.blocks ++ [b]
         start := if G.blocks.isEmpty || isStart then some b.id else G.start
         terminals := if b.jumpType ∈ ["FunctionReturn", "mainExit", "terminal"] then G.terminals ++ [b.id] else G.terminals
         returns := if b.jumpType = "FunctionReturn" then G.returns ++ [b.id] else G.returns }

/-- src/parser/cfg_block_list.py:77-92 -/
def BlockList.removeBlock (G : BlockList) (b : String) : Option BlockList :=
  if G.blocks.any (fun x => x.id == b) then
    some { blocks := G.blocks.filter fun x => x.id != b
           start := if G.start = some b then none else G.start
           terminals := G.terminals.filter fun x => x != b
           returns := G.returns.filter fun x => x != b }
  else none

/-- Replacing one name by another in a list. -/
def replaceName (old new : String) (l : List String) : List String := l.map fun x => if x = old then new else x

/-- src/cfg_methods/cfg_block_actions/utils.py:6-30, for `previous_pred_id` not None. -/
def modifyComesFrom (b old new : String) (G : BlockList) : Option BlockList :=
  (G.get b).bind fun blk =>
    if old ∈ blk.comesFrom then
      some (G.modify b fun x => { x with comesFrom := replaceName old new x.comesFrom, entries := replaceName old new x.entries })
    else none

/-- src/cfg_methods/cfg_block_actions/utils.py:33-49, for `previous_successor_id` not None. -/
def modifySuccessors (b old new : String) (G : BlockList) : Option BlockList :=
  (G.get b).bind fun blk =>
    if blk.jumpTo = some old then some (G.modify b fun x => { x with jumpTo := some new })
    else if blk.fallsTo = some old then some (G.modify b fun x => { x with fallsTo := some new })
    else none

/-- `for pred in preds: modify_successors(pred, old, new)` -/
def modifyAllSuccessors (old new : String) : List String → BlockList → Option BlockList
  | [], G => some G
  | p :: ps, G => (modifySuccessors p old new G).bind (modifyAllSuccessors old new ps)

/-- `if target is not None: modify_comes_from(target, old, new)` -/
def modifyComesFromOpt (t : Option String) (old new : String) (G : BlockList) : Option BlockList :=
  match t with
  | none => some G
  | some b => modifyComesFrom b old new G

/-- src/cfg_methods/cfg_block_actions/split_block.py:8-12 -/
def firstId (b : String) : String := b ++ "f"
def secondId (b : String) : String := b ++ "s"

/-- src/cfg_methods/cfg_block_actions/split_block.py:35-39, 63-68: the first half. -/
def firstHalf (k : Nat) (blk : Block) : Block :=
  { id := firstId blk.id, instrs := blk.instrs.take (k + 1), jumpType := "sub_block", jumpTo := none,
    fallsTo := some (secondId blk.id), cond := none, comesFrom := blk.comesFrom, entries := blk.entries }

/-- src/cfg_methods/cfg_block_actions/split_block.py:42-45, 74-79: the second half. `blk` is the block as it is after the
successors of its predecessors have been modified (the block may be among them). -/
def secondHalf (k : Nat) (blk : Block) : Block :=
  { id := secondId blk.id, instrs := blk.instrs.drop (k + 1), jumpType := blk.jumpType, jumpTo := blk.jumpTo,
    fallsTo := blk.fallsTo, cond := blk.cond, comesFrom := [firstId blk.id], entries := [] }

/-- src/cfg_methods/cfg_block_actions/split_block.py:30-61: split block `b` after instruction `k`. -/
def splitBlock (k : Nat) (b : String) (G : BlockList) : Option BlockList :=
  (G.get b).bind fun blk =>
  (modifyAllSuccessors b (firstId b) blk.comesFrom G).bind fun G1 =>
  (G1.get b).bind fun blk1 =>
  (modifyComesFromOpt blk1.jumpTo b (secondId b) G1).bind fun G2 =>
  (modifyComesFromOpt blk1.fallsTo b (secondId b) G2).bind fun G3 =>
  (G3.removeBlock b).bind fun G4 =>
  (G4.addBlock (firstHalf k blk) (decide (G.start = some b))).bind fun G5 =>
  G5.addBlock (secondHalf k blk1)

/-- src/cfg_methods/cfg_block_actions/merge_blocks.py:33-42, 82-84: the combined block. -/
def mergedBlock (b1 b2 : Block) : Block :=
  { id := b1.id, instrs := b1.instrs ++ b2.instrs, jumpType := b2.jumpType, jumpTo := b2.jumpTo, fallsTo := b2.fallsTo,
    cond := b2.cond, comesFrom := b1.comesFrom ++ b2.comesFrom.filter (fun p => p != b1.id), entries := b1.entries }

/-- src/cfg_methods/cfg_block_actions/merge_blocks.py:31-90. The combined block has the name of the first one (line 14).
`jumps_to_id`, `falls_to_id` and the predecessor lists are read before the edges are modified (lines 63-68); the fields
are set on the combined block, which is not yet in the list. -/
def mergeBlocks (a b : String) (G : BlockList) : Option BlockList :=
  (G.get a).bind fun b1 =>
  (G.get b).bind fun b2 =>
  (modifyAllSuccessors a a b1.comesFrom G).bind fun G1 =>
  (modifyAllSuccessors b a (b2.comesFrom.filter fun p => p != a) G1).bind fun G2 =>
  (modifyComesFromOpt b2.jumpTo b a G2).bind fun G3 =>
  (modifyComesFromOpt b2.fallsTo b a G3).bind fun G4 =>
  (G4.removeBlock a).bind fun G5 =>
  (G5.removeBlock b).bind fun G6 =>
  G6.addBlock (mergedBlock b1 b2) (decide (G.start = some a))

/-- src/parser/cfg_block_list.py:153-165: successors of a node of the graph. -/
def BlockList.succ (G : BlockList) (b : String) : List String :=
  match G.get b with
  | some blk => blk.succs
  | none => []

/-- The nodes of the graph: the blocks, then targets of edges which are not blocks. -/
def BlockList.nodes (G : BlockList) : List String :=
  G.blocks.map (·.id) ++ (G.blocks.flatMap (·.succs)).filter fun x => !G.blocks.any fun y => y.id == x

/-- src/cfg_methods/sub_block_generation.py:240-244. `nx.descendants` is modelled by the depth-first search of
`Verif/Common/Graph.lean`; the fuel exceeds the number of nodes. -/
def nodesToRemove (G : BlockList) (start : String) : List String :=
  let reached := Graph.dfs G.succ (G.nodes.length + 2) [] start
  G.nodes.filter fun x => decide (x ∉ reached)

/-- `for node in nodes_to_remove: remove_block(node)` -/
def removeAll : List String → BlockList → Option BlockList
  | [], G => some G
  | x :: xs, G => (G.removeBlock x).bind (removeAll xs)

/-- src/cfg_methods/sub_block_generation.py:208-211 -/
def removeBlocks (G : BlockList) : Option BlockList :=
  G.start.bind fun s => removeAll (nodesToRemove G s) G

/-- src/cfg_methods/utils.py:9-22, `union_find_search`. The dictionary is a function with `ren x = x` for absent keys
(`element2element.get(element, element)`); it returns the answer and the dictionary with the path compressed. The fuel
bounds the recursion depth; `none` is Python's RecursionError. -/
def unionFind : Nat → (String → String) → String → Option (String × (String → String))
  | 0, _, _ => none
  | f + 1, ren, x =>
    if ren x = x then some (x, ren)
    else (unionFind f ren (ren x)).map fun r => (r.1, fun y => if y = x then r.1 else r.2 y)

/-- `graph.in_degree(target)`: the graph has at most one edge between two nodes. -/
def BlockList.inDegree (G : BlockList) (t : String) : Nat := (G.nodes.filter fun p => decide (t ∈ G.succ p)).length

/-- The condition of src/cfg_methods/sub_block_generation.py:232-236, without the degrees. -/
def mergeAllowed (names : List String) (A B : Block) : Bool :=
  A.instrs.isEmpty || B.instrs.isEmpty ||
    (match A.instrs.getLast? with
     | some i => decide (i.op ∉ names ++ ["JUMP", "JUMPI"])
     | none => true)

/-- src/cfg_methods/sub_block_generation.py:214-237, `_nodes_to_merge`. `names` are the split instructions
(`constants.split_block`, empty in this commit) and the function names. A KeyError (a node which is not a block) is not
modelled: such a node is skipped. -/
def nodesToMerge (names : List String) (G : BlockList) : List (String × String) :=
  G.nodes.filterMap fun u =>
    match G.get u, (G.succ u).eraseDups with
    | some A, [v] =>
      match G.get v with
      | some B => if G.inDegree v = 1 && mergeAllowed names A B then some (u, v) else none
      | none => none
    | _, _ => none

/-- The loop of src/cfg_methods/sub_block_generation.py:187-203. `n` bounds the recursion of the searches. -/
def mergeLoop (n : Nat) : List (String × String) → BlockList → (String → String) → Option BlockList
  | [], G, _ => some G
  | (u, v) :: ps, G, ren =>
    (unionFind n ren u).bind fun r =>
    (unionFind n r.2 v).bind fun r' =>
    (mergeBlocks r.1 r'.1 G).bind fun G' =>
    mergeLoop n ps G' fun y => if y = r.1 ∨ y = r'.1 then r.1 else r'.2 y

/-- src/cfg_methods/sub_block_generation.py:180-205. The searches are given fuel for as many renamings as there are merges. -/
def combineBlocks (names : List String) (G : BlockList) : Option BlockList :=
  let ps := nodesToMerge names G
  mergeLoop (ps.length + 1) ps G id

/-- src/cfg_methods/sub_block_generation.py:171-178 -/
def combineRemove (names : List String) (G : BlockList) : Option BlockList :=
  (combineBlocks names G).bind removeBlocks

end Grey.Cfg
