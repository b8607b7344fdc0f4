/-
Reading the control-flow graphs of solc: src/parser/parser.py, with the constructor of instructions (src/parser/cfg_instruction.py:125-141), the
exits of blocks (src/parser/cfg_block.py:291-325) and the list of blocks (src/parser/cfg_block_list.py:47-72, modelled in Verif/Cfg/Model.lean).

Exceptions (missing keys, indices out of range) are `none`. A JSON document is given by records; the keys `in`, `op`, `out`, `id`, `instructions`,
`type` (of an exit) and `blocks` are there (the code raises an exception otherwise, utils_parser.py:8-30, parser.py:179-182), the other keys have the
default values which the code uses. An operation stands for its name together with its literal arguments (as everywhere in Verif/Cfg, see `toIns`);
the recorded literal assignments, the liveness information of the document and subobjects are left out, and so is the translation of the built-in
functions (cfg_instruction.py:363-389; the case `built_in_op`, or a document without them), which is modelled in Verif/Parser/Builtins.lean.
-/
import Verif.Cfg.Model
import Verif.Inline.Spec
namespace Grey.Parser
open List Grey.Cfg Grey.Inline

/-- An instruction of the document. -/
structure JInstr where
  op : String
  ins : List String
  outs : List String
  deriving DecidableEq, Repr

/-- The exit of a block. -/
structure JExit where
  type : String
  targets : List String := []
  cond : Option String := none
  returnValues : Option (List String) := none
  deriving DecidableEq, Repr

/-- A block of the document. -/
structure JBlock where
  id : String
  instrs : List JInstr
  exit : JExit
  type : String := ""
  entries : List String := []
  deriving DecidableEq, Repr

/-- A function of the document. -/
structure JFun where
  arguments : List String
  entry : String
  blocks : List JBlock
  deriving DecidableEq, Repr

/-- An object of the document. `functions` is a dictionary. -/
structure JObj where
  name : String
  blocks : List JBlock
  functions : List (String × JFun)
  deriving DecidableEq, Repr

/-- src/parser/cfg_instruction.py:125-137: arguments are reversed, except those of phi functions; results are reversed, and reversed again if there
is an underscore in the name of the operation. -/
def mkInstr (op : String) (ins outs : List String) : Instr :=
  { op, ins := if op ≠ "PhiFunction" then ins.reverse else ins,
    outs := if '_' ∈ op.toList then outs.reverse.reverse else outs.reverse }

/-- src/parser/parser.py:14-18 -/
def blockName (obj b : String) : String := obj ++ "_" ++ b

/-- src/parser/parser.py:21-39. Recording a literal assignment needs an argument and a result (line 29). -/
def parseInstr (i : JInstr) : Option Instr :=
  if i.op = "LiteralAssignment" ∧ (i.outs = [] ∨ i.ins = []) then none else some (mkInstr i.op i.ins i.outs)

/-- src/parser/cfg_block.py:291-325. `targets` are the targets of the exit with the names that the blocks have in the list (parser.py:88). -/
def setJumpInfo (ex : JExit) (targets : List String) (B : Block) : Option Block :=
  if ex.type = "ConditionalJump" then
    match targets[0]?, targets[1]?, ex.cond with
    | some t0, some t1, some c => some { B with jumpType := "conditional", fallsTo := some t0, jumpTo := some t1, cond := some c }
    | _, _, _ => none
  else if ex.type = "Jump" then
    targets[0]?.map fun t => { B with jumpType := "unconditional", jumpTo := some t }
  else if ex.type = "Terminated" then some { B with jumpType := "terminal" }
  else if ex.type = "" then some { B with jumpType := "falls_to" }
  else if ex.type = "MainExit" then some { B with jumpType := "mainExit" }
  else if ex.type = "FunctionReturn" then
    ex.returnValues.map fun vs =>
      { B with jumpType := "FunctionReturn", instrs := B.instrs ++ [mkInstr "functionReturn" vs.reverse []] }
  else some B

/-- src/parser/parser.py:79-117: the block and the targets of its exit. In a block of type "FunctionReturn" lists stand for the instructions
(line 93), and looking at their results fails (cfg_block.py:359). -/
def parseBlock (obj : String) (b : JBlock) : Option (Block × List String) :=
  let targets := b.exit.targets.map (blockName obj)
  (if b.type = "FunctionReturn" then (if b.instrs = [] then some [] else none) else b.instrs.mapM parseInstr).bind fun is =>
  (setJumpInfo b.exit targets { id := blockName obj b.id, instrs := is, jumpType := b.type }).map fun B =>
    ({ B with entries := b.entries.map (blockName obj) }, targets)

/-- `comes_from[k].append(v)` for a dictionary of lists that are empty by default (parser.py:137, 144-145). -/
def pushTo (d : List (String × List String)) (k v : String) : List (String × List String) :=
  if d.any (fun e => e.1 == k) then d.map fun e => if e.1 = k then (e.1, e.2 ++ [v]) else e else d ++ [(k, [v])]

/-- src/parser/parser.py:140-150: the blocks and the dictionary `comes_from`. -/
def readBlocks (obj : String) : List JBlock → BlockList → List (String × List String) → Option (BlockList × List (String × List String))
  | [], G, d => some (G, d)
  | b :: bs, G, d =>
    (parseBlock obj b).bind fun (B, targets) =>
    (G.addBlock B).bind fun G' => readBlocks obj bs G' (targets.foldl (fun d t => pushTo d t B.id) d)

/-- src/parser/parser.py:120-128, for one key. -/
def addComesFrom (k : String) : List String → BlockList → Option BlockList
  | [], G => some G
  | p :: ps, G =>
    if k ≠ p then
      (G.get k).bind fun _ => addComesFrom k ps (G.modify k fun B => { B with comesFrom := B.comesFrom ++ [p] })
    else addComesFrom k ps G

/-- src/parser/parser.py:120-128 -/
def updateComesFrom : List (String × List String) → BlockList → Option BlockList
  | [], G => some G
  | (k, ps) :: d, G => (addComesFrom k ps G).bind (updateComesFrom d)

/-- src/parser/parser.py:131-161 -/
def parseBlockList (obj : String) (blocks : List JBlock) : Option BlockList :=
  (readBlocks obj blocks ⟨[], none, [], []⟩ []).bind fun (G, d) => updateComesFrom d G

/-- src/parser/parser.py:164-175 -/
def parseFunction (f : String) (F : JFun) : Option Component :=
  (parseBlockList f F.blocks).map fun G => ⟨F.arguments.reverse, G⟩

/-- src/parser/parser.py:200-221: the main code, then the functions. -/
def parseObject (J : JObj) : Option Obj :=
  (parseBlockList J.name J.blocks).bind fun G =>
  (J.functions.mapM fun e => (parseFunction e.1 e.2).map fun C => (e.1, C)).map fun fs =>
    ⟨G, fun f => fs.lookup f⟩

end Grey.Parser
