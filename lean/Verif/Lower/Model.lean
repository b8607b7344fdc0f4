/-
From an object to the program that the layout generation works on: insertion of jumps and tags (src/cfg_methods/jump_insertion.py),
splitting at function calls (src/cfg_methods/sub_block_generation.py:19-147), and the program of Verif/Program/Spec.lean.

Exceptions (KeyError, IndexError, failed assertions) are `none`. `constants.split_block` is empty (src/parser/constants.py:1), so that only
function calls split. The step after these two, src/cfg_methods/minimizing_constants_insertion.py, introduces no constant, because
`decide_if_propagated` (line 80-88) always answers no; it is not modelled.
-/
import Verif.Inline.Model
import Verif.Cfg.Tags
import Verif.Program.Spec
namespace Grey.Lower
open List Grey.Cfg Grey.Inline

/-! ### Jumps and tags -/

/-- The body of the loop of src/cfg_methods/jump_insertion.py:53-72. `ret` is `jump_value`. A jump without a target asks for a tag for `None`
in the code; here it fails. -/
def insertJump (ret : Option String) (b : Block) (T : TagDict) : Option (Block × TagDict) :=
  if b.jumpType = "unconditional" then
    b.jumpTo.map fun t => (addJump b "JUMP" [] (tagFromDict t T).1, (tagFromDict t T).2)
  else if b.jumpType = "conditional" then
    b.jumpTo.bind fun t => b.cond.map fun c => (addJump b "JUMPI" [c] (tagFromDict t T).1, (tagFromDict t T).2)
  else if b.jumpType = "FunctionReturn" then
    b.instrs.getLast?.bind fun i => ret.bind fun o =>
      if i.op = "functionReturn" then some ({ b with instrs := b.instrs.dropLast ++ [{ i with ins := o :: i.ins }] }, T) else none
  else some (b, T)

/-- src/cfg_methods/jump_insertion.py:51-72: the blocks in order. -/
def insertJumps (ret : Option String) : List Block → TagDict → Option (List Block × TagDict)
  | [], T => some ([], T)
  | b :: bs, T => (insertJump ret b T).bind fun r => (insertJumps ret bs r.2).map fun r' => (r.1 :: r'.1, r'.2)

/-- The variable that holds the place to return to (src/cfg_methods/jump_insertion.py:28-34), if the function returns. -/
def retVar (f : String) (F : Component) : Option String := if F.body.returns = [] then none else some ("out_" ++ f)

/-- src/cfg_methods/jump_insertion.py:23-37 for one function. -/
def insertFn (f : String) (F : Component) (T : TagDict) : Option (Component × TagDict) :=
  F.body.start.bind fun s =>
  (insertJumps (retVar f F) F.body.blocks (tagFromDict s T).2).map fun r =>
    (⟨(retVar f F).toList ++ F.args, { F.body with blocks := r.1 }⟩, r.2)

/-- Replacing a function of the object. -/
def setFn (O : Obj) (f : String) (F : Component) : Obj := { O with fns := fun x => if x = f then some F else O.fns x }

/-- src/cfg_methods/jump_insertion.py:22-37: the functions in the order of the dictionary. -/
def insertFns : List String → Obj → TagDict → Option (Obj × TagDict)
  | [], O, T => some (O, T)
  | f :: fs, O, T => (O.fns f).bind fun F => (insertFn f F T).bind fun r => insertFns fs (setFn O f r.1) r.2

/-- src/cfg_methods/jump_insertion.py:16-39 for one object, whose functions are `names`: the main code first. -/
def insertObj (names : List String) (O : Obj) : Option (Obj × TagDict) :=
  (insertJumps none O.main.blocks []).bind fun r => insertFns names { O with main := { O.main with blocks := r.1 } } r.2

/-! ### Splitting at calls -/

/-- src/cfg_methods/sub_block_generation.py:25-29: `function2tag`, and the dictionary of tags after it has been filled. -/
def functionTags (O : Obj) : List String → TagDict → Option (List (String × Nat) × TagDict)
  | [], T => some ([], T)
  | f :: fs, T => (O.fns f).bind fun F => F.body.start.bind fun s =>
    (functionTags O fs (tagFromDict s T).2).map fun r => ((f, (tagFromDict s T).1) :: r.1, r.2)

/-- The instruction is a function call. -/
def isCall (f2t : List (String × Nat)) (i : Instr) : Bool := (f2t.lookup i.op).isSome

/-- `CFGInstruction("PUSH [tag]", [], [tag])` -/
def pushTag (t : Nat) : Instr := ⟨"PUSH [tag]", [], [toString t]⟩

/-- Insertion after the phi functions at the beginning (src/cfg_methods/sub_block_generation.py:91-99, 118-132). -/
def afterPhis (new l : List Instr) : List Instr := l.takeWhile isPhi ++ new ++ l.dropWhile isPhi

/-- src/cfg_methods/sub_block_generation.py:102, 139: the tags are arguments of the call. -/
def tagCall (ft : Nat) (rt : Option Nat) (i : Instr) : Instr := { i with ins := toString ft :: i.ins ++ rt.toList.map toString }

/-- src/cfg_methods/sub_block_generation.py:64-102: block `cur` is split after its instruction `k`, the call `i` of a function with the
tag `ft`. -/
def splitCall (k : Nat) (i : Instr) (ft : Nat) (cur : String) (G : BlockList) (T : TagDict) : Option (BlockList × TagDict) :=
  (splitBlock k cur G).map fun G' =>
    let r := tagFromDict (secondId cur) (moveTag cur T)
    (G'.modify (firstId cur) fun B =>
      { B with instrs := afterPhis [pushTag ft, pushTag r.1] (B.instrs.dropLast ++ [tagCall ft (some r.1) i]) }, r.2)

/-- src/cfg_methods/sub_block_generation.py:56-105: the loop that looks for calls before the last instruction. Every round that splits goes on
with the second half, which is shorter, so that fuel for the number of instructions suffices. The result is the name of the last
part. -/
def splitLoop (f2t : List (String × Nat)) : Nat → String → BlockList → TagDict → Option (String × BlockList × TagDict)
  | 0, _, _, _ => none
  | n + 1, cur, G, T => (G.get cur).bind fun B =>
    match B.instrs.dropLast.findIdx? (isCall f2t) with
    | none => some (cur, G, T)
    | some k => (B.instrs[k]?).bind fun i => (f2t.lookup i.op).bind fun ft =>
      (splitCall k i ft cur G T).bind fun r => splitLoop f2t n (secondId cur) r.1 r.2

/-- src/cfg_methods/sub_block_generation.py:107-142: the last instruction of the last part is a call. -/
def finishCall (f2t : List (String × Nat)) (cur : String) (G : BlockList) (T : TagDict) : Option (BlockList × TagDict) :=
  (G.get cur).bind fun B =>
  match B.instrs.getLast? with
  | none => some (G, T)
  | some i =>
    match f2t.lookup i.op with
    | none => some (G, T)
    | some ft =>
      match B.succs with
      | [] => some (G.modify cur fun B => { B with instrs := afterPhis [pushTag ft] (B.instrs.dropLast ++ [tagCall ft none i]) }, T)
      | [s] =>
        let r := tagFromDict s T
        some (G.modify cur fun B =>
          { B with instrs := afterPhis [pushTag r.1, pushTag ft] (B.instrs.dropLast ++ [tagCall ft (some r.1) i]) }, r.2)
      | _ => none

/-- src/cfg_methods/sub_block_generation.py:46-142, for the blocks listed. -/
def splitBlocks (f2t : List (String × Nat)) : List String → BlockList → TagDict → Option (BlockList × TagDict)
  | [], G, T => some (G, T)
  | b :: bs, G, T => (G.get b).bind fun B => (splitLoop f2t (B.instrs.length + 1) b G T).bind fun r =>
    (finishCall f2t r.1 r.2.1 r.2.2).bind fun r' => splitBlocks f2t bs r'.1 r'.2

/-- src/cfg_methods/sub_block_generation.py:39-147: the blocks there are at the beginning. -/
def splitList (f2t : List (String × Nat)) (G : BlockList) (T : TagDict) : Option (BlockList × TagDict) :=
  splitBlocks f2t (G.blocks.map (·.id)) G T

/-- src/cfg_methods/sub_block_generation.py:34-35: the functions in the order of the dictionary. -/
def splitFns (f2t : List (String × Nat)) : List String → Obj → TagDict → Option (Obj × TagDict)
  | [], O, T => some (O, T)
  | f :: fs, O, T => (O.fns f).bind fun F => (splitList f2t F.body T).bind fun r => splitFns f2t fs (O.set (some f) r.1) r.2

/-- src/cfg_methods/sub_block_generation.py:23-35 for one object. -/
def splitObj (names : List String) (O : Obj) (T : TagDict) : Option (Obj × TagDict) :=
  (functionTags O names T).bind fun q => (splitList q.1 O.main q.2).bind fun r => splitFns q.1 names (O.set none r.1) r.2

/-- src/cfg_methods/preprocessing_methods.py:38-47: jumps and tags, then splitting. -/
def lower (names : List String) (O : Obj) : Option (Obj × TagDict) := (insertObj names O).bind fun r => splitObj names r.1 r.2

/-! ### The program -/

/-- src/parser/constants.py:4 -/
def terminalOps : List String := ["functionReturn", "return", "revert", "stop", "selfdestruct"]

/-- The split instruction of a block after the splitting (src/cfg_methods/sub_block_generation.py:68, 142-147). -/
def splitInstr (names : List String) (B : Block) : Option Instr :=
  B.instrs.getLast?.filter fun i => decide (i.op ∈ names ++ ["JUMP", "JUMPI"] ++ terminalOps)

/-- An instruction as the specification of a block sees it (src/parser/cfg_instruction.py:125-141): `dec` gives the name of an operation and
its literal arguments, which the instructions of Verif/Cfg/Model.lean have not separated. -/
def toIns (dec : String → String × Option (List String)) (i : Instr) : Sfs.Ins := ⟨(dec i.op).1, i.ins, i.outs, (dec i.op).2⟩

/-- A block as the layout generation sees it. The field `previous_type` is only set for first halves
(src/cfg_methods/cfg_block_actions/split_block.py:39). -/
def toLBlock (names : List String) (B : Block) : Layout.LBlock :=
  { id := B.id, comesFrom := B.comesFrom, entries := B.entries
    phis := (phis B).map fun i => { out := i.outs.headD "", args := i.ins }
    jumpTo := B.jumpTo, fallsTo := B.fallsTo, jumpType := B.jumpType
    previousType := if B.jumpType = "sub_block" then "sub_block" else ""
    finalElems := ((splitInstr names B).map (·.outs)).getD []
    splitArgs := ((splitInstr names B).map (·.ins)).getD [] }

/-- What the analyses before the layout generation say about a component (they are not modelled here: the properties of the lowering hold
whatever they say). -/
structure Analysis where
  junk : Bool
  inLoop : String → Bool
  liveIn : String → List String
  liveOut : String → List String
  depth : String → String → List Int
  level : String → Option Nat
  domPath : String → String → Option (List String)

/-- A component of the program. The arguments of the function are reversed (src/liveness/utils.py:22). -/
def toFn (names : List String) (dec : String → String × Option (List String)) (main : Bool) (A : Analysis) (C : Component) : Program.Fn :=
  { graph :=
      { blocks := C.body.blocks.map (toLBlock names), start := C.body.start.getD "", inputs := C.args.reverse, main := main
        junk := A.junk, inLoop := A.inLoop, liveIn := A.liveIn, liveOut := A.liveOut, depth := A.depth, level := A.level
        domPath := A.domPath }
    instrs := fun b => ((C.body.get b).map fun B =>
      ((if (splitInstr names B).isSome then (code B).dropLast else code B).map (toIns dec))).getD []
    split := fun b => (C.body.get b).bind fun B => (splitInstr names B).map (toIns dec) }

/-- The program: the main code is called `main`. -/
def toProg (names : List String) (dec : String → String × Option (List String)) (main : String) (A : Option String → Analysis) (O : Obj) :
    Program.Prog :=
  { fns := fun f => if f = main then (O.comp none).map (toFn names dec true (A none)) else (O.fns f).map (toFn names dec false (A (some f)))
    main := main }

end Grey.Lower
