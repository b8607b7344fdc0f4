/-
Model of the generation of the assembly of a whole object (src/solution_generation/reconstruct_bytecode.py:181-300).
-/
import Verif.Output.Placement
import Verif.Program.Compile
namespace Grey.Program
open List Grey.Layout Grey.Sfs Grey.SymExec Grey.Output

/-- How the block ends, as far as the order of the blocks is concerned
(src/solution_generation/reconstruct_bytecode.py:243-286). `other`: an exception is raised. -/
def exitOf (B : LBlock) : Output.Exit :=
  if B.jumpType = "conditional" then match B.jumpTo, B.fallsTo with
    | some j, some d => .conditional j d
    | _, _ => .other
  else if B.jumpType = "unconditional" then match B.jumpTo with
    | some j => .unconditional j
    | none => .other
  else if B.jumpType = "falls_to" then match B.fallsTo with
    | some d => .fallsTo d
    | none => .other
  else if B.jumpType = "sub_block" then match B.fallsTo with
    | some d => .subBlock d
    | none => .other
  else if B.jumpType = "terminal" then .terminal
  else if B.jumpType = "FunctionReturn" then .functionReturn
  else if B.jumpType = "mainExit" then .mainExit
  else .other

/-- The items of the split instruction (src/solution_generation/reconstruct_bytecode.py:215-220). -/
def splitItems (isFn : String → Bool) : Option Ins → Option (List Asm)
  | some i => asmForSplit isFn i
  | none => some []

/-- The items of a block without its tag (src/solution_generation/reconstruct_bytecode.py:118-149 and 210-234); `isFn` are the
names of the functions. `none`: an exception is raised. Simplification: a block of the type `sub_block` ends with a call
(`split_block` is empty, src/parser/constants.py:1), so that no blocks are combined. -/
def blockItems (isFn : String → Bool) (F : Fn) (B : LBlock) (es : List Entry) (ids : List String) : Option (List Asm) :=
  (asmFromIds es ids).bind fun asm =>
    (splitItems isFn (F.split B.id)).bind fun last =>
      if B.jumpType = "sub_block" then if (F.split B.id).any (fun (i : Ins) => isFn i.op) then some (asm ++ last) else none
      else if asm = [] ∧ B.jumpType = "terminal" then
        if B.phis.length + (F.instrs B.id).length + (F.split B.id).toList.length = 1 then
          match F.split B.id, F.instrs B.id with
          | some _, _ => some last
          | none, i :: _ => asmForSplit isFn i
          | none, [] => some [asmOf "PHIFUNCTION"]
        else none
      else some (asm ++ last)

/-- The blocks of a component, as the traversal sees them; `names` are the names of the functions, `tags` is `tags_dict`, `sched`
are the schedules. -/
def outBlocks (P : Prog) (names : List String) (tags : String → Option Nat) (sched : String → String → List String) (f : String) :
    Blocks := fun b =>
  (P.fns f).bind fun F => (F.graph.block b).bind fun B => (builtOf P f b).bind fun built =>
    (blockItems (fun g => decide (g ∈ names)) F B built.entries (sched f b)).map fun items =>
      ⟨items, (tags b).map toString, exitOf B⟩

/-- `traverse_cfg_block_list` (src/solution_generation/reconstruct_bytecode.py:181-300), with at most `fuel` iterations of the
loop. -/
def assembleFn (P : Prog) (names : List String) (tags : String → Option Nat) (sched : String → String → List String) (fuel : Nat)
    (f : String) : Option (List Asm) :=
  (P.fns f).bind fun F =>
    if infixOf "Block0".toList F.graph.start.toList then
      (generate (outBlocks P names tags sched f) fuel F.graph.start).map (·.map Prod.snd)
    else none

/-- The code of the functions, one after the other (src/solution_generation/reconstruct_bytecode.py:310-314). -/
def assembleFns (P : Prog) (names : List String) (tags : String → Option Nat) (sched : String → String → List String) (fuel : Nat) :
    List String → Option (List Asm)
  | [] => some []
  | g :: gs => (assembleFn P names tags sched fuel g).bind fun c => (assembleFns P names tags sched fuel gs).map (c ++ ·)

/-- `traverse_cfg` (src/solution_generation/reconstruct_bytecode.py:303-315): the main code, then the functions in order. -/
def assemble (P : Prog) (names : List String) (tags : String → Option Nat) (sched : String → String → List String) (fuel : Nat) :
    Option (List Asm) :=
  (assembleFn P names tags sched fuel P.main).bind fun m => (assembleFns P names tags sched fuel names).map (m ++ ·)

end Grey.Program
