/-
Model of the inlining of one call (src/cfg_methods/cfg_block_actions/inline_function.py).
-/
import Verif.Inline.Spec
namespace Grey.Inline
open List Grey.Cfg

/-- A dictionary made from pairs: the last pair with a key counts. -/
def dictOf (l : List (String × String)) (x : String) : Option String := l.reverse.lookup x

/-- `sum(1 for old, new in d.items() if old != new) == len(d)` (src/cfg_methods/cfg_block_actions/inline_function.py:163 and 176) -/
def renamesAll (l : List (String × String)) : Bool := l.all fun p => dictOf l p.1 != some p.1

/-- src/cfg_methods/cfg_block_actions/inline_function.py:57-58: blocks that return become blocks that jump. -/
def unreturn (b : Block) : Block := { b with jumpType := if b.jumpType = "FunctionReturn" then "unconditional" else b.jumpType }

/-- src/cfg_methods/cfg_block_actions/inline_function.py:52-60 -/
def addAll : List Block → BlockList → Option BlockList
  | [], G => some G
  | b :: bs, G => (G.addBlock b).bind (addAll bs)

/-- src/cfg_methods/cfg_block_actions/utils.py:6-30 for `previous_pred_id` None: the predecessor is appended. -/
def addComesFrom (b new : String) (G : BlockList) : Option BlockList :=
  (G.get b).map fun _ => G.modify b fun x => { x with comesFrom := x.comesFrom ++ [new] }

/-- src/cfg_methods/cfg_block_actions/utils.py:33-49 for `previous_successor_id` None. -/
def setJumpTo (b new : String) (G : BlockList) : Option BlockList :=
  (G.get b).map fun _ => G.modify b fun x => { x with jumpTo := some new }

/-- `block.get_instructions()[-1].get_in_args()`, if the last instruction returns
(src/cfg_methods/cfg_block_actions/inline_function.py:99-103). -/
def returned (b : Block) : Option (List String) :=
  b.instrs.getLast?.bind fun i => if i.op = "functionReturn" then some i.ins else none

/-- src/cfg_methods/cfg_block_actions/inline_function.py:91-103: the exits jump to the second half, which lists them; the values
they return. -/
def connectExits (s1 : String) : List String → BlockList → Option (BlockList × List (List String))
  | [], G => some (G, [])
  | e :: es, G =>
    (setJumpTo e s1 G).bind fun G1 =>
      let G2 := G1.modify s1 fun x => { x with comesFrom := if e ∈ x.comesFrom then x.comesFrom else x.comesFrom ++ [e] }
      ((G2.get e).bind returned).bind fun r => (connectExits s1 es G2).map fun q => (q.1, r :: q.2)

/-- `[returned_value[i] for returned_value in returned_values_per_exit]` -/
def column (i : Nat) : List (List String) → Option (List String)
  | [] => some []
  | r :: rs => (r[i]?).bind fun x => (column i rs).map (x :: ·)

/-- src/cfg_methods/cfg_block_actions/inline_function.py:107-112: a phi function for each result, each put in front of the earlier
ones. -/
def exitPhis (rets : List (List String)) : List String → Nat → List Instr → Option (List Instr)
  | [], _, acc => some acc
  | o :: os, i, acc => (column i rets).bind fun args => exitPhis rets os (i + 1) (⟨"PhiFunction", args, [o]⟩ :: acc)

/-- src/cfg_methods/cfg_block_actions/inline_function.py:124-130: the returns are removed. -/
def dropReturns : List String → BlockList → Option BlockList
  | [], G => some G
  | e :: es, G => ((G.get e).bind returned).bind fun _ =>
    dropReturns es (G.modify e fun x => { x with instrs := x.instrs.dropLast })

/-- src/cfg_methods/cfg_block_actions/inline_function.py:105-122: the results of the call, depending on the number of exits. -/
def bindResults (call : Instr) (s1 : String) (exits : List String) (rets : List (List String)) (G : BlockList) : Option BlockList :=
  match rets with
  | [] => some G
  | [r] =>
    if r.length = call.outs.length then
      let l := call.outs.zip r
      if renamesAll l then some (renameBlockList (renameVar (dictOf l)) G) else none
    else none
  | _ => (exitPhis rets call.outs 0 []).map fun ps =>
      G.modify s1 fun x => { x with instrs := ps ++ x.instrs, entries := exits }

/-- src/cfg_methods/cfg_block_actions/inline_function.py:36-138: inline the call at position `k` of the block `b` of the graph `G`;
`f` and `F` are the name and the code of the function. -/
def inlineCall (k : Nat) (b : String) (f : String) (F : Component) (G : BlockList) : Option BlockList :=
  (G.get b).bind fun blk => (blk.instrs[k]?).bind fun call => (F.body.start).bind fun s =>
    if call.op.toList.isPrefixOf f.toList && decide (F.args.length = call.ins.length) && renamesAll (F.args.zip call.ins.reverse) then
      (addAll ((renameBlockList (renameVar (dictOf (F.args.zip call.ins.reverse))) F.body).blocks.map unreturn) G).bind fun G1 =>
      (splitBlock k b G1).bind fun G2 =>
      (modifySuccessors (firstId b) (secondId b) s (G2.modify (firstId b) fun x => { x with instrs := x.instrs.dropLast })).bind fun G3 =>
      (addComesFrom s (firstId b) G3).bind fun G4 =>
      (connectExits (secondId b) F.body.returns (G4.modify (secondId b) fun x => { x with comesFrom := [] })).bind fun q =>
      (bindResults call (secondId b) F.body.returns q.2 q.1).bind fun G5 =>
      dropReturns F.body.returns G5
    else none

/-- An object in which a component is replaced. -/
def Obj.set (O : Obj) (h : Option String) (G : BlockList) : Obj :=
  match h with
  | none => { O with main := G }
  | some g => { O with fns := fun x => if x = g then (O.fns x).map fun c => { c with body := G } else O.fns x }

/-- src/cfg_methods/function_inlining.py:94-124 for the only call of a function: inline it and remove the function. -/
def inlineObj (k : Nat) (b : String) (h : Option String) (f : String) (O : Obj) : Option Obj :=
  (O.comp h).bind fun H => (O.fns f).bind fun F => (inlineCall k b f F H.body).map fun G =>
    { O.set h G with fns := fun x => if x = f then none else (O.set h G).fns x }

end Grey.Inline
