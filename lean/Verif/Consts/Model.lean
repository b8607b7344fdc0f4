/-
Introducing variables for constants (src/cfg_methods/minimizing_constants_insertion.py), for one block list: C81.

The dominance tree (computed by networkx) is an input. The rule that decides which constants get a variable is a parameter: the rule of
the code (`shippedRule`) picks none; the one that is commented out in the same line is `writtenRule`. The order in which Python goes
through a set is a parameter as well (`order`). Operations are as in Verif/Cfg/Model.lean; `push c` stands for the operation `push` with
the literal `c`. Exceptions are `none`.
-/
import Verif.Cfg.Lemmas
import Verif.Cfg.Rename
import Verif.Repair.StorePlacement
namespace Grey.Consts
open List Grey.Cfg Grey.Repair

/-- Pairs of a constant and the variable that holds it. -/
abbrev Dict := List (String × String)

/-- src/cfg_methods/minimizing_constants_insertion.py:54-65: the block in which the argument `a` at position `k` of an instruction of
`b` is needed, if it is a constant. `none` is the IndexError of `block.entries[in_index]`. -/
def notedArg (b : Block) (i : Instr) (a : String) (k : Nat) : Option (List (String × String)) :=
  if isConst a && i.op != "LiteralAssignment" then
    if i.op = "PhiFunction" then b.entries[k]?.map fun p => [(p, a)] else some [(b.id, a)]
  else some []

/-- src/cfg_methods/minimizing_constants_insertion.py:53-54 -/
def notedInstr (b : Block) (i : Instr) : Option (List (String × String)) :=
  (i.ins.zipIdx.mapM fun p => notedArg b i p.1 p.2).map flatten

/-- src/cfg_methods/minimizing_constants_insertion.py:50-70: all pairs of a block and a constant that is needed in it
(`constants_per_block`). -/
def noted (G : BlockList) : Option (List (String × String)) :=
  (G.blocks.mapM fun (b : Block) => (b.instrs.mapM (notedInstr b)).map flatten).map flatten

/-- src/cfg_methods/minimizing_constants_insertion.py:56, 65-68: how often a constant is used (`constant_uses`). -/
def usesOf (G : BlockList) (c : String) : Nat :=
  (G.blocks.flatMap fun b => b.instrs.flatMap fun i => i.ins.filter fun a => isConst a || i.op == "LiteralAssignment").count c

/-- src/cfg_methods/minimizing_constants_insertion.py:84-91: what `decide_if_propagated` returns. -/
def shippedRule (_uses : String → Nat) (_c : String) : Bool := false

/-- src/cfg_methods/minimizing_constants_insertion.py:85-91: the formula in the comments. -/
def writtenRule (uses : String → Nat) (c : String) : Bool :=
  decide (uses c + (c.length - 2) / 2 + 2 ≤ uses c * ((c.length - 2) / 2))

/-- src/cfg_methods/minimizing_constants_insertion.py:105-106: the constants to introduce in the block `b`. -/
def toIntroduce (note : List (String × String)) (rule : String → Bool) (order : List String → List String) (d : Dict) (b : String) :
    List String :=
  order (((((note.filter fun p => p.1 == b).map Prod.snd).dedup).filter fun c => !(d.map Prod.fst).contains c).filter rule)

/-- src/cfg_methods/minimizing_constants_insertion.py:110 -/
def nameOf (n : Nat) : String := "c" ++ toString n

/-- src/cfg_methods/minimizing_constants_insertion.py:109-112: the new variables, with the constants they hold. -/
def fresh (cs : List String) (n : Nat) : Dict := (cs.zipIdx n).map fun p => (p.1, nameOf p.2)

/-- src/parser/cfg_block.py:185-186 -/
def insertAt (k : Nat) (i : Instr) (l : List Instr) : List Instr := l.take k ++ i :: l.drop k

/-- src/cfg_methods/minimizing_constants_insertion.py:103, 114-116: every push is inserted at the position after the phi functions. -/
def insertPushes (push : String → String) (new : Dict) (l : List Instr) : List Instr :=
  let k := (l.filter isPhi).length
  new.foldl (fun l p => insertAt k ⟨push p.1, [], [p.2]⟩ l) l

/-- `constants_per_block.get(in_arg, in_arg)` -/
def look (D : Dict) (a : String) : String := (D.lookup a).getD a

/-- src/cfg_methods/minimizing_constants_insertion.py:146-158. `zip` ends with the shorter of the arguments and the entries. -/
def replaceArgs (D : Dict) (entries : List String) (i : Instr) : Instr :=
  if i.op = "PhiFunction" then { i with ins := (i.ins.zip entries).map fun p => look D p.1 }
  else if i.op = "LiteralAssignment" then i
  else { i with ins := i.ins.map (look D) }

/-- src/cfg_methods/minimizing_constants_insertion.py:114-127: the changes of one block. -/
def edit (push : String → String) (D new : Dict) (B : Block) : Block :=
  { B with instrs := (insertPushes push new B.instrs).map (replaceArgs D B.entries) }

/-- src/cfg_methods/minimizing_constants_insertion.py:94-138: `introduced_so_far` is `d`, it is the same after the call as before (lines
135-136); `free_idx` is `n`. The results are the block list, the next free index and what has been written to `assigment_dict`
(line 119). -/
def visit (note : List (String × String)) (rule : String → Bool) (order : List String → List String) (push : String → String) :
    DTree String → Dict → Nat → BlockList → Option (BlockList × Nat × Dict)
  | .nil, _, n, G => some (G, n, [])
  | .node b ch rest, d, n, G =>
    let new := fresh (toIntroduce note rule order d b) n
    (G.get b).bind fun _ =>
    (visit note rule order push ch (new ++ d) (n + new.length) (G.modify b (edit push (new ++ d) new))).bind fun r =>
    (visit note rule order push rest d r.2.1 r.1).map fun q => (q.1, q.2.1, new.map Prod.swap ++ (r.2.2 ++ q.2.2))

/-- src/cfg_methods/minimizing_constants_insertion.py:25-27, 41-81: the pass for a block list with the dominance tree `t`. The results are
the block list and the additions to its `assigment_dict`. -/
def insertConstants (rule : (String → Nat) → String → Bool) (order : List String → List String) (push : String → String)
    (t : DTree String) (G : BlockList) : Option (BlockList × Dict) :=
  (noted G).bind fun note => (visit note (rule (usesOf G)) order push t [] 0 G).map fun r => (r.1, r.2.2)

end Grey.Consts
