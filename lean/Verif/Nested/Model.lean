/-
Documents with subobjects: the recursion of the parser (src/parser/parser.py:188-237), of the front end (src/cfg_methods/preprocessing_methods.py:18-47)
and of the output (src/solution_generation/reconstruct_bytecode.py:330-375) over the objects of a contract.

An object with its subobjects is a tree, and a `CFG` is a list of trees (its dictionary of objects, in order). An object without subobjects has the
empty list for them. Exceptions are `none`. What is done for one object is modelled elsewhere: Verif/Parser/Model.lean, Verif/Prep, Verif/Inline/Pass.lean,
Verif/Lower/Model.lean and Verif/Program/Flat.lean. What is new here are the dictionaries that are shared by all objects and whose keys are the names
of the objects. These dictionaries are only looked up, so that they are functions here. Left out: the auxiliary data (lines 340-344), and drawings.
-/
import Verif.Parser.Model
import Verif.Prep.Pipeline
import Verif.Lower.Model
import Verif.Program.Flat
import Verif.Repair.Slots
namespace Grey.Nested
open List Grey.Cfg Grey.Inline Grey.Prep Grey.Lower Grey.Program Grey.Parser

/-- An object with its subobjects. -/
inductive Tree (α : Type) where
  | node (a : α) (subs : List (Tree α))

/-- The object itself. -/
def Tree.root {α : Type} : Tree α → α
  | .node a _ => a

/-- The subobjects. -/
def Tree.subs {α : Type} : Tree α → List (Tree α)
  | .node _ ts => ts

mutual
/-- A pass that handles every object for itself, and stops if one fails. -/
def mapTree {α β : Type} (f : α → Option β) : Tree α → Option (Tree β)
  | .node a ts => (f a).bind fun b => (mapTrees f ts).map (.node b)
def mapTrees {α β : Type} (f : α → Option β) : List (Tree α) → Option (List (Tree β))
  | [] => some []
  | t :: ts => (mapTree f t).bind fun t' => (mapTrees f ts).map (t' :: ·)
end

/-- `CFGObject` (src/parser/cfg_object.py): the name, the keys of the dictionary of functions, and the code. -/
structure CObj where
  name : String
  fns : List String
  obj : Obj

/-! ### Parsing -/

/-- src/parser/parser.py:200-221 for one object. -/
def parseOne (J : JObj) : Option CObj := (parseObject J).map fun O => ⟨J.name, J.functions.map (·.1), O⟩

/-- parser_CFG_from_JSON, src/parser/parser.py:188-237. (The subobjects are parsed first, but parsing one object does not depend on the result for
another, except for the numbers of the subobjects, see `subKeys`.) -/
def parseDocs (ts : List (Tree JObj)) : Option (List (Tree CObj)) := mapTrees parseOne ts

/-- `objectCFG2idx` of the subobjects (src/parser/cfg.py:30-32, src/parser/parser.py:208-212): the numbers by which the code of an object refers to its
subobjects (Verif/Parser/Builtins.lean). -/
def subKeys (ts : List (Tree JObj)) : List (String × Nat) := ts.zipIdx.map fun p => (p.1.root.name, p.2)

/-! ### The passes -/

/-- src/cfg_methods/variable_renaming.py:13-29: the counter starts afresh for every object. -/
def renameOne (u : CObj) : CObj := { u with obj := renameObj u.fns u.obj }

/-- The calls of every function (src/cfg_methods/function_inlining.py:24-26). -/
abbrev CallInfo := String → List (Nat × String × Option String)

/-- `d[k] = v` -/
def dset {α : Type} (d : String → Option α) (k : String) (v : α) : String → Option α := fun x => if x = k then some v else d x

/-- `d.update(e)`, `d |= e` -/
def dmerge {α : Type} (d e : String → Option α) : String → Option α := fun x => (e x).or (d x)

mutual
/-- generate_function2information, src/cfg_methods/function_inlining.py:46-65: one dictionary for an object and everything below it. -/
def infoTree (d : String → Option CallInfo) : Tree CObj → (String → Option CallInfo)
  | .node u ts => dmerge (dset d u.name (callSites u.fns u.obj)) (infoTrees (fun _ => none) ts)
def infoTrees (d : String → Option CallInfo) : List (Tree CObj) → (String → Option CallInfo)
  | [] => d
  | t :: ts => infoTrees (infoTree d t) ts
end

/-- inline_functions_cfg_object, src/cfg_methods/function_inlining.py:80-133, with the information about the calls that is handed over. The functions
are visited in the order that `topo` computes from this information (line 86). The functions that were inlined are removed (line 132). -/
def inlineOne (topo : CallInfo → List String) (info : CallInfo) (u : CObj) : Option CObj :=
  (passLoop info (topo info) (u.obj, fun b => [b])).map fun st => ⟨u.name, u.fns.filter fun f => (st.1.fns f).isSome, st.1⟩

mutual
/-- inline_functions, src/cfg_methods/function_inlining.py:29-41: the information for an object is looked up under its name, and is computed anew for
the subobjects. -/
def inlineTree (topo : CallInfo → List String) (d : String → Option CallInfo) : Tree CObj → Option (Tree CObj)
  | .node u ts => (d u.name).bind fun info => (inlineOne topo info u).bind fun v =>
      (inlineTrees topo (infoTrees (fun _ => none) ts) ts).map (.node v)
def inlineTrees (topo : CallInfo → List String) (d : String → Option CallInfo) : List (Tree CObj) → Option (List (Tree CObj))
  | [] => some []
  | t :: ts => (inlineTree topo d t).bind fun t' => (inlineTrees topo d ts).map (t' :: ·)
end

/-- combine_remove_blocks_cfg, src/cfg_methods/sub_block_generation.py:152-168, for one object. -/
def combineOne (u : CObj) : Option CObj := (combineObj u.fns u.obj).map fun O => { u with obj := O }

mutual
/-- insert_jumps_tags_cfg, src/cfg_methods/jump_insertion.py:12-45: every object has tags of its own, and they are kept under its name in one
dictionary for an object and everything below it. -/
def insertTree (d : String → Option TagDict) : Tree CObj → Option (Tree CObj × (String → Option TagDict))
  | .node u ts => (insertObj u.fns u.obj).bind fun r => (insertTrees (fun _ => none) ts).map fun q =>
      (.node { u with obj := r.1 } q.1, dmerge (dset d u.name r.2) q.2)
def insertTrees (d : String → Option TagDict) : List (Tree CObj) → Option (List (Tree CObj) × (String → Option TagDict))
  | [] => some ([], d)
  | t :: ts => (insertTree d t).bind fun r => (insertTrees r.2 ts).map fun q => (r.1 :: q.1, q.2)
end

mutual
/-- split_blocks_cfg, src/cfg_methods/sub_block_generation.py:19-37: the tags are looked up, and changed, under the name of the object. -/
def splitTree (d : String → Option TagDict) : Tree CObj → Option (Tree CObj × (String → Option TagDict))
  | .node u ts => (d u.name).bind fun T => (splitObj u.fns u.obj T).bind fun r => (splitTrees (dset d u.name r.2) ts).map fun q =>
      (.node { u with obj := r.1 } q.1, q.2)
def splitTrees (d : String → Option TagDict) : List (Tree CObj) → Option (List (Tree CObj) × (String → Option TagDict))
  | [] => some ([], d)
  | t :: ts => (splitTree d t).bind fun r => (splitTrees r.2 ts).map fun q => (r.1 :: q.1, q.2)
end

/-- preprocess_cfg, src/cfg_methods/preprocessing_methods.py:18-47: pass after pass, each over all objects. -/
def frontDocs (topo : CallInfo → List String) (ts : List (Tree CObj)) : Option (List (Tree CObj) × (String → Option TagDict)) :=
  (mapTrees (fun u => some (renameOne u)) ts).bind fun t1 =>
  (inlineTrees topo (infoTrees (fun _ => none) t1) t1).bind fun t2 =>
  (mapTrees combineOne t2).bind fun t3 =>
  (insertTrees (fun _ => none) t3).bind fun r => splitTrees r.2 r.1

/-! ### The output -/

/-- An object with the results of the analyses and the schedules of its blocks, which are computed for every object separately
(src/liveness/layout_generation.py:426-450, src/greedy/ids_from_spec.py:78-104). `dec`, `main` and `fuel` are as in Verif/Lower/Model.lean and
Verif/Program/Flat.lean. -/
structure Plan where
  base : CObj
  dec : String → String × Option (List String)
  main : String
  ana : Option String → Analysis
  sched : String → String → List String
  fuel : Nat

/-- The program of the object. -/
def Plan.prog (p : Plan) : Prog := toProg p.base.fns p.dec p.main p.ana p.base.obj

/-- The level `{.code: ..., .data: ...}` of the output; `data` is empty if there is no key `.data`. -/
inductive Assembly where
  | node (code : List Output.Asm) (data : List (String × Assembly))

def Assembly.code : Assembly → List Output.Asm
  | .node c _ => c

def Assembly.data : Assembly → List (String × Assembly)
  | .node _ d => d

mutual
/-- recursive_asm_from_cfg_object, src/solution_generation/reconstruct_bytecode.py:330-352: the tags are looked up under the name of the object; the
subobjects have the keys `hex(i)[2:]`. -/
def asmTree (d : String → Option TagDict) : Tree Plan → Option Assembly
  | .node p ts => (d p.base.name).bind fun T => (assemble p.prog p.base.fns (tagOf T) p.sched p.fuel).bind fun code =>
      (asmTrees d ts).map fun l => .node code (l.zipIdx.map fun e => (Repair.hexOf e.2, e.1))
def asmTrees (d : String → Option TagDict) : List (Tree Plan) → Option (List Assembly)
  | [] => some []
  | t :: ts => (asmTree d t).bind fun a => (asmTrees d ts).map (a :: ·)
end

/-- asm_from_cfg, src/solution_generation/reconstruct_bytecode.py:368-375: the first object of the outermost level. -/
def asmDocs (d : String → Option TagDict) (ts : List (Tree Plan)) : Option Assembly := (asmTrees d ts).bind (·.head?)

end Grey.Nested
