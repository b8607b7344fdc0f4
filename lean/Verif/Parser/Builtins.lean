/-
The translation of the built-in functions of Yul: src/parser/cfg_instruction.py:276-389, over the blocks of a list
(src/parser/cfg_block_list.py:258-271, src/parser/cfg_block.py:392-396).

Exceptions are `none`. A number stands for its hexadecimal form with 64 digits (`"{0:064X}".format(n)`); messages are left out.
-/
import Mathlib.Data.List.Basic
namespace Grey.Parser
open List

/-- A literal argument: as in the document, or a number. -/
inductive Lit where
  | text (s : String)
  | num (n : Nat)
  deriving DecidableEq, Repr

/-- An operation and its literal arguments (`literal_args`, or `translate_literal_args` once they are set: get_literal_args, lines 263-270). -/
structure LOp where
  op : String
  lits : List Lit
  deriving DecidableEq, Repr

/-- The number of the next object that is not a direct subobject, and the numbers given so far (`next_idx`, `indirect_subobjects`). -/
structure Refs where
  next : Nat
  known : List (String × Nat)
  deriving DecidableEq, Repr

/-- `literal_val.find(".") != 1` (lines 308, 334): the first dot is not the second character. -/
def dotOk (s : String) : Bool := s.toList.idxOf? '.' != some 1

/-- Lines 302-316 and 329-343: the number for an object, which is not changed by later references. -/
def refNumber (keys : List (String × Nat)) (name : String) (r : Refs) : Nat × Refs :=
  match keys.lookup name with
  | some p => (p, r)
  | none =>
    if dotOk name then
      match r.known.lookup name with
      | some p => (2 ^ 64 - 1 - p, r)
      | none => (2 ^ 64 - 1 - r.next, ⟨r.next + 1, r.known ++ [(name, r.next)]⟩)
    else (0, r)

/-- translate_datasize, lines 294-322. `obj` is the name of the object. -/
def transSize (keys : List (String × Nat)) (obj name : String) (r : Refs) : LOp × Refs :=
  let op := if name = obj then "pushsize" else "push #[$]"
  let op := if keys.lookup name = none ∧ dotOk name = false then "PUSHSIZE" else op
  (⟨op, [.num (refNumber keys name r).1]⟩, (refNumber keys name r).2)

/-- translate_dataoffset, lines 324-349 -/
def transOffset (keys : List (String × Nat)) (name : String) (r : Refs) : LOp × Refs :=
  (⟨"push [$]", [.num (refNumber keys name r).1]⟩, (refNumber keys name r).2)

/-- translate_opcode and translate_built_in_function, lines 363-389: `lits` are the literal arguments of the document (`none` if there are none; then
`self.literal_args` is None, and looking at it fails). For `memoryguard` (lines 284-291) the numbers are written in their shortest form. -/
def translate (keys : List (String × Nat)) (obj op : String) (lits : Option (List String)) (r : Refs) : Option (LOp × Refs) :=
  if op = "linkersymbol" then lits.map fun l => (⟨"pushlib", l.map .text⟩, r)
  else if op = "memoryguard" then lits.map fun l => (⟨"push", l.map .text⟩, r)
  else if op = "datasize" then lits.bind fun l => l.head?.map fun n => transSize keys obj n r
  else if op = "dataoffset" then lits.bind fun l => l.head?.map fun n => transOffset keys n r
  else if op = "datacopy" then some (⟨"codecopy", (lits.getD []).map .text⟩, r)
  else if op = "setimmutable" then some (⟨"assignimmutable", (lits.getD []).map .text⟩, r)
  else if op = "loadimmutable" then some (⟨"pushimmutable", (lits.getD []).map .text⟩, r)
  else some (⟨op, (lits.getD []).map .text⟩, r)

/-- src/parser/cfg_block_list.py:258-271: the instructions of all blocks, in the order in which they are visited. -/
def translateAll (keys : List (String × Nat)) (obj : String) : List (String × Option (List String)) → Refs → Option (List LOp)
  | [], _ => some []
  | (op, lits) :: l, r => (translate keys obj op lits r).bind fun (o, r') => (translateAll keys obj l r').map (o :: ·)

/-- A component: the numbering starts afresh (lines 266-267). -/
def translateList (keys : List (String × Nat)) (obj : String) (l : List (String × Option (List String))) : Option (List LOp) :=
  translateAll keys obj l ⟨0, []⟩

end Grey.Parser
