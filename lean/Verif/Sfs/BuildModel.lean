/-
Model of the functions that turn a block into a specification, second part:
  src/parser/cfg_block.py         (_build_spec_for_sequence, build_spec)
  src/parser/cfg_instruction.py   (build_spec, build_instr_spec, build_push_spec, build_verbatim_spec,
                                   build_custom_function_spec, memory_operation)
  src/parser/utils_parser.py      (replace_aliasing_spec)
-/
import Verif.Sfs.Model
import Verif.Opcodes.Model
namespace Grey.Sfs
open Grey.SymExec (UInstr Var Spec infixOf)

/-- The fields of a `CFGInstruction` that are read when the specification is built (src/parser/cfg_instruction.py:125-141):
operation, arguments (top of the stack first), results, and `get_literal_args()` (lines 263-270). -/
structure Ins where
  op : String
  inArgs : List String
  outArgs : List String
  lits : Option (List String)
  deriving DecidableEq, Repr

/-- `self.op.upper()`. -/
def Ins.name (i : Ins) : String := i.op.map Char.toUpper

/-- The field `"value"` of an entry of `user_instrs`: a list with one number (src/parser/cfg_instruction.py:45) or the
literal arguments (line 28). -/
inductive Value where
  | num (n : Nat)
  | lits (l : List String)
  deriving DecidableEq, Repr

/-- An entry of `user_instrs` (src/parser/cfg_instruction.py:15-28). The fields `opcode`, `gas`, `size` and `push` are left
out: neither the scheduler's validation nor the meaning of the block depends on them. -/
structure Entry where
  instr : UInstr
  value : Option Value
  deriving DecidableEq, Repr

/-- One hexadecimal digit. -/
def hexDigit? (c : Char) : Option Nat :=
  if '0' ≤ c ∧ c ≤ '9' then some (c.toNat - 48)
  else if 'a' ≤ c ∧ c ≤ 'f' then some (c.toNat - 87)
  else if 'A' ≤ c ∧ c ≤ 'F' then some (c.toNat - 55)
  else none

/-- The value of a text of hexadecimal digits. -/
def hexFold : List Char → Nat → Option Nat
  | [], n => some n
  | c :: cs, n => (hexDigit? c).bind fun d => hexFold cs (16 * n + d)

/-- `x.startswith("0x")`. -/
def isConst (x : String) : Bool := "0x".toList.isPrefixOf x.toList

/-- `int(x, 16)`, with or without the prefix `0x`. `none`: `ValueError`. Simplification: Python also accepts blanks around
the number, a sign, underscores between digits and the prefix `0X`. -/
def intHex (x : String) : Option Nat :=
  let l := if isConst x then x.toList.drop 2 else x.toList
  if l = [] then none else hexFold l 0

/-- `x.startswith("push")`. -/
def pushLike (op : String) : Bool := "push".toList.isPrefixOf op.toList

/-- `memory_operation` (src/parser/cfg_instruction.py:151-157). -/
def Ins.memoryOperation (i : Ins) : Bool :=
  infixOf "STORE".toList i.name.toList || infixOf "LOAD".toList i.name.toList || infixOf "KECCAK".toList i.name.toList ||
    (Opcodes.opcodes.lookup i.op).isNone

/-- `build_push_spec` (src/parser/cfg_instruction.py:33-53), the value already converted. -/
def pushEntry (n idx : Nat) (outs : List String) : Entry :=
  if n = 0 then ⟨⟨"PUSH0_" ++ toString idx, [], outs, false, false, "PUSH0"⟩, some (.num n)⟩
  else ⟨⟨"PUSH_" ++ toString idx, [], outs, false, false, "PUSH"⟩, some (.num n)⟩

/-- `build_instr_spec` (src/parser/cfg_instruction.py:11-30). -/
def instrEntry (name : String) (idx : Nat) (inp outs : List String) (v : Option (List String)) : Entry :=
  ⟨⟨name ++ "_" ++ toString idx, inp, outs, Opcodes.isCommutative name,
    decide (name.map Char.toLower ∈ Opcodes.memoryStorageInstructions), name⟩, v.map .lits⟩

/-- `build_verbatim_spec` (src/parser/cfg_instruction.py:79-99). `none`: no literal arguments. -/
def verbatimEntry (name : String) (inp outs : List String) (lits : Option (List String)) : Option Entry :=
  lits.bind fun l => l.head?.map fun d => ⟨⟨name ++ "_args_" ++ d, inp, outs, false, true, "VERBATIM"⟩, none⟩

/-- `build_custom_function_spec` (src/parser/cfg_instruction.py:102-122). -/
def customEntry (name : String) (inp outs : List String) : Entry :=
  ⟨⟨name, inp, outs, false, true, name⟩, none⟩

/-- The variables of `_build_spec_for_sequence` (src/parser/cfg_block.py:457-468): `uninter_functions`, `map_instructions`
(newest binding first; the dictionary holds references to the entries, modelled by their positions), `instrs_idx` (newest
binding first), `new_out_idx`, `aliasing_dict` and `map_positions_instructions` (newest binding first). -/
structure St where
  entries : List Entry
  table : List ((String × List String) × Nat)
  counters : List (String × Nat)
  outIdx : Nat
  aliases : List (String × String)
  positions : List (Nat × String)
  deriving DecidableEq, Repr

/-- `build_spec` starts with empty dictionaries (src/parser/cfg_block.py:636-638). -/
def St.init : St := ⟨[], [], [], 0, [], []⟩

/-- `instrs_idx.get(name, 0)`. -/
def St.idx (st : St) (name : String) : Nat := (st.counters.lookup name).getD 0

/-- Append an entry, bind a key to it, and count its name. -/
def St.add (st : St) (key : String × List String) (name : String) (e : Entry) : St :=
  { st with entries := st.entries ++ [e], table := (key, st.entries.length) :: st.table,
            counters := (name, st.idx name + 1) :: st.counters }

/-- The three places that introduce a push instruction for a constant (src/parser/cfg_block.py:491-499 and 555-562,
src/parser/cfg_instruction.py:195-204). `none`: `int` raises. -/
def St.addPush (st : St) (keyName c : String) (outs : List String) : Option St :=
  (intHex c).map fun n =>
    let name := if n ≠ 0 then "PUSH" else "PUSH0"
    st.add (keyName, [c]) name (pushEntry n (st.idx name) outs)

/-- The loop over the arguments (src/parser/cfg_instruction.py:182-210): a constant is replaced by the output of its push
instruction. -/
def buildArgs : List String → St → Option (List String × St)
  | [], st => some ([], st)
  | a :: as, st =>
    if isConst a then
      match st.table.lookup ("PUSH", [a]) with
      | some p =>
        (st.entries[p]?).bind fun e => e.instr.outpt.head?.bind fun o =>
          (buildArgs as st).map fun r => (o :: r.1, r.2)
      | none =>
        (st.addPush "PUSH" a ["s" ++ toString st.outIdx]).bind fun st1 =>
          (buildArgs as { st1 with outIdx := st1.outIdx + 1 }).map fun r => (("s" ++ toString st.outIdx) :: r.1, r.2)
    else (buildArgs as st).map fun r => (a :: r.1, r.2)

/-- The operations whose literal arguments are kept as the field `"value"` (src/parser/cfg_instruction.py:220). -/
def literalOps : List String := ["pushlib", "push #[$]", "push [$]", "pushimmutable", "assignimmutable"]

/-- The key of an instruction in `map_instructions` (src/parser/cfg_block.py:472-477, src/parser/cfg_instruction.py:232-235).
`none`: `tuple(None)` raises. -/
def Ins.key (i : Ins) : Option (String × List String) :=
  if pushLike i.op then i.lits.map fun l => (i.name, l) else some (i.name, i.inArgs)

/-- The entry built for an instruction (src/parser/cfg_instruction.py:212-228). -/
def buildEntry (i : Ins) (idx : Nat) (inp : List String) : Option Entry :=
  if infixOf "VERBATIM".toList i.name.toList then verbatimEntry i.name inp i.outArgs i.lits
  else if Opcodes.existsOpcode i.name then
    if i.op ∈ literalOps then some (instrEntry i.name idx inp i.outArgs i.lits)
    else if i.op = "push" then
      i.lits.bind fun l => l.head?.bind fun c => (intHex c).map fun n => pushEntry n idx i.outArgs
    else some (instrEntry i.name idx inp i.outArgs none)
  else some (customEntry i.name inp i.outArgs)

/-- `build_spec` of an instruction (src/parser/cfg_instruction.py:178-238). -/
def buildIns (i : Ins) (st : St) : Option St :=
  (buildArgs i.inArgs st).bind fun r =>
    (buildEntry i (r.2.idx i.name) r.1).bind fun e => i.key.map fun k => r.2.add k i.name e

/-- Replacing a variable in a list (src/parser/cfg_block.py:520). -/
def renameVar (old new : String) (l : List String) : List String := l.map fun v => if v = old then new else v

/-- A repeated `push` (src/parser/cfg_block.py:509-521): the existing entry gets the new output name, and the entries that
use the old one are changed. -/
def repush (i : Ins) (p : Nat) (st : St) : Option St :=
  (st.entries[p]?).bind fun e => e.instr.outpt.head?.bind fun old => i.outArgs.head?.map fun new =>
    { st with
      entries := (st.entries.set p { e with instr := { e.instr with outpt := i.outArgs } }).map fun x =>
        { x with instr := { x.instr with inpt := renameVar old new x.instr.inpt } }
      aliases := (old, new) :: st.aliases }

/-- One iteration of the loop over the instructions (src/parser/cfg_block.py:470-526). -/
def stepIns (n : Nat) (i : Ins) (st : St) : Option St :=
  i.key.bind fun k =>
    let build : Option St :=
      (if "LiteralAssignment".toList.isPrefixOf i.op.toList then
        i.inArgs.head?.bind fun c => (intHex c).map fun v =>
          let name := if v ≠ 0 then "PUSH" else "PUSH0"
          st.add ("LITERALASSIGMENT", i.inArgs) name (pushEntry v (st.idx name) i.outArgs)
      else buildIns i st).bind fun st1 =>
        st1.entries.getLast?.map fun e => { st1 with positions := (n, e.instr.id) :: st1.positions }
    let reuse (p : Nat) (st : St) : Option St :=
      if i.op = "push" then repush i p st
      else (st.entries[p]?).bind fun e => e.instr.outpt.head?.bind fun o =>
        i.outArgs.head?.map fun x => { st with aliases := (x, o) :: st.aliases }
    match st.table.lookup k with
    | none => build
    | some p =>
      if pushLike i.op || !i.memoryOperation then reuse p st
      else if "LiteralAssigment".toList.isPrefixOf i.op.toList then none
      else (st.entries[p]?).bind fun e =>
        if e.instr.outpt = [] ∨ e.instr.outpt ≠ i.outArgs then build
        else reuse p { st with positions := (n, e.instr.id) :: st.positions }

/-- The loop over the instructions (src/parser/cfg_block.py:470-526). -/
def buildLoop : Nat → List Ins → St → Option St
  | _, [], st => some st
  | n, i :: is, st => (stepIns n i st).bind (buildLoop (n + 1) is)

/-- `d[k] = v` on a dictionary in insertion order. -/
def setKey (d : List (String × String)) (k v : String) : List (String × String) :=
  if d.any (fun e => e.1 == k) then d.map fun e => if e.1 = k then (k, v) else e else d ++ [(k, v)]

/-- The constants and the gaps of the final stack are added to the assignments (src/parser/cfg_block.py:542-546). -/
def addConstants : List String → List (String × String) → List (String × String)
  | [], d => d
  | x :: xs, d =>
    addConstants xs (if x = "bottom" ∨ isConst x then setKey d x (if x = "bottom" then "0x00" else x) else d)

/-- The loop over the assignments (src/parser/cfg_block.py:549-565). -/
def assignLoop : List (String × String) → St → Option St
  | [], st => some st
  | (o, c) :: d, st =>
    if isConst c then
      match st.table.lookup ("PUSH", [c]) with
      | none => (st.addPush "PUSH" c [o]).bind fun st1 => assignLoop d { st1 with aliases := (o, o) :: st1.aliases }
      | some p => (st.entries[p]?).bind fun e => e.instr.outpt.head?.bind fun x =>
          assignLoop d { st with aliases := (o, x) :: st.aliases }
    else assignLoop d st

/-- `aliasing_dict.get(x, x)`. -/
def resolve (aliases : List (String × String)) (x : String) : String := (aliases.lookup x).getD x

/-- `replace_aliasing_spec` (src/parser/utils_parser.py:191-204), on one entry. Only the entries change: the new list of
variables and the new target stack are computed and dropped. -/
def replaceEntry (aliases : List (String × String)) (e : Entry) : Entry :=
  { e with instr := { e.instr with inpt := e.instr.inpt.map (resolve aliases), outpt := e.instr.outpt.map (resolve aliases) } }

/-- The part of the specification built by `_build_spec_for_sequence` that is read afterwards: the kept entries, the two
stacks, the ids of the positions and the ids of the unused instructions. -/
structure Built where
  entries : List Entry
  src : List String
  tgt : List String
  positions : List (Nat × String)
  unused : List String
  deriving DecidableEq, Repr

/-- The final stack before the split instruction, if there is one (src/parser/cfg_block.py:530-538). -/
def beforeSplit (split : Option Ins) (final : List String) : List String :=
  match split with
  | some s => s.inArgs ++ final.drop s.outArgs.length
  | none => final

/-- `_build_spec_for_sequence` (src/parser/cfg_block.py:450-611), for the instructions `instructions_to_synthesize`
(lines 338-344), the assignments and the split instruction of the block. -/
def buildSequence (instrs : List Ins) (split : Option Ins) (assign : List (String × String))
    (initial final : List String) : Option Built :=
  (buildLoop 0 instrs St.init).bind fun st1 =>
    (assignLoop (addConstants (beforeSplit split final) assign) st1).map fun st2 =>
      let tgt := (beforeSplit split final).map (resolve st2.aliases)
      let unused := detectUnused (st2.entries.map (·.instr)) tgt
      let kept := st2.entries.filter fun e => decide (e.instr.id ∉ unused)
      { entries := if st2.aliases = [] then kept else kept.map (replaceEntry st2.aliases)
        src := initial, tgt := tgt, positions := st2.positions, unused := unused }

end Grey.Sfs
