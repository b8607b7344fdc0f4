/-
Model of the translation of schedules to assembly items:
  src/solution_generation/utils.py                (to_hex_default)
  src/solution_generation/reconstruct_bytecode.py (asm_from_op_info, id_to_asm_bytecode, id_seq_to_asm_bytecode, asm_from_ids,
                                                   asm_for_split_instruction)
-/
import Verif.Sfs.BuildModel
namespace Grey.Output
open Grey.SymExec (infixOf parseNat)
open Grey.Sfs (Ins Entry Value)

/-- An item of the assembly (src/solution_generation/reconstruct_bytecode.py:22-36). The fields `begin`, `end` and `source` are
the same for all items and are left out. -/
structure Asm where
  name : String
  value : Option String
  jumpType : Option String
  deriving DecidableEq, Repr

/-- `str(value).upper()`. Simplification: ASCII only. -/
def upper (s : String) : String := s.map Char.toUpper

/-- `asm_from_op_info` (src/solution_generation/reconstruct_bytecode.py:22-36). -/
def asmOf (op : String) (value : Option String := none) (jumpType : Option String := none) : Asm :=
  ⟨op, value.map upper, jumpType⟩

/-- `hex(n)[2:]`. -/
def hexText (n : Nat) : String := String.ofList (Nat.toDigits 16 n)

/-- `to_hex_default` (src/solution_generation/utils.py:1-9) on a text: `int(value)` is tried first. -/
def hexDefault (s : String) : String := ((parseNat s.toList).map hexText).getD s

/-- `associated_instr['value'][0]` as a text, the number in decimal. `none`: `IndexError`. -/
def firstValue : Value → Option String
  | .num n => some (toString n)
  | .lits l => l.head?

/-- `to_hex_default(associated_instr['value'][0])`. -/
def firstHex : Value → Option String
  | .num n => some (hexText n)
  | .lits l => l.head?.map hexDefault

/-- `s.split(' ')[1]`. `none`: `IndexError`. -/
def secondWord (s : String) : Option String :=
  match s.toList.dropWhile (· ≠ ' ') with
  | [] => none
  | _ :: l => some (String.ofList (l.takeWhile (· ≠ ' ')))

/-- The disassembly names whose value is written in hexadecimal
(src/solution_generation/reconstruct_bytecode.py:50-51). -/
def hexOps : List String := ["PUSH", "PUSH data", "PUSHIMMUTABLE", "ASSIGNIMMUTABLE"]

/-- The translation of an entry of `user_instrs` (src/solution_generation/reconstruct_bytecode.py:44-59). `none`: a field is
missing, or a tag is not a number. -/
def entryAsm (e : Entry) : Option Asm :=
  if e.instr.disasm = "PUSH0" then some (asmOf "PUSH" (some "0"))
  else if e.instr.disasm ∈ hexOps then e.value.bind fun v => (firstHex v).map fun h => asmOf e.instr.disasm (some h)
  else if e.instr.disasm = "PUSH [TAG]" then
    e.instr.outpt.head?.bind fun t => (parseNat t.toList).map fun n => asmOf "PUSH [tag]" (some (toString n))
  else match e.value with
    | none => some (asmOf e.instr.disasm)
    | some v => (firstValue v).map fun s => asmOf e.instr.disasm (some s)

/-- `id_to_asm_bytecode` (src/solution_generation/reconstruct_bytecode.py:39-67), with the dictionary of `asm_from_ids` (lines
77-82), in which the last entry with an id counts. -/
def idToAsm (es : List Entry) (id : String) : Option Asm :=
  match es.reverse.find? fun e => e.instr.id == id with
  | some e => entryAsm e
  | none =>
    if infixOf "PUSH".toList id.toList then (secondWord id).map fun v => asmOf "PUSH" (some v)
    else some (asmOf id)

/-- All translations, `none` if one of them raises. -/
def asmAll (es : List Entry) : List String → Option (List Asm)
  | [] => some []
  | s :: ids => (idToAsm es s).bind fun a => (asmAll es ids).map (a :: ·)

/-- `asm_from_ids` and `id_seq_to_asm_bytecode` (src/solution_generation/reconstruct_bytecode.py:70-82). -/
def asmFromIds (es : List Entry) (ids : List String) : Option (List Asm) := asmAll es (ids.filter (· ≠ "NOP"))

/-- `asm_for_split_instruction` (src/solution_generation/reconstruct_bytecode.py:85-115); `isFn` are the names of the functions.
`none`: `literal_args[0]` raises. -/
def asmForSplit (isFn : String → Bool) (i : Ins) : Option (List Asm) :=
  if isFn i.op then some [asmOf "JUMP" none (some "[in]")]
  else if i.op = "functionReturn" then some [asmOf "JUMP" none (some "[out]")]
  else if "verbatim".toList.isPrefixOf i.op.toList then some [asmOf "VERBATIM" (some "0")]
  else if "assignimmutable".toList.isPrefixOf i.op.toList then
    i.lits.bind fun l => l.head?.map fun v => [asmOf i.name (some (hexDefault v))]
  else some [asmOf i.name (i.lits.bind List.head?)]

end Grey.Output
