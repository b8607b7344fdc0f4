/-
Specification for C49, independent of the functions that build a specification: the meaning of a block of the control flow
graph, running its instructions in order on named variables.
-/
import Verif.Sfs.BuildModel
import Verif.SymExec.RefineSpec
open List
namespace Grey.Sfs
open Grey.SymExec

/-- The meaning of the operations: numbers, and for every operation (with its literal arguments, if it carries any) a
function from arguments and world to results and world. The result of `PUSH [tag]` is the position of the tag, so that
operation gets the tag in place of literal arguments. -/
structure Interp (V σ : Type) where
  num : Nat → V
  op : String → Option (List String) → List V → σ → List V × σ

/-- The number written by a text of hexadecimal digits. -/
def hexNumber (l : List Char) : Nat := l.foldl (fun n c => 16 * n + "0123456789abcdef".toList.idxOf c.toLower) 0

/-- The number denoted by a constant `0x…` (or by the digits alone). -/
def constNumber (x : String) : Nat :=
  match x.toList with
  | '0' :: 'x' :: l => hexNumber l
  | l => hexNumber l

/-- An argument is a constant if it starts with `0x`. -/
def IsLiteral (x : String) : Prop := ∃ l, x.toList = '0' :: 'x' :: l

/-- The value of an argument or of a stack position: a constant, `bottom` (a position whose content does not matter, filled
with zero) or a variable. -/
noncomputable def Interp.read {V σ : Type} (I : Interp V σ) (env : String → V) (x : String) : V :=
  open Classical in if IsLiteral x then I.num (constNumber x) else if x = "bottom" then I.num 0 else env x

/-- The operations whose literal arguments matter. -/
def literalArgOps : List String := ["pushlib", "push #[$]", "push [$]", "pushimmutable", "assignimmutable"]

/-- What an operation depends on besides its arguments: the literal arguments of the operations above, and for `PUSH [tag]` the
tag, which is the name of its result. -/
def Ins.extra (i : Ins) : Option (List String) :=
  if i.op ∈ literalArgOps then i.lits else if i.name = "PUSH [TAG]" then some i.outArgs else none

/-- The results and the new world of an instruction of the block. -/
noncomputable def Interp.ins {V σ : Type} (I : Interp V σ) (i : Ins) (env : String → V) (w : σ) : List V × σ :=
  if i.op = "LiteralAssignment" then ((i.inArgs.take 1).map fun c => I.num (constNumber c), w)
  else if i.op = "push" then (((i.lits.getD []).take 1).map fun c => I.num (constNumber c), w)
  else I.op i.name i.extra (i.inArgs.map (I.read env)) w

/-- The meaning of a block. -/
noncomputable def blockRun {V σ : Type} (I : Interp V σ) : List Ins → (String → V) → σ → (String → V) × σ
  | [], env, w => (env, w)
  | i :: is, env, w => blockRun I is (assign env i.outArgs (I.ins i env w).1) (I.ins i env w).2

/-- The operations that change the world. -/
def effectOps : List String :=
  ["calldatacopy", "create", "codecopy", "call", "log4", "delegatecall", "extcodecopy", "create2",
   "assignimmutable", "returndatacopy", "log2", "log1", "log3", "log0", "datacopy", "staticcall", "tstore",
   "mstore", "mcopy", "mstore8", "sstore"]

/-- The instruction is one of `effectOps`, in lower or upper case. -/
def Ins.Effect (i : Ins) : Prop := i.name.map Char.toLower ∈ effectOps

/-- Names of the form `s0, s1, ...`, which the code generates for constants. -/
def Generated (x : String) : Prop := ∃ j : Nat, x = "s" ++ toString j

/-- A proper variable name: neither generated, nor a constant, nor `bottom`. -/
structure Proper (x : String) : Prop where
  notGen : ¬ Generated x
  notLit : ¬ IsLiteral x
  notBottom : x ≠ "bottom"

/-- What is assumed about the block: operations as they appear in the compiler's output (lower-case names of existing
operations; function calls are split off before), single assignment, and proper variable names. -/
structure BlockOk (instrs : List Ins) (src : List String) : Prop where
  known : ∀ i ∈ instrs, i.op = "LiteralAssignment" ∨
    (Opcodes.existsOpcode i.name = true ∧ (Opcodes.opcodes.lookup i.op).isNone ∧
      ∀ p ∈ ["SWAP", "DUP", "VERBATIM", "VGET(", "VSET("], ¬ p.toList <:+: i.name.toList)
  prefixOnly : ∀ i ∈ instrs, "LiteralAssig".toList <+: i.op.toList → i.op = "LiteralAssignment"
  literal : ∀ i ∈ instrs, i.op = "LiteralAssignment" → ∃ c o, i.inArgs = [c] ∧ i.outArgs = [o]
  push : ∀ i ∈ instrs, i.op = "push" → ∃ c, i.lits = some [c] ∧ constNumber c ≠ 0
  pushes : ∀ i ∈ instrs, "push".toList <+: i.op.toList → i.inArgs = [] ∧ ∃ o, i.outArgs = [o]
  noPush : ∀ i ∈ instrs, i.name = "PUSH" → i.op = "push"
  tagOp : ∀ i ∈ instrs, i.name = "PUSH [TAG]" → i.op = "PUSH [tag]"
  sameOp : ∀ i ∈ instrs, ∀ j ∈ instrs, i.name = j.name → i.op = j.op
  outs : (instrs.flatMap (·.outArgs)).Nodup
  defBeforeUse : ∀ pre i post, instrs = pre ++ i :: post → ∀ v ∈ i.outArgs, ∀ j ∈ pre ++ [i], v ∉ j.inArgs
  proper : ∀ i ∈ instrs, ∀ v ∈ i.outArgs, Proper v
  inputs : ∀ i ∈ instrs, ∀ v ∈ i.inArgs, ¬ Generated v ∧ v ≠ "bottom"
  source : ∀ v ∈ src, ¬ Generated v
  sourceFresh : ∀ i ∈ instrs, ∀ v ∈ i.outArgs, v ∉ src

/-- What is assumed about the interpretation: every operation of the block has as many results as the instruction has
output variables, only the effects change the world, operations that push something are constant, and the commutative ones
are commutative. -/
structure InterpOk {V σ : Type} (I : Interp V σ) (instrs : List Ins) : Prop where
  arity : ∀ i ∈ instrs, ∀ env w, (I.ins i env w).1.length = i.outArgs.length
  quiet : ∀ i ∈ instrs, ¬ i.Effect → ∀ lits args w, (I.op i.name lits args w).2 = w
  const : ∀ i ∈ instrs, "push".toList <+: i.op.toList → ∀ lits w w', (I.op i.name lits [] w).1 = (I.op i.name lits [] w').1
  comm : ∀ o ∈ ["ADD", "MUL", "EQ", "AND", "OR", "XOR"], ∀ lits a b w, I.op o lits [a, b] w = I.op o lits [b, a] w

/-- On the values they get in the block, the two instructions do not influence each other. -/
structure IndependentIns {V σ : Type} (I : Interp V σ) (env : String → V) (a b : Ins) : Prop where
  world : ∀ w, (I.ins a env (I.ins b env w).2).2 = (I.ins b env (I.ins a env w).2).2
  left : ∀ w, (I.ins a env (I.ins b env w).2).1 = (I.ins a env w).1
  right : ∀ w, (I.ins b env (I.ins a env w).2).1 = (I.ins b env w).1

/-- The meaning of an entry of the specification that is handed to the scheduler. -/
def Entry.sem {V σ : Type} (I : Interp V σ) (e : Entry) (args : List V) (w : σ) : List V × σ :=
  match e.value with
  | some (.num n) => ([I.num n], w)
  | some (.lits l) => I.op e.instr.disasm (some l) args w
  | none => I.op e.instr.disasm (if e.instr.disasm = "PUSH [TAG]" then some e.instr.outpt else none) args w

/-- The values a slot must hold when a variable is loaded that has not been stored by the schedule itself. -/
def BlockSlots {V σ : Type} (I : Interp V σ) (fin : String → V) (slot : Var → V) (ids : List String) : Prop :=
  ∀ pre s post v, ids = pre ++ s :: post → classify s = some (.get v) →
    (¬ Generated v ∧ slot v = I.read fin v) ∨ ∃ t ∈ pre, classify t = some (.set v)

end Grey.Sfs
