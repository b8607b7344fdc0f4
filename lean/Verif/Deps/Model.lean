/-
Model of src/analysis/instruction_dependencies.py and of the parts of src/parser/cfg_instruction.py it uses.
-/
namespace Grey.Deps

/-- `CFGInstruction` (src/parser/cfg_instruction.py:125-141): the fields compared by `__eq__` (429-431). -/
structure Instr where
  op : String
  ins : List String
  outs : List String
  deriving DecidableEq, Repr

/-- `expression_T`: `int`, a variable name, or `(op, [exp1, ..., expn])`. -/
inductive Expr where
  | const (n : Nat)
  | var (v : String)
  | app (op : String) (args : List Expr)
  deriving Repr

/-- Read or write, the non-`None` values of `get_type_mem_op`. -/
inductive Acc where
  | read
  | write
  deriving DecidableEq, Repr

/-- `get_type_mem_op` (src/parser/cfg_instruction.py:252-258). -/
def typeMemOp (op : String) : Option Acc :=
  if op ∈ ["tload", "sload", "mload", "keccak256", "log0", "log1", "log2", "log3", "log4", "create", "create2"] then
    some .read
  else if op ∈ ["assignimmutable", "tstore", "mstore", "mstore8", "codecopy", "extcodecopy", "calldatacopy",
      "returndatacopy", "mcopy", "sstore"] then
    some .write
  else none

/-- `get_interval` (src/analysis/instruction_dependencies.py:12-29): the argument positions of the interval
of opcodes with one interval. `none` when the Python function returns a pair of intervals or `None`. -/
def intervalOne (op : String) (a : List String) : Option (Option String × Option String) :=
  if op ∈ ["keccak256", "log0", "log1", "log2", "log3", "log4"] then some (a[0]?, a[1]?)
  else if op ∈ ["codecopy", "calldatacopy", "returndatacopy"] then some (a[0]?, a[2]?)
  else if op ∈ ["extcodecopy"] then some (a[1]?, a[3]?)
  else if op ∈ ["create", "create2"] then some (a[1]?, a[2]?)
  else none

/-- `get_interval` (src/analysis/instruction_dependencies.py:24-29) for the opcodes with two intervals. -/
def intervalTwo (op : String) (a : List String) :
    Option ((Option String × Option String) × (Option String × Option String)) :=
  if op ∈ ["call", "callcode"] then some ((a[3]?, a[4]?), (a[5]?, a[6]?))
  else if op ∈ ["mcopy"] then some ((a[1]?, a[2]?), (a[0]?, a[2]?))
  else if op ∈ ["delegatecall", "staticcall"] then some ((a[2]?, a[3]?), (a[4]?, a[5]?))
  else none

/-- Value of a hexadecimal digit. -/
def hexDigit (c : Char) : Option Nat :=
  if '0' ≤ c ∧ c ≤ '9' then some (c.toNat - '0'.toNat)
  else if 'a' ≤ c ∧ c ≤ 'f' then some (c.toNat - 'a'.toNat + 10)
  else if 'A' ≤ c ∧ c ≤ 'F' then some (c.toNat - 'A'.toNat + 10)
  else none

def parseHexFrom : Nat → List Char → Option Nat
  | n, [] => some n
  | n, c :: cs => (hexDigit c).bind fun d => parseHexFrom (16 * n + d) cs

/-- `int(var, 16)` for a string that starts with "0x" (src/analysis/instruction_dependencies.py:40-41).
Simplification: digits only; Python also accepts underscores between digits. -/
def parseHex (s : String) : Option Nat :=
  match s.toList.drop 2 with
  | [] => none
  | cs => parseHexFrom 0 cs

/-- `var.startswith("0x")`. -/
def isLit (s : String) : Bool := "0x".toList.isPrefixOf s.toList

/-- `get_expression` (src/analysis/instruction_dependencies.py:32-58). The fuel bounds the recursion depth:
`none` stands for an exception (`ValueError`, `AssertionError`) or, when the fuel is used up, for the
`RecursionError` of a cyclic definition. Simplification: "consecutive candidates are equal" is written
"all candidates equal the first". -/
def getExpr : Nat → List Instr → String → Option Expr
  | 0, _, _ => none
  | f + 1, instrs, v =>
    if isLit v then (parseHex v).map .const
    else
      match instrs.filter (fun x => decide (v ∈ x.outs)) with
      | [] => some (.var v)
      | c :: cs =>
        if cs.all (· == c) then (c.ins.mapM (getExpr f instrs)).map (.app c.op) else none

/-- Fuel that suffices for every acyclic list of definitions: a chain of definitions visits each instruction
at most once. -/
def expr (instrs : List Instr) (v : String) : Option Expr := getExpr (instrs.length + 1) instrs v

mutual
/-- `is_member_recursive` (src/analysis/instruction_dependencies.py:61-76). -/
def isMember (v : String) : Expr → Bool
  | .const _ => false
  | .var w => v == w
  | .app _ args => isMemberL v args
def isMemberL (v : String) : List Expr → Bool
  | [] => false
  | x :: xs => isMember v x || isMemberL v xs
end

/-- `are_dependent_accesses` (src/analysis/instruction_dependencies.py:79-101), on the first components.
The string "inf" and a variable called "inf" are the same Python value. -/
def depAccess (e1 e2 : Expr) : Bool :=
  match e1, e2 with
  | .var "inf", _ => true
  | _, .var "inf" => true
  | .const a, .const b => a == b
  | .var _, .var _ => true
  | .var v, .app op args => !isMember v (.app op args)
  | .app op args, .var v => !isMember v (.app op args)
  | _, _ => true

/-- `overlap` (src/analysis/instruction_dependencies.py:121-125). Python integers; the literals it is applied
to are non-negative, but the function is modelled on all integers. -/
def overlap (i1 o1 i2 o2 : Int) : Bool :=
  (decide (i1 ≤ i2) && decide (i2 < i1 + o1)) || (decide (i2 ≤ i1) && decide (i1 < i2 + o2))

/-- `are_dependent_interval` (src/analysis/instruction_dependencies.py:104-118). -/
def depInterval (x y : Expr × Expr) : Bool :=
  match x.1, x.2, y.1, y.2 with
  | .const a, .const m, .const b, .const n => overlap a m b n
  | _, _, _, _ => true

/-- `generate_dep` (src/analysis/instruction_dependencies.py:128-132). -/
def generateDep (t1 t2 : Option Acc) : Bool := t1 == some .write || t2 == some .write

/-- An entry of `sto_ins`/`trans_ins`: position, accessed key, type. The interval `(key, 0)` only
contributes its first component (src/analysis/instruction_dependencies.py:83-84). -/
structure KeyAccess where
  pos : Nat
  key : Expr
  type : Option Acc
  deriving Repr

/-- An entry of `mem_ins`. -/
structure MemAccess where
  pos : Nat
  iv : Expr × Expr
  type : Option Acc
  deriving Repr

/-- One iteration of the loop of `compute_storage_dependences` / `compute_transient_dependences`
(src/analysis/instruction_dependencies.py:143-156, 174-187); `ops` is `["sload","sstore"]` or `["tload","tstore"]`. -/
def keyAccessAt (ops : List String) (pre : List Instr) (x : Instr) : Option (List KeyAccess) :=
  if x.op ∈ ops then
    (x.ins[0]?).bind fun v => (expr pre v).map fun e => [⟨pre.length, e, typeMemOp x.op⟩]
  else if x.op ∈ ["call", "delegatecall", "staticcall", "callcode"] then
    some [⟨pre.length, .var "inf", some .write⟩]
  else some []

def keyAccesses (ops : List String) : List Instr → List Instr → Option (List KeyAccess)
  | _, [] => some []
  | pre, x :: xs => (keyAccessAt ops pre x).bind fun a => (keyAccesses ops (pre ++ [x]) xs).map (a ++ ·)

/-- The list comprehensions over `i < j` (src/analysis/instruction_dependencies.py:158-161, 189-192). -/
def keyPairs : List KeyAccess → List (Nat × Nat)
  | [] => []
  | a :: l =>
    ((l.filter fun b => depAccess a.key b.key && generateDep a.type b.type).map fun b => (a.pos, b.pos)) ++ keyPairs l

/-- `compute_storage_dependences` (src/analysis/instruction_dependencies.py:137-165). -/
def storageDeps (instrs : List Instr) : Option (List (Nat × Nat)) :=
  (keyAccesses ["sload", "sstore"] [] instrs).map keyPairs

/-- `compute_transient_dependences` (src/analysis/instruction_dependencies.py:168-196). -/
def transientDeps (instrs : List Instr) : Option (List (Nat × Nat)) :=
  (keyAccesses ["tload", "tstore"] [] instrs).map keyPairs

/-- The two bounds of an interval as expressions (`list(map(get_expression, interval))`). -/
def exprPair (pre : List Instr) (p : Option String × Option String) : Option (Expr × Expr) :=
  p.1.bind fun a => p.2.bind fun b => (expr pre a).bind fun ea => (expr pre b).map fun eb => (ea, eb)

/-- `mem_instrs_access` and `mem_instrs_offset` (src/analysis/instruction_dependencies.py:207-210). -/
def memAccessOps : List String := ["mload", "mstore", "mstore8"]
def memOffsetOps : List String :=
  ["keccak256", "codecopy", "extcodecopy", "calldatacopy", "returndatacopy", "mcopy", "log0", "log1", "log2",
   "log3", "log4", "create", "create2", "call", "delegatecall", "staticcall", "callcode"]

/-- One iteration of the loop of `compute_memory_dependences`
(src/analysis/instruction_dependencies.py:212-239). -/
def memAccessAt (pre : List Instr) (x : Instr) : Option (List MemAccess) :=
  if x.op ∈ memAccessOps then
    (x.ins[0]?).bind fun v => (expr pre v).map fun e => [⟨pre.length, (e, .const 32), typeMemOp x.op⟩]
  else if x.op = "assignimmutable" then
    some [⟨pre.length, (.const 0, .var "inf"), some .write⟩]
  else if x.op ∈ memOffsetOps then
    if x.op ∉ ["call", "callcode", "delegatecall", "staticcall", "mcopy"] then
      (intervalOne x.op x.ins).bind fun p => (exprPair pre p).map fun iv => [⟨pre.length, iv, typeMemOp x.op⟩]
    else
      (intervalTwo x.op x.ins).bind fun p =>
        (exprPair pre p.1).bind fun r => (exprPair pre p.2).map fun w =>
          [⟨pre.length, r, some .read⟩, ⟨pre.length, w, some .write⟩]
  else some []

def memAccesses : List Instr → List Instr → Option (List MemAccess)
  | _, [] => some []
  | pre, x :: xs => (memAccessAt pre x).bind fun a => (memAccesses (pre ++ [x]) xs).map (a ++ ·)

/-- The list comprehension (src/analysis/instruction_dependencies.py:241-244). -/
def memPairs : List MemAccess → List (Nat × Nat)
  | [] => []
  | a :: l =>
    ((l.filter fun b => decide (a.pos ≠ b.pos) && generateDep a.type b.type && depInterval a.iv b.iv).map
      fun b => (a.pos, b.pos)) ++ memPairs l

/-- `compute_memory_dependences` (src/analysis/instruction_dependencies.py:201-248). -/
def memoryDeps (instrs : List Instr) : Option (List (Nat × Nat)) :=
  (memAccesses [] instrs).map memPairs

/-- Positions of the `gas` instructions (src/analysis/instruction_dependencies.py:253-258). -/
def gasPositions : Nat → List Instr → List Nat
  | _, [] => []
  | i, x :: xs => if x.op ∈ ["gas"] then i :: gasPositions (i + 1) xs else gasPositions (i + 1) xs

def natPairs : List Nat → List (Nat × Nat)
  | [] => []
  | a :: l => l.map (fun b => (a, b)) ++ natPairs l

/-- `compute_gas_dependences` (src/analysis/instruction_dependencies.py:251-263). -/
def gasDeps (instrs : List Instr) : List (Nat × Nat) := natPairs (gasPositions 0 instrs)

end Grey.Deps
