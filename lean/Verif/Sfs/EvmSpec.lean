/-
Specification for C51: the state an EVM instruction acts on, and which parts of it each instruction may read and write.
Independent of the functions that build a specification.
-/
import Verif.Sfs.BuildSpec
import Verif.Deps.Spec
namespace Grey.Sfs
open Grey.Deps (Reads Writes ReadsKey WritesKey Feeds)

/-- The places of the state: the bytes of memory, the words of storage and of transient storage, and everything else (logs,
return data, balances, code of other accounts) as one place. -/
inductive Loc where
  | mem (k : Nat)
  | sto (k : Nat)
  | trans (k : Nat)
  | env
  deriving DecidableEq, Repr

def callOps : List String := ["call", "callcode", "delegatecall", "staticcall"]
def createOps : List String := ["create", "create2"]

/-- The instructions that change the environment: calls, contract creation and logs. -/
def envWriters : List String := callOps ++ createOps ++ ["log0", "log1", "log2", "log3", "log4"]

/-- The instructions that depend on the environment. `gas` is left out (the amount of gas is not preserved by any
optimization), and so is `msize`. -/
def envReaders : List String :=
  envWriters ++ ["returndatasize", "returndatacopy", "balance", "selfbalance", "extcodesize", "extcodecopy", "extcodehash"]

/-- Instruction `op` on the argument values `a` may read the place. -/
def MayRead (op : String) (a : List Nat) : Loc → Prop
  | .mem k => Reads op a k
  | .sto k => ReadsKey "sload" op a k
  | .trans k => ReadsKey "tload" op a k
  | .env => op ∈ envReaders

/-- Instruction `op` on the argument values `a` may write the place. -/
def MayWrite (op : String) (a : List Nat) : Loc → Prop
  | .mem k => Writes op a k
  | .sto k => WritesKey "sstore" op a k
  | .trans k => WritesKey "tstore" op a k
  | .env => op ∈ envWriters

/-- The interpretation of the instructions of the block is local: results depend on what may be read, the new content of a
place that may be written on its old content and on what may be read, and nothing else changes. -/
structure LocalOk {C : Type} (I : Interp Nat (Loc → C)) (instrs : List Ins) : Prop where
  result : ∀ i ∈ instrs, ∀ env w w', (∀ l, MayRead i.op (i.inArgs.map (I.read env)) l → w l = w' l) →
    (I.ins i env w).1 = (I.ins i env w').1
  written : ∀ i ∈ instrs, ∀ env w w', (∀ l, MayRead i.op (i.inArgs.map (I.read env)) l → w l = w' l) →
    ∀ l, w l = w' l → (I.ins i env w).2 l = (I.ins i env w').2 l
  untouched : ∀ i ∈ instrs, ∀ env w l, ¬ MayWrite i.op (i.inArgs.map (I.read env)) l → (I.ins i env w).2 l = w l

/-- The instructions the dependence analyses look at. -/
def analysedOps : List String :=
  ["mload", "mstore", "mstore8", "keccak256", "codecopy", "extcodecopy", "calldatacopy", "returndatacopy", "mcopy",
   "log0", "log1", "log2", "log3", "log4", "create", "create2", "call", "callcode", "delegatecall", "staticcall",
   "assignimmutable", "sload", "sstore", "tload", "tstore"]

/-- What the dependence analyses of the code do not see, and therefore has to be excluded (each item by a counterexample
in the code, see C06, C07, C42 and `logs_reordered`, `return_size_reordered`). `value` gives the run-time values of the arguments. -/
structure Analysable (instrs : List Ins) (positions : List (Nat × String)) (unused : List String)
    (value : String → Nat) : Prop where
  /-- `return` and `revert` only end blocks. -/
  noExit : ∀ i ∈ instrs, ¬ (i.op = "return" ∨ i.op = "revert")
  /-- Only calls are ordered with calls; logs, creations and reads of the environment are not ordered with them. -/
  env : ∀ (m n : Nat) a b, m < n → instrs[m]? = some a → instrs[n]? = some b →
    (a.op ∈ envWriters ∧ b.op ∈ envReaders) ∨ (a.op ∈ envReaders ∧ b.op ∈ envWriters) → a.op ∈ callOps ∧ b.op ∈ callOps
  /-- Contract creation is not ordered with storage accesses. -/
  create : ∀ a ∈ instrs, a.op ∈ createOps → ∀ b ∈ instrs, b.op ∉ ["sload", "sstore", "tload", "tstore"]
  /-- A key is assumed to differ from every key computed from it. -/
  keys : ∀ ops ∈ [["sload", "sstore"], ["tload", "tstore"]], ∀ a ∈ instrs, ∀ b ∈ instrs, a.op ∈ ops → b.op ∈ ops →
    ∀ u v, a.inArgs[0]? = some u → b.inArgs[0]? = some v →
      Feeds (instrs.map fun i => (i.op, i.inArgs, i.outArgs)) u v → value u ≠ value v
  /-- Removing an instruction as unused loses the order of the instructions around it. -/
  used : ∀ (n : Nat) i x, instrs[n]? = some i → positions.lookup n = some x → i.op ∈ analysedOps → x ∉ unused

end Grey.Sfs
