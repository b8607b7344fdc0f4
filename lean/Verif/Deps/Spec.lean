/-
Specification for the dependence analysis: what EVM instructions read and write, on run-time values.
Independent of the model's functions.
-/
namespace Grey.Deps

/-- Value of a sequence of hexadecimal digits, most significant first. -/
def digitsVal (ds : List Nat) : Nat := ds.foldl (fun n d => 16 * n + d) 0

/-- The digit `d` written as a character (lower or upper case). -/
def digitChar (d : Nat) (upper : Bool) : Char :=
  if d < 10 then Char.ofNat (48 + d) else if upper then Char.ofNat (55 + d) else Char.ofNat (87 + d)

/-- Values of names at run time: a literal `0x...` stands for its value, everything else is arbitrary. -/
def Lits (env : String → Nat) : Prop :=
  ∀ ds : List (Nat × Bool), ds ≠ [] → (∀ d ∈ ds, d.1 < 16) →
    env (String.ofList ('0' :: 'x' :: ds.map fun d => digitChar d.1 d.2)) = digitsVal (ds.map (·.1))

/-- `k` lies in the `n` bytes from `o`. -/
def InRange (o n k : Nat) : Prop := o ≤ k ∧ k < o + n

/-- Byte `k` of memory is read by the EVM instruction `op` on arguments `a` (Yul order). -/
def Reads (op : String) (a : List Nat) (k : Nat) : Prop :=
  match op with
  | "mload" => InRange (a.getD 0 0) 32 k
  | "keccak256" | "log0" | "log1" | "log2" | "log3" | "log4" | "return" | "revert" =>
    InRange (a.getD 0 0) (a.getD 1 0) k
  | "create" | "create2" => InRange (a.getD 1 0) (a.getD 2 0) k
  | "call" | "callcode" => InRange (a.getD 3 0) (a.getD 4 0) k
  | "delegatecall" | "staticcall" => InRange (a.getD 2 0) (a.getD 3 0) k
  | "mcopy" => InRange (a.getD 1 0) (a.getD 2 0) k
  | _ => False

/-- Byte `k` of memory may be written by the EVM instruction `op` on arguments `a` (Yul order).
`assignimmutable` writes at places chosen by the linker. -/
def Writes (op : String) (a : List Nat) (k : Nat) : Prop :=
  match op with
  | "mstore" => InRange (a.getD 0 0) 32 k
  | "mstore8" => InRange (a.getD 0 0) 1 k
  | "codecopy" | "calldatacopy" | "returndatacopy" => InRange (a.getD 0 0) (a.getD 2 0) k
  | "extcodecopy" => InRange (a.getD 1 0) (a.getD 3 0) k
  | "call" | "callcode" => InRange (a.getD 5 0) (a.getD 6 0) k
  | "delegatecall" | "staticcall" => InRange (a.getD 4 0) (a.getD 5 0) k
  | "mcopy" => InRange (a.getD 0 0) (a.getD 2 0) k
  | "assignimmutable" => True
  | _ => False

end Grey.Deps

namespace Grey.Deps

/-- The value of variable `x` goes into the computation of `v` inside the list of instructions
(given as triples operation, arguments, results). -/
inductive Feeds (instrs : List (String × List String × List String)) : String → String → Prop
  | direct {op ins outs x v} (h : (op, ins, outs) ∈ instrs) (hv : v ∈ outs) (hx : x ∈ ins) : Feeds instrs x v
  | through {op ins outs x y v} (h : (op, ins, outs) ∈ instrs) (hv : v ∈ outs) (hy : y ∈ ins)
      (t : Feeds instrs x y) : Feeds instrs x v

/-- The instruction may read the contract's storage at key `k`. Calls run foreign code. -/
def ReadsKey (load : String) (op : String) (a : List Nat) (k : Nat) : Prop :=
  (op = load ∧ a[0]? = some k) ∨ op ∈ ["call", "callcode", "delegatecall", "staticcall", "create", "create2"]

/-- The instruction may write the contract's storage at key `k`. -/
def WritesKey (store : String) (op : String) (a : List Nat) (k : Nat) : Prop :=
  (op = store ∧ a[0]? = some k) ∨ op ∈ ["call", "callcode", "delegatecall", "create", "create2"]

/-- The values respect the EVM meaning of `add`. -/
def AddOk (env : String → Nat) (instrs : List (String × List String × List String)) : Prop :=
  ∀ a b c, ("add", [a, b], [c]) ∈ instrs → env c = (env a + env b) % 2 ^ 256

end Grey.Deps
