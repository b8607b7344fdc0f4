/-
Model of the opcode table and of the size computations:
  src/parser/opcodes.py       (opcodes, get_opcode, exists_opcode)
  src/parser/utils_parser.py  (process_opcode, number_encoding_size, get_num_bytes_int, get_ins_size)
-/
namespace Grey.Opcodes

/-- `opcodes` (src/parser/opcodes.py:3-118): byte, items removed, items added. The key "MCOPY" occurs twice in
the dict display; Python keeps the first position and the last value (line 79), as here. -/
def opcodes : List (String × (Nat × Nat × Nat)) := [
  ("STOP", (0x00, 0, 0)),
  ("ADD", (0x01, 2, 1)),
  ("MUL", (0x02, 2, 1)),
  ("SUB", (0x03, 2, 1)),
  ("DIV", (0x04, 2, 1)),
  ("SDIV", (0x05, 2, 1)),
  ("MOD", (0x06, 2, 1)),
  ("SMOD", (0x07, 2, 1)),
  ("ADDMOD", (0x08, 3, 1)),
  ("MULMOD", (0x09, 3, 1)),
  ("EXP", (0x0a, 2, 1)),
  ("SIGNEXTEND", (0x0b, 2, 1)),
  ("LT", (0x10, 2, 1)),
  ("GT", (0x11, 2, 1)),
  ("SLT", (0x12, 2, 1)),
  ("SGT", (0x13, 2, 1)),
  ("EQ", (0x14, 2, 1)),
  ("ISZERO", (0x15, 1, 1)),
  ("AND", (0x16, 2, 1)),
  ("OR", (0x17, 2, 1)),
  ("XOR", (0x18, 2, 1)),
  ("NOT", (0x19, 1, 1)),
  ("BYTE", (0x1a, 2, 1)),
  ("SHL", (0x1b, 2, 1)),
  ("SHR", (0x1c, 2, 1)),
  ("SAR", (0x1d, 2, 1)),
  ("SHA3", (0x20, 2, 1)),
  ("KECCAK256", (0x20, 2, 1)),
  ("ADDRESS", (0x30, 0, 1)),
  ("BALANCE", (0x31, 1, 1)),
  ("ORIGIN", (0x32, 0, 1)),
  ("CALLER", (0x33, 0, 1)),
  ("CALLVALUE", (0x34, 0, 1)),
  ("CALLDATALOAD", (0x35, 1, 1)),
  ("CALLDATASIZE", (0x36, 0, 1)),
  ("CALLDATACOPY", (0x37, 3, 0)),
  ("CODESIZE", (0x38, 0, 1)),
  ("CODECOPY", (0x39, 3, 0)),
  ("GASPRICE", (0x3a, 0, 1)),
  ("EXTCODESIZE", (0x3b, 1, 1)),
  ("EXTCODECOPY", (0x3c, 4, 0)),
  ("RETURNDATASIZE", (0x3c, 0, 1)),
  ("MCOPY", (0x5e, 3, 0)),
  ("RETURNDATACOPY", (0x3e, 3, 0)),
  ("EXTCODEHASH", (0x3f, 1, 1)),
  ("BLOCKHASH", (0x40, 1, 1)),
  ("COINBASE", (0x41, 0, 1)),
  ("TIMESTAMP", (0x42, 0, 1)),
  ("NUMBER", (0x43, 0, 1)),
  ("DIFFICULTY", (0x44, 0, 1)),
  ("PREVRANDAO", (0x44, 0, 1)),
  ("GASLIMIT", (0x45, 0, 1)),
  ("CHAINID", (0x46, 0, 1)),
  ("SELFBALANCE", (0x47, 0, 1)),
  ("BASEFEE", (0x48, 0, 1)),
  ("BLOBHASH", (0x49, 1, 1)),
  ("BLOBBASEFEE", (0x4a, 0, 1)),
  ("POP", (0x50, 1, 0)),
  ("MLOAD", (0x51, 1, 1)),
  ("MSTORE", (0x52, 2, 0)),
  ("MSTORE8", (0x53, 2, 0)),
  ("SLOAD", (0x54, 1, 1)),
  ("SSTORE", (0x55, 2, 0)),
  ("JUMP", (0x56, 1, 0)),
  ("JUMPI", (0x57, 2, 0)),
  ("PC", (0x58, 0, 1)),
  ("MSIZE", (0x59, 0, 1)),
  ("GAS", (0x5a, 0, 1)),
  ("JUMPDEST", (0x5b, 0, 0)),
  ("SLOADEXT", (0x5c, 2, 1)),
  ("SSTOREEXT", (0x5d, 3, 0)),
  ("TLOAD", (0x5c, 1, 1)),
  ("TSTORE", (0x5d, 2, 0)),
  ("SLOADBYTESEXT", (0x5c, 4, 0)),
  ("SSTOREBYTESEXT", (0x5d, 4, 0)),
  ("LOG0", (0xa0, 2, 0)),
  ("LOG1", (0xa1, 3, 0)),
  ("LOG2", (0xa2, 4, 0)),
  ("LOG3", (0xa3, 5, 0)),
  ("LOG4", (0xa4, 6, 0)),
  ("CREATE", (0xf0, 3, 1)),
  ("CALL", (0xf1, 7, 1)),
  ("CALLCODE", (0xf2, 7, 1)),
  ("RETURN", (0xf3, 2, 0)),
  ("DELEGATECALL", (0xf4, 6, 1)),
  ("CREATE2", (0xf5, 4, 1)),
  ("BREAKPOINT", (0xf5, 0, 0)),
  ("RNGSEED", (0xf6, 1, 1)),
  ("SSIZEEXT", (0xf7, 2, 1)),
  ("SLOADBYTES", (0xf8, 3, 0)),
  ("SSTOREBYTES", (0xf9, 3, 0)),
  ("SSIZE", (0xfa, 1, 1)),
  ("STATICCALL", (0xfa, 6, 1)),
  ("STATEROOT", (0xfb, 1, 1)),
  ("TXEXECGAS", (0xfc, 0, 1)),
  ("CALLSTATIC", (0xfd, 7, 1)),
  ("REVERT", (0xfd, 2, 0)),
  ("ASSERTFAIL", (0xfe, 0, 0)),
  ("INVALID", (0xfe, 0, 0)),
  ("SUICIDE", (0xff, 1, 0)),
  ("ASSIGNIMMUTABLE", (0x00, 2, 0)),
  ("PUSH [TAG]", (0x00, 0, 1)),
  ("PUSHLIB", (0x00, 0, 1)),
  ("PUSH #[$]", (0x00, 0, 1)),
  ("PUSH [$]", (0x00, 0, 1)),
  ("PUSHDEPLOYADDRESS", (0x00, 0, 1)),
  ("PUSH data", (0x00, 0, 1)),
  ("PUSHSIZE", (0x00, 0, 1)),
  ("PUSHIMMUTABLE", (0x00, 0, 1)),
  ("---END---", (0x00, 0, 0)),
  ("DATASIZE", (0x00, 0, 1)),
  ("DATAOFFSET", (0x00, 0, 1))]

/-- The loops over `range(n)` of `get_opcode` (src/parser/opcodes.py:238-246): the first `i` with
`opcode == pre + str(i + 1)`. -/
def numbered (pre : String) (n : Nat) (op : String) : Option Nat :=
  (List.range n).find? fun i => op == pre ++ toString (i + 1)

/-- `get_opcode` (src/parser/opcodes.py:207-247). For "tag…", DUPi and SWAPi the code returns the byte as a
hexadecimal string; it is modelled by its value. The loop over PUSHi (lines 233-236) is unreachable: every
string starting with PUSH has returned before. `none`: `ValueError`. -/
def getOpcode (op : String) : Option (Nat × Nat × Nat) :=
  match opcodes.lookup op with
  | some e => some e
  | none =>
    if op = "SELFDESTRUCT" then some (0xff, 1, 0)
    else if op = "RETURNDATASIZE" then some (0x3d, 0, 1)
    else if op = "RETURNDATACOPY" then some (0x3e, 3, 0)
    else if op = "PUSH0" then some (0x5f, 0, 1)
    else if "PUSH".toList.isPrefixOf op.toList then some (0x60, 0, 1)
    else if "tag".toList.isPrefixOf op.toList then some (0x00, 0, 0)
    else match numbered "DUP" 16 op with
      | some i => some (0x80 + i, i + 1, i + 2)
      | none =>
        match numbered "SWAP" 16 op with
        | some i => some (0x90 + i, i + 2, i + 2)
        | none => none

/-- `exists_opcode` (src/parser/opcodes.py:250-255). -/
def existsOpcode (op : String) : Bool := (getOpcode op).isSome

/-- One hexadecimal digit, as printed by `hex`. -/
def hexChar (d : Nat) : Char := if d < 10 then Char.ofNat (48 + d) else Char.ofNat (87 + d)

/-- `hex(n)[2:]`. -/
def hexDigits (n : Nat) : List Char :=
  if n < 16 then [hexChar n] else hexDigits (n / 16) ++ [hexChar (n % 16)]
termination_by n

/-- `process_opcode` (src/parser/utils_parser.py:41-46); `int(op_val, 16)` of `hex(n)[2:]` is `n` again. -/
def processOpcode (n : Nat) : String :=
  if n < 12 then String.ofList ('0' :: hexDigits n) else String.ofList (hexDigits n)

/-- The `while` loop of `number_encoding_size` (src/parser/utils_parser.py:57-59), on Python integers;
`number >> 8` is the floor of `number / 256`. The fuel bounds the number of iterations: `none` means that the loop
has not stopped by then. -/
def encLoop : Nat → Int → Nat → Option Nat
  | 0, n, i => if n = 0 then some i else none
  | f + 1, n, i => if n = 0 then some i else encLoop f (n / 256) (i + 1)

/-- `number_encoding_size` (src/parser/utils_parser.py:51-60). -/
def numberEncodingSize (fuel : Nat) (number : Int) : Option Nat :=
  encLoop fuel (if number < 0 then 2 ^ 256 + number else number) 0

/-- `get_num_bytes_int` (src/parser/utils_parser.py:64-65). -/
def getNumBytesInt (fuel : Nat) (val : Int) : Option Nat := (numberEncodingSize fuel val).map (max 1)

/-- `get_ins_size` (src/parser/utils_parser.py:75-104) with the default address length 2. `none`: `ValueError` (or no
value for a PUSH). -/
def getInsSize (fuel : Nat) (op : String) (val : Option Int) : Option Nat :=
  if op = "ASSIGNIMMUTABLE" then some 35
  else if op = "PUSH0" then some 1
  else if op = "PUSH" then val.bind fun v => (getNumBytesInt fuel v).map (1 + ·)
  else if op = "PUSH #[$]" ∨ op = "PUSHSIZE" then some 5
  else if op = "PUSH [TAG]" ∨ op = "PUSH data" ∨ op = "PUSH [$]" then some 3
  else if op = "PUSHLIB" ∨ op = "PUSHDEPLOYADDRESS" then some 21
  else if op = "PUSHIMMUTABLE" then some 33
  else if op = "tag" then some 0
  else if !("PUSH".toList.isPrefixOf op.toList) then some 1
  else none

/-- `is_commutative` (src/parser/utils_parser.py:107-108). -/
def isCommutative (op : String) : Bool := decide (op ∈ ["ADD", "MUL", "EQ", "AND", "OR", "XOR"])

/-- `memory_storage_instructions` (src/parser/constants.py:6-8). -/
def memoryStorageInstructions : List String :=
  ["calldatacopy", "create", "codecopy", "call", "log4", "gas", "delegatecall", "extcodecopy", "create2",
   "assignimmutable", "returndatacopy", "log2", "log1", "log3", "log0", "datacopy", "staticcall", "tstore",
   "mstore", "mcopy", "mstore8", "sstore"]

end Grey.Opcodes
