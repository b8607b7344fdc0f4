/-
The instruction set of the EVM (Yellow Paper, Cancun revision), written independently of the code: mnemonic, byte,
stack items removed, stack items added. PUSH1..PUSH32, DUP1..DUP16 and SWAP1..SWAP16 are given by rules below.
-/
namespace Grey.Opcodes

def evm : List (String × (Nat × Nat × Nat)) := [
  ("STOP", (0x00, 0, 0)),
  ("ADD", (0x01, 2, 1)),
  ("MUL", (0x02, 2, 1)),
  ("SUB", (0x03, 2, 1)),
  ("DIV", (0x04, 2, 1)),
  ("SDIV", (0x05, 2, 1)),
  ("MOD", (0x06, 2, 1)),
  ("SMOD", (0x07, 2, 1)),
  ("ADDMOD", (0x08, 3, 1)),
  ("MULMOD", (0x09, 3, 1)),
  ("EXP", (0x0a, 2, 1)),
  ("SIGNEXTEND", (0x0b, 2, 1)),
  ("LT", (0x10, 2, 1)),
  ("GT", (0x11, 2, 1)),
  ("SLT", (0x12, 2, 1)),
  ("SGT", (0x13, 2, 1)),
  ("EQ", (0x14, 2, 1)),
  ("ISZERO", (0x15, 1, 1)),
  ("AND", (0x16, 2, 1)),
  ("OR", (0x17, 2, 1)),
  ("XOR", (0x18, 2, 1)),
  ("NOT", (0x19, 1, 1)),
  ("BYTE", (0x1a, 2, 1)),
  ("SHL", (0x1b, 2, 1)),
  ("SHR", (0x1c, 2, 1)),
  ("SAR", (0x1d, 2, 1)),
  ("KECCAK256", (0x20, 2, 1)),
  ("ADDRESS", (0x30, 0, 1)),
  ("BALANCE", (0x31, 1, 1)),
  ("ORIGIN", (0x32, 0, 1)),
  ("CALLER", (0x33, 0, 1)),
  ("CALLVALUE", (0x34, 0, 1)),
  ("CALLDATALOAD", (0x35, 1, 1)),
  ("CALLDATASIZE", (0x36, 0, 1)),
  ("CALLDATACOPY", (0x37, 3, 0)),
  ("CODESIZE", (0x38, 0, 1)),
  ("CODECOPY", (0x39, 3, 0)),
  ("GASPRICE", (0x3a, 0, 1)),
  ("EXTCODESIZE", (0x3b, 1, 1)),
  ("EXTCODECOPY", (0x3c, 4, 0)),
  ("RETURNDATASIZE", (0x3d, 0, 1)),
  ("RETURNDATACOPY", (0x3e, 3, 0)),
  ("EXTCODEHASH", (0x3f, 1, 1)),
  ("BLOCKHASH", (0x40, 1, 1)),
  ("COINBASE", (0x41, 0, 1)),
  ("TIMESTAMP", (0x42, 0, 1)),
  ("NUMBER", (0x43, 0, 1)),
  ("PREVRANDAO", (0x44, 0, 1)),
  ("GASLIMIT", (0x45, 0, 1)),
  ("CHAINID", (0x46, 0, 1)),
  ("SELFBALANCE", (0x47, 0, 1)),
  ("BASEFEE", (0x48, 0, 1)),
  ("BLOBHASH", (0x49, 1, 1)),
  ("BLOBBASEFEE", (0x4a, 0, 1)),
  ("POP", (0x50, 1, 0)),
  ("MLOAD", (0x51, 1, 1)),
  ("MSTORE", (0x52, 2, 0)),
  ("MSTORE8", (0x53, 2, 0)),
  ("SLOAD", (0x54, 1, 1)),
  ("SSTORE", (0x55, 2, 0)),
  ("JUMP", (0x56, 1, 0)),
  ("JUMPI", (0x57, 2, 0)),
  ("PC", (0x58, 0, 1)),
  ("MSIZE", (0x59, 0, 1)),
  ("GAS", (0x5a, 0, 1)),
  ("JUMPDEST", (0x5b, 0, 0)),
  ("TLOAD", (0x5c, 1, 1)),
  ("TSTORE", (0x5d, 2, 0)),
  ("MCOPY", (0x5e, 3, 0)),
  ("PUSH0", (0x5f, 0, 1)),
  ("LOG0", (0xa0, 2, 0)),
  ("LOG1", (0xa1, 3, 0)),
  ("LOG2", (0xa2, 4, 0)),
  ("LOG3", (0xa3, 5, 0)),
  ("LOG4", (0xa4, 6, 0)),
  ("CREATE", (0xf0, 3, 1)),
  ("CALL", (0xf1, 7, 1)),
  ("CALLCODE", (0xf2, 7, 1)),
  ("RETURN", (0xf3, 2, 0)),
  ("DELEGATECALL", (0xf4, 6, 1)),
  ("CREATE2", (0xf5, 4, 1)),
  ("STATICCALL", (0xfa, 6, 1)),
  ("REVERT", (0xfd, 2, 0)),
  ("INVALID", (0xfe, 0, 0)),
  ("SELFDESTRUCT", (0xff, 1, 0))]

/-- The value denoted by a string of lower-case hexadecimal digits. -/
def hexVal (s : List Char) : Nat :=
  s.foldl (fun n c => 16 * n + (if c.toNat < 58 then c.toNat - 48 else c.toNat - 87)) 0

/-- The bytes that the pseudo instructions of the assembler take: tags and subobjects have addresses of two bytes, sizes of
subobjects four, addresses of libraries and of the contract twenty; an immutable is a word, and assigning one takes an addition
of an offset (three bytes) and a word. Tags themselves take no space, the JUMPDEST after them is an item of its own. -/
def pseudoSizes : List (String × Nat) :=
  [("PUSH [TAG]", 1 + 2), ("PUSH data", 1 + 2), ("PUSH [$]", 1 + 2), ("PUSH #[$]", 1 + 4), ("PUSHSIZE", 1 + 4), ("PUSHLIB", 1 + 20),
    ("PUSHDEPLOYADDRESS", 1 + 20), ("PUSHIMMUTABLE", 1 + 32), ("ASSIGNIMMUTABLE", 3 + 32), ("tag", 0)]

end Grey.Opcodes
