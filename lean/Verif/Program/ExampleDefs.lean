/-
A small program for C53: the main code calls a function, stores its result, and goes over two ways to a block with a phi
function.

    v := sload(0); r := g(v); sstore(1, r); if r then p := r + 5 else p := r; sstore(3, p); stop
    g(x) := x + 1
-/
import Verif.Program.Spec
import Verif.Sfs.EndToEndExample
namespace Grey.Program
open Grey.Layout Grey.Sfs Grey.SymExec

/-- The numbers of the tags. -/
def exTag : Option (List String) → Nat
  | some [t] => if t = "1" then 100 else if t = "2" then 200 else if t = "3" then 300 else if t = "4" then 400 else 0
  | _ => 0

/-- The fragment of the EVM of C51, with tags. -/
def evmTag (tag : Option (List String) → Nat) : Interp Nat (Loc → Nat) where
  num := id
  op := fun name extra args w => if name = "PUSH [TAG]" then ([tag extra], w) else evm.op name extra args w

abbrev evmT : Interp Nat (Loc → Nat) := evmTag exTag

/-- Where the code of the blocks begins. -/
def exDest (v : Nat) : Option (String × String) :=
  if v = 100 then some ("g", "g_Block0") else if v = 200 then some ("main", "M1") else if v = 300 then some ("main", "M3")
  else if v = 400 then some ("main", "M2") else none

def exMainGraph : Component where
  blocks := [⟨"Block0", [], [], [], none, some "M1", "sub_block", "", ["r"], ["1", "v", "2"]⟩,
    ⟨"M1", ["Block0"], [], [], some "M3", some "M2", "conditional", "", [], ["3", "r"]⟩,
    ⟨"M3", ["M1"], [], [], some "M2", none, "unconditional", "", [], ["4"]⟩,
    ⟨"M2", ["M1", "M3"], ["M1", "M3"], [⟨"p", ["r", "q"]⟩], none, none, "terminal", "", [], []⟩]
  start := "Block0"
  inputs := []
  main := true
  junk := true
  inLoop := fun _ => false
  liveIn := fun b => if b = "Block0" then [] else if b = "M2" then ["p"] else ["r"]
  liveOut := fun b => if b = "Block0" then ["r"] else if b = "M1" then ["r"] else if b = "M3" then ["q"] else []
  depth := fun _ _ => [0]
  level := fun b => if b = "Block0" then some 0 else if b = "M1" then some 1 else if b = "M2" ∨ b = "M3" then some 2 else none
  domPath := fun p q => if p = "M1" ∧ q = "M3" then some ["M1", "M3"] else none

def exGGraph : Component where
  blocks := [⟨"g_Block0", [], [], [], none, none, "FunctionReturn", "", [], ["out_g", "y"]⟩]
  start := "g_Block0"
  inputs := ["x", "out_g"]
  main := false
  junk := true
  inLoop := fun _ => false
  liveIn := fun _ => ["x", "out_g"]
  liveOut := fun _ => []
  depth := fun _ _ => [0]
  level := fun _ => some 0
  domPath := fun _ _ => none

def exMain : Fn where
  graph := exMainGraph
  instrs := fun b =>
    if b = "Block0" then [⟨"sload", ["0x00"], ["v"], none⟩, ⟨"PUSH [tag]", [], ["1"], none⟩, ⟨"PUSH [tag]", [], ["2"], none⟩]
    else if b = "M1" then [⟨"sstore", ["0x01", "r"], [], none⟩, ⟨"PUSH [tag]", [], ["3"], none⟩]
    else if b = "M3" then [⟨"add", ["r", "0x05"], ["q"], none⟩, ⟨"PUSH [tag]", [], ["4"], none⟩]
    else if b = "M2" then [⟨"sstore", ["0x03", "p"], [], none⟩]
    else []
  split := fun b =>
    if b = "Block0" then some ⟨"g", ["1", "v", "2"], ["r"], none⟩
    else if b = "M1" then some ⟨"JUMPI", ["3", "r"], [], none⟩
    else if b = "M3" then some ⟨"JUMP", ["4"], [], none⟩
    else if b = "M2" then some ⟨"stop", [], [], none⟩
    else none

def exG : Fn where
  graph := exGGraph
  instrs := fun _ => [⟨"add", ["x", "0x01"], ["y"], none⟩]
  split := fun _ => some ⟨"functionReturn", ["out_g", "y"], [], none⟩

def exProg : Prog where
  fns := fun f => if f = "main" then some exMain else if f = "g" then some exG else none
  main := "main"

end Grey.Program
