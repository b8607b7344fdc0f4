/-
A recursive function whose parameter is kept in memory over the recursive call.

    v := sload(0); r := f(v); sstore(1, r); stop
    f(n) := if n then n + f(n - 1) else n + 0
-/
import Verif.Stored.Model
import Verif.Program.ExampleDefs
import Verif.Program.Exec
import Verif.Program.Flat
namespace Grey.Stored
open List Grey.Layout Grey.Sfs Grey.SymExec Grey.Program Grey.Repair Grey.Output

def recMainGraph : Component where
  blocks := [⟨"Block0", [], [], [], none, some "M1", "sub_block", "", ["r"], ["1", "v", "2"]⟩,
    ⟨"M1", ["Block0"], [], [], none, none, "terminal", "", [], []⟩]
  start := "Block0"
  inputs := []
  main := true
  junk := true
  inLoop := fun _ => false
  liveIn := fun b => if b = "M1" then ["r"] else []
  liveOut := fun b => if b = "Block0" then ["r"] else []
  depth := fun _ _ => [0]
  level := fun b => if b = "Block0" then some 0 else if b = "M1" then some 1 else none
  domPath := fun _ _ => none

def recFGraph : Component where
  blocks := [⟨"f_Block0", [], [], [], some "F1", some "F2", "conditional", "", [], ["3", "n"]⟩,
    ⟨"F1", ["f_Block0"], [], [], none, some "F3", "sub_block", "", ["q"], ["1", "m", "4"]⟩,
    ⟨"F3", ["F1"], [], [], none, none, "FunctionReturn", "", [], ["out_f", "t"]⟩,
    ⟨"F2", ["f_Block0"], [], [], none, none, "FunctionReturn", "", [], ["out_f", "z"]⟩]
  start := "f_Block0"
  inputs := ["n", "out_f"]
  main := false
  junk := true
  inLoop := fun _ => false
  liveIn := fun b => if b = "F3" then ["n", "q", "out_f"] else ["n", "out_f"]
  liveOut := fun b => if b = "f_Block0" then ["n", "out_f"] else if b = "F1" then ["n", "q", "out_f"] else []
  depth := fun _ _ => [0]
  level := fun b => if b = "f_Block0" then some 0 else if b = "F1" ∨ b = "F2" then some 1 else if b = "F3" then some 2 else none
  domPath := fun p q => if p = "F1" ∧ q = "F3" then some ["F1", "F3"] else none

def recMain : Fn where
  graph := recMainGraph
  instrs := fun b =>
    if b = "Block0" then [⟨"sload", ["0x00"], ["v"], none⟩, ⟨"PUSH [tag]", [], ["1"], none⟩, ⟨"PUSH [tag]", [], ["2"], none⟩]
    else if b = "M1" then [⟨"sstore", ["0x01", "r"], [], none⟩]
    else []
  split := fun b =>
    if b = "Block0" then some ⟨"f", ["1", "v", "2"], ["r"], none⟩
    else if b = "M1" then some ⟨"stop", [], [], none⟩
    else none

def recF : Fn where
  graph := recFGraph
  instrs := fun b =>
    if b = "f_Block0" then [⟨"PUSH [tag]", [], ["3"], none⟩]
    else if b = "F1" then
      [⟨"add", ["n", "0xffffffffffffffffffffffffffffffffffffffffffffffffffffffffffffffff"], ["m"], none⟩,
        ⟨"PUSH [tag]", [], ["1"], none⟩, ⟨"PUSH [tag]", [], ["4"], none⟩]
    else if b = "F3" then [⟨"add", ["n", "q"], ["t"], none⟩]
    else if b = "F2" then [⟨"add", ["n", "0x00"], ["z"], none⟩]
    else []
  split := fun b =>
    if b = "f_Block0" then some ⟨"JUMPI", ["3", "n"], [], none⟩
    else if b = "F1" then some ⟨"f", ["1", "m", "4"], ["q"], none⟩
    else if b = "F3" then some ⟨"functionReturn", ["out_f", "t"], [], none⟩
    else if b = "F2" then some ⟨"functionReturn", ["out_f", "z"], [], none⟩
    else none

def recProg : Prog where
  fns := fun f => if f = "main" then some recMain else if f = "f" then some recF else none
  main := "main"

end Grey.Stored
