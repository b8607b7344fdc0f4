/-
A small object for C64: `g` is called twice and stays, `h` is called once and is inlined; two ways lead to a block with a phi function.

    x := sload(0); y := g(x); sstore(1, y); if y then p := g(h(y)) else p := y; sstore(3, p); stop
    g(x) := x + 1
    h(x) := x + 5
-/
import Verif.Front.Check
import Verif.Program.ExampleDefs
namespace Grey.Whole
open List Grey.Cfg Grey.Inline Grey.Lower Grey.Sfs Grey.Program

def whMain : BlockList :=
  { start := some "o_Block0"
    terminals := ["o_M2"]
    blocks := [
      { id := "o_Block0", jumpType := "conditional", instrs := [⟨"sload", ["0x00"], ["x"]⟩, ⟨"g", ["x"], ["y"]⟩, ⟨"sstore", ["0x01", "y"], []⟩],
        jumpTo := some "o_M3", fallsTo := some "o_M2", cond := some "y" },
      { id := "o_M3", jumpType := "unconditional", instrs := [⟨"h", ["y"], ["z"]⟩, ⟨"g", ["z"], ["u"]⟩], comesFrom := ["o_Block0"],
        jumpTo := some "o_M2" },
      { id := "o_M2", jumpType := "terminal", instrs := [⟨"PhiFunction", ["y", "u"], ["p"]⟩, ⟨"sstore", ["0x03", "p"], []⟩, ⟨"stop", [], []⟩],
        comesFrom := ["o_Block0", "o_M3"], entries := ["o_Block0", "o_M3"] }] }

def whG : Cfg.Component :=
  { args := ["x"]
    body := { start := some "g_Block0", returns := ["g_Block0"], terminals := ["g_Block0"]
              blocks := [{ id := "g_Block0", jumpType := "FunctionReturn", instrs := [⟨"add", ["x", "0x01"], ["y"]⟩, ⟨"functionReturn", ["y"], []⟩] }] } }

def whH : Cfg.Component :=
  { args := ["x"]
    body := { start := some "h_Block0", returns := ["h_Block0"], terminals := ["h_Block0"]
              blocks := [{ id := "h_Block0", jumpType := "FunctionReturn", instrs := [⟨"add", ["x", "0x05"], ["y"]⟩, ⟨"functionReturn", ["y"], []⟩] }] } }

def whFns : List (String × Cfg.Component) := [("g", whG), ("h", whH)]
def whObj : Obj := Obj.ofList whMain whFns

/-- What the analyses say about the lowered object. -/
def whAna (c : Option String) : Analysis :=
  match c with
  | none =>
    { junk := true
      inLoop := fun _ => false
      liveIn := fun b => if b = "o_Block0f" then [] else if b = "o_M2" then ["v4"] else if b = "o_M3fs" then ["v3"] else ["v1"]
      liveOut := fun b => if b = "o_M2" then [] else if b = "o_M3ff" ∨ b = "o_M3fs" then ["v3"] else ["v1"]
      depth := fun _ _ => [0]
      level := fun b => if b = "o_Block0f" then some 0 else if b = "o_Block0s" then some 1 else if b = "o_M2" ∨ b = "o_M3ff" then some 2
        else if b = "o_M3fs" then some 3 else none
      domPath := fun p q => if p = "o_Block0s" ∧ q = "o_M3fs" then some ["o_Block0s", "o_M3ff", "o_M3fs"] else none }
  | some _ =>
    { junk := true, inLoop := fun _ => false, liveIn := fun _ => ["v5", "out_g"], liveOut := fun _ => [], depth := fun _ _ => [0]
      level := fun _ => some 0, domPath := fun _ _ => none }

def whDec (o : String) : String × Option (List String) := (o, none)

/-- The front end's result. -/
def whLow : List String × Obj × TagDict := (Front.frontEnd ["g", "h"] ["g", "h"] whObj).getD ([], whObj, [])

def whProg : Prog := toProg whLow.1 whDec "main" whAna whLow.2.1

end Grey.Whole
