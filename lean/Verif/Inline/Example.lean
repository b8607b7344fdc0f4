/-
Objects to which the theorems on inlining apply, and one on which the pass fails.
-/
import Verif.Inline.Check
import Verif.Cfg.Check
namespace Grey.Inline
open List Grey.Cfg

/-- The main code calls `f` (two exits), `g` (which calls `k`, whose result is its argument) and twice `m`. -/
def exMain : BlockList :=
  { start := some "A0"
    terminals := ["A0"]
    blocks := [
      { id := "A0", jumpType := "mainExit", instrs := [⟨"calldataload", ["0x00"], ["x"]⟩, ⟨"f", ["x"], ["y"]⟩, ⟨"g", ["y", "x"], ["z"]⟩,
        ⟨"m", ["z"], ["w"]⟩, ⟨"m", ["w"], ["v"]⟩, ⟨"sstore", ["v", "w"], []⟩, ⟨"stop", [], []⟩] }] }

def exF : Component :=
  { args := ["a"]
    body := {
      start := some "F0"
      terminals := ["F1", "F2"]
      returns := ["F1", "F2"]
      blocks := [
        { id := "F0", jumpType := "conditional", instrs := [⟨"iszero", ["a"], ["c"]⟩], jumpTo := some "F1", fallsTo := some "F2",
          cond := some "c" },
        { id := "F1", jumpType := "FunctionReturn", instrs := [⟨"functionReturn", ["a"], []⟩], comesFrom := ["F0"] },
        { id := "F2", jumpType := "FunctionReturn", instrs := [⟨"add", ["a", "0x01"], ["d"]⟩, ⟨"functionReturn", ["d"], []⟩],
          comesFrom := ["F0"] }] } }

/-- A function that consists of one block. -/
def exOne (args : List String) (id : String) (is : List Instr) : Component :=
  { args := args
    body := { start := some id, terminals := [id], returns := [id], blocks := [{ id := id, jumpType := "FunctionReturn", instrs := is }] } }

def exG : Component := exOne ["p", "q"] "G0" [⟨"k", ["p"], ["r"]⟩, ⟨"mul", ["r", "q"], ["t"]⟩, ⟨"functionReturn", ["t"], []⟩]
def exK : Component := exOne ["e"] "K0" [⟨"functionReturn", ["e"], []⟩]
def exM : Component := exOne ["n"] "M0" [⟨"add", ["n", "n"], ["o"]⟩, ⟨"functionReturn", ["o"], []⟩]

def exFns : List (String × Component) := [("f", exF), ("g", exG), ("k", exK), ("m", exM)]

def exObj : Obj := Obj.ofList exMain exFns

/-- Available variables, and an order of all variables. -/
def exCert (c : Option String) : (String → List String) × List String :=
  (fun x => if x = "F0" then ["a"] else if x = "F1" then ["a", "c"] else if x = "F2" then ["a", "c"] else
    match c with
    | some "g" => ["p", "q"]
    | some "k" => ["e"]
    | some "m" => ["n"]
    | _ => [],
   ["x", "y", "z", "w", "v", "a", "c", "d", "p", "r", "q", "t", "e", "n", "o"])

theorem exObj_ok : ObjOk exObj := obj_of_check (cert := exCert) (by decide +kernel)

theorem exObj_order : CalleesFirst exObj ["k", "f", "g", "m"] := order_of_check exObj_ok.comps (by decide +kernel)

/-- The hypotheses of `inlining_pass_preserves` hold. -/
example : ∃ O', inlinePass ["f", "g", "k", "m"] ["k", "f", "g", "m"] exObj = some O' ∧ SameRuns exObj O' ∧ ObjOk O' ∧
    ∀ f ∈ ["f", "g", "k", "m"], (O'.fns f = none ↔ CalledOnce exObj f) := by
  refine inlining_pass_preserves exObj_ok (by decide) ?_ exObj_order
  exact fun f => mem_fnames (main := exMain) (fns := exFns)

/-- What the pass produces: the parts of `A0` with the blocks of `f`, `g` and `k` in between. `m` is called twice and stays. -/
example : ((inlinePass ["f", "g", "k", "m"] ["k", "f", "g", "m"] exObj).map fun O => O.main.blocks.map fun X => (X.id, X.instrs))
    = some [("F0", [⟨"iszero", ["x"], ["c"]⟩]), ("F1", []), ("F2", [⟨"add", ["x", "0x01"], ["d"]⟩]),
        ("A0f", [⟨"calldataload", ["0x00"], ["x"]⟩]),
        ("K0", []), ("G0f", []), ("G0s", [⟨"mul", ["x", "y"], ["t"]⟩]),
        ("A0sf", [⟨"PhiFunction", ["x", "d"], ["y"]⟩]),
        ("A0ss", [⟨"m", ["t"], ["w"]⟩, ⟨"m", ["w"], ["v"]⟩, ⟨"sstore", ["v", "w"], []⟩, ⟨"stop", [], []⟩])] := by decide +kernel

example : ((inlinePass ["f", "g", "k", "m"] ["k", "f", "g", "m"] exObj).map fun O => ["f", "g", "k", "m"].map fun f => (O.fns f).isSome)
    = some [false, false, false, true] := by decide +kernel

/-- The hypotheses of `inlining_preserves` hold for the call of `f`. -/
example : ∃ H F s blk call, Site exObj none "f" H F s "A0" 1 blk call := by
  have hnd : (exFns.map Prod.fst).Nodup := by decide +kernel
  have hone : ∀ c x j, Calls exObj "f" c x j → c = none ∧ x = "A0" ∧ j = 1 := by
    intro c x j hc
    have := (mem_callsB hnd exObj_ok.comps).2 hc
    rw [show callsB exMain exFns "f" = [(none, "A0", 1)] by decide +kernel, mem_singleton] at this
    simpa using this
  obtain ⟨H, s, blk, call, S⟩ := Site.of_ok exObj_ok (h := none) (f := "f") (b := "A0") (k := 1) (F := exF)
    ((mem_callsB hnd exObj_ok.comps).1 (by decide +kernel)) hone rfl (by simp)
  exact ⟨H, exF, s, blk, call, S⟩

/-! ### A program on which the pass fails -/

/-- `k` is called by the main code and by `f`; it calls `g`, which calls `f`. -/
def exRecMain : BlockList :=
  { start := some "A0", terminals := ["A0"], blocks := [{ id := "A0", jumpType := "mainExit", instrs := [⟨"k", ["0x00"], ["x"]⟩, ⟨"stop", [], []⟩] }] }

def exRecFns : List (String × Component) :=
  [("k", exOne ["a"] "K0" [⟨"g", ["a"], ["b"]⟩, ⟨"functionReturn", ["b"], []⟩]),
   ("g", exOne ["c"] "G0" [⟨"f", ["c"], ["d"]⟩, ⟨"functionReturn", ["d"], []⟩]),
   ("f", exOne ["n"] "F0" [⟨"k", ["n"], ["o"]⟩, ⟨"functionReturn", ["o"], []⟩])]

/-- The three functions form one strongly connected component of the graph of calls, whose members are a set: their order is any. If
`g` is visited before `f`, the call of `f` is looked up in the function `g`, which has been removed (a ValueError). If `f` is visited
first, the pass succeeds. -/
theorem inlining_pass_fails : inlinePass ["k", "g", "f"] ["g", "f", "k"] (Obj.ofList exRecMain exRecFns) = none ∧
    (inlinePass ["k", "g", "f"] ["f", "g", "k"] (Obj.ofList exRecMain exRecFns)).isSome = true := by
  constructor
  · rw [← Option.isNone_iff_eq_none]; decide +kernel
  · decide +kernel

end Grey.Inline
