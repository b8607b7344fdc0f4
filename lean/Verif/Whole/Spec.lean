/-
Specification for C64: what is assumed about an object, the meaning of the operations, the analyses and the schedules, so that the assembly
that is written in the end does what the object does.
-/
import Verif.Lower.Spec
import Verif.Program.FlatSpec
import Verif.Program.Compile
namespace Grey.Whole
open List Grey.Cfg Grey.Inline Grey.Lower Grey.Sfs Grey.Program Grey.SymExec

section
variable {V σ : Type}

/-- The operations of the object can be written as assembly items: `arity` is the number of arguments of an operation. -/
structure Emittable (dec : String → String × Option (List String)) (I : Interp V σ) (arity : String → Nat) (names : List String) (O : Obj) : Prop where
  stop : arity "STOP" = 0
  returns : ∀ c C x X i, O.comp c = some C → C.body.get x = some X → i ∈ code X → i.op = "functionReturn" → i.outs = []
  halts : ∀ c C x X i, O.comp c = some C → C.body.get x = some X → i ∈ code X → i.op ∈ Lower.haltOps →
    i.outs = [] ∧ i.ins.length = arity (i.op.map Char.toUpper)
  other : ∀ c C x X i, O.comp c = some C → C.body.get x = some X → i ∈ code X → i.op ∉ ["functionReturn"] ++ Lower.haltOps ++ names →
    Writable I arity (toIns dec i)

/-- Every tag stands for a value of its own. -/
structure TagMeaning (I : Interp V σ) (val : Nat → V) : Prop where
  push : ∀ t w, I.op "PUSH [TAG]" (some [toString t]) [] w = ([val t], w)
  inj : ∀ t t', val t = val t' → t = t'

/-- The assembly does what the object does: whenever the object does not get stuck, the machine with a program counter that starts at the first item
with any stack ends with an operation exactly if the object does, with the same operation, arguments and state; and it runs forever if the object
does. -/
def AssemblyLike (I : Interp V σ) (dec : String → String × Option (List String)) (arity : String → Nat) (code : List Output.Asm) (O : Obj) : Prop :=
  ∀ (w : σ) (below : List V), ¬ Wrong (run (meaning I dec) (zeros I) O (w, none)) none →
    (∀ h, (∃ n, FRuns code I arity ⟨0, below, w⟩ n (.inr h)) ↔ ∃ s, Ends (run (meaning I dec) (zeros I) O (w, none)) none s ∧ haltedOf s = h) ∧
    ((¬ ∃ s, Ends (run (meaning I dec) (zeros I) O (w, none)) none s) → ∀ k, ∃ n st, k ≤ n ∧ FRuns code I arity ⟨0, below, w⟩ n (.inl st))

/-- What is not proved about the phases after the lowering and has to be checked for the program `P`: no block precedes two joins (C52), nothing is
live where a function returns, the blocks can be placed (C33), layouts are found and the validator accepts the schedules (C51, C53), and the schedules
can be written (C54). -/
structure Checked {C : Type} (P : Prog) (I : Interp Nat (Loc → C)) (sched : String → String → List String) : Prop where
  one : ∀ f F, P.fns f = some F → Layout.OneJoin F.graph
  live : ∀ f F, P.fns f = some F → ∀ B ∈ F.graph.blocks, P.exit F B = .ret → F.graph.liveOut B.id = []
  place : ∀ f F, P.fns f = some F → Placeable F.graph
  accepted : ∀ f F, P.fns f = some F → ∃ st, Accepted I (sched f) F st
  ids : ∀ f F, P.fns f = some F → ∀ B ∈ F.graph.blocks, PlainIds (sched f B.id)
  terminal : ∀ f F, P.fns f = some F → ∀ B ∈ F.graph.blocks, B.jumpType = "terminal" → (∀ s ∈ sched f B.id, s = "NOP") →
    B.phis = [] ∧ F.instrs B.id = []

end
end Grey.Whole
