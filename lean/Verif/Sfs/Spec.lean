/-
Specification vocabulary for the construction of specifications.
-/
import Verif.SymExec.RefineSpec
namespace Grey.Sfs
open Grey.SymExec (UInstr Var)

/-- The instructions that an observer of the block needs: effects, producers of final stack variables, and,
transitively, producers of the arguments of needed instructions. -/
inductive Needed (instrs : List UInstr) (finalStack : List Var) : UInstr → Prop
  | effect {u} (h : u ∈ instrs) (hs : u.storage = true) : Needed instrs finalStack u
  | final {u v} (h : u ∈ instrs) (hv : v ∈ u.outpt) (hf : v ∈ finalStack) : Needed instrs finalStack u
  | arg {u u' v} (h : u ∈ instrs) (hv : v ∈ u.outpt) (hi : v ∈ u'.inpt) (n : Needed instrs finalStack u') :
      Needed instrs finalStack u

end Grey.Sfs
