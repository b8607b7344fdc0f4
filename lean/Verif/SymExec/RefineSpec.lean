/-
Specification for C41: the reference meaning of a block, running its instructions in program order on
named variables (no stack at all), over a world that instructions may read and write.
-/
import Verif.SymExec.Spec
import Verif.Trace.Spec
open List
namespace Grey.SymExec

/-- Bind the results of an instruction to its output variables. -/
def assign {V : Type} (env : Var → V) : List Var → List V → Var → V
  | v :: vs, x :: xs => assign (fun u => if u = v then x else env u) vs xs
  | _, _ => env

/-- The reference run of a list of instructions: in order, on an environment of named variables. -/
def ssaRun {V σ : Type} (sem : Sem V σ) : List UInstr → (Var → V) → σ → (Var → V) × σ
  | [], env, w => (env, w)
  | u :: us, env, w =>
    ssaRun sem us (assign env u.outpt (sem u (u.inpt.map env) w).1) (sem u (u.inpt.map env) w).2

/-- `val` gives the value of every name in an execution of the instructions, in this order, that takes the world `w` to
`w'`: each instruction, run on the values of its inputs, produces the values of its outputs. -/
inductive Describes {V σ : Type} (sem : Sem V σ) (val : Var → V) : List UInstr → σ → σ → Prop
  | nil (w) : Describes sem val [] w w
  | cons (u us w w') (ho : (sem u (u.inpt.map val) w).1 = u.outpt.map val)
      (h : Describes sem val us (sem u (u.inpt.map val) w).2 w') : Describes sem val (u :: us) w w'

/-- Single assignment: ids are unique, every output is produced once, is not a source variable, and is not
read before (or by) the instruction that produces it. -/
structure SSA (tab : List UInstr) (src : List Var) : Prop where
  ids : (tab.map (·.id)).Nodup
  outs : (tab.flatMap (·.outpt)).Nodup
  fresh : ∀ u ∈ tab, ∀ v ∈ u.outpt, v ∉ src
  defBeforeUse : ∀ pre u post, tab = pre ++ u :: post → ∀ v ∈ u.outpt, ∀ u' ∈ pre ++ [u], v ∉ u'.inpt

/-- The effects that a schedule must perform exactly once. -/
def IsEffect (u : UInstr) : Prop := u.storage = true ∧ ¬ "GAS".toList <:+: u.disasm.toList

/-- On the arguments they get in the block, the two instructions do not influence each other. -/
structure Independent {V σ : Type} (sem : Sem V σ) (val : Var → V) (a b : UInstr) : Prop where
  world : ∀ w, (sem a (a.inpt.map val) (sem b (b.inpt.map val) w).2).2 =
    (sem b (b.inpt.map val) (sem a (a.inpt.map val) w).2).2
  left : ∀ w, (sem a (a.inpt.map val) (sem b (b.inpt.map val) w).2).1 = (sem a (a.inpt.map val) w).1
  right : ∀ w, (sem b (b.inpt.map val) (sem a (a.inpt.map val) w).2).1 = (sem b (b.inpt.map val) w).1

end Grey.SymExec
