/-
Specification of liveness by paths, independent of the analysis.
The point considered at the entry of a block lies after its phi functions; their arguments are used at the
end of the corresponding predecessor.
-/
import Verif.Liveness.Model
namespace Grey.Liveness

/-- `x` is the argument of a phi function of `s` for the predecessor `b`. -/
def PhiArg (cfg : String → Block) (b s x : String) : Prop :=
  ∃ (k : Nat) (i : Instr), (cfg s).entries[k]? = some b ∧ i ∈ (cfg s).instrs ∧ i.op = "PhiFunction" ∧ i.ins[k]? = some x ∧
    isLit x = false

/-- `x` is assigned by a phi function of `b`. -/
def PhiDef (cfg : String → Block) (b x : String) : Prop :=
  ∃ i ∈ (cfg b).instrs, i.op = "PhiFunction" ∧ x ∈ i.outs

/-- `x` is assigned by an instruction of `b` that is not a phi function. -/
def Def (cfg : String → Block) (b x : String) : Prop :=
  ∃ i ∈ (cfg b).instrs, i.op ≠ "PhiFunction" ∧ x ∈ i.outs

/-- An instruction of `b` reads the variable `x` before any (non phi) instruction of `b` assigns it. -/
def UseFirst (cfg : String → Block) (b x : String) : Prop :=
  ∃ pre i post, (cfg b).instrs = pre ++ i :: post ∧ i.op ≠ "PhiFunction" ∧ x ∈ i.ins ∧ isLit x = false ∧
    ∀ j ∈ pre, j.op ≠ "PhiFunction" → x ∉ j.outs

/-- `x` is live at the beginning (`true`) or at the end (`false`) of block `b`: some path from there uses `x` before
assigning it. -/
inductive Live (cfg : String → Block) : Bool → String → String → Prop
  | use {b x} (h : UseFirst cfg b x) : Live cfg true b x
  | thru {b x} (h : Live cfg false b x) (hd : ¬ Def cfg b x) : Live cfg true b x
  | phi {b s x} (hs : s ∈ (cfg b).succs) (h : PhiArg cfg b s x) : Live cfg false b x
  | succ {b s x} (hs : s ∈ (cfg b).succs) (h : Live cfg true s x) (hp : ¬ PhiDef cfg s x) : Live cfg false b x

/-- A well-formed graph: predecessor lists and successor lists agree, phi functions come first in their block, have
one argument per predecessor, and predecessors are listed once in `entries`. -/
structure WF (cfg : String → Block) : Prop where
  edges : ∀ b s, s ∈ (cfg b).succs ↔ b ∈ (cfg s).comesFrom
  phisFirst : ∀ b pre i post, (cfg b).instrs = pre ++ i :: post → i.op = "PhiFunction" → ∀ j ∈ pre, j.op = "PhiFunction"
  phiEntries : ∀ b i, i ∈ (cfg b).instrs → i.op = "PhiFunction" →
    (cfg b).entries ≠ [] ∧ i.ins.length = (cfg b).entries.length
  entries : ∀ b s, s ∈ (cfg b).succs → (cfg s).entries ≠ [] → b ∈ (cfg s).entries
  entriesNodup : ∀ b, (cfg b).entries.Nodup

end Grey.Liveness
