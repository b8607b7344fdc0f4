/-
Specification for C81: dominance, and what it means that two executions agree on the variables of the program.
-/
import Verif.Consts.Model
namespace Grey.Consts
open List Grey.Cfg Grey.Repair

/-- Ways through the graph: from `s` to `b`, through the blocks of the list (without the last one). -/
inductive Walk (G : BlockList) (s : String) : String → List String → Prop where
  | here : Walk G s s []
  | step {p q : String} {l : List String} : Walk G s p l → q ∈ G.succ p → Walk G s q (p :: l)

/-- Every way to `b` goes through the other block `a`. -/
def Dominates (G : BlockList) (s a b : String) : Prop := a ≠ b ∧ ∀ l, Walk G s b l → a ∈ l

/-- `a` is above `b` in the tree. -/
inductive Above : DTree String → String → String → Prop where
  | root {a b : String} {ch rest : DTree String} : b ∈ nodes ch → Above (.node a ch rest) a b
  | child {x a b : String} {ch rest : DTree String} : Above ch a b → Above (.node x ch rest) a b
  | sibling {x a b : String} {ch rest : DTree String} : Above rest a b → Above (.node x ch rest) a b

/-- A name of the form `c0`, `c1`, ... -/
def Numbered (x : String) : Prop := ∃ n : Nat, x = "c" ++ toString n

/-- The constant `c` is needed in the block `b`: it is an argument of an operation of `b`, or of a phi function for the way from `b`. -/
def Needed (G : BlockList) (b c : String) : Prop :=
  isConst c = true ∧ ∃ B ∈ G.blocks, ∃ i ∈ B.instrs, i.op ≠ "LiteralAssignment" ∧
    ((i.op ≠ "PhiFunction" ∧ B.id = b ∧ c ∈ i.ins) ∨ (i.op = "PhiFunction" ∧ ∃ k : Nat, B.entries[k]? = some b ∧ i.ins[k]? = some c))

/-- What is assumed of the block list and of the tree. -/
structure Fits (G : BlockList) (s : String) (t : DTree String) : Prop where
  phisFirst : ∀ B ∈ G.blocks, B.instrs = B.instrs.filter isPhi ++ B.instrs.filter fun i => !isPhi i
  /-- there is an entry for every argument of a phi function -/
  phiArgs : ∀ B ∈ G.blocks, ∀ i ∈ B.instrs, i.op = "PhiFunction" → i.ins.length ≤ B.entries.length
  /-- the names of the new variables are not in use, and constants are not assigned -/
  unused : ∀ B ∈ G.blocks, (∀ i ∈ B.instrs, ∀ x ∈ i.ins ++ i.outs, ¬ Numbered x) ∧ ∀ x, B.cond = some x → ¬ Numbered x
  consts : ∀ B ∈ G.blocks, ∀ i ∈ B.instrs, ∀ x ∈ i.outs, isConst x = false
  /-- blocks are only below blocks that dominate them -/
  tree : (nodes t).Nodup ∧ ∀ a b, Above t a b → Dominates G s a b

/-- The same world, and the same values of all variables but the new ones. -/
def Agree {V W : Type} (s s' : St V W) : Prop := s'.world = s.world ∧ ∀ x, ¬ Numbered x → s'.env x = s.env x

/-- Two programs, started in the given configurations, behave alike but for the values of the new variables. -/
def AgreeOnBehaviour {V W : Type} (step step' : Config V W → Out (Config V W) (St V W)) (c c' : Config V W) : Prop :=
  (∀ s, Ends step c s → ∃ s', Ends step' c' s' ∧ Agree s s') ∧ (∀ s', Ends step' c' s' → ∃ s, Ends step c s ∧ Agree s s') ∧
  (Wrong step c ↔ Wrong step' c')

end Grey.Consts
