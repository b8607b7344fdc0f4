/-
Specification vocabulary for the layouts of a whole component.
-/
import Verif.Layout.Driver
import Verif.Layout.Spec
namespace Grey.Layout

/-- A control flow graph with phi functions, as the driver expects it: block names are different; the predecessors and the
successors of the blocks fit together; every predecessor is listed once; the entries of the phi functions are the
predecessors in some order; only joins have phi functions, with different results and one argument per predecessor. -/
structure WellFormed (c : Component) : Prop where
  ids : (c.blocks.map (·.id)).Nodup
  edges : ∀ B ∈ c.blocks, ∀ S ∈ c.blocks, S.id ∈ B.succs ↔ B.id ∈ S.comesFrom
  known : ∀ S ∈ c.blocks, ∀ p ∈ S.comesFrom, ∃ B ∈ c.blocks, B.id = p
  once : ∀ S ∈ c.blocks, S.comesFrom.Nodup
  entries : ∀ S ∈ c.blocks, S.entries = [] ∨ S.entries.Perm S.comesFrom
  phiJoin : ∀ S ∈ c.blocks, S.phis ≠ [] → 1 < S.comesFrom.length
  phiOuts : ∀ S ∈ c.blocks, (S.phis.map (·.out)).Nodup
  phiArgs : ∀ S ∈ c.blocks, ∀ f ∈ S.phis, f.args.length = S.preds.length ∧ "bottom" ∉ f.args

/-- No block precedes two different joins. -/
def OneJoin (c : Component) : Prop :=
  ∀ J ∈ c.blocks, ∀ K ∈ c.blocks, 1 < J.comesFrom.length → 1 < K.comesFrom.length → ∀ p ∈ J.comesFrom, p ∈ K.comesFrom → J = K

/-- Whatever a stack of names stands for is where the stack of a successor expects it: in every state `ρ` in which the block
ends, with `ρ'` the state after entering the successor along its `k`-th entry, the position of `x` in the stack `src` that
the successor starts from is in the stack `tgt` the position of a name with the same value. Padding names are not looked at. -/
def EdgeAgree (phis : List Phi) (k : Nat) (tgt src : List String) : Prop :=
  src.length ≤ tgt.length ∧
  ∀ (i : Nat) (x : String), src[i]? = some x → (∀ n, x ≠ pseudoName n) →
    ∃ y, tgt[i]? = some y ∧ ∀ (V : Type) (ρ ρ' : String → V), Enter phis k ρ ρ' → ρ y = ρ' x

/-- No block may leave values below its stack. -/
def NoJunk (c : Component) : Prop := ∀ b, c.canJunk b = false

/-- The blocks that can be reached. -/
inductive Reachable (c : Component) : String → Prop
  | start : Reachable c c.start
  | step {B S : LBlock} : Reachable c B.id → B ∈ c.blocks → S ∈ c.blocks → S.id ∈ B.succs → Reachable c S.id

end Grey.Layout
