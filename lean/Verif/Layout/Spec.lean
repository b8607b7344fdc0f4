/-
Specification vocabulary for stack layouts, independent of the code.
-/
import Verif.Layout.Model
namespace Grey.Layout

/-- Number of gaps of a partially filled stack. -/
def gaps (l : List (Option String)) : Nat := l.countP Option.isNone

/-- Gaps minus kept elements of a (suffix of a) partially filled stack. -/
def surplus (l : List (Option String)) : Int := (l.map fun o => if o.isNone then (1 : Int) else -1).sum

/-- `ρ'` is the state after entering the join from its `k`-th predecessor in state `ρ`: all phi functions at once take
the `k`-th argument, everything else is unchanged. -/
structure Enter {V : Type} (phis : List Phi) (k : Nat) (ρ ρ' : String → V) : Prop where
  phi : ∀ f ∈ phis, ∀ a, f.args[k]? = some a → ρ' f.out = ρ a
  other : ∀ x, (∀ f ∈ phis, f.out ≠ x) → ρ' x = ρ x

end Grey.Layout
