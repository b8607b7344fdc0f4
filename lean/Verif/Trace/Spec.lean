/-
Specification vocabulary for schedules: what it means to respect dependences, and chains of dependences.
-/
namespace Grey.Trace

/-- Both ends of every dependence occur and every occurrence of the first one precedes every occurrence
of the second one (what `check_deps` establishes, see `Grey.SymExec.check_deps_exact`). -/
def Respects {A : Type} (deps : List (A × A)) (l : List A) : Prop :=
  ∀ d ∈ deps, d.1 ∈ l ∧ d.2 ∈ l ∧ ∀ i j : Nat, l[i]? = some d.1 → l[j]? = some d.2 → i < j

/-- `b` is reached from `a` through one or more dependences. -/
inductive Chain {A : Type} (deps : List (A × A)) : A → A → Prop
  | single {a b} (h : (a, b) ∈ deps) : Chain deps a b
  | step {a b c} (h : (a, b) ∈ deps) (t : Chain deps b c) : Chain deps a c

/-- Executing a schedule: the operations one after the other. -/
def runAll {A σ : Type} (step : A → σ → σ) : List A → σ → σ
  | [], w => w
  | a :: l, w => runAll step l (step a w)

end Grey.Trace
