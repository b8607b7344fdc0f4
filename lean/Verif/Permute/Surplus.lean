import Verif.Permute.Spec

/-!
# Reordering fails with surplus copies

If a value that is wanted is there more often than it is wanted, swapping it to the top may disturb a position that stays marked
(greedy_previous_param.py:1466-1469), and an assertion fails later.
-/

namespace Grey.Permute

/-- All marks are right and complete, every value is there often enough, and the final stack is within reach, but reordering fails:
with the stack `v1 v1 v1 v0 v0`, the final stack `v1 v0 v1`. -/
theorem permute_fails : ∃ (fin cstack : List String) (solved : List Int) (reach : Nat),
    2 ≤ reach ∧ fin.length ≤ reach + 1 ∧ (∀ v ∈ fin, fin.count v ≤ cstack.count v) ∧ (∀ v ∈ cstack, v ∈ fin) ∧
    permute fin reach 100 cstack (addSolved fin cstack solved) = some none :=
  ⟨["v1", "v0", "v1"], ["v1", "v1", "v1", "v0", "v0"], [], 2, by decide +kernel, by decide +kernel, by decide +kernel, by decide +kernel,
    by decide +kernel⟩

end Grey.Permute
