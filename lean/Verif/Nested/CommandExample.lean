/-
C96: an answer of solc with two contracts, each with a subobject, meets the hypotheses.
-/
import Verif.Nested.Command
import Verif.Nested.PlacedExample
namespace Grey.Nested
open List Grey.Cfg Grey.Inline Grey.Prep Grey.Lower Grey.Program Grey.Parser Grey.Sfs Grey.SymExec Grey.Front Grey.Whole Grey.Stored Grey.Solc

/-- The parameters for the two contracts of the examples. -/
def cmOpts (d : Docs) : String → Options := if (Tree.alls d).any fun J => J.blocks.any (·.id == "M1") then deOpts else nestOpts

/-- Two files, with a contract each, and an interface without a graph. -/
def cmAnswer : Answer Docs :=
  ⟨["warning"], [("a.sol".toList, [("A".toList, some (some [nestDoc])), ("I".toList, some none)]), ("b.sol".toList, [("B".toList, some (some [deNest]))])]⟩

def cmKnow (asm : Assembly) : List (String × List Char) := [("opcodes", []), ("object", (toString asm.code.length).toList)]

theorem cm_graphs : cmAnswer.graphs = [("A".toList, [nestDoc]), ("B".toList, [deNest])] := rfl

theorem cm_written : ∃ r, command nestTopo cmOpts cmKnow cmAnswer = some r := Option.isSome_iff_exists.1 (by decide +kernel)

theorem cm_optsA : cmOpts [nestDoc] = nestOpts := by
  unfold cmOpts
  rw [if_neg (by decide +kernel)]

theorem cm_optsB : cmOpts [deNest] = deOpts := by
  unfold cmOpts
  rw [if_pos (by decide +kernel)]

/-- The answer meets the hypotheses of C96: both contracts are written, in their order, and are right at every place. -/
theorem cm_right : ∃ r asmA asmB, command nestTopo cmOpts cmKnow cmAnswer = some r ∧ r.combined.map (·.1) = ["A".toList, "B".toList] ∧
    ("A".toList, asmA) ∈ r.combined ∧ ("B".toList, asmB) ∈ r.combined ∧
    RightEverywhere nestTopo nestOpts (fun _ => evmTag whTag) (fun _ => exArity) nestDoc asmA ∧
    RightEverywhere nestTopo deOpts (fun _ => evmTag whTag) (fun _ => exArity) deNest asmB := by
  refine Exists.elim cm_written fun r hr => ?_
  have hall1 : ∀ J ∈ Tree.alls [nestDoc], J = idleDoc "r" ∨ J = whDoc := by
    intro J hJ
    simpa [nestDoc, Tree.alls, Tree.all] using hJ
  have hall2 : ∀ J ∈ Tree.alls [deNest], J = idleDoc "r" ∨ J = deDoc := by
    intro J hJ
    simpa [deNest, Tree.alls, Tree.all] using hJ
  have hidle : ∀ O, parseObject (idleDoc "r") = some O → EvmLike [] whDec (evmTag whTag) O := by
    intro O hO
    rw [idle_parsed] at hO
    cases hO
    exact idle_evm
  have h := command_right_partial (I := fun _ => evmTag whTag) (arity := fun _ => exArity) (a := cmAnswer)
    ⟨by decide +kernel, by
      intro f hf e he
      simp only [cmAnswer, mem_cons, not_mem_nil, or_false] at hf
      rcases hf with rfl | rfl
      · simp only [mem_cons, not_mem_nil, or_false] at he
        rcases he with rfl | rfl <;> simp
      · simp only [mem_cons, not_mem_nil, or_false] at he
        subst he
        simp⟩
    (by rw [cm_graphs]; decide +kernel)
    (by
      rw [cm_graphs]
      intro e he
      simp only [mem_cons, not_mem_nil, or_false] at he
      rcases he with rfl | rfl <;> decide +kernel)
    (by
      rw [cm_graphs]
      intro e he J hJ
      simp only [mem_cons, not_mem_nil, or_false] at he
      rcases he with rfl | rfl
      · rw [cm_optsA]
        rcases hall1 J hJ with rfl | rfl
        · exact ⟨idle_fit, hidle, fun h => by cases h⟩
        · refine ⟨wh_fit, fun O hO => ?_, fun h => by cases h⟩
          rw [whDoc_parsed] at hO
          cases hO
          exact whObj_evm
      · rw [cm_optsB]
        rcases hall2 J hJ with rfl | rfl
        · exact ⟨idle_fit, hidle, fun h => by cases h⟩
        · refine ⟨de_fit, fun O hO => ?_, fun _ => evm_memory whTag⟩
          rw [deDoc_parsed] at hO
          cases hO
          exact deObj_evm) hr
  obtain ⟨h1, -, h2⟩ := h
  rw [cm_graphs] at h1 h2
  obtain ⟨a1, -, p1, -, -, q1⟩ := h2 "A".toList nestDoc [] (by simp)
  obtain ⟨a2, -, p2, -, -, q2⟩ := h2 "B".toList deNest [] (by simp)
  rw [cm_optsA] at q1
  rw [cm_optsB] at q2
  exact ⟨r, a1, a2, hr, h1, p1, p2, q1, q2⟩

end Grey.Nested
