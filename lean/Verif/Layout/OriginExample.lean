/-
Names of layouts: the loop of C52 meets the hypotheses.
-/
import Verif.Layout.Origin
import Verif.Layout.DriverExample
namespace Grey.Layout
open List

/-- The variables of the loop, and the names that the layout generation makes up. -/
def exLoopName (x : String) : Prop := x ∈ ["n", "m", "i", "i0", "i1", "bottom"] ∨ ∃ n, x = pseudoName n

theorem exLoop_names : NamesOf exLoop exLoopName := by
  refine ⟨?_, ?_, ?_, ?_, ?_, ?_, fun n => Or.inr ⟨n, rfl⟩, Or.inl (by decide)⟩
  · exact fun x hx => Or.inl ((by decide : ∀ x ∈ exLoop.inputs, x ∈ ["n", "m", "i", "i0", "i1", "bottom"]) x hx)
  · intro b x hx
    simp only [exLoop] at hx
    left
    split at hx <;> simp_all <;> rcases hx with rfl | rfl <;> simp
  · intro b x hx
    simp only [exLoop] at hx
    left
    repeat' split at hx
    all_goals simp_all
    all_goals rcases hx with rfl | rfl <;> simp
  · exact fun B hB x hx => Or.inl ((by decide : ∀ B ∈ exLoop.blocks, ∀ x ∈ B.finalElems, x ∈ ["n", "m", "i", "i0", "i1", "bottom"]) B hB x hx)
  · exact fun B hB f hf => Or.inl ((by decide : ∀ B ∈ exLoop.blocks, ∀ f ∈ B.phis, f.out ∈ ["n", "m", "i", "i0", "i1", "bottom"]) B hB f hf)
  · exact fun B hB f hf x hx => Or.inl ((by decide : ∀ B ∈ exLoop.blocks, ∀ f ∈ B.phis, ∀ x ∈ f.args, x ∈ ["n", "m", "i", "i0", "i1", "bottom"]) B hB f hf x hx)

example : ∃ st, drive exLoop = .ok st ∧ st.specs.length = 4 ∧ ∀ b src tgt, (b, src, tgt) ∈ st.specs → (∀ x ∈ src ++ tgt, exLoopName x) ∧ Reachable exLoop b := by
  cases h : drive exLoop with
  | error e =>
    have : (drive exLoop).toOption.isSome = true := by decide +kernel
    rw [h] at this
    cases this
  | ok st =>
    refine ⟨st, rfl, ?_, fun b src tgt hs => layout_names exLoop_names h hs⟩
    have : (specsOf exLoop).length = 4 := by decide +kernel
    unfold specsOf at this
    rw [h] at this
    exact this

end Grey.Layout
