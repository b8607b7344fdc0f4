/-
The order in which functions are inlined is computed after the renaming (src/cfg_methods/preprocessing_methods.py:18-36): C60.
-/
import Verif.Prep.Pipeline
import Verif.Inline.Order
namespace Grey.Prep
open List Grey.Cfg Grey.Inline

section
variable {names order : List String} {O : Obj} (hfns : ∀ f, f ∈ names ↔ ∃ F, O.fns f = some F) (ok : SourceOk O)
include hfns ok

theorem rename_single (h : NoSingleCycle O) : NoSingleCycle (renameObj names O) := by
  intro f g x j h1 h2 hj hl
  refine h f g x j ((rename_once hfns ok).1 h1) ((rename_once hfns ok).1 h2) ((rename_calls hfns ok).1 hj) ?_
  unfold LeadsTo at hl ⊢
  simp only [rename_calls hfns ok] at hl
  exact hl

/-- The order that the code computes after the renaming has callees before callers in the source, except in cycles of calls. -/
theorem computed_callees_first (ho : TopologicalOrder names (callSites names (renameObj names O)) order) (hc : NoSingleCycle O) :
    CalleesFirst O order := by
  have h := topological_callees_first (renaming_preserves hfns ok).2.1 (fun f => (hfns f).trans (rename_fns hfns ok).symm) ho (rename_single hfns ok hc)
  refine ⟨h.nodup, fun f hf => (rename_fns hfns ok).1 (h.functions f hf), ?_, ?_, ?_⟩
  · intro f F c x j hF hj
    obtain ⟨F0, hF0⟩ := (rename_fns hfns ok).2 ⟨F, hF⟩
    exact h.called f F0 c x j hF0 ((rename_calls hfns ok).2 hj)
  · refine h.sorted.imp ?_
    intro g f hp h1 h2 x j hj
    exact hp ((rename_once hfns ok).2 h1) ((rename_once hfns ok).2 h2) x j ((rename_calls hfns ok).2 hj)
  · intro f hf x j hj
    exact h.noSelf f ((rename_once hfns ok).2 hf) x j ((rename_calls hfns ok).2 hj)

end

end Grey.Prep
