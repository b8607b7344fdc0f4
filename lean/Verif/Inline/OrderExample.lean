/-
Objects to which the theorems on the order of inlining apply.
-/
import Verif.Inline.Order
import Verif.Inline.Example
namespace Grey.Inline
open List Grey.Cfg

theorem exObj_topological : TopologicalOrder ["f", "g", "k", "m"] (callSites ["f", "g", "k", "m"] exObj) ["k", "f", "g", "m"] :=
  topological_of_check (by decide +kernel)

theorem exObj_notRecursive : NotRecursive exObj := notRecursive_of_check (order := ["k", "f", "g", "m"]) exObj_ok.comps (by decide +kernel)

/-- The hypotheses of `inlining_pass_ordered` hold for an object whose function `g` contains the only call of `k`. -/
example : ∃ O', inlinePass ["f", "g", "k", "m"] ["k", "f", "g", "m"] exObj = some O' ∧ SameRuns exObj O' ∧ ObjOk O' ∧
    ∀ f ∈ ["f", "g", "k", "m"], (O'.fns f = none ↔ CalledOnce exObj f) :=
  inlining_pass_ordered exObj_ok (fun _ => mem_fnames (main := exMain) (fns := exFns)) (by decide) exObj_topological exObj_notRecursive.single

/-- With `g` before `k`, the order is not one that the code computes. -/
example : ¬ TopologicalOrder ["f", "g", "k", "m"] (callSites ["f", "g", "k", "m"] exObj) ["g", "k", "f", "m"] := by
  intro h
  have hs := h.sorted
  have h1 := (pairwise_cons.1 hs).1 "k" (by decide) ⟨by decide, by decide, (0, "G0", some "g"), by decide +kernel, rfl⟩
  have hl := leads_of_path exObj_ok (fun _ => mem_fnames (main := exMain) (fns := exFns)) h1
  exact exObj_notRecursive "g" "k" "G0" 0 ((mem_callsB (by decide +kernel) exObj_ok.comps).1 (by decide +kernel)) hl

/-- The edges of the recursive program: `f` is called in `g`, `g` in `k` and `k` in `f`. -/
theorem exRec_edges : ∀ u v, (u, v) ∈ [("f", "g"), ("g", "k"), ("k", "f")] →
    Edge (callSites ["k", "g", "f"] (Obj.ofList exRecMain exRecFns)) ["g", "f", "k"] u v := by
  have h : ∀ p ∈ [("f", "g"), ("g", "k"), ("k", "f")], p.1 ∈ ["g", "f", "k"] ∧ p.2 ∈ ["g", "f", "k"] ∧
      ∃ q ∈ callSites ["k", "g", "f"] (Obj.ofList exRecMain exRecFns) p.1, q.2.2 = some p.2 := by decide +kernel
  intro u v huv
  exact h (u, v) huv

/-- Without the hypothesis on cycles the pass fails: the order of `inlining_pass_fails` is one that the code may compute. -/
theorem inlining_cycle_fails :
    TopologicalOrder ["k", "g", "f"] (callSites ["k", "g", "f"] (Obj.ofList exRecMain exRecFns)) ["g", "f", "k"] ∧
      inlinePass ["k", "g", "f"] ["g", "f", "k"] (Obj.ofList exRecMain exRecFns) = none := by
  refine ⟨⟨by decide, ?_, ?_⟩, inlining_pass_fails.1⟩
  · have h1 : ∀ f ∈ ["g", "f", "k"], f ∈ ["k", "g", "f"] ∧ callSites ["k", "g", "f"] (Obj.ofList exRecMain exRecFns) f ≠ [] := by decide +kernel
    exact fun f => ⟨h1 f, fun ⟨h, _⟩ => by simp only [mem_cons, not_mem_nil, or_false] at h ⊢; rcases h with h | h | h <;> simp [h]⟩
  · have e1 := exRec_edges "f" "g" (by decide)
    have e2 := exRec_edges "g" "k" (by decide)
    have e3 := exRec_edges "k" "f" (by decide)
    refine pairwise_cons.2 ⟨?_, pairwise_cons.2 ⟨?_, pairwise_cons.2 ⟨by simp, .nil⟩⟩⟩
    · intro f hf _
      simp only [mem_cons, not_mem_nil, or_false] at hf
      rcases hf with rfl | rfl
      · exact .head e2 (.single e3)
      · exact .single e2
    · intro f hf _
      rw [mem_singleton] at hf
      subst hf
      exact .head e1 (.single e2)

end Grey.Inline
