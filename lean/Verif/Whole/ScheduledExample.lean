/-
C86 with the scheduler: the example of C64 meets the hypotheses.
-/
import Verif.Whole.PipelineExample
import Verif.Whole.Scheduled
namespace Grey.Whole
open List Grey.Cfg Grey.Inline Grey.Lower Grey.Sfs Grey.Program Grey.SymExec Grey.Front

/-- Answers for the scheduler. -/
def whHeur : Greedy.Heur where
  text u := u.disasm
  small _ := true
  hasValue _ := true
  intValue _ := false
  tooFar _ _ := 0
  tooLong _ _ := false
  neededOne _ _ _ := 0
  computed _ _ := false
  funcDeps _ := []

/-- Plans for the scheduler: what has to be written, and how often values are needed. -/
def whGuide (_ b : String) : Guide :=
  let g (instr : List String) (n n' : List (String × Int)) : Guide := ⟨50, whHeur, whHeur, ⟨instr, [], n, []⟩, ⟨instr, [], n', []⟩⟩
  if b = "o_M3fs" then g [] [("v3", 1)] [("v3", 2)]
  else if b = "o_M3ff" then g [] [("v1", 1)] [("v1", 2)]
  else if b = "o_M2" then g ["SSTORE_0"] [("v4", 2)] [("v4", 3)]
  else if b = "o_Block0s" then g ["SSTORE_0"] [("v1", 3)] [("v1", 4)]
  else if b = "o_Block0f" then g [] [] []
  else g [] [("v5", 1), ("out_g", 1)] []

-- what the scheduler finds
example : scheduledIds whProg2 whGuide "main" "o_Block0s" = ["DUP1", "PUSH_0", "SSTORE_0", "DUP1", "PUSH [TAG]_0"] := by decide +kernel

/-- The components after the front end. -/
theorem wh_fns2 {names' : List String} {O' : Obj} {T : TagDict} (h1 : frontEnd ["g", "h"] ["g", "h"] whObj = some (names', O', T)) :
    whProg2 = programOf names' whDec "main" whChoices (fun _ => true) O' ∧
    ∀ f F, whProg2.fns f = some F → (f = "main" ∧ F = whMainFn2) ∨ (f = "g" ∧ F = whGFn2) := by
  obtain ⟨names2, O2, T2, g1, -, g3, -⟩ := whole_compiler_partial whObj_compilable whObj_order whObj_ending whObj_ops (main := "main") (by decide +kernel)
    whObj_emittable whTag_meaning (fun _ => rfl)
  rw [h1] at g1
  cases g1
  have hl : whLow = (names', O', T) := by unfold whLow; rw [h1]; rfl
  have hp : whProg2 = programOf names' whDec "main" whChoices (fun _ => true) O' := by unfold whProg2; rw [hl]
  have hnames : names' = ["g"] := by
    have : whLow.1 = ["g"] := by decide +kernel
    rw [hl] at this
    exact this
  refine ⟨hp, ?_⟩
  intro f F hF
  by_cases hf : f = "main"
  · subst hf
    exact Or.inl ⟨rfl, by unfold whMainFn2; rw [hF]; rfl⟩
  · have hg : f = "g" := by
      have hF' := hF
      rw [hp] at hF'
      unfold programOf toProg at hF'
      simp only [if_neg hf, Option.map_eq_some_iff] at hF'
      obtain ⟨G, hG, -⟩ := hF'
      have := (g3 f).2 ⟨G, hG⟩
      rw [hnames] at this
      simpa using this
    subst hg
    exact Or.inr ⟨rfl, by unfold whGFn2; rw [hF]; rfl⟩

theorem wh_unensured (hfns : ∀ f F, whProg2.fns f = some F → (f = "main" ∧ F = whMainFn2) ∨ (f = "g" ∧ F = whGFn2)) :
    Unensured whProg2 (evmTag whTag) (scheduledIds whProg2 whGuide) := by
  have hu := wh_unchecked hfns
  refine ⟨hu.one, hu.order, hu.copies, hu.deps, ?_⟩
  intro f F hF B hB hj hn
  rcases hfns f F hF with ⟨rfl, rfl⟩ | ⟨rfl, rfl⟩
  · have : ∀ B ∈ whMainFn2.graph.blocks, B.jumpType = "terminal" → ∃ s ∈ scheduledIds whProg2 whGuide "main" B.id, s ≠ "NOP" := by decide +kernel
    obtain ⟨s, hs, hne⟩ := this B hB hj
    exact absurd (hn s hs) hne
  · have : ∀ B ∈ whGFn2.graph.blocks, B.jumpType = "terminal" → ∃ s ∈ scheduledIds whProg2 whGuide "g" B.id, s ≠ "NOP" := by decide +kernel
    obtain ⟨s, hs, hne⟩ := this B hB hj
    exact absurd (hn s hs) hne

/-- The object meets the hypotheses of C86 with the scheduler. -/
theorem wh_scheduled : ∃ code, compileScheduled ["g", "h"] ["g", "h"] whDec "main" whChoices (fun _ => true) whGuide whObj = some code ∧
    AssemblyLike (evmTag whTag) whDec exArity code whObj := by
  obtain ⟨code, hc⟩ := Option.isSome_iff_exists.1
    (show (compileScheduled ["g", "h"] ["g", "h"] whDec "main" whChoices (fun _ => true) whGuide whObj).isSome by decide +kernel)
  refine ⟨code, hc, ?_⟩
  obtain ⟨names', O', T, h1, h2⟩ := scheduled_like_source_partial whObj_compilable whObj_order whObj_ending whObj_ops (main := "main") (by decide +kernel)
    whObj_emittable whTag_meaning (fun _ => rfl) whObj_evm hc
  obtain ⟨hp, hfns⟩ := wh_fns2 h1
  rw [← hp] at h2
  exact h2 (wh_unensured hfns)

/-- If the plan of the scheduler does not count a value that is needed, nothing is written. -/
example : compileScheduled ["g", "h"] ["g", "h"] whDec "main" whChoices (fun _ => true)
    (fun f b => if b = "o_M2" then ⟨50, whHeur, whHeur, ⟨["SSTORE_0"], [], [], []⟩, ⟨["SSTORE_0"], [], [], []⟩⟩ else whGuide f b) whObj = none := by
  decide +kernel

end Grey.Whole
