/-
C64 with the analyses of the compiler: the example of C64 meets the hypotheses.
-/
import Verif.Whole.Analysed
import Verif.Whole.Example
namespace Grey.Whole
open List Grey.Cfg Grey.Inline Grey.Lower Grey.Sfs Grey.Program Grey.SymExec Grey.Front

/-- The choices for the components of the lowered object. -/
def whChoices (c : Option String) : Choices := ((whLow.2.1.comp c).map fun C => standard 40 10 C.body).getD ⟨[], [], 0, 0⟩

/-- The analyses that the compiler computes. -/
def whComputed (c : Option String) : Analysis := ((whLow.2.1.comp c).bind fun C => layoutAnalysis (whChoices c) true C.body).getD (whAna c)

def whProg' : Prog := toProg whLow.1 whDec "main" whComputed whLow.2.1

def whMainFn' : Fn := (whProg'.fns "main").getD ⟨exMainGraph, fun _ => [], fun _ => none⟩
def whGFn' : Fn := (whProg'.fns "g").getD ⟨exMainGraph, fun _ => [], fun _ => none⟩

/-- Whether blocks can be placed does not depend on the analyses. -/
theorem placeable_congr {G G' : Layout.Component} (hb : G'.blocks = G.blocks) (hs : G'.start = G.start) (h : Placeable G) : Placeable G' := by
  have reach : ∀ b, Layout.Reachable G b → Layout.Reachable G' b := by
    intro b hr
    induction hr with
    | start => rw [← hs]; exact .start
    | step _ h1 h2 h3 ih => exact .step ih (hb ▸ h1) (hb ▸ h2) h3
  have avoid : ∀ c b, ReachAvoiding G' c b → ReachAvoiding G c b := by
    intro c b hr
    induction hr with
    | start => rw [hs]; exact .start
    | step _ h1 h2 h3 ih => exact .step ih (hb ▸ h1) h2 h3
  refine ⟨hs ▸ h.entry, ?_, ?_, ?_, ?_, ?_, ?_⟩
  · rw [hb]; exact h.known
  · rw [hb]; exact fun B hB => reach _ (h.reach B hB)
  · rw [hb]; exact h.oneFall
  · rw [hb]; exact h.noSelf
  · rw [hb]; exact h.condJump
  · rw [hb]; exact fun B hB C hC d h1 h2 h3 => h.chain B hB C hC d h1 h2 (avoid _ _ h3)

theorem wh_checked_layouts (hfns : ∀ f F, whProg'.fns f = some F → (f = "main" ∧ F = whMainFn') ∨ (f = "g" ∧ F = whGFn')) :
    CheckedLayouts whProg' (evmTag whTag) whSched := by
  refine ⟨?_, ?_, ?_, ?_, ?_⟩
  · intro f F hF
    rcases hfns f F hF with ⟨rfl, rfl⟩ | ⟨rfl, rfl⟩ <;> unfold Layout.OneJoin <;> decide +kernel
  · intro f F hF
    rcases hfns f F hF with ⟨rfl, rfl⟩ | ⟨rfl, rfl⟩
    · exact placeable_congr (by decide +kernel) (by decide +kernel) whMain_place
    · exact placeable_congr (by decide +kernel) (by decide +kernel) whG_place
  · intro f F hF
    rcases hfns f F hF with ⟨rfl, rfl⟩ | ⟨rfl, rfl⟩ <;> exact accepted_of (by decide +kernel) (by decide +kernel)
  · intro f F hF B hB
    have h1 : ∀ b ∈ ["o_M2", "o_Block0f", "o_Block0s", "o_M3ff", "o_M3fs", "g_Block0"], ∀ f, PlainIds (whSched f b) := by
      intro b hb f
      show PlainIds (whSched "" b)
      simp only [mem_cons, not_mem_nil, or_false] at hb
      rcases hb with rfl | rfl | rfl | rfl | rfl | rfl <;> exact plain_ids (by decide +kernel)
    refine h1 _ ?_ f
    rcases hfns f F hF with ⟨rfl, rfl⟩ | ⟨rfl, rfl⟩
    · have : ∀ B ∈ whMainFn'.graph.blocks, B.id ∈ ["o_M2", "o_Block0f", "o_Block0s", "o_M3ff", "o_M3fs", "g_Block0"] := by decide +kernel
      exact this B hB
    · have : ∀ B ∈ whGFn'.graph.blocks, B.id ∈ ["o_M2", "o_Block0f", "o_Block0s", "o_M3ff", "o_M3fs", "g_Block0"] := by decide +kernel
      exact this B hB
  · intro f F hF B hB hj hn
    rcases hfns f F hF with ⟨rfl, rfl⟩ | ⟨rfl, rfl⟩
    · have : ∀ B ∈ whMainFn'.graph.blocks, B.jumpType = "terminal" → ∃ s ∈ whSched "main" B.id, s ≠ "NOP" := by decide +kernel
      obtain ⟨s, hs, hne⟩ := this B hB hj
      exact absurd (hn s hs) hne
    · have : ∀ B ∈ whGFn'.graph.blocks, B.jumpType = "terminal" → ∃ s ∈ whSched "g" B.id, s ≠ "NOP" := by decide +kernel
      obtain ⟨s, hs, hne⟩ := this B hB hj
      exact absurd (hn s hs) hne

/-- The object meets the hypotheses of C64 with the analyses of the compiler: its assembly does what it does. -/
theorem wh_analysed : ∃ code, assemble whProg' whLow.1 (tagOf whLow.2.2) whSched 5 = some code ∧ AssemblyLike (evmTag whTag) whDec exArity code whObj := by
  obtain ⟨names', O', T, h1, h2, h3⟩ := whole_compiler_analysed_partial whObj_compilable whObj_order whObj_ending whObj_ops (main := "main") (by decide +kernel)
    whObj_emittable whTag_meaning (fun _ => rfl)
  obtain ⟨names2, O2, T2, g1, -, g3, -⟩ := whole_compiler_partial whObj_compilable whObj_order whObj_ending whObj_ops (main := "main") (by decide +kernel)
    whObj_emittable whTag_meaning (fun _ => rfl)
  rw [h1] at g1
  cases g1
  have hl : whLow = (names', O', T) := by unfold whLow; rw [h1]; rfl
  have hp : whProg' = toProg names' whDec "main" whComputed O' := by unfold whProg'; rw [hl]
  have hnames : names' = ["g"] := by
    have : whLow.1 = ["g"] := by decide +kernel
    rw [hl] at this
    exact this
  have hcomp : ∀ c C, O'.comp c = some C → c = none ∨ c = some "g" := by
    intro c C hC
    cases c with
    | none => exact Or.inl rfl
    | some f =>
      have := (g3 f).2 ⟨C, hC⟩
      rw [hnames] at this
      right
      simpa using this
  have hA : AnalysedBy whChoices (fun _ => true) O' whComputed := by
    intro c C hC
    have hk : ((whLow.2.1.comp none).bind fun C => layoutAnalysis (whChoices none) true C.body).isSome ∧
        ((whLow.2.1.comp (some "g")).bind fun C => layoutAnalysis (whChoices (some "g")) true C.body).isSome := by decide +kernel
    have hw : ((whLow.2.1.comp c).bind fun C => layoutAnalysis (whChoices c) true C.body).isSome := by
      rcases hcomp c C hC with rfl | rfl
      · exact hk.1
      · exact hk.2
    obtain ⟨A, hA⟩ := Option.isSome_iff_exists.1 hw
    have e : whComputed c = A := by unfold whComputed; rw [hA]; rfl
    rw [hl, show (names', O', T).2.1 = O' from rfl, hC, Option.bind_some] at hA
    rw [e]
    exact hA
  have hfns : ∀ f F, whProg'.fns f = some F → (f = "main" ∧ F = whMainFn') ∨ (f = "g" ∧ F = whGFn') := by
    intro f F hF
    by_cases hf : f = "main"
    · subst hf
      exact Or.inl ⟨rfl, by unfold whMainFn'; rw [hF]; rfl⟩
    · have hg : f = "g" := by
        have hF' := hF
        rw [hp] at hF'
        unfold toProg at hF'
        simp only [if_neg hf, Option.map_eq_some_iff] at hF'
        obtain ⟨G, hG, -⟩ := hF'
        have := (g3 f).2 ⟨G, hG⟩
        rw [hnames] at this
        simpa using this
      subst hg
      exact Or.inr ⟨rfl, by unfold whGFn'; rw [hF]; rfl⟩
  have hfuel : ∀ f F, whProg'.fns f = some F → F.graph.blocks.length ≤ 5 := by
    intro f F hF
    rcases hfns f F hF with ⟨rfl, rfl⟩ | ⟨rfl, rfl⟩ <;> decide +kernel
  obtain ⟨code, e1, e2⟩ := h3 whChoices (fun _ => true) whComputed hA whSched 5 (hp ▸ wh_checked_layouts hfns) (hp ▸ hfuel)
  exact ⟨code, by rw [hl, hp]; exact e1, e2⟩

/-- The assembly is that of the example of C64. -/
example : assemble whProg' whLow.1 (tagOf whLow.2.2) whSched 5 = assemble whProg whLow.1 (tagOf whLow.2.2) whSched 5 := by decide +kernel

end Grey.Whole
