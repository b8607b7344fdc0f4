/-
C94: a document with a subobject meets the hypotheses, and the compiler writes its assembly.
-/
import Verif.Nested.Compile
import Verif.Nested.Example
import Verif.Whole.StoredPipelineExample
namespace Grey.Nested
open List Grey.Cfg Grey.Inline Grey.Prep Grey.Lower Grey.Program Grey.Parser Grey.Sfs Grey.SymExec Grey.Front Grey.Whole Grey.Stored

/-- The analyses of the object with a single block. -/
def idleChoices (_ : Option String) : Choices := ⟨["r_Block0"], ["r_Block0"], 10, 10⟩

def idleGuide (_ _ : String) : Guide := ⟨10, whHeur, whHeur, ⟨[], [], [], []⟩, ⟨[], [], [], []⟩⟩

/-- The parameters: those of the example of C86, and those of an object with a single block. -/
def nestOpts (n : String) : Options :=
  if n = "o" then ⟨whDec, "main", whChoices, fun _ => true, whGuide, none⟩ else ⟨whDec, "main", idleChoices, fun _ => true, idleGuide, none⟩

def idleProg2 : Prog := programOf idleLow.1 whDec "main" idleChoices (fun _ => true) idleLow.2.1
def idleFn2 : Fn := (idleProg2.fns "main").getD ⟨exMainGraph, fun _ => [], fun _ => none⟩

theorem idle_fns2 : ∀ f F, idleProg2.fns f = some F → f = "main" ∧ F = idleFn2 := by
  obtain ⟨T, -, h, -⟩ := idle_low
  intro f F hF
  by_cases hf : f = "main"
  · subst hf
    exact ⟨rfl, by unfold idleFn2; rw [hF]; rfl⟩
  · exfalso
    have hF' := hF
    unfold idleProg2 programOf toProg at hF'
    simp only [if_neg hf, Option.map_eq_some_iff] at hF'
    obtain ⟨G, hG, -⟩ := hF'
    rw [h f] at hG
    cases hG

theorem idle_unensured : Unensured idleProg2 (evmTag whTag) (scheduledIds idleProg2 idleGuide) := by
  have key : uncheckedOf idleFn2 (scheduledIds idleProg2 idleGuide "main") = true := by decide +kernel
  refine ⟨?_, ?_, ?_, ?_, ?_⟩ <;> intro f F hF <;> obtain ⟨rfl, rfl⟩ := idle_fns2 f F hF
  · unfold Layout.OneJoin; decide +kernel
  · exact inOrder_of (placeable_congr (by decide +kernel) (by decide +kernel) idle_place)
  · exact (unchecked_of key).1
  · exact (unchecked_of key).2.1
  · intro B hB _ _
    have : ∀ B ∈ idleFn2.graph.blocks, B.phis = [] ∧ idleFn2.instrs B.id = [] := by decide +kernel
    exact this B hB

theorem idle_evm : EvmLike [] whDec (evmTag whTag) idleObj := by
  refine ⟨?_, ?_, whObj_evm.comm, whObj_evm.tag⟩
  · intro c C x X i hC hX hi ho
    rw [idle_instr hC hX hi] at ho
    exact absurd (by decide) ho
  · intro c C x X i c' C' x' X' j hC hX hi ho
    rw [idle_instr hC hX hi] at ho
    exact absurd (by decide) ho

/-- The document meets the hypotheses of C94: the assembly is written, its code does what `r` says, and the code under the key `0` does what `o` says. -/
theorem nest_compiled : ∃ a b, compileDocs nestTopo nestOpts [nestDoc] = some a ∧
    AssemblyOf (evmTag whTag) whDec exArity a.code (idleDoc "r") ∧ a.at [0] = some b ∧ AssemblyOf (evmTag whTag) whDec exArity b.code whDoc ∧
    a.at [1] = none := by
  obtain ⟨a, ha⟩ := Option.isSome_iff_exists.1 (show (compileDocs nestTopo nestOpts [nestDoc]).isSome by decide +kernel)
  have hall : ∀ J ∈ Tree.alls [nestDoc], J = idleDoc "r" ∨ J = whDoc := by
    intro J hJ
    simpa [nestDoc, Tree.alls, Tree.all] using hJ
  have h := contract_compiled_partial (topo := nestTopo) (opts := nestOpts) (t := nestDoc) (rest := []) (I := fun _ => evmTag whTag) (arity := fun _ => exArity)
    (by decide +kernel) (by
      intro J hJ
      rcases hall J hJ with rfl | rfl
      · refine ⟨idle_fit, fun O hO => ?_, fun h => by cases h⟩
        rw [idle_parsed] at hO
        cases hO
        exact idle_evm
      · refine ⟨wh_fit, fun O hO => ?_, fun h => by cases h⟩
        rw [whDoc_parsed] at hO
        cases hO
        exact whObj_evm) ha
  obtain ⟨b0, n1, O1, c1, ⟨O, T, c2, c3⟩, c4⟩ := (h []).1 (idleDoc "r") rfl
  obtain ⟨b, n2, O2, d1, ⟨O', T', d2, d3⟩, d4⟩ := (h [0]).1 whDoc rfl
  cases c1
  refine ⟨a, b, ha, ?_, d1, ?_, (h [1]).2 rfl⟩
  · rw [idle_parsed] at c2
    cases c2
    have ht : nestTopo (callSites [] (renameObj [] idleObj)) = [] := by decide +kernel
    have c5 : frontEnd [] (nestTopo (callSites [] (renameObj [] idleObj))) idleObj = some (n1, O1, T) := c3
    obtain ⟨T2, q1, -, -⟩ := idle_low
    rw [ht, q1] at c5
    simp only [Option.some.injEq, Prod.mk.injEq] at c5
    obtain ⟨rfl, rfl, -⟩ := c5
    exact c4 idle_unensured
  · rw [whDoc_parsed] at d2
    cases d2
    have d5 : frontEnd ["g", "h"] (nestTopo (callSites ["g", "h"] (renameObj ["g", "h"] whObj))) whObj = some (n2, O2, T') := d3
    rw [wh_topo] at d5
    obtain ⟨hp, hfns⟩ := wh_fns2 d5
    have d6 : Unensured (programOf n2 whDec "main" whChoices (fun _ => true) O2) (evmTag whTag)
        (scheduledIds (programOf n2 whDec "main" whChoices (fun _ => true) O2) whGuide) → AssemblyOf (evmTag whTag) whDec exArity b.code whDoc := d4
    rw [← hp] at d6
    exact d6 (wh_unensured hfns)

/-- The same with variables of `o` in memory. -/
def nestOptsStored (n : String) : Options := if n = "o" then { nestOpts n with repair := some whChoice } else nestOpts n

theorem nest_compiled_stored : ∃ a b, compileDocs nestTopo nestOptsStored [nestDoc] = some a ∧
    AssemblyOf (evmTag whTag) whDec exArity a.code (idleDoc "r") ∧ a.at [0] = some b ∧
    (∀ w, ¬ Wrong (jrun (meaning (evmTag whTag) whDec) (zeros (evmTag whTag)) whDoc (w, none)) none →
      SameBehaviour (evmTag whTag) exArity b.code (· ∈ [192, 224, 256])
        (fun h => ∃ s, Ends (jrun (meaning (evmTag whTag) whDec) (zeros (evmTag whTag)) whDoc (w, none)) none s ∧ haltedOf s = h) w) ∧
    a.at [1] = none := by
  obtain ⟨a, ha⟩ := Option.isSome_iff_exists.1 (show (compileDocs nestTopo nestOptsStored [nestDoc]).isSome by decide +kernel)
  have hall : ∀ J ∈ Tree.alls [nestDoc], J = idleDoc "r" ∨ J = whDoc := by
    intro J hJ
    simpa [nestDoc, Tree.alls, Tree.all] using hJ
  have h := contract_compiled_partial (topo := nestTopo) (opts := nestOptsStored) (t := nestDoc) (rest := []) (I := fun _ => evmTag whTag) (arity := fun _ => exArity)
    (by decide +kernel) (by
      intro J hJ
      rcases hall J hJ with rfl | rfl
      · refine ⟨idle_fit, fun O hO => ?_, fun h => by cases h⟩
        rw [idle_parsed] at hO
        cases hO
        exact idle_evm
      · refine ⟨wh_fit, fun O hO => ?_, fun _ => evm_memory whTag⟩
        rw [whDoc_parsed] at hO
        cases hO
        exact whObj_evm) ha
  obtain ⟨b0, n1, O1, c1, ⟨O, T, c2, c3⟩, c4⟩ := (h []).1 (idleDoc "r") rfl
  obtain ⟨b, n2, O2, d1, ⟨O', T', d2, d3⟩, d4⟩ := (h [0]).1 whDoc rfl
  cases c1
  refine ⟨a, b, ha, ?_, d1, ?_, (h [1]).2 rfl⟩
  · rw [idle_parsed] at c2
    cases c2
    have ht : nestTopo (callSites [] (renameObj [] idleObj)) = [] := by decide +kernel
    have c5 : frontEnd [] (nestTopo (callSites [] (renameObj [] idleObj))) idleObj = some (n1, O1, T) := c3
    obtain ⟨T2, q1, -, -⟩ := idle_low
    rw [ht, q1] at c5
    simp only [Option.some.injEq, Prod.mk.injEq] at c5
    obtain ⟨rfl, rfl, -⟩ := c5
    exact c4 idle_unensured
  · rw [whDoc_parsed] at d2
    cases d2
    have d5 : frontEnd ["g", "h"] (nestTopo (callSites ["g", "h"] (renameObj ["g", "h"] whObj))) whObj = some (n2, O2, T') := d3
    rw [wh_topo] at d5
    obtain ⟨hp, hfns⟩ := wh_fns2 d5
    intro w hw
    have d6 := d4 whPlaces2
    change UnensuredStored (programOf n2 whDec "main" whChoices (fun _ => true) O2) (evmTag whTag) whPlaces2
      (writtenBy whChoice (scheduledIds (programOf n2 whDec "main" whChoices (fun _ => true) O2) whGuide)) → ∀ w, ¬ Wrong (jrun (meaning (evmTag whTag) whDec)
        (zeros (evmTag whTag)) whDoc (w, none)) none → (∀ tr c, Program.Runs (programOf n2 whDec "main" whChoices (fun _ => true) O2) (evmTag whTag)
        (entry (evmTag whTag) "main" O2 w) tr (.inl c) → KeepsAway (programOf n2 whDec "main" whChoices (fun _ => true) O2) (evmTag whTag) whPlaces2
          (writtenBy whChoice (scheduledIds (programOf n2 whDec "main" whChoices (fun _ => true) O2) whGuide)) c) → _ at d6
    rw [← hp] at d6
    exact d6 (wh_unensured_stored hfns) w hw fun tr c _ => wh_keeps2 hfns c

end Grey.Nested
