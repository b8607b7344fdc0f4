/-
C94 with C95: a document whose subobject has 17 variables that are alive at once meets the hypotheses.
-/
import Verif.Nested.Placed
import Verif.Nested.CompileExample
import Verif.Whole.PlacedRun
namespace Grey.Nested
open List Grey.Cfg Grey.Inline Grey.Prep Grey.Lower Grey.Program Grey.Parser Grey.Sfs Grey.SymExec Grey.Front Grey.Whole Grey.Stored Grey.Repair

def deDoc : JObj where
  name := "o"
  blocks := [
    { id := "Block0", instrs := ⟨"sload", ["0x00"], ["y"]⟩ :: (List.range 17).map fun i => ⟨"add", ["0x0" ++ toString (i + 1), "y"], ["x" ++ toString i]⟩,
      exit := { type := "ConditionalJump", targets := ["M2", "M1"], cond := some "x0" } },
    { id := "M1", instrs := ((List.range 8).map fun i => ⟨"sstore", ["x" ++ toString (2 * i + 2), "x" ++ toString (2 * i + 1)], []⟩) ++
        [⟨"sstore", ["x0", "x0"], []⟩, ⟨"stop", [], []⟩], exit := { type := "Terminated" } },
    { id := "M2", instrs := [⟨"stop", [], []⟩], exit := { type := "Terminated" } }]
  functions := []

theorem deDoc_ok : DocOk deDoc := docOk_sound (by decide +kernel)

theorem deDoc_parsed : parseObject deDoc = some deObj := by
  rw [parseObject_eq deDoc_ok]
  refine congrArg some ?_
  have h1 : (parsedObj deDoc).main = deMain := by decide +kernel
  have h2 : (parsedObj deDoc).fns = deObj.fns := by
    funext f
    rfl
  cases h : parsedObj deDoc with
  | mk m g =>
    rw [h] at h1 h2
    cases h1
    cases h2
    rfl

theorem de_topo : nestTopo (callSites [] (renameObj [] deObj)) = [] := by decide +kernel

theorem de_topological : TopologicalOrder [] (callSites [] (renameObj [] deObj)) (nestTopo (callSites [] (renameObj [] deObj))) :=
  topological_of_check (by decide +kernel)

theorem de_fit : Fit nestTopo whDec (evmTag whTag) exArity "main" deDoc := by
  have hO : ∀ O, parseObject deDoc = some O → O = deObj := fun O h => by rw [deDoc_parsed] at h; exact (Option.some.inj h).symm
  refine ⟨deDoc_ok, underscores_sound (by decide +kernel), ?_, ?_, ?_, ?_, ?_, by decide +kernel, ?_, ⟨id, whTag_meaning⟩, fun _ => rfl⟩ <;>
    (intro O h; obtain rfl := hO O h)
  · exact deObj_compilable
  · exact de_topological
  · exact (notRecursive_of_check (order := []) deObj_compilable.source.comps (by decide +kernel)).single
  · exact deObj_ending
  · exact deObj_ops
  · exact deObj_emittable

/-- The object inside of an object `r`. -/
def deNest : Tree JObj := .node (idleDoc "r") [.node deDoc []]

def deOpts (n : String) : Options := if n = "o" then ⟨whDec, "main", deChoices, fun _ => true, deGuide, some deChoice⟩ else nestOpts n

theorem de_written_nested : ∃ a, compileDocs nestTopo deOpts [deNest] = some a :=
  Option.isSome_iff_exists.1 (by decide +kernel)

/-- The document meets the hypotheses: the assembly is written, the code under the key `0` does what the inner object says, with two variables in memory, at 128 and 160. -/
theorem de_contract : ∃ a b, compileDocs nestTopo deOpts [deNest] = some a ∧ AssemblyOf (evmTag whTag) whDec exArity a.code (idleDoc "r") ∧ a.at [0] = some b ∧
    (∀ w, ¬ Wrong (jrun (meaning (evmTag whTag) whDec) (zeros (evmTag whTag)) deDoc (w, none)) none →
      ∃ cells : Nat → Prop, (∀ a, cells a → a = 128 ∨ a = 160) ∧ SameBehaviour (evmTag whTag) exArity b.code cells
        (fun h => ∃ s, Ends (jrun (meaning (evmTag whTag) whDec) (zeros (evmTag whTag)) deDoc (w, none)) none s ∧ haltedOf s = h) w) := by
  refine Exists.elim de_written_nested fun a ha => ?_
  have hall : ∀ J ∈ Tree.alls [deNest], J = idleDoc "r" ∨ J = deDoc := by
    intro J hJ
    simpa [deNest, Tree.alls, Tree.all] using hJ
  have h := contract_placed_partial (topo := nestTopo) (opts := deOpts) (t := deNest) (rest := []) (I := fun _ => evmTag whTag) (arity := fun _ => exArity)
    (by decide +kernel) (by
      intro J hJ
      rcases hall J hJ with rfl | rfl
      · refine ⟨idle_fit, fun O hO => ?_, fun h => by cases h⟩
        rw [idle_parsed] at hO
        cases hO
        exact idle_evm
      · refine ⟨de_fit, fun O hO => ?_, fun _ => evm_memory whTag⟩
        rw [deDoc_parsed] at hO
        cases hO
        exact deObj_evm) ha
  obtain ⟨b0, n1, O1, c1, ⟨O, T, c2, c3⟩, c4⟩ := (h []).1 (idleDoc "r") rfl
  obtain ⟨b, n2, O2, d1, ⟨O', T', d2, d3⟩, d4⟩ := (h [0]).1 deDoc rfl
  cases c1
  refine ⟨a, b, ha, ?_, d1, ?_⟩
  · rw [idle_parsed] at c2
    cases c2
    have ht : nestTopo (callSites [] (renameObj [] idleObj)) = [] := by decide +kernel
    have c5 : frontEnd [] (nestTopo (callSites [] (renameObj [] idleObj))) idleObj = some (n1, O1, T) := c3
    obtain ⟨T2, q1, -, -⟩ := idle_low
    rw [ht, q1] at c5
    simp only [Option.some.injEq, Prod.mk.injEq] at c5
    obtain ⟨rfl, rfl, -⟩ := c5
    exact c4 idle_unensured
  · rw [deDoc_parsed] at d2
    cases d2
    have d5 : frontEnd [] (nestTopo (callSites [] (renameObj [] deObj))) deObj = some (n2, O2, T') := d3
    rw [de_topo] at d5
    obtain ⟨hp, hn, hstart, hfns⟩ := de_fns d5
    subst hn
    intro w hw
    have d6 : ∀ (T : String → DTree String) (inLoop : String → String → String → Bool) (D : Kept.Driver),
        UnensuredPlaced (programOf [] whDec "main" deChoices (fun _ => true) O2) (evmTag whTag) deChoice
          (scheduledIds (programOf [] whDec "main" deChoices (fun _ => true) O2) deGuide) T inLoop D →
        ∀ w, ¬ Wrong (jrun (meaning (evmTag whTag) whDec) (zeros (evmTag whTag)) deDoc (w, none)) none →
        (∀ tr c, Program.Runs (programOf [] whDec "main" deChoices (fun _ => true) O2) (evmTag whTag) (entry (evmTag whTag) "main" O2 w) tr (.inl c) →
          KeepsAway (programOf [] whDec "main" deChoices (fun _ => true) O2) (evmTag whTag)
            (Kept.placesOf (programOf [] whDec "main" deChoices (fun _ => true) O2)
              (writtenBy deChoice (scheduledIds (programOf [] whDec "main" deChoices (fun _ => true) O2) deGuide)) deChoice.cell T ["main"])
            (writtenBy deChoice (scheduledIds (programOf [] whDec "main" deChoices (fun _ => true) O2) deGuide)) c) →
        SameBehaviour (evmTag whTag) exArity b.code
          (Kept.placesOf (programOf [] whDec "main" deChoices (fun _ => true) O2)
            (writtenBy deChoice (scheduledIds (programOf [] whDec "main" deChoices (fun _ => true) O2) deGuide)) deChoice.cell T ["main"]).cell
          (fun h => ∃ s, Ends (jrun (meaning (evmTag whTag) whDec) (zeros (evmTag whTag)) deDoc (w, none)) none s ∧ haltedOf s = h) w := d4
    rw [← hp] at d6
    refine ⟨_, ?_, d6 _ _ _ (de_unensured hfns) w hw fun tr c hr => de_keeps hfns rfl (de_invariant hfns hr (.inl ?_))⟩
    · rintro a ⟨f, F, hF', v, hv, ha⟩
      obtain ⟨rfl, rfl⟩ := hfns f F hF'
      have hv' : v ∈ allStores (Kept.scanTree deW (fun _ => deTree) "main") := hv
      rw [de_scanned.2.1] at hv'
      simp only [mem_cons, not_mem_nil, or_false] at hv'
      rcases hv' with rfl | rfl
      · exact .inl (Option.some.inj ha).symm
      · exact .inr (Option.some.inj ha).symm
    · show O2.main.start.getD "" = "o_Block0"
      rw [← hstart]
      exact de_graph.1

end Grey.Nested
