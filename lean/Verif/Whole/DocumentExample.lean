/-
C67: the document of the example of C64, and its assembly.
-/
import Verif.Whole.Document
import Verif.Whole.Example
import Verif.Parser.Example
namespace Grey.Whole
open List Grey.Cfg Grey.Inline Grey.Front Grey.Lower Grey.Sfs Grey.Program Grey.SymExec Grey.Parser

def whDoc : JObj where
  name := "o"
  blocks := [
    { id := "Block0", instrs := [⟨"sload", ["0x00"], ["x"]⟩, ⟨"g", ["x"], ["y"]⟩, ⟨"sstore", ["y", "0x01"], []⟩],
      exit := { type := "ConditionalJump", targets := ["M2", "M3"], cond := some "y" } },
    { id := "M3", instrs := [⟨"h", ["y"], ["z"]⟩, ⟨"g", ["z"], ["u"]⟩], exit := { type := "Jump", targets := ["M2"] } },
    { id := "M2", instrs := [⟨"PhiFunction", ["y", "u"], ["p"]⟩, ⟨"sstore", ["p", "0x03"], []⟩, ⟨"stop", [], []⟩], exit := { type := "Terminated" },
      entries := ["Block0", "M3"] }]
  functions := [
    ("g", ⟨["x"], "Block0", [⟨"Block0", [⟨"add", ["0x01", "x"], ["y"]⟩], { type := "FunctionReturn", returnValues := some ["y"] }, "", []⟩]⟩),
    ("h", ⟨["x"], "Block0", [⟨"Block0", [⟨"add", ["0x05", "x"], ["y"]⟩], { type := "FunctionReturn", returnValues := some ["y"] }, "", []⟩]⟩)]

theorem whDoc_ok : DocOk whDoc := docOk_sound (by decide +kernel)
theorem whDoc_results : Underscores whDoc := underscores_sound (by decide +kernel)

theorem whDoc_parsed : parseObject whDoc = some whObj := by
  rw [parseObject_eq whDoc_ok]
  refine congrArg some ?_
  have h1 : (parsedObj whDoc).main = whMain := by decide +kernel
  have h2 : ∀ f, (parsedObj whDoc).fns f = whFns.lookup f := by
    intro f
    show (whDoc.functions.lookup f).map _ = whFns.lookup f
    have ext : ∀ a b : Cfg.Component, a.args = b.args → a.body = b.body → some a = some b := by
      rintro ⟨_, _⟩ ⟨_, _⟩ rfl rfl
      rfl
    by_cases hg : f = "g"
    · subst hg
      exact ext _ whG (by decide +kernel) (by decide +kernel)
    · by_cases hh : f = "h"
      · subst hh
        exact ext _ whH (by decide +kernel) (by decide +kernel)
      · unfold whDoc whFns
        simp only []
        rw [lookup_miss _ _ hg, lookup_miss _ _ hg, lookup_miss _ _ hh, lookup_miss _ _ hh]
        rfl
  show parsedObj whDoc = ⟨whMain, fun f => whFns.lookup f⟩
  rw [← h1, ← funext h2]

/-- The document meets the hypotheses of C67 (those on the object are the ones of `wh_assembly`): its assembly does what it says. -/
theorem wh_document : ∃ code, assemble whProg whLow.1 (tagOf whLow.2.2) whSched 5 = some code ∧
    AssemblyOf (evmTag whTag) whDec exArity code whDoc := by
  obtain ⟨O, hO, h⟩ := document_to_assembly_partial (order := ["g", "h"]) (dec := whDec) (I := evmTag whTag) (arity := exArity) (val := id)
    (main := "main") whDoc_ok whDoc_results
  rw [whDoc_parsed] at hO
  cases hO
  obtain ⟨names', O', T, h1, h2⟩ := h whObj_compilable whObj_order whObj_ending whObj_ops (by decide +kernel) whObj_emittable whTag_meaning (fun _ => rfl)
  obtain ⟨n2, O2, T2, g1, -, g3, -⟩ := whole_compiler_partial whObj_compilable whObj_order whObj_ending whObj_ops (main := "main") (by decide +kernel)
    whObj_emittable whTag_meaning (fun _ => rfl)
  have e : (n2, O2, T2) = (names', O', T) := Option.some.inj (g1.symm.trans h1)
  cases e
  have hl : whLow = (names', O', T) := by unfold whLow; rw [g1]; rfl
  have hp : whProg = toProg names' whDec "main" whAna O' := by unfold whProg; rw [hl]
  have hfns := wh_fns hl g3
  have hfuel : ∀ f F, whProg.fns f = some F → F.graph.blocks.length ≤ 5 := by
    intro f F hF
    rcases hfns f F hF with ⟨rfl, rfl⟩ | ⟨rfl, rfl⟩ <;> decide +kernel
  obtain ⟨code, e1, e2⟩ := h2 whAna whSched 5 (hp ▸ wh_checked hfns) (hp ▸ hfuel)
  exact ⟨code, by rw [hl, hp]; exact e1, e2⟩

end Grey.Whole
